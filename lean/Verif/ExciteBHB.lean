import Verif.ExciteLimit

/-!
# Excitations: `calc_BHB` (helper lemmas)
-/

set_option linter.unusedSectionVars false

namespace EvoMPS

open Matrix Filter Topology

namespace Exc

open Uni

variable {q D v : ℕ}

theorem pinv_none (solver : Solver D) (junk x : Matrix (Fin D) (Fin D) ℂ) (A1 A2 : List (Ten ℂ q D D)) (p : ℝ) (left : Bool)
    (out : Option (Matrix (Fin D) (Fin D) ℂ)) :
    pinv1mE solver junk x A1 A2 none none p left false out
      = pinv1mE solver junk x A1 A2 (some 0) (some 0) p left false out := by
  have e : (PinvOp.mk p A1 A2 none none left false).matvec junk
      = (PinvOp.mk p A1 A2 (some 0) (some 0) left false).matvec junk := by
    funext u
    simp [PinvOp.matvec]
  unfold pinv1mE PinvOp.new
  cases A1 <;> simp [e]

/-- Without projection, to the right. -/
theorem solve_right (solver : Solver D) (p : ℝ) (A A' : Ten ℂ q D D) (junk x : Matrix (Fin D) (Fin D) ℂ)
    (out : Option (Matrix (Fin D) (Fin D) ℂ))
    (hsol : ∀ op x0, PinvOp.new p [A] [A'] none none false false = some op →
      op.matvec junk (solver (op.matvec junk) (ravel x) x0).1 = some (ravel x)) :
    ∃ y, pinv1mE solver junk x [A] [A'] none none p false false out = some y ∧
      y = x + Complex.exp (Complex.I * p) • mapR A A' y := by
  rw [pinv_none]
  obtain ⟨x0, hx0⟩ := pinv1mE_eq solver junk x [A] [A'] (by simp) 0 0 p false false out
  refine ⟨_, hx0, ?_⟩
  set w := (solver ((PinvOp.mk p [A] [A'] (some 0) (some 0) false false).matvec junk) (ravel x) x0).1 with hw
  have h := hsol (PinvOp.mk p [A] [A'] none none false false) x0 (by simp [PinvOp.new])
  have e : (PinvOp.mk p [A] [A'] none none false false).matvec junk
      = (PinvOp.mk p [A] [A'] (some 0) (some 0) false false).matvec junk := by
    funext u
    simp [PinvOp.matvec]
  rw [e, ← hw, pinv_matvec_right p [A] [A'] rfl (by simp)] at h
  have h1 : opR [A] [A'] 0 0 p false (reshape w) = x := ravel_inj (Option.some.inj h)
  rw [opR, if_neg (by simp), sub_zero, blockMap_one] at h1
  exact sub_eq_iff_eq_add.1 h1

theorem solve_left (solver : Solver D) (p : ℝ) (A A' : Ten ℂ q D D) (junk x : Matrix (Fin D) (Fin D) ℂ)
    (out : Option (Matrix (Fin D) (Fin D) ℂ))
    (hsol : ∀ op x0, PinvOp.new p [A'] [A] none none true false = some op →
      op.matvec junk (solver (op.matvec junk) (ravel x) x0).1 = some (ravel x)) :
    ∃ y, pinv1mE solver junk x [A'] [A] none none p true false out = some y ∧
      y = x + Complex.exp (-Complex.I * p) • mapL A A' y := by
  rw [pinv_none]
  obtain ⟨x0, hx0⟩ := pinv1mE_eq solver junk x [A'] [A] (by simp) 0 0 p true false out
  refine ⟨_, hx0, ?_⟩
  set w := (solver ((PinvOp.mk p [A'] [A] (some 0) (some 0) true false).matvec junk) (ravel x) x0).1 with hw
  have h := hsol (PinvOp.mk p [A'] [A] none none true false) x0 (by simp [PinvOp.new])
  have e : (PinvOp.mk p [A'] [A] none none true false).matvec junk
      = (PinvOp.mk p [A'] [A] (some 0) (some 0) true false).matvec junk := by
    funext u
    simp [PinvOp.matvec]
  rw [e, ← hw, pinv_matvec_left p [A'] [A] rfl (by simp)] at h
  have h1 : opL [A'] [A] 0 0 p true.not (reshape w) = x := ravel_inj (Option.some.inj h)
  rw [opL, if_neg (by simp), sub_zero, blockMapL_one] at h1
  exact sub_eq_iff_eq_add.1 h1

variable {E : ExcOp q D v}

/-- What the two linear systems yield. -/
structure SolvesM (E : ExcOp q D v) (solver : Solver D) (junk : Matrix (Fin D) (Fin D) ℂ) : Prop where
  left : ∀ x out, ∃ M, pinv1mE solver junk (epsL (E.S.l 0) (getBFromX x E.Vsh E.l_si E.r_si) (E.S.A 0)) [E.S2.A 0] [E.S.A 0]
      E.lMix E.rMix (-E.p) true E.same out = some M ∧
    Mᴴ = mapL (getBFromX x E.Vsh E.l_si E.r_si) (E.S.A 0) (E.S.l 0)
      + (Complex.exp (Complex.I * E.p))⁻¹ • mapL (E.S2.A 0) (E.S.A 0) Mᴴ ∧
    Tendsto (fun n => (mapL (E.S2.A 0) (E.S.A 0))^[n] Mᴴ) atTop (𝓝 0)
  right : ∀ Y out, ∃ y, pinv1mE solver junk Y [E.S.A 0] [E.S2.A 0] E.lMix E.rMix E.p false E.same out = some y ∧
    ∃ w0, y = (Y + w0) + Complex.exp (Complex.I * E.p) • mapR (E.S.A 0) (E.S2.A 0) y ∧
      ∀ x' j, close (E.S.A 0) (E.S.l 0) (getBFromX x' E.Vsh E.l_si E.r_si) ((mapR (E.S.A 0) (E.S2.A 0))^[j] w0) = 0
  decay : ∀ x' x, Tendsto (fun j => close (E.S.A 0) (E.S.l 0) (getBFromX x' E.Vsh E.l_si E.r_si)
    ((mapR (E.S.A 0) (E.S2.A 0))^[j] x)) atTop (𝓝 0)

theorem exp_unit (p : ℝ) : ‖Complex.exp (Complex.I * p)‖ = 1 := by
  rw [mul_comm]
  exact Complex.norm_exp_ofReal_mul_I p

theorem ham2_op (h : Fin q → Fin q → Fin q → Fin q → ℂ) :
    shiftOp (n := 1 + 1) (UHam.two h).op (E.S.hExpect.re : ℂ)
      = fun (s t : Fin (1 + 1) → Fin q) => E.ham2 h (s 0) (s 1) (t 0) (t 1) := by
  funext s t
  have : (s = t) ↔ (s 0 = t 0 ∧ s 1 = t 1) := by
    constructor
    · rintro rfl; exact ⟨rfl, rfl⟩
    · rintro ⟨h0, h1⟩
      funext i
      match i with
      | 0 => exact h0
      | 1 => exact h1
  simp only [shiftOp, ExcOp.ham2, UHam.op]
  by_cases hh : s 0 = t 0 ∧ s 1 = t 1
  · rw [if_pos (this.2 hh), if_pos hh, mul_one]
  · rw [if_neg (fun e => hh (this.1 e)), if_neg hh, mul_zero]

theorem ham3_op (h : Fin q → Fin q → Fin q → Fin q → Fin q → Fin q → ℂ) :
    shiftOp (n := 2 + 1) (UHam.three h).op (E.S.hExpect.re : ℂ)
      = fun (s t : Fin (2 + 1) → Fin q) => E.ham3 h (s 0) (s 1) (s 2) (t 0) (t 1) (t 2) := by
  funext s t
  have : (s = t) ↔ (s 0 = t 0 ∧ s 1 = t 1 ∧ s 2 = t 2) := by
    constructor
    · rintro rfl; exact ⟨rfl, rfl, rfl⟩
    · rintro ⟨h0, h1, h2⟩
      funext i
      match i with
      | 0 => exact h0
      | 1 => exact h1
      | 2 => exact h2
  simp only [shiftOp, ExcOp.ham3, UHam.op]
  by_cases hh : s 0 = t 0 ∧ s 1 = t 1 ∧ s 2 = t 2
  · rw [if_pos (this.2 hh), if_pos hh, mul_one]
  · rw [if_neg (fun e => hh (this.1 e)), if_neg hh, mul_zero]

/-- What the arrays of the two objects satisfy. -/
structure ArrOk (E : ExcOp q D v) : Prop where
  roots : RootsOk E
  l_herm : (E.S.l 0)ᴴ = E.S.l 0
  left : mapL (E.S.A 0) (E.S.A 0) (E.S.l 0) = E.S.l 0
  right : mapR (E.S2.A 0) (E.S2.A 0) (E.S2.r 0) = E.S2.r 0
  gauge : ∀ x, mapR (getBFromX x E.Vsh E.l_si E.r_si) (E.S2.A 0) (E.S2.r 0) = 0
  AA : E.S.AA 0 = calcAA (E.S.A 0) (E.S.A 0)
  AA2 : E.S2.AA 0 = calcAA (E.S2.A 0) (E.S2.A 0)
  AAA : ∀ h, E.S.ham = .three h → E.S2.AAA 0 = calcAAA (E.S2.A 0) (E.S2.A 0) (E.S2.A 0)

theorem ArrOk.gauge' (h : ArrOk E) (x) : mapR (E.S2.A 0) (getBFromX x E.Vsh E.l_si E.r_si) (E.S2.r 0) = 0 := by
  have := congrArg conjTranspose (h.gauge x)
  rwa [mapR_conj, h.roots.r_herm, conjTranspose_zero] at this

theorem elem_zero {A A' : Ten ℂ q D D} {l r : Matrix (Fin D) (Fin D) ℂ} {B' : Ten ℂ q D D} {n : ℕ}
    {O : (Fin n → Fin q) → (Fin n → Fin q) → ℂ} {p : ℝ} :
    IsExciteElem A A' l r O p B' 0 0 := by
  refine ⟨fun _ => 0, fun k => ?_, by simp⟩
  have hz : ∀ (a w : ℕ) (t : Fin w → Fin q), (-(a : ℤ) ≤ k ∧ k + a < w) →
      lineProd (fromSite a (wall A A' k 0)) 0 w t = 0 := by
    intro a w t hk
    rw [lineProd]
    refine List.prod_eq_zero ?_
    rw [List.mem_ofFn]
    refine ⟨⟨(k + a).toNat, by omega⟩, ?_⟩
    simp only [fromSite, wall, Nat.zero_add]
    rw [show (((k + a).toNat : ℕ) : ℤ) - a = k by omega]
    simp
  refine (tendsto_const_nhds (x := (0 : ℂ))).congr' ?_
  filter_upwards [eventually_ge_atTop (k.natAbs, k.natAbs)] with ab hab
  have h1 : k.natAbs ≤ ab.1 := hab.1
  have h2 : k.natAbs ≤ ab.2 := hab.2
  rw [wallHam, windowHam]
  symm
  refine Finset.sum_eq_zero fun j hj => ?_
  have hj := Finset.mem_range.1 hj
  rw [windowElem]
  refine Finset.sum_eq_zero fun s _ => Finset.sum_eq_zero fun t _ => ?_
  rw [hz ab.1 _ t ⟨by omega, by omega⟩]
  simp

theorem elem_of_eq {A A' : Ten ℂ q D D} {l r : Matrix (Fin D) (Fin D) ℂ} {B' B : Ten ℂ q D D} {n : ℕ}
    {O : (Fin n → Fin q) → (Fin n → Fin q) → ℂ} {p : ℝ} {a b : ℂ} (h : IsExciteElem A A' l r O p B' B a) (e : b = a) :
    IsExciteElem A A' l r O p B' B b := e ▸ h

/-- **The result of `calc_BHB`.** -/
theorem bhb_core (hA : ArrOk E) {solver : Solver D} {junk : Matrix (Fin D) (Fin D) ℂ} (hS : SolvesM E solver junk)
    {KL : Matrix (Fin D) (Fin D) ℂ} (hKl : E.S.Kl 0 = some KL)
    (hK : Tendsto (Ksum (E.S2.A 0) (E.S2.r 0) (shiftOp E.S.ham.op (E.S.hExpect.re : ℂ))) atTop (𝓝 (E.S2.K 0)))
    (hKL : Tendsto (KLsum (E.S.A 0) (E.S.l 0) (shiftOp E.S.ham.op (E.S.hExpect.re : ℂ))) atTop (𝓝 KL))
    (x : Matrix (Fin D) (Fin v) ℂ) (mem : ExcOp.Mem D) :
    ∃ out, E.calcBHB solver junk x mem = some out ∧ ∀ x', IsExciteElem (E.S.A 0) (E.S2.A 0) (E.S.l 0) (E.S2.r 0)
      (shiftOp E.S.ham.op (E.S.hExpect.re : ℂ)) E.p (getBFromX x' E.Vsh E.l_si E.r_si) (getBFromX x E.Vsh E.l_si E.r_si)
      (adot x' out.1) := by
  unfold ExcOp.calcBHB
  dsimp only
  by_cases h0 : getBFromX x E.Vsh E.l_si E.r_si = 0
  · rw [if_pos h0]
    refine ⟨_, rfl, fun x' => ?_⟩
    dsimp only
    rw [h0, adot_zero_right]
    exact elem_zero
  rw [if_neg h0]
  set B := getBFromX x E.Vsh E.l_si E.r_si with hB
  obtain ⟨M, hM1, hM2, hM3⟩ := hS.left x mem.1
  rw [hM1, Option.bind_some, hKl, Option.bind_some]
  obtain ⟨y, hy1, w0, hy2, hy3⟩ := hS.right (Complex.exp (Complex.I * E.p) • epsR (E.S2.K 0) B (E.S2.A 0) + E.rhsY B) mem.2
  rw [hy1, Option.map_some]
  refine ⟨_, rfl, fun x' => ?_⟩
  dsimp only
  set z := Complex.exp (Complex.I * E.p) with hz
  have z1 : Complex.exp (-Complex.I * E.p) = z⁻¹ := by rw [hz, ← Complex.exp_neg]; ring_nf
  have hn := exp_unit E.p
  rw [← hz] at hn
  have hn' : ‖z⁻¹‖ = 1 := by rw [norm_inv, hn, inv_one]
  have hMlim := geom_limit (mapL_add (E.S2.A 0) (E.S.A 0)) (mapL_smul _ _) hn' hM2 hM3
  have hylim := partSum_limit (B' := getBFromX x' E.Vsh E.l_si E.r_si) hn hy2 (hy3 x') (hS.decay x' y)
  rw [z1]
  cases hham : E.S.ham with
  | two h =>
    rw [hham] at hK hKL
    rw [rhsY2_eq hham B hA.AA2 (ham2_op h) (E.S2.K 0) hz] at hylim
    have := excite_elem hA.l_herm hA.left hA.right (hA.gauge x) (hA.gauge' x') hK hKL E.p hz (hS.decay x') hylim hMlim
    have e := assemble2 hA.roots x' h B hA.AA2 (ham2_op h) (E.S2.K 0) KL Mᴴ y hz rfl
    simp only [← add_assoc] at e
    exact elem_of_eq this e
  | three h =>
    rw [hham] at hK hKL
    rw [rhsY3_eq hham B hA.AA (hA.AAA h hham) (ham3_op h) (E.S2.K 0) hz] at hylim
    have := excite_elem hA.l_herm hA.left hA.right (hA.gauge x) (hA.gauge' x') hK hKL E.p hz (hS.decay x') hylim hMlim
    have e := assemble3 hA.roots x' h B hA.l_herm hA.AA hA.AA2 (hA.AAA h hham) (ham3_op h) (E.S2.K 0) KL Mᴴ y hz rfl
    simp only [← add_assoc] at e
    exact elem_of_eq this e

end Exc

end EvoMPS
