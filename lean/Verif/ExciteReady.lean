import Verif.ExciteHerm

/-!
# Excitations: the prepared operator (helper lemmas)
-/

set_option linter.unusedSectionVars false

namespace EvoMPS

open Matrix Filter Topology ComplexOrder

namespace Exc

open Uni

variable {q D v : ℕ}

/-- What is known about a prepared operator. -/
structure Ready (P : Num) (A A' : Ten ℂ q D D) (l r : Matrix (Fin D) (Fin D) ℂ) (lm rm : MM ℂ D D) (ham : UHam q) (e : ℂ) (p : ℝ)
    (Ms : Solver D) (junk : Matrix (Fin D) (Fin D) ℂ) (E : ExcOp q D (D * q - D)) : Prop where
  arr : ArrOk E
  vsh : calcVsh P.qr A' (P.roots rm).1 = some E.Vsh
  lsi : E.l_si = (P.roots lm).2
  rsi : E.r_si = (P.roots rm).2
  eA : E.S.A 0 = A
  eA' : E.S2.A 0 = A'
  el : E.S.l 0 = l
  er : E.S2.r 0 = r
  elem : ∀ x mem, ∃ out, E.calcBHB Ms junk x mem = some out ∧ ∀ x', IsExciteElem A A' l r (shiftOp ham.op e) p
    (getBFromX x' E.Vsh E.l_si E.r_si) (getBFromX x E.Vsh E.l_si E.r_si) (adot x' out.1)

theorem arr_mk {E : ExcOp q D v} {P : Num} (hP : P.Ok) {lm rm : MM ℂ D D} (hlm : lm.toArray = E.S.l 0)
    (hrm : rm.toArray = E.S2.r 0) (hl : (E.S.l 0)ᴴ = E.S.l 0) (hr : (E.S2.r 0)ᴴ = E.S2.r 0)
    (hls : E.l_s = (P.roots lm).1) (hlsi : E.l_si = (P.roots lm).2) (hrs : E.r_s = (P.roots rm).1)
    (hrsi : E.r_si = (P.roots rm).2) (hv : v = D * q - D)
    (hV : calcVsh P.qr (E.S2.A 0) (P.roots rm).1 = some (fun s => (E.Vsh s).submatrix id (Fin.cast hv.symm)))
    (left : mapL (E.S.A 0) (E.S.A 0) (E.S.l 0) = E.S.l 0)
    (right : mapR (E.S2.A 0) (E.S2.A 0) (E.S2.r 0) = E.S2.r 0)
    (AA : E.S.AA 0 = calcAA (E.S.A 0) (E.S.A 0))
    (AA2 : E.S2.AA 0 = calcAA (E.S2.A 0) (E.S2.A 0))
    (AAA : ∀ h, E.S.ham = .three h → E.S2.AAA 0 = calcAAA (E.S2.A 0) (E.S2.A 0) (E.S2.A 0)) : ArrOk E := by
  subst hv
  have Rl := roots_spec hP lm (by rw [hlm]; exact hl)
  have Rr := roots_spec hP rm (by rw [hrm]; exact hr)
  rw [hlm] at Rl
  rw [hrm] at Rr
  refine ⟨⟨?_, ?_, ?_, ?_, ?_, hr⟩, hl, left, right, fun x => ?_, AA, AA2, AAA⟩
  · rw [hlsi]; exact Rl.si_herm
  · rw [hlsi, hls]; exact Rl.si_mul
  · rw [hrs]; exact Rr.s_herm
  · rw [hrsi]; exact Rr.si_herm
  · rw [hrsi, hrs]; exact Rr.mul_si
  · rw [hrsi]
    exact C55_any_parameter P hP (E.S2.A 0) (E.S2.r 0) rm hrm hr E.Vsh hV _ x

/-- The state after `calc_K`, and what `calc_K_l` then yields. -/
theorem after_K (S : UTDVP q D) (hL : S.L = 1) (Env : ChainEnv S.L S.A S.l S.r) (hl : (S.l 0)ᴴ = S.l 0) (hr : (S.r 0)ᴴ = S.r 0)
    (hO : ∀ s t, star (S.ham.op s t) = S.ham.op t s) (hmix : Mixing (S.A 0) (S.l 0) (S.r 0))
    (Ks : Solver D) (junk : Matrix (Fin D) (Fin D) ℂ) (hK : ExactSolver S Ks junk false) (hKL : ExactSolver S Ks junk true) :
    ∃ S1 K1 h, S.calcC.calcK Ks junk = some S1 ∧
      S1 = { S.calcC with hExpect := S1.hExpect, K0init := S1.K0init, K := S1.K } ∧
      S1.calcKl Ks junk = some ({ S1 with Kl := Function.update S.calcC.Kl 0 (some K1) }, h) ∧
      (S1.hExpect.re : ℂ) = chainExpect 1 S.A S.l S.r 0 S.ham.sites S.ham.op ∧
      Tendsto (Ksum (S.A 0) (S.r 0) (shiftOp S.ham.op (S1.hExpect.re : ℂ))) atTop (𝓝 (S1.K 0)) ∧
      Tendsto (KLsum (S.A 0) (S.l 0) (shiftOp S.ham.op (S1.hExpect.re : ℂ))) atTop (𝓝 K1) := by
  obtain ⟨S1, h1, -, -, -, -, -, -, h2, h3⟩ := C48_K S (by omega) Env Ks junk hK
  obtain ⟨S', h, K1, g1, g2, -, g3⟩ := C48_left_partial S hL Env hl hr Ks junk hKL
  rw [hL] at Env h2 h3 g3
  have fr := calcK_frame h1
  have fL := (calcC_fields S).1
  have hkl := calcKl_one (by rw [fL, hL]) S1.hExpect S1.K0init S1.K g1 g2
  have hx : S1.hExpect = chainExpect 1 S.A S.l S.r 0 S.ham.sites S.ham.op := by
    rw [h2]
    simp
  have hre : (S1.hExpect.re : ℂ) = chainExpect 1 S.A S.l S.r 0 S.ham.sites S.ham.op := by
    rw [← hx]
    refine (Complex.conj_eq_iff_re.1 ?_)
    rw [hx]
    exact chainExpect_real (by simpa using hl) (by simpa [Nat.mod_one] using hr) hO
  refine ⟨S1, K1, h, h1, fr, ?_, hre, ?_, ?_⟩
  · rw [← fr] at hkl
    rw [hkl, fr]
  · rw [hre]
    exact Ksum_limit Env _ _ h3 (mixing_iter hmix)
  · rw [hre]
    refine KLsum_limit Env _ _ g3 ?_ (mixing_iter hmix)
    exact chainExpect_shift _ _ (by rw [Nat.mod_one, Nat.mod_one]) (by omega) _ _ _ _

/-- The matrix of a prepared operator. -/
theorem brute {A A' : Ten ℂ q D D} {l r : Matrix (Fin D) (Fin D) ℂ} (hl : lᴴ = l) (hr : rᴴ = r) {n : ℕ}
    {O : (Fin n → Fin q) → (Fin n → Fin q) → ℂ} (hO : ∀ s t, star (O s t) = O t s) {p : ℝ} {E : ExcOp q D v} {Ms : Solver D} {junk}
    (hel : ∀ x mem, ∃ out, E.calcBHB Ms junk x mem = some out ∧ ∀ x', IsExciteElem A A' l r O p
      (getBFromX x' E.Vsh E.l_si E.r_si) (getBFromX x E.Vsh E.l_si E.r_si) (adot x' out.1)) :
    ∃ H, E.bruteH Ms junk = some H ∧ Hᴴ = H ∧
      (∀ i j, IsExciteElem A A' l r O p (getBFromX (reshape (Pi.single i 1)) E.Vsh E.l_si E.r_si)
        (getBFromX (reshape (Pi.single j 1)) E.Vsh E.l_si E.r_si) (H i j)) ∧
      ∀ mem w, ∃ mem', E.matvec Ms junk mem w = some (H *ᵥ w, mem') := by
  have hmv : ∀ mem w, ∃ y, E.matvec Ms junk mem w = some y ∧ ∀ i, IsExciteElem A A' l r O p
      (getBFromX (reshape (Pi.single i 1)) E.Vsh E.l_si E.r_si) (getBFromX (reshape w) E.Vsh E.l_si E.r_si) (y.1 i) := by
    intro mem w
    obtain ⟨out, h1, h2⟩ := hel (reshape w) mem
    refine ⟨(ravel out.1, out.2), ?_, fun i => ?_⟩
    · rw [ExcOp.matvec, h1, Option.map_some]
    · have := h2 (reshape (Pi.single i 1))
      rwa [adot_unit] at this
  obtain ⟨H, s, h1, h2⟩ := columns (fun mem c => E.matvec Ms junk mem (Pi.single c 1))
    (fun c y => ∀ i, IsExciteElem A A' l r O p (getBFromX (reshape (Pi.single i 1)) E.Vsh E.l_si E.r_si)
      (getBFromX (reshape (Pi.single c 1)) E.Vsh E.l_si E.r_si) (y i)) (fun mem c => hmv mem _) (List.finRange (D * v)) 0
    ((none, none) : ExcOp.Mem D) (fun _ => False) (fun c hc => hc.elim)
  have hent := fun i j => h2 j (Or.inr (List.mem_finRange j)) i
  have hherm : Hᴴ = H := by
    ext i j
    exact elem_unique (elem_star hl hr hO (hent j i)) (hent i j)
  refine ⟨H, ?_, hherm, hent, fun mem w => ?_⟩
  · unfold ExcOp.bruteH
    rw [h1, Option.map_some]
  · obtain ⟨out, g1, g2⟩ := hel (reshape w) mem
    refine ⟨out.2, ?_⟩
    rw [ExcOp.matvec, g1, Option.map_some]
    congr 2
    funext i
    have e1 := g2 (reshape (Pi.single i 1))
    rw [adot_unit] at e1
    obtain ⟨oi, k1, k2⟩ := hel (reshape (Pi.single i 1)) mem
    have e2 := elem_star hl hr hO (k2 (reshape w))
    rw [elem_unique e1 e2]
    have e3 : ∀ j, ravel oi.1 j = H j i := fun j => by
      have := k2 (reshape (Pi.single j 1))
      rw [adot_unit] at this
      exact elem_unique this (hent j i)
    have e4 : adot (reshape w) oi.1 = ∑ j, star (w j) * ravel oi.1 j := by
      rw [sum_flat]
      simp only [adot, forSum_eq, reshape, Matrix.of_apply, ravel, flat_divNat, flat_modNat]
    rw [e4, star_sum]
    simp only [Matrix.mulVec, dotProduct]
    refine Finset.sum_congr rfl fun j _ => ?_
    rw [star_mul', star_star, e3, mul_comm]
    congr 1
    exact congrFun (congrFun hherm i) j

/-- The scalar products of the states of a prepared operator. -/
theorem inner {P : Num} (hP : P.Ok) {A A' : Ten ℂ q D D} {l r : Matrix (Fin D) (Fin D) ℂ} {lm rm : MM ℂ D D} {ham : UHam q} {e : ℂ}
    {p : ℝ} {Ms : Solver D} {junk} {E : ExcOp q D (D * q - D)} (h : Ready P A A' l r lm rm ham e p Ms junk E)
    (hlm : lm.toArray = l) (hrm : rm.toArray = r)
    (ha : (l - (P.tol : ℂ) • 1).PosDef) (hr : (r - (P.tol : ℂ) • 1).PosDef) (x x' : Matrix (Fin D) (Fin (D * q - D)) ℂ) (k : ℤ) {a b : ℕ}
    (hka : -(a : ℤ) ≤ k) (hkb : k ≤ b) :
    wallBraket A A' l r (getBFromX x' E.Vsh E.l_si E.r_si) (getBFromX x E.Vsh E.l_si E.r_si) k a b
      = if k = 0 then adot x' x else 0 := by
  have hlh : lᴴ = l := by have := h.arr.l_herm; rwa [h.el] at this
  have hrh : rᴴ = r := by have := h.arr.roots.r_herm; rwa [h.er] at this
  have g1 := h.arr.gauge x
  have g2 := h.arr.gauge' x'
  have g3 := h.arr.left
  have g4 := h.arr.right
  rw [h.eA', h.er] at g1 g2 g4
  rw [h.eA, h.el] at g3
  rw [wallBraket_val hlh g3 g4 g1 g2 k hka hkb]
  refine if_congr Iff.rfl ?_ rfl
  have Rl := roots_spec hP lm (by rw [hlm]; exact hlh)
  have Rr := roots_spec hP rm (by rw [hrm]; exact hrh)
  rw [hlm] at Rl
  rw [hrm] at Rr
  have fl := Rl.full ha
  have fr := Rr.full hr
  have := tenR_overlap h.vsh Rr.si_herm Rr.si_mul fr.1 hlh Rl.si_herm Rl.mul_si x x'
    (by rw [mul_eq_one_comm.1 fl.1, Matrix.one_mul])
  rw [adot_eq_trace, hlh] at this
  rw [← this, h.lsi, h.rsi]
  rfl

end Exc

end EvoMPS
