import Verif.ExciteLocal

/-!
# Excitations: the result of the code is the sum over all positions (helper lemmas)
-/

set_option linter.unusedSectionVars false

namespace EvoMPS

open Matrix Filter Topology

namespace Exc

open Uni

variable {q D v : ℕ}

/-- What the roots satisfy. -/
structure RootsOk (E : ExcOp q D v) : Prop where
  si_herm : E.l_siᴴ = E.l_si
  si_mul : E.l_si * E.S.l 0 = E.l_s
  rs_herm : E.r_sᴴ = E.r_s
  rsi_herm : E.r_siᴴ = E.r_si
  mul_rsi : E.S2.r 0 * E.r_si = E.r_s
  r_herm : (E.S2.r 0)ᴴ = E.S2.r 0

theorem calcC_lin (ham : Fin q → Fin q → Fin q → Fin q → ℂ) (z : ℂ) (T T' : Ten2 ℂ q q D D) :
    calcC ham (T + z • T') = calcC ham T + z • calcC ham T' := by
  funext s t
  simp only [calcC_eq, Pi.add_apply, Pi.smul_apply, smul_add, Finset.sum_add_distrib, Finset.smul_sum]
  refine congrArg _ (Finset.sum_congr rfl fun _ _ => Finset.sum_congr rfl fun _ _ => smul_comm _ _ _)

theorem epsR2_lin (z : ℂ) (T T' : Ten2 ℂ q q D D) (w : Matrix (Fin D) (Fin D) ℂ) (Y : Ten2 ℂ q q v D) :
    epsR2 w (T + z • T') Y = epsR2 w T Y + z • epsR2 w T' Y := by
  simp only [epsR2_eq, Pi.add_apply, Pi.smul_apply, Matrix.add_mul, Finset.sum_add_distrib, Finset.smul_sum, Matrix.smul_mul]

theorem two_t2 (ham : Fin q → Fin q → Fin q → Fin q → ℂ) (A B : Ten ℂ q D D) (l : Matrix (Fin D) (Fin D) ℂ) (Vr : Ten ℂ q v D) :
    ∑ s, epsR (B s) (fun b => ∑ u, ∑ u', ham u b u' s • ((A u)ᴴ * (l * A u'))) Vr
      = ∑ s, ∑ t, (A s)ᴴ * l * calcC ham (calcAA A B) s t * (Vr t)ᴴ := by
  simp only [epsR_eq, calcC_eq, calcAA, Matrix.mul_sum, Matrix.sum_mul, Matrix.mul_smul, Matrix.smul_mul]
  rw [sum4, sum4]
  exact Fintype.sum_equiv ⟨fun x => (x.2.2.1, x.2.1, x.2.2.2, x.1), fun x => (x.2.2.2, x.2.1, x.1, x.2.2.1), fun _ => rfl,
    fun _ => rfl⟩ _ _ fun _ => by simp [Matrix.mul_assoc]

theorem two_t4 (ham : Fin q → Fin q → Fin q → Fin q → ℂ) (A A' B : Ten ℂ q D D) (l : Matrix (Fin D) (Fin D) ℂ) (Vr : Ten ℂ q v D) :
    ∑ s, epsL (l * B s) A (fun a => ∑ s', ∑ t, ham a t s s' • (A' s' * (Vr t)ᴴ))
      = ∑ s, ∑ t, (A s)ᴴ * l * calcC ham (calcAA B A') s t * (Vr t)ᴴ := by
  simp only [epsL_eq, calcC_eq, calcAA, Matrix.mul_sum, Matrix.sum_mul, Matrix.mul_smul, Matrix.smul_mul]
  rw [sum4, sum4]
  exact Fintype.sum_equiv ⟨fun x => (x.2.1, x.2.2.2, x.1, x.2.2.1), fun x => (x.2.2.1, x.1, x.2.2.2, x.2.1), fun _ => rfl,
    fun _ => rfl⟩ _ _ fun _ => by simp [Matrix.mul_assoc]

theorem two_t12 (C : Ten2 ℂ q q D D) (A : Ten ℂ q D D) (Mh : Matrix (Fin D) (Fin D) ℂ) (Vr : Ten ℂ q v D) :
    ∑ s, (A s)ᴴ * Mh * epsR 1 (C s) Vr = ∑ s, ∑ t, (A s)ᴴ * Mh * C s t * (Vr t)ᴴ := by
  simp only [epsR_eq, Matrix.mul_sum, Matrix.mul_one, Matrix.mul_assoc]

theorem calcC3_lin (ham : Fin q → Fin q → Fin q → Fin q → Fin q → Fin q → ℂ) (z w : ℂ) (T T' T'' : Ten3 ℂ q q q D D) :
    calcC3 ham (T + z • T' + w • T'') = calcC3 ham T + z • calcC3 ham T' + w • calcC3 ham T'' := by
  funext s t u
  simp only [calcC3_eq, Pi.add_apply, Pi.smul_apply, smul_add, Finset.sum_add_distrib, Finset.smul_sum]
  congr 1
  · refine congrArg _ (Finset.sum_congr rfl fun _ _ => Finset.sum_congr rfl fun _ _ => Finset.sum_congr rfl fun _ _ =>
      smul_comm _ _ _)
  · exact Finset.sum_congr rfl fun _ _ => Finset.sum_congr rfl fun _ _ => Finset.sum_congr rfl fun _ _ => smul_comm _ _ _

theorem epsR3_lin {v : ℕ} (z z' : ℂ) (T T' T'' : Ten3 ℂ q q q D D) (w : Matrix (Fin D) (Fin D) ℂ) (Y : Ten3 ℂ q q q v D) :
    epsR3 w (T + z • T' + z' • T'') Y = epsR3 w T Y + z • epsR3 w T' Y + z' • epsR3 w T'' Y := by
  simp only [epsR3_eq, Pi.add_apply, Pi.smul_apply, Matrix.add_mul, Finset.sum_add_distrib, Finset.smul_sum, Matrix.smul_mul]

section
variable (ham : Fin q → Fin q → Fin q → Fin q → Fin q → Fin q → ℂ) (A A' B : Ten ℂ q D D) (l r Mh : Matrix (Fin D) (Fin D) ℂ)
  (Vr Vri : Ten ℂ q v D)

theorem three_t12 :
    epsL Mh A (fun a => ∑ s, ∑ t, ∑ u, ∑ k, ∑ j, ham a j k s t u • (calcAAA A' A' A' s t u * (r * (A' k)ᴴ) * (Vri j)ᴴ))
      = ∑ s, ∑ t, ∑ u, (A s)ᴴ * Mh * calcC3 ham (calcAAA A' A' A') s t u * r * (A' u)ᴴ * (Vri t)ᴴ := by
  simp only [epsL_eq, calcC3_eq, Matrix.mul_sum, Matrix.sum_mul, Matrix.mul_smul, Matrix.smul_mul]
  rw [sum6, sum6]
  exact Fintype.sum_equiv ⟨fun x => (x.1, x.2.2.2.2.2, x.2.2.2.2.1, x.2.1, x.2.2.1, x.2.2.2.1),
    fun x => (x.1, x.2.2.2.1, x.2.2.2.2.1, x.2.2.2.2.2, x.2.2.1, x.2.1), fun _ => rfl,
    fun _ => rfl⟩ _ _ fun _ => by simp [Matrix.mul_assoc]

theorem three_t12b :
    epsL2 Mh (calcAA A A) (fun a b => ∑ s, ∑ t, ∑ u, ∑ k, ham a b k s t u • (calcAAA A' A' A' s t u * (Vr k)ᴴ))
      = ∑ s, ∑ t, ∑ u, (A s * A t)ᴴ * Mh * calcC3 ham (calcAAA A' A' A') s t u * (Vr u)ᴴ := by
  simp only [epsL2_eq, calcC3_eq, calcAA, Matrix.mul_sum, Matrix.sum_mul, Matrix.mul_smul, Matrix.smul_mul]
  rw [sum6, sum6]
  exact Fintype.sum_equiv ⟨fun x => (x.1, x.2.1, x.2.2.2.2.2, x.2.2.1, x.2.2.2.1, x.2.2.2.2.1),
    fun x => (x.1, x.2.1, x.2.2.2.1, x.2.2.2.2.1, x.2.2.2.2.2, x.2.2.1), fun _ => rfl,
    fun _ => rfl⟩ _ _ fun _ => by simp [Matrix.mul_assoc]

theorem three_t2b :
    ∑ s, epsR (B s) (fun a => ∑ i, ∑ j, ∑ s', ∑ t, ham i j a s' t s • ((calcAA A A i j)ᴴ * (l * calcAA A A s' t))) Vr
      = ∑ s, ∑ t, ∑ u, (A s * A t)ᴴ * l * calcC3 ham (calcAAA A A B) s t u * (Vr u)ᴴ := by
  simp only [epsR_eq, calcC3_eq, calcAA, calcAAA, Matrix.mul_sum, Matrix.sum_mul, Matrix.mul_smul, Matrix.smul_mul]
  rw [sum6, sum6]
  exact Fintype.sum_equiv ⟨fun x => (x.2.2.1, x.2.2.2.1, x.2.1, x.2.2.2.2.1, x.2.2.2.2.2, x.1),
    fun x => (x.2.2.2.2.2, x.2.2.1, x.1, x.2.1, x.2.2.2.1, x.2.2.2.2.1), fun _ => rfl,
    fun _ => rfl⟩ _ _ fun _ => by simp [Matrix.mul_assoc]

theorem three_t4 :
    ∑ s, epsL (l * B s) A (fun a => ∑ u, ∑ t, ∑ j, ∑ k, ham a j k s u t • (calcAA A' A' u t * (r * (A' k)ᴴ) * (Vri j)ᴴ))
      = ∑ s, ∑ t, ∑ u, (A s)ᴴ * l * calcC3 ham (calcAAA B A' A') s t u * r * (A' u)ᴴ * (Vri t)ᴴ := by
  simp only [epsL_eq, calcC3_eq, calcAA, calcAAA, Matrix.mul_sum, Matrix.sum_mul, Matrix.mul_smul, Matrix.smul_mul]
  rw [sum6, sum6]
  exact Fintype.sum_equiv ⟨fun x => (x.2.1, x.2.2.2.2.1, x.2.2.2.2.2, x.1, x.2.2.1, x.2.2.2.1),
    fun x => (x.2.2.2.1, x.1, x.2.2.2.2.1, x.2.2.2.2.2, x.2.1, x.2.2.1), fun _ => rfl,
    fun _ => rfl⟩ _ _ fun _ => by simp [Matrix.mul_assoc]

theorem three_t2 (hr : rᴴ = r) :
    ∑ s, (A s)ᴴ * (l * epsR2 1 (calcAA A B) (fun b c => ∑ u, ∑ k, ∑ j,
        star (ham s j k b c u) • (Vri j * A' k * (r * (A' u)ᴴ))))
      = ∑ s, ∑ t, ∑ u, (A s)ᴴ * l * calcC3 ham (calcAAA A B A') s t u * r * (A' u)ᴴ * (Vri t)ᴴ := by
  simp only [epsR2_eq, calcC3_eq, calcAA, calcAAA, Matrix.mul_sum, Matrix.sum_mul, Matrix.mul_smul, Matrix.smul_mul,
    conjTranspose_sum, conjTranspose_smul, star_star, conjTranspose_mul, conjTranspose_conjTranspose, hr, Matrix.mul_one]
  rw [sum6, sum6]
  exact Fintype.sum_equiv ⟨fun x => (x.1, x.2.2.2.2.2, x.2.2.2.2.1, x.2.1, x.2.2.1, x.2.2.2.1),
    fun x => (x.1, x.2.2.2.1, x.2.2.2.2.1, x.2.2.2.2.2, x.2.2.1, x.2.1), fun _ => rfl,
    fun _ => rfl⟩ _ _ fun _ => by simp [Matrix.mul_assoc]

theorem three_t4b (hl : lᴴ = l) :
    ∑ s, epsL2 1 (fun b c => ∑ j, ∑ i, ∑ s', star (ham i j s s' b c) • ((A s')ᴴ * (l * calcAA A A i j)))
        (calcAA B A') * (Vr s)ᴴ
      = ∑ s, ∑ t, ∑ u, (A s * A t)ᴴ * l * calcC3 ham (calcAAA A B A') s t u * (Vr u)ᴴ := by
  simp only [epsL2_eq, calcC3_eq, calcAA, calcAAA, Matrix.mul_sum, Matrix.sum_mul, Matrix.mul_smul, Matrix.smul_mul,
    conjTranspose_sum, conjTranspose_smul, star_star, conjTranspose_mul, conjTranspose_conjTranspose, hl, Matrix.mul_one]
  rw [sum6, sum6]
  exact Fintype.sum_equiv ⟨fun x => (x.2.2.2.2.1, x.2.2.2.1, x.1, x.2.2.2.2.2, x.2.1, x.2.2.1),
    fun x => (x.2.2.1, x.2.2.2.2.1, x.2.2.2.2.2, x.2.1, x.1, x.2.2.2.1), fun _ => rfl,
    fun _ => rfl⟩ _ _ fun _ => by simp [Matrix.mul_assoc]

theorem three_t4c :
    ∑ s, epsL2 (l * B s) (calcAA A A) (fun a b => ∑ t, ∑ u, ∑ k, ham a b k s t u • (calcAA A' A' t u * (Vr k)ᴴ))
      = ∑ s, ∑ t, ∑ u, (A s * A t)ᴴ * l * calcC3 ham (calcAAA B A' A') s t u * (Vr u)ᴴ := by
  simp only [epsL2_eq, calcC3_eq, calcAA, calcAAA, Matrix.mul_sum, Matrix.sum_mul, Matrix.mul_smul, Matrix.smul_mul]
  rw [sum6, sum6]
  exact Fintype.sum_equiv ⟨fun x => (x.2.1, x.2.2.1, x.2.2.2.2.2, x.1, x.2.2.2.1, x.2.2.2.2.1),
    fun x => (x.2.2.2.1, x.1, x.2.1, x.2.2.2.2.1, x.2.2.2.2.2, x.2.2.1), fun _ => rfl,
    fun _ => rfl⟩ _ _ fun _ => by simp [Matrix.mul_assoc]

theorem three_t3b :
    ∑ s, epsR2 (B s * r) (fun a b => ∑ j, ∑ i, ∑ s', ham s' a b i j s • ((A s')ᴴ * (l * calcAA A A i j))) (calcAA Vri A')
      = ∑ s, ∑ t, ∑ u, (A s)ᴴ * l * calcC3 ham (calcAAA A A B) s t u * r * (A' u)ᴴ * (Vri t)ᴴ := by
  simp only [epsR2_eq, calcC3_eq, calcAA, calcAAA, Matrix.mul_sum, Matrix.sum_mul, Matrix.mul_smul, Matrix.smul_mul,
    conjTranspose_mul]
  rw [sum6, sum6]
  exact Fintype.sum_equiv ⟨fun x => (x.2.2.2.2.2, x.2.1, x.2.2.1, x.2.2.2.2.1, x.2.2.2.1, x.1),
    fun x => (x.2.2.2.2.2, x.2.1, x.2.2.1, x.2.2.2.2.1, x.2.2.2.1, x.1), fun _ => rfl,
    fun _ => rfl⟩ _ _ fun _ => by simp [Matrix.mul_assoc]

end

section
variable {E : ExcOp q D v} (R : RootsOk E) (x' : Matrix (Fin D) (Fin v) ℂ)
include R

theorem RootsOk.bra (s : Fin q) : getBFromX x' E.Vsh E.l_si E.r_si s = E.l_si * x' * E.Vri s := by
  rw [getBFromX, ExcOp.Vri, ExcOp.V, conjTranspose_mul, R.rsi_herm]

theorem RootsOk.vr (s : Fin q) : E.S2.r 0 * (E.Vri s)ᴴ = (E.Vr s)ᴴ := by
  rw [ExcOp.Vri, ExcOp.Vr, conjTranspose_mul, conjTranspose_mul, R.rsi_herm, R.rs_herm, ← Matrix.mul_assoc, R.mul_rsi]

/-- The terms of the specification on two sites. -/
theorem spec2_eq (ham : Fin q → Fin q → Fin q → Fin q → ℂ) (B : Ten ℂ q D D) (Mh : Matrix (Fin D) (Fin D) ℂ)
    {O : (Fin (1 + 1) → Fin q) → (Fin (1 + 1) → Fin q) → ℂ}
    (hO : O = fun s t => ham (s 0) (s 1) (t 0) (t 1)) (z w : ℂ)
    {B' : Ten ℂ q D D} (hB' : B' = getBFromX x' E.Vsh E.l_si E.r_si) :
    both (E.S.A 0) (E.S2.A 0) (E.S.l 0) (E.S2.r 0) B' B O 0 0
      + z * both (E.S.A 0) (E.S2.A 0) (E.S.l 0) (E.S2.r 0) B' B O 0 1
      + both (E.S.A 0) (E.S2.A 0) (E.S.l 0) (E.S2.r 0) B' B O 1 0
      + w * both (E.S.A 0) (E.S2.A 0) (E.S.l 0) (E.S2.r 0) B' B O 1 (-1)
      + w * (Mh * behind (E.S.A 0) (E.S2.A 0) (E.S2.r 0) B' O 0).trace
      + w ^ 2 * (Mh * behind (E.S.A 0) (E.S2.A 0) (E.S2.r 0) B' O 1).trace
    = (x'ᴴ * (E.l_si * (
      E.S.l 0 * epsR2 (E.S2.r 0) (calcC ham (calcAA B (E.S2.A 0))) (calcAA E.Vri (E.S2.A 0))
      + z • (E.S.l 0 * epsR2 (E.S2.r 0) (calcC ham (calcAA (E.S.A 0) B)) (calcAA E.Vri (E.S2.A 0)))
      + ∑ s, ∑ t, (E.S.A 0 s)ᴴ * E.S.l 0 * calcC ham (calcAA (E.S.A 0) B) s t * (E.Vr t)ᴴ
      + w • (∑ s, ∑ t, (E.S.A 0 s)ᴴ * E.S.l 0 * calcC ham (calcAA B (E.S2.A 0)) s t * (E.Vr t)ᴴ)
      + w • (Mh * epsR2 (E.S2.r 0) (calcC ham (calcAA (E.S2.A 0) (E.S2.A 0))) (calcAA E.Vri (E.S2.A 0)))
      + w ^ 2 • (∑ s, ∑ t, (E.S.A 0 s)ᴴ * Mh * calcC ham (calcAA (E.S2.A 0) (E.S2.A 0)) s t * (E.Vr t)ᴴ)))).trace := by
  have hB : ∀ s, B' s = E.l_si * x' * E.Vri s := by rw [hB']; exact R.bra x'
  subst hO
  simp only [both, behind]
  rw [ZO_two, ZO_two, ZO_two, ZO_two, ZO_two, ZO_two]
  simp only [Nat.cast_zero, Nat.cast_one, neg_zero, zero_add, neg_add_cancel]
  rw [wall_at (show (0 : ℤ) = 0 from rfl), wall_at (show (0 : ℤ) = 0 from rfl), wall_gt (show (0 : ℤ) < 1 by omega),
    wall_gt (show (0 : ℤ) < 1 by omega), wall_lt (show (0 : ℤ) < 1 by omega), wall_at (show (1 : ℤ) = 1 from rfl),
    wall_lt (show (-1 : ℤ) < 0 by omega), wall_lt (show (-1 : ℤ) < 0 by omega), wall_at (show (-1 : ℤ) = -1 from rfl),
    wall_gt (show (-1 : ℤ) < 0 by omega)]
  rw [bra_two_first R.si_herm x' B' _ hB, bra_two_first R.si_herm x' B' _ hB, bra_two_first R.si_herm x' B' _ hB,
    bra_two_second R.si_herm R.vr x' B' _ hB, bra_two_second R.si_herm R.vr x' B' _ hB,
    bra_two_second R.si_herm R.vr x' B' _ hB]
  simp only [← smul_eq_mul, ← Matrix.trace_smul, ← Matrix.trace_add, ← Matrix.mul_smul, ← Matrix.mul_add]

/-- The terms of the code on two sites. -/
theorem local2_eq (h : Fin q → Fin q → Fin q → Fin q → ℂ) (B : Ten ℂ q D D) (Mh : Matrix (Fin D) (Fin D) ℂ)
    (hAA2 : E.S2.AA 0 = calcAA (E.S2.A 0) (E.S2.A 0)) {z : ℂ} (hz : z = Complex.exp (Complex.I * E.p)) :
    E.local2 h B Mh = E.l_si * (
      E.S.l 0 * epsR2 (E.S2.r 0) (calcC (E.ham2 h) (calcAA B (E.S2.A 0))) (calcAA E.Vri (E.S2.A 0))
      + z • (E.S.l 0 * epsR2 (E.S2.r 0) (calcC (E.ham2 h) (calcAA (E.S.A 0) B)) (calcAA E.Vri (E.S2.A 0)))
      + ∑ s, ∑ t, (E.S.A 0 s)ᴴ * E.S.l 0 * calcC (E.ham2 h) (calcAA (E.S.A 0) B) s t * (E.Vr t)ᴴ
      + z⁻¹ • (∑ s, ∑ t, (E.S.A 0 s)ᴴ * E.S.l 0 * calcC (E.ham2 h) (calcAA B (E.S2.A 0)) s t * (E.Vr t)ᴴ)
      + z⁻¹ • (Mh * epsR2 (E.S2.r 0) (calcC (E.ham2 h) (calcAA (E.S2.A 0) (E.S2.A 0))) (calcAA E.Vri (E.S2.A 0)))
      + z⁻¹ ^ 2 • (∑ s, ∑ t, (E.S.A 0 s)ᴴ * Mh * calcC (E.ham2 h) (calcAA (E.S2.A 0) (E.S2.A 0)) s t * (E.Vr t)ᴴ)) := by
  have z1 : Complex.exp (-Complex.I * E.p) = z⁻¹ := by rw [hz, ← Complex.exp_neg]; ring_nf
  have z2 : Complex.exp (-2 * Complex.I * E.p) = z⁻¹ ^ 2 := by
    rw [hz, ← Complex.exp_neg, ← Complex.exp_nat_mul]; push_cast; ring_nf
  rw [ExcOp.local2]
  simp only [ExcOp.pre2, forSum_eq, z1, z2, ← hz, conj_move2, hAA2]
  rw [← R.si_mul]
  generalize E.ham2 h = ham
  simp only [Finset.sum_add_distrib, ← Finset.smul_sum]
  rw [calcC_lin, epsR2_lin, two_t2, two_t4, two_t12]
  simp only [Matrix.mul_add, Matrix.mul_smul, Matrix.mul_assoc]
  abel

/-- The terms of the specification on three sites. -/
theorem spec3_eq (ham : Fin q → Fin q → Fin q → Fin q → Fin q → Fin q → ℂ) (B : Ten ℂ q D D) (Mh : Matrix (Fin D) (Fin D) ℂ)
    {O : (Fin (2 + 1) → Fin q) → (Fin (2 + 1) → Fin q) → ℂ}
    (hO : O = fun s t => ham (s 0) (s 1) (s 2) (t 0) (t 1) (t 2)) (z w : ℂ)
    {B' : Ten ℂ q D D} (hB' : B' = getBFromX x' E.Vsh E.l_si E.r_si) :
    both (E.S.A 0) (E.S2.A 0) (E.S.l 0) (E.S2.r 0) B' B O 0 0 + z * both (E.S.A 0) (E.S2.A 0) (E.S.l 0) (E.S2.r 0) B' B O 0 1 + z ^ 2 * both (E.S.A 0) (E.S2.A 0) (E.S.l 0) (E.S2.r 0) B' B O 0 2
      + both (E.S.A 0) (E.S2.A 0) (E.S.l 0) (E.S2.r 0) B' B O 1 0 + z * both (E.S.A 0) (E.S2.A 0) (E.S.l 0) (E.S2.r 0) B' B O 1 1 + w * both (E.S.A 0) (E.S2.A 0) (E.S.l 0) (E.S2.r 0) B' B O 1 (-1)
      + both (E.S.A 0) (E.S2.A 0) (E.S.l 0) (E.S2.r 0) B' B O 2 0 + w * both (E.S.A 0) (E.S2.A 0) (E.S.l 0) (E.S2.r 0) B' B O 2 (-1) + w ^ 2 * both (E.S.A 0) (E.S2.A 0) (E.S.l 0) (E.S2.r 0) B' B O 2 (-2)
      + w * (Mh * behind (E.S.A 0) (E.S2.A 0) (E.S2.r 0) B' O 0).trace + w ^ 2 * (Mh * behind (E.S.A 0) (E.S2.A 0) (E.S2.r 0) B' O 1).trace + w ^ 3 * (Mh * behind (E.S.A 0) (E.S2.A 0) (E.S2.r 0) B' O 2).trace
    = (x'ᴴ * (E.l_si * (E.S.l 0 * epsR3 (E.S2.r 0) (calcC3 ham (calcAAA B (E.S2.A 0) (E.S2.A 0))) (fun s t u => E.Vri s * (E.S2.A 0 t * E.S2.A 0 u))
      + z • (E.S.l 0 * epsR3 (E.S2.r 0) (calcC3 ham (calcAAA (E.S.A 0) B (E.S2.A 0)))
        (fun s t u => E.Vri s * (E.S2.A 0 t * E.S2.A 0 u)))
      + z ^ 2 • (E.S.l 0 * epsR3 (E.S2.r 0) (calcC3 ham (calcAAA (E.S.A 0) (E.S.A 0) B))
        (fun s t u => E.Vri s * (E.S2.A 0 t * E.S2.A 0 u)))
      + ∑ s, ∑ t, ∑ u, (E.S.A 0 s)ᴴ * E.S.l 0 * calcC3 ham (calcAAA (E.S.A 0) B (E.S2.A 0)) s t u * E.S2.r 0
        * (E.S2.A 0 u)ᴴ * (E.Vri t)ᴴ
      + z • (∑ s, ∑ t, ∑ u, (E.S.A 0 s)ᴴ * E.S.l 0 * calcC3 ham (calcAAA (E.S.A 0) (E.S.A 0) B) s t u * E.S2.r 0
        * (E.S2.A 0 u)ᴴ * (E.Vri t)ᴴ)
      + w • (∑ s, ∑ t, ∑ u, (E.S.A 0 s)ᴴ * E.S.l 0 * calcC3 ham (calcAAA B (E.S2.A 0) (E.S2.A 0)) s t u * E.S2.r 0
        * (E.S2.A 0 u)ᴴ * (E.Vri t)ᴴ)
      + ∑ s, ∑ t, ∑ u, (E.S.A 0 s * E.S.A 0 t)ᴴ * E.S.l 0 * calcC3 ham (calcAAA (E.S.A 0) (E.S.A 0) B) s t u * (E.Vr u)ᴴ
      + w • (∑ s, ∑ t, ∑ u, (E.S.A 0 s * E.S.A 0 t)ᴴ * E.S.l 0 * calcC3 ham (calcAAA (E.S.A 0) B (E.S2.A 0)) s t u
        * (E.Vr u)ᴴ)
      + w ^ 2 • (∑ s, ∑ t, ∑ u, (E.S.A 0 s * E.S.A 0 t)ᴴ * E.S.l 0 * calcC3 ham (calcAAA B (E.S2.A 0) (E.S2.A 0)) s t u
        * (E.Vr u)ᴴ)
      + w • (Mh * epsR3 (E.S2.r 0) (calcC3 ham (calcAAA (E.S2.A 0) (E.S2.A 0) (E.S2.A 0)))
        (fun s t u => E.Vri s * (E.S2.A 0 t * E.S2.A 0 u)))
      + w ^ 2 • (∑ s, ∑ t, ∑ u, (E.S.A 0 s)ᴴ * Mh * calcC3 ham (calcAAA (E.S2.A 0) (E.S2.A 0) (E.S2.A 0)) s t u * E.S2.r 0
        * (E.S2.A 0 u)ᴴ * (E.Vri t)ᴴ)
      + w ^ 3 • (∑ s, ∑ t, ∑ u, (E.S.A 0 s * E.S.A 0 t)ᴴ * Mh
        * calcC3 ham (calcAAA (E.S2.A 0) (E.S2.A 0) (E.S2.A 0)) s t u * (E.Vr u)ᴴ)))).trace := by
  have hB : ∀ s, B' s = E.l_si * x' * E.Vri s := by rw [hB']; exact R.bra x'
  subst hO
  simp only [both, behind]
  rw [ZO_three, ZO_three, ZO_three, ZO_three, ZO_three, ZO_three, ZO_three, ZO_three, ZO_three, ZO_three, ZO_three, ZO_three]
  simp only [Nat.cast_zero, Nat.cast_one, Nat.cast_ofNat, neg_zero, zero_add, neg_add_cancel,
    show (-1 : ℤ) + 2 = 1 by rfl, show (-2 : ℤ) + 1 = -1 by rfl]
  simp only [wall_at (show (0 : ℤ) = 0 from rfl), wall_gt (show (0 : ℤ) < 1 by omega), wall_gt (show (0 : ℤ) < 2 by omega),
    wall_lt (show (0 : ℤ) < 1 by omega), wall_at (show (1 : ℤ) = 1 from rfl), wall_gt (show (1 : ℤ) < 2 by omega),
    wall_lt (show (0 : ℤ) < 2 by omega), wall_lt (show (1 : ℤ) < 2 by omega), wall_at (show (2 : ℤ) = 2 from rfl),
    wall_lt (show (-1 : ℤ) < 0 by omega), wall_lt (show (-2 : ℤ) < 0 by omega), wall_at (show (-1 : ℤ) = -1 from rfl),
    wall_gt (show (-1 : ℤ) < 0 by omega), wall_gt (show (-1 : ℤ) < 1 by omega), wall_lt (show (-1 : ℤ) < 1 by omega),
    wall_lt (show (-2 : ℤ) < -1 by omega), wall_at (show (-2 : ℤ) = -2 from rfl), wall_gt (show (-2 : ℤ) < -1 by omega),
    wall_gt (show (-2 : ℤ) < 0 by omega)]
  simp only [bra_three_first R.si_herm x' B' _ hB, bra_three_second R.si_herm x' B' _ _ hB,
    bra_three_third R.si_herm R.vr x' B' _ hB]
  simp only [← smul_eq_mul, ← Matrix.trace_smul, ← Matrix.trace_add, ← Matrix.mul_smul, ← Matrix.mul_add]

/-- The terms of the code on three sites. -/
theorem local3_eq (hl : (E.S.l 0)ᴴ = E.S.l 0) (h : Fin q → Fin q → Fin q → Fin q → Fin q → Fin q → ℂ) (B : Ten ℂ q D D)
    (Mh : Matrix (Fin D) (Fin D) ℂ) (hAA : E.S.AA 0 = calcAA (E.S.A 0) (E.S.A 0))
    (hAA2 : E.S2.AA 0 = calcAA (E.S2.A 0) (E.S2.A 0)) (hAAA : E.S2.AAA 0 = calcAAA (E.S2.A 0) (E.S2.A 0) (E.S2.A 0))
    {z : ℂ} (hz : z = Complex.exp (Complex.I * E.p)) :
    E.local3 h B Mh = E.l_si * (E.S.l 0 * epsR3 (E.S2.r 0) (calcC3 (E.ham3 h) (calcAAA B (E.S2.A 0) (E.S2.A 0))) (fun s t u => E.Vri s * (E.S2.A 0 t * E.S2.A 0 u))
      + z • (E.S.l 0 * epsR3 (E.S2.r 0) (calcC3 (E.ham3 h) (calcAAA (E.S.A 0) B (E.S2.A 0)))
        (fun s t u => E.Vri s * (E.S2.A 0 t * E.S2.A 0 u)))
      + z ^ 2 • (E.S.l 0 * epsR3 (E.S2.r 0) (calcC3 (E.ham3 h) (calcAAA (E.S.A 0) (E.S.A 0) B))
        (fun s t u => E.Vri s * (E.S2.A 0 t * E.S2.A 0 u)))
      + ∑ s, ∑ t, ∑ u, (E.S.A 0 s)ᴴ * E.S.l 0 * calcC3 (E.ham3 h) (calcAAA (E.S.A 0) B (E.S2.A 0)) s t u * E.S2.r 0
        * (E.S2.A 0 u)ᴴ * (E.Vri t)ᴴ
      + z • (∑ s, ∑ t, ∑ u, (E.S.A 0 s)ᴴ * E.S.l 0 * calcC3 (E.ham3 h) (calcAAA (E.S.A 0) (E.S.A 0) B) s t u * E.S2.r 0
        * (E.S2.A 0 u)ᴴ * (E.Vri t)ᴴ)
      + z⁻¹ • (∑ s, ∑ t, ∑ u, (E.S.A 0 s)ᴴ * E.S.l 0 * calcC3 (E.ham3 h) (calcAAA B (E.S2.A 0) (E.S2.A 0)) s t u * E.S2.r 0
        * (E.S2.A 0 u)ᴴ * (E.Vri t)ᴴ)
      + ∑ s, ∑ t, ∑ u, (E.S.A 0 s * E.S.A 0 t)ᴴ * E.S.l 0 * calcC3 (E.ham3 h) (calcAAA (E.S.A 0) (E.S.A 0) B) s t u * (E.Vr u)ᴴ
      + z⁻¹ • (∑ s, ∑ t, ∑ u, (E.S.A 0 s * E.S.A 0 t)ᴴ * E.S.l 0 * calcC3 (E.ham3 h) (calcAAA (E.S.A 0) B (E.S2.A 0)) s t u
        * (E.Vr u)ᴴ)
      + z⁻¹ ^ 2 • (∑ s, ∑ t, ∑ u, (E.S.A 0 s * E.S.A 0 t)ᴴ * E.S.l 0 * calcC3 (E.ham3 h) (calcAAA B (E.S2.A 0) (E.S2.A 0)) s t u
        * (E.Vr u)ᴴ)
      + z⁻¹ • (Mh * epsR3 (E.S2.r 0) (calcC3 (E.ham3 h) (calcAAA (E.S2.A 0) (E.S2.A 0) (E.S2.A 0)))
        (fun s t u => E.Vri s * (E.S2.A 0 t * E.S2.A 0 u)))
      + z⁻¹ ^ 2 • (∑ s, ∑ t, ∑ u, (E.S.A 0 s)ᴴ * Mh * calcC3 (E.ham3 h) (calcAAA (E.S2.A 0) (E.S2.A 0) (E.S2.A 0)) s t u * E.S2.r 0
        * (E.S2.A 0 u)ᴴ * (E.Vri t)ᴴ)
      + z⁻¹ ^ 3 • (∑ s, ∑ t, ∑ u, (E.S.A 0 s * E.S.A 0 t)ᴴ * Mh
        * calcC3 (E.ham3 h) (calcAAA (E.S2.A 0) (E.S2.A 0) (E.S2.A 0)) s t u * (E.Vr u)ᴴ)) := by
  have z1 : Complex.exp (-Complex.I * E.p) = z⁻¹ := by rw [hz, ← Complex.exp_neg]; ring_nf
  have z2 : Complex.exp (-2 * Complex.I * E.p) = z⁻¹ ^ 2 := by
    rw [hz, ← Complex.exp_neg, ← Complex.exp_nat_mul]; push_cast; ring_nf
  have z3 : Complex.exp (-3 * Complex.I * E.p) = z⁻¹ ^ 3 := by
    rw [hz, ← Complex.exp_neg, ← Complex.exp_nat_mul]; push_cast; ring_nf
  have z4 : Complex.exp (2 * Complex.I * E.p) = z ^ 2 := by
    rw [hz, ← Complex.exp_nat_mul]; push_cast; ring_nf
  have e : ∀ X Y Z : Ten ℂ q D D, calcAAA_AA (calcAA X Y) Z = calcAAA X Y Z := fun _ _ _ => rfl
  rw [ExcOp.local3]
  simp only [ExcOp.pre3, forSum_eq, z1, z2, z3, z4, ← hz, conj_move3, hAA2, hAA, hAAA, e]
  rw [← R.si_mul]
  generalize E.ham3 h = ham
  simp only [Finset.sum_add_distrib, ← Finset.smul_sum]
  rw [calcC3_lin, epsR3_lin, three_t12, three_t12b, three_t2b, three_t4, three_t2 _ _ _ _ _ _ _ R.r_herm, three_t4b _ _ _ _ _ _ hl,
    three_t4c, three_t3b]
  have e' : (fun s t u => E.Vri s * calcAA (E.S2.A 0) (E.S2.A 0) t u)
      = fun s t u => E.Vri s * (E.S2.A 0 t * E.S2.A 0 u) := rfl
  rw [e']
  simp only [Matrix.mul_add, Matrix.mul_smul, Matrix.mul_assoc]
  abel

end

end Exc

end EvoMPS
