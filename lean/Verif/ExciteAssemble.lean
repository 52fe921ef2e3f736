import Verif.ExciteTotal

/-!
# Excitations: the matrix that `calc_BHB` returns is the sum over all positions (helper lemmas)
-/

set_option linter.unusedSectionVars false

namespace EvoMPS

open Matrix Filter Topology

namespace Exc

open Uni

variable {q D v : ℕ}

theorem smul_calcC (ham : Fin q → Fin q → Fin q → Fin q → ℂ) (z : ℂ) (T : Ten2 ℂ q q D D) :
    calcC ham (z • T) = z • calcC ham T := by
  have h := calcC_lin ham z 0 T
  have h0 : calcC ham (0 : Ten2 ℂ q q D D) = 0 := by
    funext s t
    rw [calcC_eq]
    simp
  rwa [zero_add, h0, zero_add] at h

theorem smul_epsR2 (z : ℂ) (T : Ten2 ℂ q q D D) (w : Matrix (Fin D) (Fin D) ℂ) (Y : Ten2 ℂ q q D D) :
    epsR2 w (z • T) Y = z • epsR2 w T Y := by
  simp only [epsR2_eq, Pi.smul_apply, Finset.smul_sum, Matrix.smul_mul]

theorem smul_calcC3 (ham : Fin q → Fin q → Fin q → Fin q → Fin q → Fin q → ℂ) (z : ℂ) (T : Ten3 ℂ q q q D D) :
    calcC3 ham (z • T) = z • calcC3 ham T := by
  have h := calcC3_lin ham z 0 0 T 0
  have h0 : calcC3 ham (0 : Ten3 ℂ q q q D D) = 0 := by
    funext s t u
    rw [calcC3_eq]
    simp
  rwa [zero_add, h0, zero_smul, add_zero, add_zero, zero_add] at h

theorem smul_epsR3 (z : ℂ) (T : Ten3 ℂ q q q D D) (w : Matrix (Fin D) (Fin D) ℂ) (Y : Ten3 ℂ q q q D D) :
    epsR3 w (z • T) Y = z • epsR3 w T Y := by
  simp only [epsR3_eq, Pi.smul_apply, Finset.smul_sum, Matrix.smul_mul]

variable {E : ExcOp q D v}

theorem rhsY2_eq {h : Fin q → Fin q → Fin q → Fin q → ℂ} (hham : E.S.ham = .two h) (B : Ten ℂ q D D)
    (hAA2 : E.S2.AA 0 = calcAA (E.S2.A 0) (E.S2.A 0)) {O : (Fin (1 + 1) → Fin q) → (Fin (1 + 1) → Fin q) → ℂ}
    (hO : O = fun s t => E.ham2 h (s 0) (s 1) (t 0) (t 1)) (K : Matrix (Fin D) (Fin D) ℂ)
    {z : ℂ} (hz : z = Complex.exp (Complex.I * E.p)) :
    z • epsR K B (E.S2.A 0) + E.rhsY B = rhsR (E.S.A 0) (E.S2.A 0) (E.S2.r 0) B O K z := by
  subst hO
  have z4 : Complex.exp (2 * Complex.I * E.p) = z ^ 2 := by
    rw [hz, ← Complex.exp_nat_mul]; push_cast; ring_nf
  rw [rhsR, Finset.sum_range_succ, Finset.sum_range_one]
  simp only [loc]
  rw [ZO_two, ZO_two]
  simp only [Nat.cast_zero, Nat.cast_one, zero_add, pow_one]
  simp only [wall_at (show (0 : ℤ) = 0 from rfl), wall_gt (show (0 : ℤ) < 1 by omega),
    wall_lt (show (0 : ℤ) < 1 by omega), wall_at (show (1 : ℤ) = 1 from rfl)]
  rw [ExcOp.rhsY, hham]
  simp only [ExcOp.pre2, conj_move2, hAA2, z4, ← hz]
  rw [calcC_lin, epsR2_lin, smul_calcC, smul_epsR2]
  simp only [epsR_eq, epsR2_eq, mapR, calcAA]

theorem rhsY3_eq {h : Fin q → Fin q → Fin q → Fin q → Fin q → Fin q → ℂ} (hham : E.S.ham = .three h) (B : Ten ℂ q D D)
    (hAA : E.S.AA 0 = calcAA (E.S.A 0) (E.S.A 0)) (hAAA : E.S2.AAA 0 = calcAAA (E.S2.A 0) (E.S2.A 0) (E.S2.A 0))
    {O : (Fin (2 + 1) → Fin q) → (Fin (2 + 1) → Fin q) → ℂ}
    (hO : O = fun s t => E.ham3 h (s 0) (s 1) (s 2) (t 0) (t 1) (t 2)) (K : Matrix (Fin D) (Fin D) ℂ)
    {z : ℂ} (hz : z = Complex.exp (Complex.I * E.p)) :
    z • epsR K B (E.S2.A 0) + E.rhsY B = rhsR (E.S.A 0) (E.S2.A 0) (E.S2.r 0) B O K z := by
  subst hO
  have z4 : Complex.exp (2 * Complex.I * E.p) = z ^ 2 := by
    rw [hz, ← Complex.exp_nat_mul]; push_cast; ring_nf
  have z5 : Complex.exp (3 * Complex.I * E.p) = z ^ 3 := by
    rw [hz, ← Complex.exp_nat_mul]; push_cast; ring_nf
  have e : ∀ X Y Z : Ten ℂ q D D, calcAAA_AA (calcAA X Y) Z = calcAAA X Y Z := fun _ _ _ => rfl
  rw [rhsR, Finset.sum_range_succ, Finset.sum_range_succ, Finset.sum_range_one]
  simp only [loc]
  rw [ZO_three, ZO_three, ZO_three]
  simp only [Nat.cast_zero, Nat.cast_one, Nat.cast_ofNat, zero_add, pow_one]
  simp only [wall_at (show (0 : ℤ) = 0 from rfl), wall_gt (show (0 : ℤ) < 1 by omega), wall_gt (show (0 : ℤ) < 2 by omega),
    wall_gt (show (1 : ℤ) < 2 by omega), wall_lt (show (0 : ℤ) < 2 by omega), wall_lt (show (1 : ℤ) < 2 by omega),
    wall_lt (show (0 : ℤ) < 1 by omega), wall_at (show (1 : ℤ) = 1 from rfl), wall_at (show (2 : ℤ) = 2 from rfl)]
  rw [ExcOp.rhsY, hham]
  simp only [ExcOp.pre3, conj_move3, hAA, hAAA, z4, z5, ← hz, e]
  rw [calcC3_lin, epsR3_lin, smul_calcC3, smul_epsR3]
  simp only [epsR_eq, epsR3_eq, mapR, calcAAA]

section
variable (R : RootsOk E)
include R

theorem vri_of_v (B : Ten ℂ q D D) : epsR E.r_s B E.V = epsR (E.S2.r 0) B E.Vri := by
  simp only [epsR_eq, ExcOp.Vri, conjTranspose_mul, R.rsi_herm]
  refine Finset.sum_congr rfl fun s _ => ?_
  rw [← R.mul_rsi]
  simp only [Matrix.mul_assoc]

/-- The terms with `K`. -/
theorem kterms (x' : Matrix (Fin D) (Fin v) ℂ) (B : Ten ℂ q D D) (K KL Mh ypi : Matrix (Fin D) (Fin D) ℂ) (w : ℂ)
    {B' : Ten ℂ q D D} (hB' : B' = getBFromX x' E.Vsh E.l_si E.r_si) :
    adot x' (E.l_s * epsR K B E.Vri + E.l_si * (KL * epsR E.r_s B E.V) + w • (E.l_si * (Mh * epsR K (E.S2.A 0) E.Vri))
        + E.l_s * epsR ypi (E.S.A 0) E.Vri)
      = (E.S.l 0 * mapR B B' K).trace + (KL * mapR B B' (E.S2.r 0)).trace + w * (Mh * mapR (E.S2.A 0) B' K).trace
        + close (E.S.A 0) (E.S.l 0) B' ypi := by
  have hB : ∀ s, B' s = E.l_si * x' * E.Vri s := by rw [hB']; exact R.bra x'
  rw [close, bra_R R.si_herm x' B' hB, bra_R R.si_herm x' B' hB, bra_R R.si_herm x' B' hB, bra_R R.si_herm x' B' hB,
    vri_of_v R, adot_eq_trace, ← R.si_mul]
  simp only [Matrix.mul_add, Matrix.trace_add, Matrix.mul_smul, Matrix.trace_smul, Matrix.mul_assoc, smul_eq_mul]

theorem assemble2 (x' : Matrix (Fin D) (Fin v) ℂ) (h : Fin q → Fin q → Fin q → Fin q → ℂ) (B : Ten ℂ q D D)
    (hAA2 : E.S2.AA 0 = calcAA (E.S2.A 0) (E.S2.A 0)) {O : (Fin (1 + 1) → Fin q) → (Fin (1 + 1) → Fin q) → ℂ}
    (hO : O = fun s t => E.ham2 h (s 0) (s 1) (t 0) (t 1)) (K KL Mh ypi : Matrix (Fin D) (Fin D) ℂ)
    {z : ℂ} (hz : z = Complex.exp (Complex.I * E.p))
    {B' : Ten ℂ q D D} (hB' : B' = getBFromX x' E.Vsh E.l_si E.r_si) :
    adot x' (E.local2 h B Mh + (E.l_s * epsR K B E.Vri + E.l_si * (KL * epsR E.r_s B E.V)
        + z⁻¹ • (E.l_si * (Mh * epsR K (E.S2.A 0) E.Vri)) + E.l_s * epsR ypi (E.S.A 0) E.Vri))
      = total (E.S.A 0) (E.S2.A 0) (E.S.l 0) (E.S2.r 0) B' B O K KL z Mh ypi := by
  rw [adot_add_right, kterms R x' B K KL Mh ypi z⁻¹ hB', local2_eq R h B Mh hAA2 hz, adot_eq_trace,
    ← spec2_eq R x' (E.ham2 h) B Mh hO z z⁻¹ hB', total, hzero]
  simp only [Finset.sum_range_succ, Finset.sum_range_zero, Nat.sub_zero, Nat.sub_self, Nat.cast_zero,
    zero_add, pow_one, Nat.reduceAdd, add_zero]
  ring

theorem assemble3 (x' : Matrix (Fin D) (Fin v) ℂ) (h : Fin q → Fin q → Fin q → Fin q → Fin q → Fin q → ℂ) (B : Ten ℂ q D D)
    (hl : (E.S.l 0)ᴴ = E.S.l 0) (hAA : E.S.AA 0 = calcAA (E.S.A 0) (E.S.A 0))
    (hAA2 : E.S2.AA 0 = calcAA (E.S2.A 0) (E.S2.A 0)) (hAAA : E.S2.AAA 0 = calcAAA (E.S2.A 0) (E.S2.A 0) (E.S2.A 0))
    {O : (Fin (2 + 1) → Fin q) → (Fin (2 + 1) → Fin q) → ℂ}
    (hO : O = fun s t => E.ham3 h (s 0) (s 1) (s 2) (t 0) (t 1) (t 2)) (K KL Mh ypi : Matrix (Fin D) (Fin D) ℂ)
    {z : ℂ} (hz : z = Complex.exp (Complex.I * E.p))
    {B' : Ten ℂ q D D} (hB' : B' = getBFromX x' E.Vsh E.l_si E.r_si) :
    adot x' (E.local3 h B Mh + (E.l_s * epsR K B E.Vri + E.l_si * (KL * epsR E.r_s B E.V)
        + z⁻¹ • (E.l_si * (Mh * epsR K (E.S2.A 0) E.Vri)) + E.l_s * epsR ypi (E.S.A 0) E.Vri))
      = total (E.S.A 0) (E.S2.A 0) (E.S.l 0) (E.S2.r 0) B' B O K KL z Mh ypi := by
  rw [adot_add_right, kterms R x' B K KL Mh ypi z⁻¹ hB', local3_eq R hl h B Mh hAA hAA2 hAAA hz, adot_eq_trace,
    ← spec3_eq R x' (E.ham3 h) B Mh hO z z⁻¹ hB', total, hzero]
  simp only [Finset.sum_range_succ, Finset.sum_range_zero, Nat.sub_zero, Nat.sub_self, Nat.cast_zero, Nat.cast_one,
    zero_add, pow_one, Nat.reduceAdd, add_zero, Nat.reduceSub, Int.reduceAdd, Int.reduceNeg]
  ring

end

end Exc

end EvoMPS
