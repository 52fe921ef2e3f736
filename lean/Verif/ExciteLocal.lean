import Verif.Excite
import Verif.ExciteSum

/-!
# Excitations: the terms of the code (helper lemmas)
-/

set_option linter.unusedSectionVars false

namespace EvoMPS

open Matrix Filter Topology

namespace Exc

open Uni

variable {q D v : ℕ}

theorem ZO_two (X Y : ℤ → Ten ℂ q D D) (c : ℤ) (h : Fin q → Fin q → Fin q → Fin q → ℂ) (x : Matrix (Fin D) (Fin D) ℂ) :
    ZO X Y c 2 (fun s t => h (s 0) (s 1) (t 0) (t 1)) x
      = ∑ s, ∑ t, calcC h (calcAA (X c) (X (c + 1))) s t * x * (Y c s * Y (c + 1) t)ᴴ := by
  rw [ZO, lineOp_two]
  simp

theorem ZO_three (X Y : ℤ → Ten ℂ q D D) (c : ℤ) (h : Fin q → Fin q → Fin q → Fin q → Fin q → Fin q → ℂ)
    (x : Matrix (Fin D) (Fin D) ℂ) :
    ZO X Y c 3 (fun s t => h (s 0) (s 1) (s 2) (t 0) (t 1) (t 2)) x
      = ∑ s, ∑ t, ∑ u, calcC3 h (calcAAA (X c) (X (c + 1)) (X (c + 2))) s t u * x
          * (Y c s * Y (c + 1) t * Y (c + 2) u)ᴴ := by
  rw [ZO, lineOp_three]
  simp

theorem calcCconj_eq {a b : ℕ} (op : Fin q → Fin q → Fin q → Fin q → ℂ) (AA : Ten2 ℂ q q a b) (s t : Fin q) :
    calcCconj op AA s t = ∑ u, ∑ w, star (op u w s t) • AA u w := by
  ext i j
  simp only [calcCconj, ten2OfMat, Matrix.mul_apply, sum_flat, matOfOp2, matOfTen2, flat_divNat,
    flat_modNat, Matrix.sum_apply, Matrix.smul_apply, smul_eq_mul, Matrix.conjTranspose_apply]

theorem sum2 {α M : Type*} [Fintype α] [AddCommMonoid M] (f : α → α → M) : ∑ a, ∑ b, f a b = ∑ x : α × α, f x.1 x.2 := by
  simp only [Fintype.sum_prod_type]

theorem sum4 {α M : Type*} [Fintype α] [AddCommMonoid M] (f : α → α → α → α → M) :
    ∑ a, ∑ b, ∑ c, ∑ d, f a b c d = ∑ x : α × α × α × α, f x.1 x.2.1 x.2.2.1 x.2.2.2 := by
  simp only [Fintype.sum_prod_type]

theorem sum6 {α M : Type*} [Fintype α] [AddCommMonoid M] (f : α → α → α → α → α → α → M) :
    ∑ a, ∑ b, ∑ c, ∑ d, ∑ e, ∑ g, f a b c d e g
      = ∑ x : α × α × α × α × α × α, f x.1 x.2.1 x.2.2.1 x.2.2.2.1 x.2.2.2.2.1 x.2.2.2.2.2 := by
  simp only [Fintype.sum_prod_type]

/-- The adjoint operator on the bra is the operator on the ket. -/
theorem conj_move2 {a b b' c : ℕ} (op : Fin q → Fin q → Fin q → Fin q → ℂ) (x : Matrix (Fin b) (Fin b') ℂ) (T : Ten2 ℂ q q a b)
    (X : Ten2 ℂ q q c b') : epsR2 x T (calcCconj op X) = epsR2 x (calcC op T) X := by
  simp only [epsR2_eq, calcCconj_eq, calcC_eq, conjTranspose_sum, conjTranspose_smul, star_star, Matrix.mul_sum,
    Matrix.sum_mul, Matrix.mul_smul, Matrix.smul_mul]
  rw [sum4, sum4]
  exact Fintype.sum_equiv ⟨fun x => (x.2.2.1, x.2.2.2, x.1, x.2.1), fun x => (x.2.2.1, x.2.2.2, x.1, x.2.1), fun _ => rfl,
    fun _ => rfl⟩ _ _ fun _ => rfl

theorem conj_move3 {a b b' c : ℕ} (op : Fin q → Fin q → Fin q → Fin q → Fin q → Fin q → ℂ) (x : Matrix (Fin b) (Fin b') ℂ)
    (T : Ten3 ℂ q q q a b) (X : Ten3 ℂ q q q c b') : epsR3 x T (calcC3conj op X) = epsR3 x (calcC3 op T) X := by
  simp only [epsR3_eq, calcC3conj, calcC3_eq, conjTranspose_sum, conjTranspose_smul, star_star, Matrix.mul_sum,
    Matrix.sum_mul, Matrix.mul_smul, Matrix.smul_mul]
  rw [sum6, sum6]
  exact Fintype.sum_equiv ⟨fun x => (x.2.2.2.1, x.2.2.2.2.1, x.2.2.2.2.2, x.1, x.2.1, x.2.2.1),
    fun x => (x.2.2.2.1, x.2.2.2.2.1, x.2.2.2.2.2, x.1, x.2.1, x.2.2.1), fun _ => rfl, fun _ => rfl⟩ _ _ fun _ => rfl

section
variable {l_si : Matrix (Fin D) (Fin D) ℂ} {Vri Vr : Ten ℂ q v D} {r : Matrix (Fin D) (Fin D) ℂ} (hsi : l_siᴴ = l_si)
  (hr : ∀ s, r * (Vri s)ᴴ = (Vr s)ᴴ) (x' : Matrix (Fin D) (Fin v) ℂ) (B' A A' : Ten ℂ q D D) (hB' : ∀ s, B' s = l_si * x' * Vri s)
include hsi hB'

/-- A tensor of the bra in one place. -/
theorem bra_place (s : Fin q) (w X Y Z : Matrix (Fin D) (Fin D) ℂ) :
    (w * (X * (Y * B' s * Z)ᴴ)).trace = (x'ᴴ * (l_si * (Yᴴ * w * X * Zᴴ * (Vri s)ᴴ))).trace := by
  rw [hB', conjTranspose_mul, conjTranspose_mul, conjTranspose_mul, conjTranspose_mul, hsi]
  rw [show w * (X * (Zᴴ * ((Vri s)ᴴ * (x'ᴴ * l_si) * Yᴴ))) = (w * X * Zᴴ * (Vri s)ᴴ) * (x'ᴴ * (l_si * Yᴴ)) by
    simp only [Matrix.mul_assoc], Matrix.trace_mul_comm]
  simp only [Matrix.mul_assoc]

theorem bra_R (w z : Matrix (Fin D) (Fin D) ℂ) (P : Ten ℂ q D D) :
    (w * mapR P B' z).trace = (x'ᴴ * (l_si * (w * epsR z P Vri))).trace := by
  simp only [mapR, epsR_eq, Matrix.mul_sum, Matrix.trace_sum]
  refine Finset.sum_congr rfl fun s _ => ?_
  have := bra_place hsi x' B' hB' s w (P s * z) 1 1
  simpa [Matrix.mul_assoc] using this

theorem bra_two_first (w z : Matrix (Fin D) (Fin D) ℂ) (C : Ten2 ℂ q q D D) :
    (w * ∑ s, ∑ t, C s t * z * (B' s * A' t)ᴴ).trace = (x'ᴴ * (l_si * (w * epsR2 z C (calcAA Vri A')))).trace := by
  simp only [epsR2_eq, Matrix.mul_sum, Matrix.trace_sum, calcAA]
  refine Finset.sum_congr rfl fun s _ => Finset.sum_congr rfl fun t _ => ?_
  have := bra_place hsi x' B' hB' s w (C s t * z) 1 (A' t)
  rw [Matrix.one_mul, conjTranspose_one, Matrix.one_mul] at this
  rw [this, conjTranspose_mul]
  simp only [Matrix.mul_assoc]

include hr in
theorem bra_two_second (w : Matrix (Fin D) (Fin D) ℂ) (C : Ten2 ℂ q q D D) :
    (w * ∑ s, ∑ t, C s t * r * (A s * B' t)ᴴ).trace
      = (x'ᴴ * (l_si * ∑ s, ∑ t, (A s)ᴴ * w * C s t * (Vr t)ᴴ)).trace := by
  simp only [Matrix.mul_sum, Matrix.trace_sum]
  refine Finset.sum_congr rfl fun s _ => Finset.sum_congr rfl fun t _ => ?_
  have := bra_place hsi x' B' hB' t w (C s t * r) (A s) 1
  rw [Matrix.mul_one, conjTranspose_one, Matrix.mul_one] at this
  rw [this, ← hr]
  simp only [Matrix.mul_assoc]

theorem bra_three_first (w z : Matrix (Fin D) (Fin D) ℂ) (C : Ten3 ℂ q q q D D) :
    (w * ∑ s, ∑ t, ∑ u, C s t u * z * (B' s * A' t * A' u)ᴴ).trace
      = (x'ᴴ * (l_si * (w * epsR3 z C fun s t u => Vri s * (A' t * A' u)))).trace := by
  simp only [epsR3_eq, Matrix.mul_sum, Matrix.trace_sum]
  refine Finset.sum_congr rfl fun s _ => Finset.sum_congr rfl fun t _ => Finset.sum_congr rfl fun u _ => ?_
  have := bra_place hsi x' B' hB' s w (C s t u * z) 1 (A' t * A' u)
  rw [Matrix.one_mul, conjTranspose_one, Matrix.one_mul] at this
  rw [Matrix.mul_assoc (B' s), this, conjTranspose_mul (Vri s)]
  simp only [Matrix.mul_assoc]

theorem bra_three_second (w z : Matrix (Fin D) (Fin D) ℂ) (C : Ten3 ℂ q q q D D) :
    (w * ∑ s, ∑ t, ∑ u, C s t u * z * (A s * B' t * A' u)ᴴ).trace
      = (x'ᴴ * (l_si * ∑ s, ∑ t, ∑ u, (A s)ᴴ * w * C s t u * z * (A' u)ᴴ * (Vri t)ᴴ)).trace := by
  simp only [Matrix.mul_sum, Matrix.trace_sum]
  refine Finset.sum_congr rfl fun s _ => Finset.sum_congr rfl fun t _ => Finset.sum_congr rfl fun u _ => ?_
  rw [bra_place hsi x' B' hB' t w (C s t u * z) (A s) (A' u)]
  simp only [Matrix.mul_assoc]

include hr in
theorem bra_three_third (w : Matrix (Fin D) (Fin D) ℂ) (C : Ten3 ℂ q q q D D) :
    (w * ∑ s, ∑ t, ∑ u, C s t u * r * (A s * A t * B' u)ᴴ).trace
      = (x'ᴴ * (l_si * ∑ s, ∑ t, ∑ u, (A s * A t)ᴴ * w * C s t u * (Vr u)ᴴ)).trace := by
  simp only [Matrix.mul_sum, Matrix.trace_sum]
  refine Finset.sum_congr rfl fun s _ => Finset.sum_congr rfl fun t _ => Finset.sum_congr rfl fun u _ => ?_
  have := bra_place hsi x' B' hB' u w (C s t u * r) (A s * A t) 1
  rw [Matrix.mul_one, conjTranspose_one, Matrix.mul_one] at this
  rw [this, ← hr]
  simp only [Matrix.mul_assoc]

end

end Exc

end EvoMPS
