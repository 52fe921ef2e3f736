import Verif.Nullspace
import Mathlib.LinearAlgebra.Matrix.NonsingularInverse
import Mathlib.LinearAlgebra.Matrix.Rank

/-!
# Null spaces: helper lemmas
-/

namespace EvoMPS

open Matrix

variable {R : Type*} [CommRing R] [StarRing R]

/-- Splitting a sum over `Fin k` at `m`. -/
theorem sum_fin_split {M : Type*} [AddCommMonoid M] {m k : ℕ} (h : m ≤ k) (f : Fin k → M) :
    ∑ i, f i = ∑ i : Fin m, f ⟨i, by omega⟩ + ∑ j : Fin (k - m), f ⟨m + j, by omega⟩ := by
  rw [← (finCongr (show m + (k - m) = k by omega)).sum_comp f, Fin.sum_univ_add]
  rfl

theorem one_fin_eq {k : ℕ} {n : ℕ} (i j : Fin n) (i' j' : Fin k) (h : i' = j' ↔ i = j) :
    (1 : Matrix (Fin k) (Fin k) R) i' j' = (1 : Matrix (Fin n) (Fin n) R) i j := by
  rw [Matrix.one_apply, Matrix.one_apply]
  by_cases hij : i = j
  · rw [if_pos hij, if_pos (h.mpr hij)]
  · rw [if_neg hij, if_neg fun h' => hij (h.mp h')]

section
variable (qr : FullQR R) {m k : ℕ} (A : Matrix (Fin m) (Fin k) R)

theorem FullQR.unit' {m n : ℕ} (A : Matrix (Fin m) (Fin n) R) : qr.Q A * (qr.Q A)ᴴ = 1 :=
  mul_eq_one_comm.mp (qr.unit A)

theorem nullspaceQr_iso : (nullspaceQr qr A)ᴴ * nullspaceQr qr A = 1 := by
  ext i j
  rw [← one_fin_eq (R := R) i j (⟨m + j, by omega⟩ : Fin k) ⟨m + i, by omega⟩
    (by simp [Fin.ext_iff, eq_comm]), ← qr.unit Aᵀ]
  simp only [nullspaceQr, Matrix.mul_apply, conjTranspose_apply, Matrix.of_apply, star_star]
  exact Finset.sum_congr rfl fun s _ => mul_comm _ _

theorem nullspaceQr_fac : A = (qr.fac Aᵀ)ᵀ * (qr.Q Aᵀ)ᵀ := by
  rw [← Matrix.transpose_mul, qr.mul_eq, Matrix.transpose_transpose]

theorem nullspaceQr_null : A * nullspaceQr qr A = 0 := by
  have e : ∀ t j, ((qr.Q Aᵀ)ᵀ * nullspaceQr qr A) t j
      = (1 : Matrix (Fin k) (Fin k) R) ⟨m + j, by omega⟩ t := by
    intro t j
    rw [← qr.unit Aᵀ]
    simp only [Matrix.mul_apply, conjTranspose_apply, nullspaceQr, Matrix.of_apply, transpose_apply]
    exact Finset.sum_congr rfl fun s _ => mul_comm _ _
  have h : (qr.fac Aᵀ)ᵀ * ((qr.Q Aᵀ)ᵀ * nullspaceQr qr A) = 0 := by
    ext i j
    rw [Matrix.mul_apply, Matrix.zero_apply]
    refine Finset.sum_eq_zero fun t _ => ?_
    rw [e, Matrix.one_apply]
    split
    · next ht => rw [Matrix.transpose_apply, ← ht, qr.tri _ _ _ (by simp; omega), zero_mul]
    · rw [mul_zero]
  rw [← Matrix.mul_assoc, ← nullspaceQr_fac] at h
  exact h

/-- If the rows of `A` are independent the columns of the result span the null space. -/
theorem nullspaceQr_complete (hA : IsUnit (A * Aᴴ).det) {n : ℕ} (w : Matrix (Fin k) (Fin n) R)
    (hw : A * w = 0) : nullspaceQr qr A * ((nullspaceQr qr A)ᴴ * w) = w := by
  rcases subsingleton_or_nontrivial R with hR | hR
  · exact Subsingleton.elim _ _
  have hkm : m ≤ k := by
    have h1 := Matrix.rank_of_isUnit _ ((Matrix.isUnit_iff_isUnit_det _).mpr hA)
    have h2 := (Matrix.rank_mul_le_left A Aᴴ).trans (Matrix.rank_le_width A)
    rw [Fintype.card_fin] at h1
    omega
  let T : Matrix (Fin m) (Fin m) R := Matrix.of fun i j => qr.fac Aᵀ ⟨j, by omega⟩ i
  let U : Matrix (Fin k) (Fin m) R := Matrix.of fun i j => star (qr.Q Aᵀ i ⟨j, by omega⟩)
  have hT : A = T * Uᴴ := by
    conv_lhs => rw [nullspaceQr_fac qr A]
    ext i j
    rw [Matrix.mul_apply, Matrix.mul_apply, sum_fin_split hkm]
    rw [Finset.sum_eq_zero (s := Finset.univ (α := Fin (k - m))), add_zero]
    · simp [T, U]
    · intro t _
      rw [Matrix.transpose_apply, qr.tri _ _ _ (by simp; omega), zero_mul]
  have hU : Uᴴ * U = 1 := by
    ext i j
    rw [← one_fin_eq (R := R) i j (⟨j, by omega⟩ : Fin k) ⟨i, by omega⟩
      (by simp [Fin.ext_iff, eq_comm]), ← qr.unit Aᵀ]
    simp only [U, Matrix.mul_apply, conjTranspose_apply, Matrix.of_apply, star_star]
    exact Finset.sum_congr rfl fun s _ => mul_comm _ _
  have hTT : A * Aᴴ = T * Tᴴ := by
    rw [hT, Matrix.conjTranspose_mul, Matrix.conjTranspose_conjTranspose, Matrix.mul_assoc,
      ← Matrix.mul_assoc Uᴴ, hU, Matrix.one_mul]
  have hdet : IsUnit T.det := by
    rw [hTT, Matrix.det_mul] at hA
    exact isUnit_of_mul_isUnit_left hA
  have hUw : Uᴴ * w = 0 := by
    rw [hT, Matrix.mul_assoc] at hw
    have := congrArg (T⁻¹ * ·) hw
    simpa [← Matrix.mul_assoc, Matrix.nonsing_inv_mul _ hdet] using this
  have hsum : U * Uᴴ + nullspaceQr qr A * (nullspaceQr qr A)ᴴ = 1 := by
    ext i j
    rw [← one_fin_eq (R := R) i j j i (by rw [eq_comm]), ← qr.unit' Aᵀ, Matrix.add_apply,
      Matrix.mul_apply, Matrix.mul_apply, Matrix.mul_apply, sum_fin_split hkm]
    simp only [U, nullspaceQr, conjTranspose_apply, Matrix.of_apply, star_star]
    congr 1 <;> exact Finset.sum_congr rfl fun s _ => mul_comm _ _
  rw [← Matrix.mul_assoc]
  conv_rhs => rw [← Matrix.one_mul w, ← hsum, Matrix.add_mul, Matrix.mul_assoc U, hUw,
    Matrix.mul_zero, zero_add]

end

end EvoMPS
