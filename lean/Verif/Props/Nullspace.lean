import Verif.Contracts

/-!
# Property C39: null spaces

The number of columns of the result, `columns - rows`, is part of the type of `nullspaceQr`.
-/

namespace EvoMPS

open Matrix

variable {R : Type*} [CommRing R] [StarRing R]

/-- C39.  `nullspace_qr(A)` has `k - m` orthonormal columns and each of them is annihilated by
`A`, for every full QR factorisation. -/
theorem C39_nullspace (qr : FullQR R) {m k : ℕ} (A : Matrix (Fin m) (Fin k) R) :
    (nullspaceQr qr A)ᴴ * nullspaceQr qr A = 1 ∧ A * nullspaceQr qr A = 0 :=
  ⟨nullspaceQr_iso qr A, nullspaceQr_null qr A⟩

/-- C39.  When the rows of `A` are linearly independent (`A Aᴴ` is invertible), the columns span
the null space: every `w` with `A w = 0` is a combination of them. -/
theorem C39_complete (qr : FullQR R) {m k : ℕ} (A : Matrix (Fin m) (Fin k) R)
    (hA : IsUnit (A * Aᴴ).det) (w : Fin k → R) (hw : A *ᵥ w = 0) :
    ∃ c : Fin (k - m) → R, w = nullspaceQr qr A *ᵥ c := by
  refine ⟨(nullspaceQr qr A)ᴴ *ᵥ w, ?_⟩
  have h := nullspaceQr_complete qr A hA (Matrix.of fun i (_ : Fin 1) => w i) (by
    ext i j
    exact congrFun hw i)
  funext i
  exact (congrFun (congrFun h i) 0).symm

/-- The contract can be met for every complex matrix, and a concrete matrix with independent rows
has a null vector. -/
example : ∃ c : Fin (3 - 2) → ℂ, (![2, -1, 2] : Fin 3 → ℂ)
    = nullspaceQr fullQR (!![1, 2, 0; 0, 2, 1] : Matrix (Fin 2) (Fin 3) ℂ) *ᵥ c := by
  refine C39_complete fullQR _ ?_ _ ?_
  · rw [isUnit_iff_ne_zero, Matrix.det_fin_two]
    simp [Matrix.mul_apply, Fin.sum_univ_succ, Complex.conj_ofNat]
    norm_num
  · funext i
    fin_cases i <;> simp [Matrix.mulVec, dotProduct, Fin.sum_univ_succ]

end EvoMPS
