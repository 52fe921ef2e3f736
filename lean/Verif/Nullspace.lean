import Verif.Spec

/-!
# Null spaces (`nullspace.py`)
-/

namespace EvoMPS

open Matrix

/-- `scipy.linalg.qr(A)` in its default mode with its contract: a unitary `Q`, an upper triangular
`R` of the shape of `A`, and `A = Q R`. -/
structure FullQR (R : Type*) [CommRing R] [StarRing R] where
  Q : ∀ {m n : ℕ}, Matrix (Fin m) (Fin n) R → Matrix (Fin m) (Fin m) R
  fac : ∀ {m n : ℕ}, Matrix (Fin m) (Fin n) R → Matrix (Fin m) (Fin n) R
  mul_eq : ∀ {m n : ℕ} (A : Matrix (Fin m) (Fin n) R), Q A * fac A = A
  unit : ∀ {m n : ℕ} (A : Matrix (Fin m) (Fin n) R), (Q A)ᴴ * Q A = 1
  tri : ∀ {m n : ℕ} (A : Matrix (Fin m) (Fin n) R) (i : Fin m) (j : Fin n),
    j.val < i.val → fac A i j = 0

variable {R : Type*} [CommRing R] [StarRing R]

/-- `nullspace.py:98-126` `nullspace_qr(A)`: `Q, R = qr(A.T)`, `ns = Q[:, R.shape[1]:].conj()`.
`A.T` has `k` rows and `m` columns, so the slice drops the first `m` of the `k` columns of `Q`; it is
empty when `k <= m`. -/
def nullspaceQr (qr : FullQR R) {m k : ℕ} (A : Matrix (Fin m) (Fin k) R) :
    Matrix (Fin k) (Fin (k - m)) R :=
  Matrix.of fun i j => star (qr.Q Aᵀ i ⟨m + j, by omega⟩)

end EvoMPS
