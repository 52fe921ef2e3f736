import Verif.MatMul
import Verif.MpsGen
import Mathlib.LinearAlgebra.Matrix.Charpoly.Basic

/-!
# Schmidt coefficients and entropy (`mps_gen.py`)
-/

namespace EvoMPS

open Matrix

/-- `scipy.linalg.eigvals(M)` with its contract: the eigenvalues with multiplicities, in any
order. -/
structure EigVals where
  ev : ∀ {n : ℕ}, Matrix (Fin n) (Fin n) ℂ → Fin n → ℂ
  spec : ∀ {n : ℕ} (M : Matrix (Fin n) (Fin n) ℂ),
    M.charpoly = ∏ i, (Polynomial.X - Polynomial.C (ev M i))

/-- `mps_gen.py:721-744` `schmidt_sq(n)`; `l`, `r` are `get_l(n)`, `get_r(n)` with their classes.
`eyemat` has no attribute `diag`, so a product of two identities goes to `eigvals` as well. -/
def schmidtSq (eig : EigVals) {n : ℕ} (l r : MM ℂ n n) : Fin n → ℂ :=
  match l.mmul (.cons r (.nil n)) with
  | .diag d => d
  | .eye _ => eig.ev (MM.eye n : MM ℂ n n).toArray
  | .dense M => eig.ev M

/-- `mps_gen.py:772-774` `entropy(n)` from the numbers `lam`; `log2` is `scipy.log2`. -/
noncomputable def entropyOf (log2 : ℂ → ℂ) {n : ℕ} (lam : Fin n → ℂ) : ℝ := by
  classical
  exact (-(∑ i ∈ Finset.univ.filter fun i => lam i ≠ 0, lam i * log2 (lam i))).re

/-- `mps_gen.py:746-777` `entropy(n)`. -/
noncomputable def entropy (eig : EigVals) (log2 : ℂ → ℂ) {n : ℕ} (l r : MM ℂ n n) : ℝ :=
  entropyOf log2 (schmidtSq eig l r)

end EvoMPS
