import Verif.Basic
import Mathlib.LinearAlgebra.Matrix.Rank
import Mathlib.Analysis.Complex.Norm
import Mathlib.Analysis.RCLike.Basic

/-!
# Rank and null space from a singular value decomposition (`nullspace.py`)
-/

namespace EvoMPS

open Matrix

/-- `scipy.linalg.svd(A)`: `u`, `s`, `vh`. -/
structure FullSvd (m k : ℕ) where
  u : Matrix (Fin m) (Fin m) ℂ
  s : Fin (min m k) → ℝ
  vh : Matrix (Fin k) (Fin k) ℂ

/-- The routine for all matrices. -/
abbrev SvdFn := ∀ m k, Matrix (Fin m) (Fin k) ℂ → FullSvd m k

/-- The matrix with the singular values on the diagonal. -/
noncomputable def FullSvd.sigma {m k : ℕ} (d : FullSvd m k) : Matrix (Fin m) (Fin k) ℂ := fun i j =>
  if h : i.val = j.val then (d.s ⟨i, by have := i.isLt; have := j.isLt; omega⟩ : ℂ) else 0

/-- The behaviour assumed of `scipy.linalg.svd`: unitary factors, singular values that are not negative, in descending order. -/
structure FullSvd.Ok {m k : ℕ} (d : FullSvd m k) (A : Matrix (Fin m) (Fin k) ℂ) : Prop where
  u_unit : d.uᴴ * d.u = 1
  v_unit : d.vh * d.vhᴴ = 1
  nonneg : ∀ i, 0 ≤ d.s i
  desc : Antitone d.s
  fac : A = d.u * d.sigma * d.vh

variable {m k : ℕ}

/-- The number of singular values that are at least `tol`. -/
noncomputable def nsCount (s : Fin (min m k) → ℝ) (tol : ℝ) : ℕ := (Finset.univ.filter fun i => tol ≤ s i).card

/-- The tolerance, `nullspace.py:51`, `93`; `s[0]` raises for an empty matrix. -/
noncomputable def svTol (s : Fin (min m k) → ℝ) (atol rtol : ℝ) : Option ℝ :=
  if h : 0 < min m k then some (max atol (rtol * s ⟨0, h⟩)) else none

/-- `nullspace.py:14-53` `rank(A, atol, rtol)` for an array with two indices. -/
noncomputable def svdRank (svd : SvdFn) (A : Matrix (Fin m) (Fin k) ℂ) (atol rtol : ℝ) : Option ℕ :=
  (svTol (svd m k A).s atol rtol).map fun tol => nsCount (svd m k A).s tol

/-- `nullspace.py:95` `vh[nnz:].conj().T`. -/
def svTail (vh : Matrix (Fin k) (Fin k) ℂ) (nnz : ℕ) : Matrix (Fin k) (Fin (k - nnz)) ℂ :=
  fun j i => star (vh ⟨nnz + i, by have := i.isLt; omega⟩ j)

/-- `nullspace.py:56-96` `nullspace(A, atol, rtol)` for an array with two indices: the number of columns and the array. -/
noncomputable def svdNullspace (svd : SvdFn) (A : Matrix (Fin m) (Fin k) ℂ) (atol rtol : ℝ) :
    Option ((n : ℕ) × Matrix (Fin k) (Fin n) ℂ) :=
  (svTol (svd m k A).s atol rtol).map fun tol =>
    let nnz := nsCount (svd m k A).s tol
    ⟨k - nnz, svTail (svd m k A).vh nnz⟩

end EvoMPS
