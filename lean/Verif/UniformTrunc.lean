import Verif.UniformEnv
import Mathlib.Analysis.Complex.Basic

/-!
# Truncation of the bond dimension of the uniform chain (`mps_uniform.py`)

`none` is a raised exception.  `update()` after the truncation is not part of the functions here (`update=False`).
-/

namespace EvoMPS.Uni

open Matrix

variable {q D : ℕ}

/-- The indices selected by `x[:D']` (`symm = true`) and by `x[-D':]`, for `1 <= D' <= D`. -/
def keepIdx (symm : Bool) {D D' : ℕ} (h : D' ≤ D) (i : Fin D') : Fin D :=
  if symm then ⟨i, by have := i.isLt; omega⟩ else ⟨D - D' + i, by have := i.isLt; omega⟩

/-- `mps_uniform.py:1016-1040` `truncate(newD, update=False)`; `symm` is `self.symm_gauge`.  The attribute `diag` of the matrix objects
`self.l[k]` is read off the diagonal here; for an object that is not diagonal the code raises.  `newD = 0`, for which
`x[-0:]` is all of `x`, is left out (`none`).  The new products `AA` are zero (`_init_arrays`, 271-293). -/
def UMPS.truncate (S : UMPS ℂ q D) (symm : Bool) (newD : ℕ) : Option (UMPS ℂ q newD) :=
  if h : newD < D then
    if S.L = 0 ∨ newD = 0 then none else
    let e := keepIdx symm h.le
    let ls : ℕ → Matrix (Fin newD) (Fin newD) ℂ := fun k => Matrix.diagonal fun i => S.l k (e i) (e i)
    let rs : ℕ → Matrix (Fin newD) (Fin newD) ℂ := fun k => if symm then ls k else 1
    some
      { L := S.L
        A := fun k s => (S.A k s).submatrix e e
        AA := 0
        l := ls
        r := rs
        lL := ls (S.L - 1)
        rL := rs (S.L - 1) }
  else none

/-- `np.count_nonzero(self.l[k].diag > zero_tol)`; numpy compares the real parts of complex numbers first, the entries are real. -/
noncomputable def UMPS.countAbove (S : UMPS ℂ q D) (tol : ℝ) (k : ℕ) : ℕ :=
  (Finset.univ.filter fun i => tol < (S.l k i i).re).card

/-- `new_D_l` of `auto_truncate` (`mps_uniform.py:1003-1005`). -/
noncomputable def UMPS.autoD (S : UMPS ℂ q D) (tol : ℝ) : ℕ :=
  (List.range S.L).foldl (fun n k => max (S.countAbove tol k) n) 1

/-- `mps_uniform.py:999-1014` `auto_truncate(update=False, zero_tol=tol)`; `some none` is the return value `False`. -/
noncomputable def UMPS.autoTruncate (S : UMPS ℂ q D) (symm : Bool) (tol : ℝ) : Option (Option (UMPS ℂ q (S.autoD tol))) :=
  if S.L = 0 then none else
  if 0 < S.autoD tol ∧ S.autoD tol < D then (S.truncate symm (S.autoD tol)).map some else some none

end EvoMPS.Uni
