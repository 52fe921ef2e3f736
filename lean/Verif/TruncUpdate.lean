import Verif.Truncate
import Verif.Renorm

/-!
# The short update after a truncation (`mps_gen.py:310-343`, `656-682`)

`update(auto_truncate=True, restore_CF_after_trunc=False)` after `restore_CF`: the tensors are cut, the environments of the canonical form are
cut as well, and only the remaining ones are computed again.  Index convention as in `MpsGen.lean`; `none` is a raised exception.
-/

namespace EvoMPS

open Matrix

/-- `sp.argwhere(self.D - new_D).max()` (`mps_gen.py:636`), the last bond that is cut.  The value `0` for no such bond is never used, since
the maximum of an empty array raises (`truncate`). -/
def lastTrunc (N : ℕ) (D newD : ℕ → ℕ) : ℕ := ((List.range (N + 1)).reverse.find? fun n => newD n != D n).getD 0

/-- `sp.argwhere(self.D - new_D).min()` (`mps_gen.py:637`), the first bond that is cut. -/
def firstTrunc (N : ℕ) (D newD : ℕ → ℕ) : ℕ := ((List.range (N + 1)).find? fun n => newD n != D n).getD 0

/-- `m.simple_diag_matrix(old_l[n].diag[-self.D[n]:])` (`mps_gen.py:661`, `673`) for `0 < D' ≤ D`. -/
noncomputable def tailDiag {D : ℕ} (D' : ℕ) (M : Matrix (Fin D) (Fin D) ℂ) : Matrix (Fin D') (Fin D') ℂ :=
  diagonal fun i => if h : D - D' + i.val < D then M ⟨D - D' + i.val, h⟩ ⟨D - D' + i.val, h⟩ else 0

variable {q D newD : ℕ → ℕ}

/-- `mps_gen.py:645` `_init_arrays()` and the loop over the tensors: `l[0]` and `r[N]` are identity matrices, the other environments zero
(`mps_gen.py:127-141`). -/
noncomputable def initTrunc (N : ℕ) (A : Tensors ℂ q newD) : MPS ℂ q newD := ⟨A, Function.update 0 0 1, Function.update 0 N 1⟩

/-- `mps_gen.py:656-669`, `682` `_update_after_truncate(...)` for `canonical_form == 'right'`.  Lines 658 and 663 set the only entry of a matrix with
one row and one column. -/
noncomputable def updateAfterTruncR (N : ℕ) (hN : newD N = 1) (last : ℕ) (oldL : Envs ℂ D) (normalize : Bool) (S : MPS ℂ q newD) :
    MPS ℂ q newD :=
  let S := { S with r := Function.update S.r 0 1 }
  let S := (List.range' 1 (N - 1)).foldl (fun (S : MPS ℂ q newD) n => { S with l := Function.update S.l n (tailDiag (newD n) (oldL n)) }) S
  let S := { S with l := Function.update S.l N 1 }
  let S := (List.range' last (N - last)).reverse.foldl (fun (S : MPS ℂ q newD) n => { S with r := Function.update S.r n 1 }) S
  let S := calcR N S none (if last = 0 then none else some (last - 1))
  if normalize then simpleRenorm N hN S true else S

/-- `mps_gen.py:670-682` `_update_after_truncate(...)` for `canonical_form == 'left'`.  Line 675 sets `r[0]`. -/
noncomputable def updateAfterTruncL (N : ℕ) (hN : newD N = 1) (first : ℕ) (oldR : Envs ℂ D) (normalize : Bool) (S : MPS ℂ q newD) :
    MPS ℂ q newD :=
  let S := { S with l := Function.update S.l 0 1 }
  let S := (List.range' 1 (N - 1)).foldl (fun (S : MPS ℂ q newD) n => { S with r := Function.update S.r n (tailDiag (newD n) (oldR n)) }) S
  let S := { S with r := Function.update S.r 0 1 }
  let S := (List.range' 1 (first - 1)).foldl (fun (S : MPS ℂ q newD) n => { S with l := Function.update S.l n 1 }) S
  let S := calcL N S (some first) none
  if normalize then simpleRenorm N hN S true else S

/-- `mps_gen.py:335-343` of `update(normalize, auto_truncate=True, restore_CF_after_trunc=False)` after `restore_CF`, right canonical form.
`some none`: nothing was cut. -/
noncomputable def updateTruncR (N : ℕ) (S : MPS ℂ q D) (tol : ℝ) (normalize : Bool) :
    Option (Option (MPS ℂ q (autoDims N tol S.l))) :=
  match autoTruncate N S.A S.l tol with
  | none => none
  | some none => some none
  | some (some A') =>
    if hN : autoDims N tol S.l N = 1 then
      some (some (updateAfterTruncR N hN (lastTrunc N D (autoDims N tol S.l)) S.l normalize (initTrunc N A')))
    else none

/-- The same for the left canonical form. -/
noncomputable def updateTruncL (N : ℕ) (S : MPS ℂ q D) (tol : ℝ) (normalize : Bool) :
    Option (Option (MPS ℂ q (autoDims N tol S.r))) :=
  match autoTruncate N S.A S.r tol with
  | none => none
  | some none => some none
  | some (some A') =>
    if hN : autoDims N tol S.r N = 1 then
      some (some (updateAfterTruncL N hN (firstTrunc N D (autoDims N tol S.r)) S.r normalize (initTrunc N A')))
    else none

end EvoMPS
