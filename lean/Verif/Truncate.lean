import Verif.SetState
import Mathlib.Analysis.Complex.Norm

/-!
# Truncation of the bond dimensions (`mps_gen.py`)

`none` is a raised exception.
-/

namespace EvoMPS

open Matrix

section
variable {R : Type*} [CommRing R]

/-- Length of the python slice `x[-k:]` of an axis of length `m`; `-0` is `0`, so `k = 0` selects
everything. -/
def sliceLen (m k : ℕ) : ℕ := if k = 0 then m else min k m

/-- `tmp_A[n][:, -a':, -b':]`. -/
def sliceTen {q a b : ℕ} (a' b' : ℕ) (t : Ten R q a b) : Ten R q (sliceLen a a') (sliceLen b b') :=
  fun s => Matrix.of fun i j => t s
    ⟨a - sliceLen a a' + i, by have := i.isLt; unfold sliceLen at *; split_ifs at * <;> omega⟩
    ⟨b - sliceLen b b' + j, by have := j.isLt; unfold sliceLen at *; split_ifs at * <;> omega⟩

/-- `sp.all(new_D == self.D)`, entries `0..N`. -/
def sameDims (N : ℕ) (newD D : ℕ → ℕ) : Bool := (List.range (N + 1)).all fun n => newD n == D n

/-- `sp.all(new_D <= self.D)`, entries `0..N`. -/
def leDims (N : ℕ) (newD D : ℕ → ℕ) : Bool :=
  (List.range (N + 1)).all fun n => decide (newD n ≤ D n)

/-- `mps_gen.py:608-654` `truncate(new_D, update=False)`: the new tensors.  Line 634 rejects larger
dimensions; lines 636-637 take the maximum of an empty array, which raises, when nothing
changes. -/
def truncate (N : ℕ) {q D : ℕ → ℕ} (A : Tensors R q D) (newD : ℕ → ℕ) :
    Option (Tensors R q newD) :=
  if leDims N newD D = false then none
  else if sameDims N newD D = true then none
  else
    (List.range' 0 N).foldl (fun (S : Option (Tensors R q newD)) n => S.bind fun A' =>
      (assignTen (newD n) (newD (n + 1)) (sliceTen (newD n) (newD (n + 1)) (A n))).map fun t =>
        Function.update A' n t) (some 0)

end

/-- The `new_D` of `mps_gen.py:574-589`: bonds `1..N` are set to the number of diagonal entries of
`l[n]` (of `r[n]` for the left canonical form) larger than the tolerance. -/
noncomputable def autoDims (N : ℕ) {D : ℕ → ℕ} (tol : ℝ) (env : Envs ℂ D) : ℕ → ℕ :=
  (List.range' 1 N).foldl (fun newD n => Function.update newD n
    (((List.finRange (D n)).filter fun i => decide (tol < ‖env n i i‖)).length)) D

/-- `mps_gen.py:552-605` `auto_truncate(update=False, zero_tol=tol)`; `env` is `self.l` for
`canonical_form == 'right'` and `self.r` for `'left'`.  `some none` is the return value `False`
(nothing to do). -/
noncomputable def autoTruncate (N : ℕ) {q D : ℕ → ℕ} (A : Tensors ℂ q D) (env : Envs ℂ D) (tol : ℝ) :
    Option (Option (Tensors ℂ q (autoDims N tol env))) :=
  if sameDims N (autoDims N tol env) D = false then
    (truncate N A (autoDims N tol env)).map some
  else some none

end EvoMPS
