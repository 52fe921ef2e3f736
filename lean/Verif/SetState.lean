import Verif.InitState
import Verif.MpsGen

/-!
# Setting the state (`mps_gen.py`): product states, given tensors, save and load

`none` is a raised exception.
-/

namespace EvoMPS

open Matrix

variable {R : Type*} [CommRing R]

/-- `mps_gen.py:230-232`: the loop `for q in range(cnt): A[q,0,0] = v[q]` on a zero-filled tensor;
an index outside of the tensor or the vector raises. -/
def prodSite (q a b : ℕ) (cnt : ℕ) (v : List R) : Option (Ten R q a b) :=
  (List.range cnt).foldl (fun (S : Option (Ten R q a b)) j => S.bind fun A =>
    if j < q ∧ 0 < a ∧ 0 < b then
      (v[j]?).map fun c => fun s => Matrix.of fun x y =>
        if s.val = j ∧ x.val = 0 ∧ y.val = 0 then c else A s x y
    else none) (some 0)

/-- `mps_gen.py:212-235` `set_state_product(psi, do_update=False)`.  `qPy` is the python array
`self.q` with its unused entry 0, the tensor of site `n` (python's `A[n + 1]`) has the site
dimension `qPy (n + 1)`, while line 231 loops up to `self.q[n]`.  `none` entries beyond the end of
`psi` cannot occur for a list of `N` vectors. -/
def setStateProduct (N : ℕ) (qPy D : ℕ → ℕ) (A : Tensors R (fun n => qPy (n + 1)) D)
    (ψ : ℕ → List R) : Option (Tensors R (fun n => qPy (n + 1)) D) :=
  (List.range' 0 N).foldl (fun (S : Option (Tensors R (fun n => qPy (n + 1)) D)) n =>
    S.bind fun A => (prodSite (qPy (n + 1)) (D n) (D (n + 1)) (qPy n) (ψ n)).map fun t =>
      Function.update A n t) (some A)

/-- numpy's index rule for a source axis of length `m` broadcast to a target axis: axes of length
one are repeated. -/
def bcast (m : ℕ) (i : ℕ) : ℕ := if m = 1 then 0 else i

/-- The assignment `dst[:] = src` for arrays with the same number of site states: numpy raises
unless every source axis has the target's length or length one. -/
def assignTen {q a b : ℕ} (a' b' : ℕ) (t : Ten R q a b) : Option (Ten R q a' b') :=
  if h : (a = a' ∨ a = 1) ∧ (b = b' ∨ b = 1) then
    some fun s => Matrix.of fun i j => t s
      ⟨bcast a i, by have := i.isLt; unfold bcast; split_ifs <;> omega⟩
      ⟨bcast b j, by have := j.isLt; unfold bcast; split_ifs <;> omega⟩
  else none

/-- The vector `D` of `mps_gen.py:253` (and line 48): the left dimensions `a n` of the `M` tensors,
then the right dimension of the last one. -/
def dimsOf (M : ℕ) (a b : ℕ → ℕ) : ℕ → ℕ := fun n => if n < M then a n else b (M - 1)

/-- `mps_gen.py:237-260` `set_state_from_tensors(A, do_update=False)` on a chain of `N` sites for a
list of `M` tensors `T n` of shape `(q n, a n, b n)` (python's `A[n + 1]`; `A[0] is None` holds
as the list is given without it).  An empty list fails in line 253 (`None.shape`). -/
def setStateFromTensors (N M : ℕ) {q a b : ℕ → ℕ} (T : ∀ n, Ten R (q n) (a n) (b n)) :
    Option (Tensors R q (dimsOf M a b)) :=
  if M ≠ N then none else if M = 0 then none else
    (List.range' 0 N).foldl (fun (S : Option (Tensors R q (dimsOf M a b))) n => S.bind fun A =>
      (assignTen (dimsOf M a b n) (dimsOf M a b (n + 1)) (T n)).map fun t =>
        Function.update A n t) (some 0)

/-- `mps_gen.py:43-58` `mps_from_tensors_gen(A, do_update=False)`: as above, but the tensors are
copied into a new object whose constructor has corrected the bond dimensions (line 51, which can
fail, see `initState`). -/
noncomputable def mpsFromTensors (M : ℕ) {q a b : ℕ → ℕ} (T : ∀ n, Ten ℂ (q n) (a n) (b n)) :
    Option (Tensors ℂ q (correctBondDim M q (dimsOf M a b))) :=
  if M = 0 then none else
    (initState M q (correctBondDim M q (dimsOf M a b))).bind fun A0 =>
      (List.range' 0 M).foldl (fun (S : Option (Tensors ℂ q (correctBondDim M q (dimsOf M a b)))) n =>
        S.bind fun A =>
          (assignTen (correctBondDim M q (dimsOf M a b) n)
            (correctBondDim M q (dimsOf M a b) (n + 1)) (T n)).map fun t =>
              Function.update A n t) (some A0)

/-- A file written by `save_state`: the object array `self.A` with all shapes
(`mps_gen.py:1178-1188`).  `numpy.save`/`numpy.load` are assumed to restore arrays exactly. -/
structure StateFile (R : Type*) where
  M : ℕ
  q : ℕ → ℕ
  a : ℕ → ℕ
  b : ℕ → ℕ
  T : ∀ n, Ten R (q n) (a n) (b n)

/-- `mps_gen.py:1178-1188` `save_state(file)`. -/
def saveState (N : ℕ) {q D : ℕ → ℕ} (A : Tensors R q D) : StateFile R :=
  ⟨N, q, D, fun n => D (n + 1), A⟩

/-- `mps_gen.py:1190-1211` `load_state(file, do_update=False)` on an object with `N` sites: the new
`D[0..N]` and the new tensors, which are the loaded ones with whatever shape they have.  A file
with too few tensors raises. -/
def loadState (N : ℕ) (Dold : ℕ → ℕ) (F : StateFile R) :
    Option ((ℕ → ℕ) × (∀ n, Ten R (F.q n) (F.a n) (F.b n))) :=
  if F.M < N then none else
    let D : ℕ → ℕ := (List.range' 0 N).foldl (fun D n => Function.update D (n + 1) (F.b n))
      (Function.update Dold 0 1)
    some (D, F.T)

end EvoMPS
