import Verif.Spec
import Verif.Basic
import Verif.BondDim
import Mathlib.Data.Complex.Basic
import Mathlib.Analysis.Real.Sqrt

/-!
# The initial state (`initialize_state` of `mps_gen.py`)
-/

namespace EvoMPS

open Matrix

/-- The loop variables of `mps_gen.py:195-209`: the tensor being filled and the indices
`s`, `x`, `y`. -/
structure WalkSt (q a b : ℕ) where
  A : Ten ℂ q a b
  s : ℕ
  x : ℕ
  y : ℕ

/-- One iteration of the loop `mps_gen.py:200-209`; `none` is the `IndexError` of line 201. -/
def walkStep {q a b : ℕ} (f : ℂ) (W : WalkSt q a b) : Option (WalkSt q a b) :=
  if W.s < q ∧ W.x < a ∧ W.y < b then
    let A : Ten ℂ q a b := fun s' => Matrix.of fun x' y' =>
      if s'.val = W.s ∧ x'.val = W.x ∧ y'.val = W.y then f else W.A s' x' y'
    let x := W.x + 1
    let y := W.y + 1
    if x ≥ a then some ⟨A, W.s + 1, 0, y⟩
    else if y ≥ b then some ⟨A, W.s + 1, x, 0⟩
    else some ⟨A, W.s, x, y⟩
  else none

/-- `mps_gen.py:185-209`: the tensor of one site of dimension `q` between bonds of dimension
`a = D[n-1]` and `b = D[n]`. -/
noncomputable def initSite (q a b : ℕ) : Option (Ten ℂ q a b) :=
  let f : ℂ := ((Real.sqrt (1 / (q : ℝ)) : ℝ) : ℂ)
  if a = b then
    some fun _ => Matrix.of fun x y => if x.val = y.val then f else 0
  else
    let f := if b > a then 1 else f
    ((List.range (max b a)).foldl (fun (W : Option (WalkSt q a b)) _ => W.bind (walkStep f))
      (some ⟨0, 0, 0, 0⟩)).map (·.A)

/-- `mps_gen.py:181-209` `initialize_state()`. -/
noncomputable def initState (N : ℕ) (q D : ℕ → ℕ) : Option (Tensors ℂ q D) :=
  (List.range' 0 N).foldl (fun (S : Option (Tensors ℂ q D)) n => S.bind fun A =>
    (initSite (q n) (D n) (D (n + 1))).map fun t => Function.update A n t) (some 0)

end EvoMPS
