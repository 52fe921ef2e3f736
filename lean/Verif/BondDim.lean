import Mathlib.Algebra.BigOperators.Group.Finset.Basic
import Mathlib.Algebra.BigOperators.Intervals
import Mathlib.Algebra.Order.BigOperators.Group.Finset

/-!
# Bond dimensions of open chains (`mps_gen.py`)

`q n` is python's `q[n + 1]`, `D n` is python's `D[n]`.  Integers do not overflow.
-/

namespace EvoMPS

/-- `D.max()` of the array `D[0..N]`. -/
def maxD (N : ℕ) (D : ℕ → ℕ) : ℕ := (Finset.range (N + 1)).sup D

/-- One iteration of the loop body shared by `mps_gen.py:26-30` and `33-37` for bond `n`; `x` is
the site dimension the running product is multiplied by. -/
def corrStep (N : ℕ) (x n : ℕ) (S : (ℕ → ℕ) × ℕ) : (ℕ → ℕ) × ℕ :=
  let qacc := if S.2 < maxD N S.1 then S.2 * x else S.2
  (if S.1 n > qacc then Function.update S.1 n qacc else S.1, qacc)

/-- `mps_gen.py:19-39` `correct_bond_dim_open_chain(D, q)`.  In the second loop python's `n` is
`j + 1`. -/
def correctBondDim (N : ℕ) (q D : ℕ → ℕ) : ℕ → ℕ :=
  let D := Function.update (Function.update D 0 1) N 1
  let D := ((List.range' 0 N).reverse.foldl (fun S n => corrStep N (q n) n S) (D, 1)).1
  ((List.range' 0 N).foldl (fun S j => corrStep N (q j) (j + 1) S) (D, 1)).1

/-- `mps_gen.py:157-164` `maxD_is_less_than(Dmax)`.  In the first loop python's `n` is
`j + 1`. -/
def maxDIsLessThan (N : ℕ) (q D : ℕ → ℕ) (Dmax : ℕ) : Bool :=
  let Dm : ℕ → ℕ := fun n => if n = 0 then D 0 else if n < N then Dmax else D N
  let Dm := (List.range' 0 (N - 1)).foldl
    (fun Dm j => Function.update Dm (j + 1) (min (Dm j * q j) (Dm (j + 1)))) Dm
  let Dm := (List.range' 1 (N - 1)).reverse.foldl
    (fun Dm n => Function.update Dm n (min (Dm (n + 1) * q n) (Dm n))) Dm
  (List.range (N + 1)).any fun n => decide (D n < Dm n)

end EvoMPS
