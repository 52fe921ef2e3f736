import Verif.Spec
import Verif.EpsMaps

/-!
# `EvoMPS_MPS_Generic`: environments and measurements (`mps_gen.py`)

Index convention: python's `self.A[n+1]`, `self.q[n+1]` are `A n`, `q n` here;
`self.D[n]`, `self.l[n]`, `self.r[n]` are `D n`, `l n`, `r n`.  A python site argument
`n` is passed as `k = n - 1`.  `none` stands for a raised exception.
-/

namespace EvoMPS

open Matrix

variable {R : Type*} [CommRing R] [StarRing R] {q D : ℕ → ℕ}

/-- The part of the object's state that the measurement functions use
(`mps_gen.py:127-141`): parameter tensors and environments. -/
structure MPS (R : Type*) (q D : ℕ → ℕ) where
  A : Tensors R q D
  l : Envs R D
  r : Envs R D

/-- `mps_gen.py:350-361` `calc_l(n_low, n_high)`; `none` is python's default `-1`.
Python's loop variable is `m + 1`. -/
def calcL (N : ℕ) (S : MPS R q D) (nLow nHigh : Option ℕ := none) : MPS R q D :=
  let lo := nLow.getD 1
  let hi := nHigh.getD N
  (List.range' (lo - 1) (hi + 1 - lo)).foldl (fun S m =>
    { S with l := Function.update S.l (m + 1) (epsL (S.l m) (S.A m) (S.A m)) }) S

/-- `mps_gen.py:363-374` `calc_r(n_low, n_high)`, a downward loop.  `hi` is exclusive. -/
def calcR (N : ℕ) (S : MPS R q D) (nLow nHigh : Option ℕ := none) : MPS R q D :=
  let lo := nLow.getD 0
  let hi := nHigh.elim N (· + 1)
  (List.range' lo (hi - lo)).reverse.foldl (fun S n =>
    { S with r := Function.update S.r n (epsR (S.r (n + 1)) (S.A n) (S.A n)) }) S

/-- `mps_gen.py:310-348` `update(restore_CF=False, normalize=False)`. -/
def updateNoCF (N : ℕ) (S : MPS R q D) : MPS R q D :=
  calcR N (calcL N S)

/-- `mps_gen.py:376-385` `inner(other)`; `N'` is the other chain's number of sites.  The
local variable `r` changes its shape along the loop, hence it is an array over the bonds
here.  `r.ravel()[0]` is the top-left entry. -/
def inner {D' : ℕ → ℕ} (N N' : ℕ) (h0 : D 0 = 1) (h0' : D' 0 = 1)
    (hN : D N = D' N) (S : MPS R q D) (S' : MPS R q D') : Option R :=
  if N ≠ N' then none else
    let r0 : ∀ n, Matrix (Fin (D n)) (Fin (D' n)) R :=
      Function.update 0 N ((S.r N).submatrix id (Fin.cast hN.symm))
    let r := (List.range' 0 N).reverse.foldl (fun r n =>
      Function.update r n (epsR (r (n + 1)) (S.A n) (S'.A n))) r0
    some (r 0 ⟨0, by omega⟩ ⟨0, by omega⟩)

section
variable [DecidableEq R]

/-- `mps_gen.py:779-806` `expect_1s(op, n)`.  A callable operator is evaluated into an
array first (lines 801-803), so an array covers both cases.  `get_A` returns `None` for
sites outside `1..N` and the contraction then raises. -/
def expect1s (N : ℕ) (S : MPS R q D) (k : ℕ) (op : Fin (q k) → Fin (q k) → R) : Option R :=
  if k < N then
    let res := epsROp1 (S.r (k + 1)) (S.A k) (S.A k) op
    some (adot (S.l k) res)
  else none

/-- `mps_gen.py:808-840` `expect_2s(op, n, AA)`. -/
def expect2s (N : ℕ) (S : MPS R q D) (k : ℕ)
    (op : Fin (q k) → Fin (q (k + 1)) → Fin (q k) → Fin (q (k + 1)) → R)
    (AA : Option (Ten2 R (q k) (q (k + 1)) (D k) (D (k + 1 + 1))) := none) : Option R :=
  if k + 1 < N then
    let AA := AA.getD (calcAA (S.A k) (S.A (k + 1)))
    let C := calcC op AA
    let res := epsR2 (S.r (k + 1 + 1)) C AA
    some (adot (S.l k) res)
  else none

/-- `mps_gen.py:842-877` `expect_3s(op, n, AAA)`. -/
def expect3s (N : ℕ) (S : MPS R q D) (k : ℕ)
    (op : Fin (q k) → Fin (q (k + 1)) → Fin (q (k + 2)) →
      Fin (q k) → Fin (q (k + 1)) → Fin (q (k + 2)) → R)
    (AAA : Option (Ten3 R (q k) (q (k + 1)) (q (k + 2)) (D k) (D (k + 2 + 1))) := none) :
    Option R :=
  if k + 2 < N then
    let AAA := AAA.getD (calcAAA (S.A k) (S.A (k + 1)) (S.A (k + 2)))
    let C := calcC3 op AAA
    let res := epsR3 (S.r (k + 2 + 1)) C AAA
    some (adot (S.l k) res)
  else none

/-- `op1.dot(op2)` (`mps_gen.py:927`). -/
def opDot {n : ℕ} (o1 o2 : Fin n → Fin n → R) : Fin n → Fin n → R :=
  fun s t => forSum n fun u => o1 s u * o2 u t

/-- The loop of `mps_gen.py:921-940` `expect_1s_1s`, for `n1 = k + 1`, `n2 = n1 + d`.
The variable `lj` changes its shape along the loop; it is an array over the bonds here
(entry `b` is written when python's `lj` lives on bond `b`).  The result array `res` has
`d + 1` entries, `res j` for `j ≤ d`.  `op2` is given as one operator per site; python
uses the same array at every site, which needs equal site dimensions when intermediate
results are requested. -/
def expect1s1sRes (N : ℕ) (S : MPS R q D) (k d : ℕ) (op1 : Fin (q k) → Fin (q k) → R)
    (op2 : ∀ n, Fin (q n) → Fin (q n) → R) (retInt : Bool) : Option (ℕ → R) :=
  if k + d < N then
    let lj0 : Envs R D := Function.update 0 (k + 1) (epsLOp1 (S.l k) (S.A k) (S.A k) op1)
    let res0 : ℕ → R := 0
    (if retInt then (expect1s N S k (opDot op1 (op2 k))).map (Function.update res0 0)
      else some res0).map fun res0 =>
    ((List.range' 1 d).foldl (fun (p : Envs R D × (ℕ → R)) j =>
      let lj := p.1
      let res := if retInt = true ∨ j = d then
          let ljOp := epsLOp1 (lj (k + j)) (S.A (k + j)) (S.A (k + j)) (op2 (k + j))
          Function.update p.2 j (adot ljOp (S.r (k + j + 1)))
        else p.2
      let lj := if j < d then
          Function.update lj (k + j + 1) (epsL (lj (k + j)) (S.A (k + j)) (S.A (k + j)))
        else lj
      (lj, res)) (lj0, res0)).2
  else none

/-- `mps_gen.py:879-940` `expect_1s_1s(op1, op2, n1, n2)` without intermediates returns
`res[-1]`. -/
def expect1s1s (N : ℕ) (S : MPS R q D) (k d : ℕ) (op1 : Fin (q k) → Fin (q k) → R)
    (op2 : ∀ n, Fin (q n) → Fin (q n) → R) : Option R :=
  (expect1s1sRes N S k d op1 op2 false).map fun res => res d

/-- `[f(0), ..., f(d)]` filled by a loop over `range(d + 1)`; an exception in any
iteration aborts the loop. -/
def loopList {α : Type*} (f : ℕ → Option α) : ℕ → Option (List α)
  | 0 => some []
  | n + 1 => (loopList f n).bind fun L => (f n).map fun x => L ++ [x]

/-- numpy's `tile(x, reps)[:m]`. -/
def tileTake {α : Type*} (x : List α) (reps m : ℕ) : List α :=
  ((List.replicate reps x).flatten).take m

/-- `mps_gen.py:942-996` `correlation_1s_1s(op1, op2, n1, d)` without expectation values. -/
def correlation1s1s (N : ℕ) (S : MPS R q D) (k d : ℕ)
    (op1 op2 : ∀ n, Fin (q n) → Fin (q n) → R) : Option (List R) := do
  let ex1 ← loopList (fun j => expect1s N S (k + j) (op1 (k + j))) (d + 1)
  let ex2 ← loopList (fun j => expect1s N S (k + j) (op2 (k + j))) (d + 1)
  let cf ← expect1s1sRes N S k d (op1 k) op2 true
  return (List.range (d + 1)).map fun j => cf j - ex1.getD 0 0 * ex2.getD j 0

/-- `mps_gen.py:942-996` with `return_exvals=True`: lines 992-993 tile `ex1` for both
returned lists and divide by `d` (python raises `ZeroDivisionError` for `d = 0`). -/
def correlation1s1sExvals (N : ℕ) (S : MPS R q D) (k d : ℕ)
    (op1 op2 : ∀ n, Fin (q n) → Fin (q n) → R) : Option (List R × List R × List R) := do
  let ccf ← correlation1s1s N S k d op1 op2
  let ex1 ← loopList (fun j => expect1s N S (k + j) (op1 (k + j))) (d + 1)
  if d = 0 then none else
    let ex1' := tileTake ex1 ((d + 1) / d + 1) (d + 1)
    let ex2' := tileTake ex1 ((d + 1) / d + 1) (d + 1)
    some (ccf, ex1', ex2')

/-- `sp.tensordot(op, A, axes=([1],[0]))` (`mps_gen.py:1009`). -/
def tensordotOp {n a b : ℕ} (op : Fin n → Fin n → R) (A : Ten R n a b) : Ten R n a b :=
  fun s => forSum n fun t => op s t • A t

/-- Python's index rule for a write `res[i]` to an array of length `d`: negative indices
count from the end, anything else out of range raises. -/
def pyIndex (d : ℕ) (i : ℤ) : Option ℕ :=
  if 0 ≤ i ∧ i < d then some i.toNat
  else if i < 0 ∧ 0 ≤ i + d then some (i + d).toNat
  else none

/-- `mps_gen.py:998-1013` `expect_string_1s(op, n, d)`: loop variable `j = n + i`,
`i = 0..d`; the value is stored in `res[j - n - 1] = res[i - 1]`.  The variable `x`
changes its shape and is an array over the bonds here; `op` as in `expect1s1sRes`. -/
def expectString1s (N : ℕ) (S : MPS R q D) (k d : ℕ)
    (op : ∀ n, Fin (q n) → Fin (q n) → R) : Option (ℕ → R) :=
  ((List.range (d + 1)).foldl (fun (p : Option (Envs R D × (ℕ → R))) i =>
    p.bind fun p =>
    if k + i < N then
      let Aop := tensordotOp (op (k + i)) (S.A (k + i))
      let x := Function.update p.1 (k + i + 1) (epsL (p.1 (k + i)) (S.A (k + i)) Aop)
      (pyIndex d ((i : ℤ) - 1)).map fun idx =>
        (x, Function.update p.2 idx (adot (x (k + i + 1)) (S.r (k + i + 1))))
    else none) (some (S.l, 0))).map Prod.snd

/-- `mps_gen.py:1054-1080` `density_1s(n)`. -/
def density1s (S : MPS R q D) (k : ℕ) : Matrix (Fin (q k)) (Fin (q k)) R :=
  fun s t => adot (S.l k) (S.A k t * S.r (k + 1) * (S.A k s)ᴴ)

/-- The inner loop `mps_gen.py:1106-1110`: start from
`A[n2][t2] r[n2] A[n2][s2]^H` on bond `k2` and contract the sites `k2-1, ..., k1+1`. -/
def density2sEnv (S : MPS R q D) (k1 k2 : ℕ) (s2 t2 : Fin (q k2)) : Envs R D :=
  (List.range' (k1 + 1) (k2 - (k1 + 1))).reverse.foldl (fun r n =>
    Function.update r n (epsR (r (n + 1)) (S.A n) (S.A n)))
    (Function.update 0 k2 (S.A k2 t2 * S.r (k2 + 1) * (S.A k2 s2)ᴴ))

/-- `mps_gen.py:1082-1117` `density_2s(n1, n2)`.  The result is an array of shape
`(q1*q2, q1*q2)` indexed by natural numbers; entries that are never written are
uninitialised memory (`sp.empty`), given here by the parameter `junk`.  An index outside
the array raises (`none`). -/
def density2s (N : ℕ) (S : MPS R q D) (k1 k2 : ℕ) (junk : ℕ → ℕ → R) :
    Option (ℕ → ℕ → R) :=
  if k1 < k2 ∧ k2 < N then
    let dim := q k1 * q k2
    (List.finRange (q k2)).foldl (fun rho s2 =>
      (List.finRange (q k2)).foldl (fun rho t2 =>
        let rn := density2sEnv S k1 k2 s2 t2 (k1 + 1)
        (List.finRange (q k1)).foldl (fun rho s1 =>
          (List.finRange (q k1)).foldl (fun (rho : Option (ℕ → ℕ → R)) t1 =>
            let tmp := adot (S.l k1) (S.A k1 t1 * rn * (S.A k1 s1)ᴴ)
            let i := s1.val * q k1 + s2.val
            let j := t1.val * q k1 + t2.val
            rho.bind fun rho =>
              if i < dim ∧ j < dim then
                some (Function.update rho i (Function.update (rho i) j tmp))
              else none) rho) rho) rho) (some junk)
  else none

/-- `mps_gen.py:1119-1150` `apply_op_1s(op, n, do_update=False)`. -/
def applyOp1s (N : ℕ) (S : MPS R q D) (k : ℕ) (op : Fin (q k) → Fin (q k) → R) :
    Option (MPS R q D) :=
  if k < N then
    let newA : Ten R (q k) (D k) (D (k + 1)) := fun s =>
      forSum (q k) fun t => op s t • S.A k t
    some { S with A := Function.update S.A k newA }
  else none

end

end EvoMPS
