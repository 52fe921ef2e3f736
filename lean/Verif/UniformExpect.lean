import Verif.UniformEnv
import Verif.TwoSite
import Verif.MpsGen

/-!
# The uniform chain: expectation values

`mps_uniform.py:1042-1575, 1796-1840`.  Site offsets are non-negative; an offset outside the block makes the list lookups
raise (`none`).  Operators given as functions are first turned into arrays of their values, so only
one form is modelled, except where that conversion raises.
-/

namespace EvoMPS.Uni

open Matrix

variable {R : Type*} [CommRing R] [StarRing R] [DecidableEq R] {q D : ℕ}

/-- `mps_uniform.py:1281-1307` `expect_1s(op, k)`. -/
def UMPS.expect1s (S : UMPS R q D) (op : Fin q → Fin q → R) (k : ℕ) : Option R :=
  if S.L ≤ k then none else
  let Or := epsROp1 (S.r k) (S.A k) (S.A k) op
  some (adot (S.l (prev S.L k)) Or)

/-- `mps_uniform.py:1309-1371` `expect_1s_1s(op1, op2, d, k, return_intermediates)`: the array `res`. -/
def UMPS.expect1s1sRes (S : UMPS R q D) (op1 op2 : Fin q → Fin q → R) (d k : ℕ) (retInt : Bool) :
    Option (ℕ → R) :=
  if d = 0 then none else
  if S.L ≤ k then none else
  let L := S.L
  let res : ℕ → R := 0
  let lj := epsLOp1 (S.l ((k + L - 1) % L)) (S.A k) (S.A k) op1
  let res := if retInt then
      (S.expect1s (opDot op1 op2) k).map fun v => Function.update res 0 v else some res
  res.map fun res =>
  ((List.range' 1 d).foldl (fun (p : Matrix (Fin D) (Fin D) R × (ℕ → R)) j =>
    let lj := p.1
    let res := if retInt = true ∨ j = d then
        let ljOp := epsLOp1 lj (S.A ((k + j) % L)) (S.A ((k + j) % L)) op2
        Function.update p.2 j (adot ljOp (S.r ((k + j) % L)))
      else p.2
    let lj := if j < d then epsL lj (S.A ((k + j) % L)) (S.A ((k + j) % L)) else lj
    (lj, res)) (lj, res)).2

/-- The value returned by `expect_1s_1s` without `return_intermediates`: `res[-1]`. -/
def UMPS.expect1s1s (S : UMPS R q D) (op1 op2 : Fin q → Fin q → R) (d k : ℕ) : Option R :=
  (S.expect1s1sRes op1 op2 d k false).map fun res => res d

/-- The loop filling `ex1` and `ex2` in `correlation_1s_1s` (`mps_uniform.py:1406-1415`). -/
def UMPS.exvals (S : UMPS R q D) (op : Fin q → Fin q → R) (k : ℕ) : Option (ℕ → R) :=
  (List.range S.L).foldl (fun (e : Option (ℕ → R)) j => e.bind fun e =>
    (S.expect1s op ((k + j) % S.L)).map fun v => Function.update e j v) (some 0)

/-- `mps_uniform.py:1373-1428` `correlation_1s_1s(op1, op2, d, k)` with `return_exvals=True`: the correlation
function and the two tiled arrays.  `same` is `op1 is op2`. -/
def UMPS.correlation1s1s (S : UMPS R q D) (op1 op2 : Fin q → Fin q → R) (same : Bool) (d k : ℕ) :
    Option ((ℕ → R) × (ℕ → R) × (ℕ → R)) :=
  let L := S.L
  (S.exvals op1 k).bind fun ex1 =>
  (if same then some ex1 else S.exvals op2 k).bind fun ex2 =>
  (S.expect1s1sRes op1 op2 d k true).map fun cf =>
  let ccf := (List.range (d + 1)).foldl (fun (ccf : ℕ → R) n =>
    Function.update ccf n (cf n - ex1 0 * ex2 (n % L))) 0
  let ex1_ : ℕ → R := fun n => ex1 (n % L)
  let ex2_ : ℕ → R := fun n => ex1 (n % L)
  (ccf, ex1_, ex2_)

/-- `mps_uniform.py:1430-1458` `expect_2s(op, k)`.  Uses the stored products `AA`. -/
def UMPS.expect2s (S : UMPS R q D) (op : Fin q → Fin q → Fin q → Fin q → R) (k : ℕ) : Option R :=
  if S.L ≤ k then none else
  let Ck := calcC op (S.AA k)
  let res := epsR2 (S.r k) Ck (S.AA k)
  some (adot (S.l (prev S.L k)) res)

/-- `mps_uniform.py:1460-1485` `expect_2s_tp(op_tp, k)`. -/
def UMPS.expect2sTp (S : UMPS R q D)
    (opTp : List (Matrix (Fin q) (Fin q) R × Matrix (Fin q) (Fin q) R)) (k : ℕ) : Option R :=
  if S.L ≤ k then none else
  let L := S.L
  let Ck := calcCtp opTp (S.A k) (S.A ((k + 1) % L))
  let res := epsR2tp (S.r k) Ck (S.A k) (S.A ((k + 1) % L))
  some (adot (S.l (prev S.L k)) res)

/-- `mps_uniform.py:1487-1518` `expect_3s(op, k)`.  `callable`: the operator is a function; then `A.shape` of
the list `self.A` is looked up, which raises. -/
def UMPS.expect3s (S : UMPS R q D) (op : Fin q → Fin q → Fin q → Fin q → Fin q → Fin q → R)
    (callable : Bool) (k : ℕ) : Option R :=
  if S.L ≤ k then none else
  let AAA := calcAAA (S.A k) (S.A ((k + 1) % S.L)) (S.A ((k + 2) % S.L))
  if callable then none else
  let C := calcC3 op AAA
  let res := epsR3 (S.r ((k + 2) % S.L)) C AAA
  some (adot (S.l (prev S.L k)) res)

/-- `mps_uniform.py:1520-1542` `density_1s(k)`. -/
def UMPS.density1s (S : UMPS R q D) (k : ℕ) : Option (Matrix (Fin q) (Fin q) R) :=
  if S.L ≤ k then none else
  some (Matrix.of fun s t => adot (S.l (prev S.L k)) (S.A k t * S.r k * (S.A k s)ᴴ))

/-- `mps_uniform.py:1544-1575` `apply_op_1s(op, k, do_update=False)`. -/
def UMPS.applyOp1s (S : UMPS R q D) (op : Fin q → Fin q → R) (k : ℕ) : Option (UMPS R q D) :=
  if S.L ≤ k then none else
  let newAk : Ten R q D D := fun s => forSum q fun t => op s t • S.A k t
  some { S with A := Function.update S.A k newAk }

/-- `mps_uniform.py:1796-1814` `expect_string_1s(op, k, d)`: the list `res`.  An empty block raises. -/
def UMPS.expectString1s (S : UMPS R q D) (op : Fin q → Fin q → R) (k d : ℕ) : Option (List R) :=
  if S.L = 0 then none else
  let Aop : ℕ → Ten R q D D := fun n => tensordotOp op (S.A n)
  some ((List.range' k (d + 1)).foldl (fun (p : Matrix (Fin D) (Fin D) R × List R) n =>
    let nm := n % S.L
    let x := epsL p.1 (S.A nm) (Aop nm)
    (x, p.2 ++ [adot x (S.r nm)])) (S.l ((k + S.L - 1) % S.L), [])).2

/-- `mps_uniform.py:1816-1823` `basis_occupancy(k)` before the real part is taken. -/
def UMPS.basisOccupancy (S : UMPS R q D) (k : ℕ) : Option (Fin q → R) :=
  if S.L ≤ k then none else
  some fun s => adot (S.l ((k + S.L - 1) % S.L)) (S.A k s * (S.r k * (S.A k s)ᴴ))

/-- `mps_uniform.py:1042-1047` `calc_AA()`. -/
def UMPS.calcAAs (S : UMPS R q D) : UMPS R q D :=
  { S with AA := (List.range S.L).foldl (fun AA k =>
      Function.update AA k (calcAA (S.A k) (S.A ((k + 1) % S.L)))) S.AA }

end EvoMPS.Uni
