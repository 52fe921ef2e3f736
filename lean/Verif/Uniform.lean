import Verif.EpsMaps
import Mathlib.Data.List.FinRange

/-!
# The uniform chain: transfer operators

Block of `L` tensors of shape `(q, D, D)`, `mps_uniform.py`.  Bond dimension and site
dimension are the same for all sites of the block, so no dependent types are needed.
-/

namespace EvoMPS.Uni

open Matrix

variable {R : Type*} [CommRing R] [StarRing R] {q D D1 D2 : ℕ}

/-- `v.reshape((m, n))`: row-major, `mps_uniform.py:66`. -/
def reshape {m n : ℕ} (v : Fin (m * n) → R) : Matrix (Fin m) (Fin n) R :=
  Matrix.of fun i j => v (flat i j)

/-- `x.ravel()`: row-major, `mps_uniform.py:88`. -/
def ravel {m n : ℕ} (x : Matrix (Fin m) (Fin n) R) : Fin (m * n) → R :=
  fun p => x p.divNat p.modNat

/-- The constructor arguments of `EOp`, `mps_uniform.py:27-61`: the two lists of tensors and
the direction. -/
structure EOp (R : Type*) (q D1 D2 : ℕ) where
  A1 : List (Ten R q D1 D1)
  A2 : List (Ten R q D2 D2)
  left : Bool

/-- The two work buffers `res`, `out` of `EOp.matvec`. -/
abbrev Bufs (R : Type*) (D1 D2 : ℕ) := Matrix (Fin D1) (Fin D2) R × Matrix (Fin D1) (Fin D2) R

/-- One pass of the loops at `mps_uniform.py:72-83`: `out = self.eps(res, A1[n], A2[n], out)`
(the map fills `out` with zeros first, `core_common.py:133, 194`), then the buffers are
exchanged.  `none`: index error. -/
def EOp.site (E : EOp R q D1 D2) (b : Bufs R D1 D2) (n : ℕ) : Option (Bufs R D1 D2) :=
  match E.A1[n]?, E.A2[n]? with
  | some A1, some A2 =>
    let out := if E.left then epsL b.1 A1 A2 else epsR b.1 A1 A2
    some (out, b.1)
  | _, _ => none

/-- `mps_uniform.py:63-88` `EOp.matvec`.  `junk` is what the second buffer holds at the
beginning.  `A1[0]`, `A2[0]` are read by the constructor, so empty lists raise. -/
def EOp.matvec (E : EOp R q D1 D2) (junk : Matrix (Fin D1) (Fin D2) R)
    (v : Fin (D1 * D2) → R) : Option (Fin (D1 * D2) → R) :=
  if E.A1.isEmpty || E.A2.isEmpty then none else
  let sites := if E.left then List.range E.A1.length else (List.range E.A1.length).reverse
  (sites.foldl (fun b n => b.bind fun b => E.site b n) (some (reshape v, junk))).map
    fun b => ravel b.1

/-- `sp.kron(a, b)`: block matrix with the blocks `a[i, j] * b`. -/
def kron {m n m' n' : ℕ} (a : Matrix (Fin m) (Fin n) R) (b : Matrix (Fin m') (Fin n') R) :
    Matrix (Fin (m * m')) (Fin (n * n')) R :=
  Matrix.of fun i j => a i.divNat j.divNat * b i.modNat j.modNat

/-- `mps_uniform.py:312-314`: `Ek = sum_s kron(A1[s], A2[s].conj())`. -/
def denseSite (A1 : Ten R q D1 D1) (A2 : Ten R q D2 D2) : Matrix (Fin (D1 * D2)) (Fin (D1 * D2)) R :=
  forSum q fun s => kron (A1 s) ((A2 s).map star)

/-- `list * n` for a python list. -/
def repeatList {α : Type*} (n : ℕ) (l : List α) : List α := (List.replicate n l).flatten

/-- `l[k:] + l[:k]`. -/
def rotList {α : Type*} (k : ℕ) (l : List α) : List α := l.drop k ++ l.take k

/-- `mps_uniform.py:308-315`: the loop over the sites. -/
def denseLoop (As1 : List (Ten R q D1 D1)) (As2 : List (Ten R q D2 D2)) (n : ℕ) :
    Option (Matrix (Fin (D1 * D2)) (Fin (D1 * D2)) R) :=
  (List.range n).foldl (fun E k => E.bind fun E =>
    match As1[k]?, As2[k]? with
    | some A1, some A2 => some (E * denseSite A1 A2)
    | _, _ => none) (some 1)

/-- `mps_uniform.py:295-316` `_get_dense_transfer_op_block(k, other)` for `k >= 0`.  `none`:
`ValueError` (physical dimensions differ) or, for an empty block, division by zero. -/
def denseBlock {q' : ℕ} (A : List (Ten R q D1 D1)) (A' : List (Ten R q' D2 D2)) (k : ℕ) :
    Option (Matrix (Fin (D1 * D2)) (Fin (D1 * D2)) R) :=
  if h : q = q' then
    let A'' : List (Ten R q D2 D2) := h ▸ A'
    if A.length = 0 ∨ A'.length = 0 then none else
    let L := A.length * A'.length / Nat.gcd A.length A'.length
    let As1 := rotList k (repeatList (L / A.length) A)
    let As2 := rotList k (repeatList (L / A'.length) A'')
    denseLoop As1 As2 L
  else none

/-- `mps_uniform.py:427-443`: the transfer operator handed to ARPACK by
`_calc_E_largest_eigenvalues(k, left, other)` for `k >= 0`, built from the same repeated and rotated
lists. -/
def largestOp (A : List (Ten R q D1 D1)) (A' : List (Ten R q D2 D2)) (k : ℕ) (left : Bool) :
    EOp R q D1 D2 :=
  let L := A.length * A'.length / Nat.gcd A.length A'.length
  { A1 := rotList k (repeatList (L / A.length) A)
    A2 := rotList k (repeatList (L / A'.length) A')
    left := left }

end EvoMPS.Uni
