import Verif.EpsMaps
import Verif.SandwichSpec

/-!
# The sandwich state

`mps_sandwich.py`: a finite part of `N` sites between two uniform chains.  Arrays carry their shapes here,
since the bond dimensions of the parts may differ; an operation on arrays whose shapes do not fit raises (`none`).
Array entries are numbered as in python: `A 1, ..., A N`, `l 0, ..., l (N+1)`.
-/

namespace EvoMPS.SW

open Matrix

variable {R : Type*} [CommRing R] [StarRing R]

/-- `eps_l_noop(x, T, T)`, `core_common.py:82-147`; raises if the shapes do not fit. -/
def epsLAny (x : AnyMat R) (T : AnyTen R) : Option (AnyMat R) :=
  if h : x.a = T.a ∧ x.b = T.a then
    some ⟨T.b, T.b, epsL (x.val.submatrix (Fin.cast h.1.symm) (Fin.cast h.2.symm)) T.val T.val⟩
  else none

/-- `eps_r_noop(x, T, T)`, `core_common.py:149-207`; raises if the shapes do not fit. -/
def epsRAny (x : AnyMat R) (T : AnyTen R) : Option (AnyMat R) :=
  if h : x.a = T.b ∧ x.b = T.b then
    some ⟨T.a, T.a, epsR (x.val.submatrix (Fin.cast h.1.symm) (Fin.cast h.2.symm)) T.val T.val⟩
  else none

/-- The attributes of a uniform chain that a sandwich uses, `mps_uniform.py:100-187, 272-293`: block length, dimensions
and the lists of tensors and environments with indices `0..L-1`. -/
structure Bulk (R : Type*) where
  L : ℕ
  D : ℕ
  q : ℕ
  A : ℕ → AnyTen R
  l : ℕ → AnyMat R
  r : ℕ → AnyMat R

/-- The attributes of `EvoMPS_MPS_Sandwich`, `mps_sandwich.py:58-114`. -/
structure State (R : Type*) where
  N : ℕ
  nc : ℕ
  D : ℕ → ℕ
  q : ℕ → ℕ
  uniL : Bulk R
  uniR : Bulk R
  A : ℕ → AnyTen R
  l : ℕ → AnyMat R
  r : ℕ → AnyMat R
  grownL : ℕ
  grownR : ℕ

/-- `n % L` of python integers, as an index of a list. -/
def pmod (n : ℤ) (L : ℕ) : ℕ := (n % L).toNat

/-- `mps_sandwich.py:577-582` `get_D`. -/
def getD (S : State R) (n : ℤ) : ℕ :=
  if n < 0 then S.uniL.D else if n > S.N then S.uniR.D else S.D n.toNat

/-- `mps_sandwich.py:584-589` `get_q`. -/
def getQ (S : State R) (n : ℤ) : ℕ :=
  if n < 1 then S.uniL.q else if n > S.N then S.uniR.q else S.q n.toNat

/-- `mps_sandwich.py:591-597` `get_A`. -/
def getA (S : State R) (n : ℤ) : AnyTen R :=
  if n < 1 then S.uniL.A (pmod (n - 1) S.uniL.L)
  else if n > S.N then S.uniR.A (pmod (n - S.N - 1) S.uniR.L)
  else S.A n.toNat

/-- `mps_sandwich.py:599-610` `get_l`.  The loop runs over `(arange(N + 2, n + 1) - 1) % L`. -/
def getL (S : State R) (n : ℤ) : Option (AnyMat R) :=
  if 0 < n ∧ n ≤ S.N + 1 then some (S.l n.toNat)
  else if n < 1 then some (S.uniL.l (pmod (n - 1) S.uniL.L))
  else (List.range (n - (S.N + 1)).toNat).foldl
    (fun x (i : ℕ) => x.bind fun x => epsLAny x (S.uniR.A (pmod ((S.N + 2 + i : ℤ) - 1) S.uniR.L)))
    (some (S.l (S.N + 1)))

/-- `mps_sandwich.py:612-627` `get_r`, with the optional argument `r_np1`.  The loop runs over
`(arange(0, n, -1) - 1) % L`. -/
def getR (S : State R) (n : ℤ) (rnp1 : Option (AnyMat R) := none) : Option (AnyMat R) :=
  if 0 ≤ n ∧ n ≤ S.N + 1 then some (S.r n.toNat)
  else if n > S.N + 1 then some (S.uniR.r (pmod (n - 1) S.uniR.L))
  else match rnp1 with
    | none => (List.range (-n).toNat).foldl
        (fun x (i : ℕ) => x.bind fun x => epsRAny x (S.uniL.A (pmod (-(i : ℤ) - 1) S.uniL.L)))
        (some (S.r 0))
    | some x => epsRAny x (S.uniL.A (pmod n S.uniL.L))

/-- `mps_gen.py:350-361`, the loop `for n in range(lo, hi + 1)` of `calc_l`. -/
def genCalcL (lo hi : ℕ) (S : State R) : Option (State R) :=
  (List.range' lo (hi + 1 - lo)).foldl
    (fun S n => S.bind fun S => (epsLAny (S.l (n - 1)) (S.A n)).map fun y =>
      { S with l := Function.update S.l n y }) (some S)

/-- `mps_sandwich.py:250-262` `calc_l(n_low, n_high)`; the default arguments are `n_low = 1`, `n_high = N`.
(The default `-1` is also what a caller passes who computes `N_centre - 1` with `N_centre = 0`.) -/
def calcL (lo hi : ℕ) (S : State R) : Option (State R) :=
  (genCalcL lo hi { S with l := Function.update S.l 0 (S.uniL.l (S.uniL.L - 1)) }).bind fun S =>
    (epsLAny (S.l S.N) (S.uniR.A 0)).map fun y => { S with l := Function.update S.l (S.N + 1) y }

/-- `mps_gen.py:363-374`, the loop `for n in range(hi, lo - 1, -1)` of `calc_r`; the argument `hi` is the
number of the last cut plus one. -/
def genCalcR (lo hi : ℕ) (S : State R) : Option (State R) :=
  (List.range' lo (hi - lo)).reverse.foldl
    (fun S n => S.bind fun S => (epsRAny (S.r (n + 1)) (S.A (n + 1))).map fun y =>
      { S with r := Function.update S.r n y }) (some S)

/-- `mps_sandwich.py:265-275` `calc_r(n_low, n_high)`; the defaults are `n_low = 0`, `n_high = N - 1`.
The argument `hi` is `n_high + 1`. -/
def calcR (lo hi : ℕ) (S : State R) : Option (State R) :=
  genCalcR lo hi { S with r := Function.update S.r S.N (S.uniR.r (S.uniR.L - 1)) }

/-- `mps_sandwich.py:231-247` `update(restore_CF=False, normalize=False)`. -/
def updateRaw (S : State R) : Option (State R) := (calcL 1 S.N S).bind fun S => calcR 0 S.N S

/-- `a[:] = x` for an array of the given shape.  Numpy would also repeat `x` along axes of length one;
this is not modelled, different shapes raise. -/
def assignTen (q a b : ℕ) (x : AnyTen R) : Option (AnyTen R) :=
  if x.q = q ∧ x.a = a ∧ x.b = b then some x else none

/-- `a[:] = x` for a matrix. -/
def assignMat (a b : ℕ) (x : AnyMat R) : Option (AnyMat R) :=
  if x.a = a ∧ x.b = b then some x else none

/-- An array of zeros. -/
def zeroMat (a : ℕ) : AnyMat R := ⟨a, a, 0⟩

/-- An array of zeros. -/
def zeroTen (q a b : ℕ) : AnyTen R := ⟨q, a, b, 0⟩

/-- `mps_sandwich.py:117-130` `_init_arrays`. -/
def initArrays (S : State R) : State R :=
  { S with
    A := fun n => zeroTen (S.q n) (S.D (n - 1)) (S.D n)
    l := fun n => zeroMat (S.D n)
    r := fun n => zeroMat (S.D n) }

/-- The loop `for n in range(lo, hi): self.A[n][:] = f(n)`. -/
def assignLoop (lo hi : ℕ) (f : ℕ → AnyTen R) (S : State R) : Option (State R) :=
  (List.range' lo (hi - lo)).foldl
    (fun S n => S.bind fun S => (assignTen (S.A n).q (S.A n).a (S.A n).b (f n)).map fun x =>
      { S with A := Function.update S.A n x }) (some S)

/-- The arrays of the constructor before they are filled, `mps_sandwich.py:67-107`. -/
def blank (N : ℕ) (uniL uniR : Bulk R) : State R := initArrays
  { N := N, nc := N / 2, D := fun _ => uniL.D, q := fun _ => uniL.q, uniL := uniL, uniR := uniR,
    A := fun _ => zeroTen 0 0 0, l := fun _ => zeroMat 0, r := fun _ => zeroMat 0, grownL := 0, grownR := 0 }

/-- `mps_sandwich.py:58-114`, the constructor, with both bulk states already updated.  `uniR = none` is the default
of `uni_right`. -/
def new (N : ℕ) (uniL : Bulk R) (uniR : Option (Bulk R)) : Option (State R) :=
  let S0 := blank N uniL (uniR.getD uniL)
  (assignLoop 1 (N + 1) (fun n => uniL.A (pmod ((n : ℤ) - 1) uniL.L)) S0).bind fun S =>
    (List.range (N + 2)).foldl (fun S n => S.bind fun S =>
      (assignMat (S.r n).a (S.r n).b (uniL.r (pmod ((n : ℤ) - 1) uniL.L))).bind fun x =>
      (assignMat (S.l n).a (S.l n).b (uniL.l (pmod ((n : ℤ) - 1) uniL.L))).map fun y =>
        { S with r := Function.update S.r n x, l := Function.update S.l n y }) (some S)

/-- `mps_sandwich.py:133-171` `from_tensors`, before the last line: `uniL`, `uniR` are the two uniform chains with the
tensors `As_L`, `As_R` after their update; `C` are the tensors of the finite part.  The array `q` is the one made by
the constructor. -/
def fromTensors (uniL uniR : Bulk R) (C : List (AnyTen R)) : Option (State R) :=
  (new C.length uniL (some uniR)).map fun S =>
    { S with
      A := fun n => if 1 ≤ n then C.getD (n - 1) (S.A n) else S.A n
      D := fun n => if n = 0 then uniL.D else if n ≤ C.length then (C.getD (n - 1) (S.A n)).b else uniR.D }

/-- `mps_sandwich.py:500-535` `grow_left(m)`. -/
def growLeft (m : ℕ) (S : State R) : Option (State R) :=
  let M := m * S.uniL.L
  let S0 : State R := initArrays { S with
    N := S.N + M
    D := fun n => if n < M then S.uniL.D else S.D (n - M)
    q := fun n => if n < M then S.uniL.q else S.q (n - M) }
  (assignLoop 1 (M + 1) (fun n => S.uniL.A ((n - 1) % S.uniL.L)) S0).bind fun S1 =>
  (assignLoop (M + 1) (S.N + M + 1) (fun n => S.A (n - M)) S1).map fun S2 =>
    { S2 with
      l := Function.update S2.l 0 (S.l 0)
      r := Function.update (Function.update S2.r (S.N + M) (S.r S.N)) (S.N + M + 1) (S.r S.N)
      grownL := S.grownL + M }

/-- `mps_sandwich.py:538-572` `grow_right(m)`.  `D[:-m] = oldD` raises for `m = 0`. -/
def growRight (m : ℕ) (S : State R) : Option (State R) :=
  let M := m * S.uniR.L
  if M = 0 then none else
  let S0 : State R := initArrays { S with
    N := S.N + M
    D := fun n => if n < S.N + 2 then S.D n else S.uniR.D
    q := fun n => if n < S.N + 2 then S.q n else S.uniR.q }
  (assignLoop 1 (S.N + 1) (fun n => S.A n) S0).bind fun S1 =>
  (assignLoop (S.N + 1) (S.N + M + 1) (fun n => S.uniR.A ((n - (S.N + 1)) % S.uniR.L)) S1).map fun S2 =>
    { S2 with
      l := Function.update S2.l 0 (S.l 0)
      r := Function.update (Function.update S2.r (S.N + M) (S.r S.N)) (S.N + M + 1) (S.r S.N)
      grownR := S.grownR + M }

/-- The shapes of the arrays of a sandwich fit to each other and to the arrays of dimensions. -/
structure Shapes (S : State R) : Prop where
  L_left : 0 < S.uniL.L
  L_right : 0 < S.uniR.L
  left : ∀ k < S.uniL.L, (S.uniL.A k).q = S.uniL.q ∧ (S.uniL.A k).a = S.uniL.D ∧ (S.uniL.A k).b = S.uniL.D
  right : ∀ k < S.uniR.L, (S.uniR.A k).q = S.uniR.q ∧ (S.uniR.A k).a = S.uniR.D ∧ (S.uniR.A k).b = S.uniR.D
  mid : ∀ n, 1 ≤ n → n ≤ S.N → (S.A n).q = S.q n ∧ (S.A n).a = S.D (n - 1) ∧ (S.A n).b = S.D n
  D_left : S.D 0 = S.uniL.D
  D_right : S.D S.N = S.uniR.D

end EvoMPS.SW
