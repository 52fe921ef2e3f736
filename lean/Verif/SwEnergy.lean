import Verif.UniformK
import Verif.SwEnergySpec

/-!
# Sandwich states: the Hamiltonian terms and the energy difference (`tdvp_sandwich.py`)

One local dimension `q` and one bond dimension `D` in all parts.  The tensor-product form of Hamiltonians and the diagonal
storage of environments (see `Dense.lean`) are not modelled here.
-/

namespace EvoMPS.Uni

open Matrix

variable {q D : ℕ}

/-- `self.ham`: a list of arrays or a function of the site (whose values at the site are made into an array,
`tdvp_sandwich.py:428-431`). -/
inductive HamSrc (q : ℕ)
  | list (h : List (UHam q))
  | fn (h : ℤ → UHam q)

/-- Python's indexing of a list: negative indices count from the end. -/
def pyGet {α : Type*} (x : List α) (n : ℤ) : Option α :=
  if n < 0 then (if (x.length : ℤ) + n < 0 then none else x[((x.length : ℤ) + n).toNat]?) else x[n.toNat]?

/-- The attributes used here (`tdvp_sandwich.py:311-366`, `mps_sandwich.py:58-114`).  The lists `A`, `l`, `r` have the entries
`1..N`, `0..N+1`, `0..N+1`; `_AA`, `_AAA`, `_C` have entry `i` for the term starting at site `i - 1`; `none` is the entry `None`
of an object array. -/
structure SwT (q D : ℕ) where
  N : ℕ
  /-- `self.N_centre` -/
  nc : ℕ
  A : ℕ → Ten ℂ q D D
  l : ℕ → Matrix (Fin D) (Fin D) ℂ
  r : ℕ → Matrix (Fin D) (Fin D) ℂ
  uniL : UTDVP q D
  uniR : UTDVP q D
  hamSites : ℕ
  ham : HamSrc q
  AA : ℕ → Option (Ten2 ℂ q q D D)
  AAA : ℕ → Option (Ten3 ℂ q q q D D)
  C2 : ℕ → Option (Ten2 ℂ q q D D)
  C3 : ℕ → Option (Ten3 ℂ q q q D D)
  K : ℕ → Matrix (Fin D) (Fin D) ℂ
  Kl : ℕ → Matrix (Fin D) (Fin D) ℂ
  hExpect : ℕ → ℂ
  dH : ℂ

/-- `mps_sandwich.py:591-597` `get_A(n)`. -/
def SwT.getA (S : SwT q D) (n : ℤ) : Ten ℂ q D D :=
  if n < 1 then S.uniL.A (pmod (n - 1) S.uniL.L)
  else if n > S.N then S.uniR.A (pmod (n - S.N - 1) S.uniR.L)
  else S.A n.toNat

/-- `mps_sandwich.py:599-610` `get_l(n)`. -/
def SwT.getL (S : SwT q D) (n : ℤ) : Matrix (Fin D) (Fin D) ℂ :=
  if 0 < n ∧ n ≤ S.N + 1 then S.l n.toNat
  else if n < 1 then S.uniL.l (pmod (n - 1) S.uniL.L)
  else (List.range (n - S.N - 1).toNat).foldl (fun l j =>
    let m := pmod (S.N + 2 + j - 1) S.uniR.L
    epsL l (S.uniR.A m) (S.uniR.A m)) (S.l (S.N + 1))

/-- `mps_sandwich.py:612-627` `get_r(n)`. -/
def SwT.getR (S : SwT q D) (n : ℤ) : Matrix (Fin D) (Fin D) ℂ :=
  if 0 ≤ n ∧ n ≤ S.N + 1 then S.r n.toNat
  else if n > S.N + 1 then S.uniR.r (pmod (n - 1) S.uniR.L)
  else (List.range (-n).toNat).foldl (fun r j =>
    let m := pmod (-(j : ℤ) - 1) S.uniL.L
    epsR r (S.uniL.A m) (S.uniL.A m)) (S.r 0)

/-- The array for the term at site `n`, `tdvp_sandwich.py:428-433`: the shape of the array made from a function is that of the
present entry of `_C`, which must not be `None`. -/
def SwT.hamAt (S : SwT q D) (n : ℤ) : Option (UHam q) :=
  match S.ham with
  | .list h => pyGet h n
  | .fn h =>
    let i := (n + 1).toNat
    if S.hamSites = 2 then (S.C2 i).map fun _ => h n else (S.C3 i).map fun _ => h n

/-- One turn of the loop of `calc_C`, `tdvp_sandwich.py:427-441`. -/
def SwT.calcCStep (S : SwT q D) (n : ℤ) : Option (SwT q D) :=
  (S.hamAt n).bind fun h =>
  let i := (n + 1).toNat
  let AA := calcAA (S.getA n) (S.getA (n + 1))
  let S := { S with AA := Function.update S.AA i (some AA) }
  if S.hamSites = 2 then
    match h with
    | .two o => some { S with C2 := Function.update S.C2 i (some (EvoMPS.calcC o AA)) }
    | .three _ => none
  else
    match h with
    | .two _ => none
    | .three o =>
      let AAA := calcAAA_AA AA (S.getA (n + 2))
      some { S with AAA := Function.update S.AAA i (some AAA), C3 := Function.update S.C3 i (some (calcC3 o AAA)) }

/-- `tdvp_sandwich.py:405-441` `calc_C()` with default arguments; `none` is a raised exception. -/
def SwT.calcC (S : SwT q D) : Option (SwT q D) :=
  ((List.range (S.N + S.hamSites - 1)).map fun i : ℕ => (i : ℤ) + 2 - S.hamSites).foldlM SwT.calcCStep S

/-- One turn of the loop to the left, `tdvp_sandwich.py:463-472`; the pair is `(self.K, self.h_expect)`. -/
def SwT.rightIter (S : SwT q D) (p : (ℕ → Matrix (Fin D) (Fin D) ℂ) × (ℕ → ℂ)) (n : ℤ) :
    Option ((ℕ → Matrix (Fin D) (Fin D) ℂ) × (ℕ → ℂ)) :=
  let i := (n + 1).toNat
  (if S.hamSites = 2 then
    (S.C2 i).bind fun C => (S.AA i).map fun AA =>
      calcKSite2 (p.1 i) C (S.getL (n - 1)) (S.r i) (S.getA n) AA
  else
    (S.C3 i).bind fun C => (S.AAA i).map fun AAA =>
      calcKSite3 (p.1 i) C (S.getL (n - 1)) (S.getR (n + 2)) (S.getA n) AAA).map
  fun x => (Function.update p.1 (pmod n (S.N + 3)) x.1, Function.update p.2 (pmod n (S.N + 1)) x.2)

/-- One turn of the loop to the right, `tdvp_sandwich.py:474-483`, `n >= 1`; the pair is `(self.K_l, self.h_expect)`. -/
def SwT.leftIter (S : SwT q D) (p : (ℕ → Matrix (Fin D) (Fin D) ℂ) × (ℕ → ℂ)) (n : ℕ) :
    Option ((ℕ → Matrix (Fin D) (Fin D) ℂ) × (ℕ → ℂ)) :=
  (if S.hamSites = 2 then
    (S.C2 n).bind fun C => (S.AA n).map fun AA =>
      calcKlSite2 (p.1 (n - 1)) C (S.getL ((n : ℤ) - 2)) (S.r n) (S.getA n) AA
  else
    (S.C3 (n - 1)).bind fun C => (S.AAA (n - 1)).map fun AAA =>
      calcKlSite3 (p.1 (n - 1)) C (S.getL ((n : ℤ) - 3)) (S.r n) (S.A n) AAA).map
  fun x => (Function.update p.1 n x.1, Function.update p.2 (n - 1) x.2)

/-- `tdvp_sandwich.py:443-488` `calc_K()`.  `sL`, `sR` are the solvers of the bulks, `jL`, `jR` the contents of their buffers;
`none` is a raised exception. -/
noncomputable def SwT.calcK (S : SwT q D) (sL sR : Solver D) (jL jR : Matrix (Fin D) (Fin D) ℂ) : Option (SwT q D) :=
  (S.uniR.calcC.calcK sR jR).bind fun uniR =>
  (S.uniL.calcC.calcKl sL jL).bind fun uh =>
  let uniL := uh.1
  (uniL.Kl (uniL.L - 1)).bind fun K_left =>
  let S := { S with uniL := uniL, uniR := uniR }
  let K := Function.update S.K (S.N + 1) (uniR.K 0)
  let Kl := Function.update S.Kl 0 K_left
  let stop : ℤ := (S.nc : ℤ) - S.hamSites + 1
  (((List.range (S.N - stop).toNat).map fun i : ℕ => (S.N : ℤ) - i).foldlM S.rightIter (K, fun _ => 0)).bind fun p =>
  ((List.range' 1 S.nc).foldlM S.leftIter (Kl, p.2)).map fun pl =>
  { S with
    K := p.1, Kl := pl.1, hExpect := pl.2
    dH := adotNoconj (pl.1 S.nc) (S.getR S.nc)
      + adot (S.getL ((S.nc : ℤ) - S.hamSites + 1)) (p.1 (pmod ((S.nc : ℤ) - S.hamSites + 2) (S.N + 3)))
      - ((S.N + S.hamSites - 1 : ℕ) : ℂ) * uh.2 }

end EvoMPS.Uni
