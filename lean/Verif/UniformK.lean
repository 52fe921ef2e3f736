import Verif.UniformPinv
import Verif.UniformExpect
import Verif.Energy

/-!
# The uniform chain: `C`, `K` and the energy density (`tdvp_uniform.py`)

Hamiltonians given as functions are turned into arrays of their values by `calc_C`, so only the array form
is modelled.  The tensor-product form of the Hamiltonian (`ham_tp`) is in `TensorProd.lean`; CUDA is not modelled.
-/

namespace EvoMPS.Uni

open Matrix

variable {q D : ℕ}

/-- The index `i` of a python list of length `L` after `i % L`; python's `%` has the sign of the divisor. -/
def pmod (i : ℤ) (L : ℕ) : ℕ := (i % (L : ℤ)).toNat

/-- The Hamiltonian term (`self.ham` as an array): `h s t u v = ⟨s t|h|u v⟩`. -/
inductive UHam (q : ℕ)
  | two (h : Fin q → Fin q → Fin q → Fin q → ℂ)
  | three (h : Fin q → Fin q → Fin q → Fin q → Fin q → Fin q → ℂ)

/-- `self.ham_sites`. -/
def UHam.sites : UHam q → ℕ
  | .two _ => 2
  | .three _ => 3

/-- The term as an operator on `ham_sites` sites. -/
def UHam.op : (H : UHam q) → (Fin H.sites → Fin q) → (Fin H.sites → Fin q) → ℂ
  | .two h => fun (s t : Fin 2 → Fin q) => h (s 0) (s 1) (t 0) (t 1)
  | .three h => fun (s t : Fin 3 → Fin q) => h (s 0) (s 1) (s 2) (t 0) (t 1) (t 2)

/-- The argument `ham` of the constructor: an array with the given number of axes or a function. -/
inductive HamArg
  | array (ndim : ℕ)
  | callable

/-- `tdvp_uniform.py:140-152`, `set_ham(ham, ham_sites)`: the value of `self.ham_sites` afterwards, `none` for the `ValueError`. -/
def setHamSites (ham : HamArg) (hamSites : Option ℕ) : Option ℕ :=
  let sites := match hamSites with
    | none => match ham with
      | .array ndim => ndim / 2
      | .callable => 2
    | some n => n
  if ¬ (sites = 2 ∨ sites = 3) then none else some sites

/-- `self.ham_sites` of a new object: `__init__` (`tdvp_uniform.py:32-71`) stores the argument, then
`_init_arrays` (`tdvp_uniform.py:73-76`) calls `set_ham(self.ham)`. -/
def newHamSites (ham : HamArg) (_hamSites : Option ℕ) : Option ℕ := setHamSites ham none

/-- The attributes used here (`tdvp_uniform.py:60-102, 157-165`); entry `L - 1` of a list is its last entry.
`C` has two or three physical indices. -/
structure UTDVP (q D : ℕ) extends UMPS ℂ q D where
  ham : UHam q
  AAA : ℕ → Ten3 ℂ q q q D D
  C2 : ℕ → Ten2 ℂ q q D D
  C3 : ℕ → Ten3 ℂ q q q D D
  K : ℕ → Matrix (Fin D) (Fin D) ℂ
  K0init : Option (Matrix (Fin D) (Fin D) ℂ)
  Kl : ℕ → Option (Matrix (Fin D) (Fin D) ℂ)
  hExpect : ℂ

/-- `tdvp_uniform.py:206-240` `calc_C()` with `ham_tp = None`. -/
def UTDVP.calcC (S : UTDVP q D) : UTDVP q D :=
  let S : UTDVP q D := { S with toUMPS := S.toUMPS.calcAAs }
  match S.ham with
  | .two h => { S with C2 := (List.range S.L).foldl (fun C k =>
      Function.update C k (EvoMPS.calcC h (S.AA k))) S.C2 }
  | .three h =>
    let p := (List.range S.L).foldl (fun (p : (ℕ → Ten3 ℂ q q q D D) × (ℕ → Ten3 ℂ q q q D D)) k =>
      let AAA := Function.update p.1 k (calcAAA_AA (S.AA k) (S.A ((k + 2) % S.L)))
      let C := Function.update p.2 k (calcC3 h (AAA k))
      (AAA, C)) (S.AAA, S.C3)
    { S with AAA := p.1, C3 := p.2 }

/-- The contraction used in `calc_K` for the term starting at site `k` (`tdvp_uniform.py:318-328`). -/
def UTDVP.Hrk (S : UTDVP q D) (k : ℕ) : Matrix (Fin D) (Fin D) ℂ :=
  match S.ham with
  | .two _ => epsR2 (S.r ((k + 1) % S.L)) (S.C2 k) (S.AA k)
  | .three _ => epsR3 (S.r ((k + 2) % S.L)) (S.C3 k) (S.AAA k)

/-- `tdvp_uniform.py:309-328`: the terms starting in the block. -/
def UTDVP.Hr (S : UTDVP q D) : Matrix (Fin D) (Fin D) ℂ :=
  (List.range' 1 (S.L - 1)).foldl (fun Hr k =>
    Hr + (List.range k).reverse.foldl (fun Hrk j => epsR Hrk (S.A j) (S.A j)) (S.Hrk k)) (S.Hrk 0)

/-- `tdvp_uniform.py:242-292` `calc_PPinv(x, left=left, out=out)` with `p = 0`. -/
noncomputable def UTDVP.calcPPinv (S : UTDVP q D) (solver : Solver D) (junk x : Matrix (Fin D) (Fin D) ℂ)
    (left : Bool) (out : Option (Matrix (Fin D) (Fin D) ℂ)) : Option (Matrix (Fin D) (Fin D) ℂ) :=
  pinv1mE solver junk x S.list S.list (some (S.l (S.L - 1))) (some (S.r (S.L - 1))) 0 left true out

/-- One iteration of the second loop of `calc_K` (`tdvp_uniform.py:349-358`), `k >= 1`. -/
def UTDVP.calcKIter (S : UTDVP q D) (K : ℕ → Matrix (Fin D) (Fin D) ℂ) (k : ℕ) : ℕ → Matrix (Fin D) (Fin D) ℂ :=
  let L := S.L
  let (Kk, hk) := match S.ham with
    | .two _ => calcKSite2 (K ((k + 1) % L)) (S.C2 k) (S.l (k - 1)) (S.r ((k + 1) % L)) (S.A k) (S.AA k)
    | .three _ => calcKSite3 (K ((k + 1) % L)) (S.C3 k) (S.l (k - 1)) (S.r ((k + 2) % L)) (S.A k) (S.AAA k)
  Function.update K k (Kk - hk • S.r (pmod ((k : ℤ) - 1) L))

/-- `tdvp_uniform.py:294-358` `calc_K()` with `ham_tp = None`.  `solver` is `self.K_solver`, `junk` the content
of the solver's work buffer.  A block without sites raises. -/
noncomputable def UTDVP.calcK (S : UTDVP q D) (solver : Solver D) (junk : Matrix (Fin D) (Fin D) ℂ) :
    Option (UTDVP q D) :=
  let L := S.L
  if L = 0 then none else
  let Hr := S.Hr
  let h := adot (S.l (L - 1)) Hr
  let QHr := Hr - h • S.r (L - 1)
  let out := S.K0init.getD (S.K 0)
  (S.calcPPinv solver junk QHr false (some out)).map fun K0 =>
  let K := Function.update S.K 0 K0
  { S with hExpect := h / L, K0init := none, K := (List.range' 1 (L - 1)).reverse.foldl S.calcKIter K }

/-- The contraction used in `calc_K_l` for the term starting at site `k` (`tdvp_uniform.py:400-413`). -/
def UTDVP.lHk (S : UTDVP q D) (k : ℕ) : Matrix (Fin D) (Fin D) ℂ :=
  match S.ham with
  | .two _ => epsL2 (S.l (pmod ((k : ℤ) - 1) S.L)) (S.AA k) (S.C2 k)
  | .three _ => epsL3 (S.l (pmod ((k : ℤ) - 1) S.L)) (S.AAA k) (S.C3 k)

/-- `tdvp_uniform.py:390-413`: the terms ending in the block. -/
def UTDVP.lH (S : UTDVP q D) : Matrix (Fin D) (Fin D) ℂ :=
  let L := S.L
  match S.ham with
  | .two _ =>
    ((List.range (L - 1)).map fun i : ℕ => pmod ((i : ℤ) - 1) L).foldl (fun lH k =>
      lH + (List.range' ((k + 2) % L) (L - (k + 2) % L)).foldl (fun lHk j => epsL lHk (S.A j) (S.A j)) (S.lHk k))
      (epsL2 (S.l (pmod ((L : ℤ) - 3) L)) (S.AA (pmod ((L : ℤ) - 2) L)) (S.C2 (pmod ((L : ℤ) - 2) L)))
  | .three _ =>
    ((List.range (L - 1)).map fun i : ℕ => pmod ((i : ℤ) - 2) L).foldl (fun lH k =>
      lH + (List.range' ((k + 3) % L) (L - (k + 3) % L)).foldl (fun lHk j => epsL lHk (S.A j) (S.A j)) (S.lHk k))
      (epsL3 (S.l (pmod ((L : ℤ) - 4) L)) (S.AAA (pmod ((L : ℤ) - 3) L)) (S.C3 (pmod ((L : ℤ) - 3) L)))

/-- One iteration of the second loop of `calc_K_l` (`tdvp_uniform.py:434-444`).  It reads `self.K`. -/
def UTDVP.calcKlIter (S : UTDVP q D) (Kl : ℕ → Option (Matrix (Fin D) (Fin D) ℂ)) (k : ℕ) :
    ℕ → Option (Matrix (Fin D) (Fin D) ℂ) :=
  let L := S.L
  let (Kk, hk) := match S.ham with
    | .two _ => calcKlSite2 (S.K (pmod ((k : ℤ) - 1) L)) (S.C2 (pmod ((k : ℤ) - 1) L)) (S.l (pmod ((k : ℤ) - 2) L))
        (S.r k) (S.A k) (S.AA (pmod ((k : ℤ) - 1) L))
    | .three _ => calcKlSite3 (S.K (pmod ((k : ℤ) - 1) L)) (S.C3 (pmod ((k : ℤ) - 2) L)) (S.l (pmod ((k : ℤ) - 3) L))
        (S.r k) (S.A k) (S.AAA (pmod ((k : ℤ) - 2) L))
  Function.update Kl k (some (Kk - hk • S.l k))

/-- `tdvp_uniform.py:369-454` `calc_K_l()` with `ham_tp = None`: the object (with the new `K_left`) and the energy density. -/
noncomputable def UTDVP.calcKl (S : UTDVP q D) (solver : Solver D) (junk : Matrix (Fin D) (Fin D) ℂ) :
    Option (UTDVP q D × ℂ) :=
  let L := S.L
  if L = 0 then none else
  let lH := S.lH
  let h := adotNoconj lH (S.r (L - 1))
  let lHQ := lH - h • S.l (L - 1)
  (S.calcPPinv solver junk lHQ true (S.Kl (L - 1))).map fun K1 =>
  let Kl := Function.update S.Kl (L - 1) (some K1)
  ({ S with Kl := (List.range (L - 1)).foldl S.calcKlIter Kl }, h / L)

/-- `tdvp_uniform.py:1637-1642` `expect_2s(op, k)`; `isHam` is `op is self.ham`. -/
def UTDVP.expect2s (S : UTDVP q D) (op : Fin q → Fin q → Fin q → Fin q → ℂ) (isHam : Bool) (k : ℕ) : Option ℂ :=
  if isHam = true ∧ S.ham.sites = 2 then
    if S.L ≤ k then none else
    let res := epsR2 (S.r ((k + 1) % S.L)) (S.C2 k) (S.AA k)
    some (adot (S.l (pmod ((k : ℤ) - 1) S.L)) res)
  else S.toUMPS.expect2s op k

/-- `tdvp_uniform.py:1644-1649` `expect_3s(op, k)`. -/
def UTDVP.expect3s (S : UTDVP q D) (op : Fin q → Fin q → Fin q → Fin q → Fin q → Fin q → ℂ) (isHam callable : Bool)
    (k : ℕ) : Option ℂ :=
  if isHam = true ∧ S.ham.sites = 3 then
    if S.L ≤ k then none else
    let res := epsR3 (S.r ((k + 2) % S.L)) (S.C3 k) (S.AAA k)
    some (adot (S.l (pmod ((k : ℤ) - 1) S.L)) res)
  else S.toUMPS.expect3s op callable k

end EvoMPS.Uni
