import Verif.SwCF
import Verif.UniformBuild

/-!
# A sandwich with a Hamiltonian made from a sandwich (`tdvp_sandwich.py`)

Conventions of `SwCF.lean`.  `none` is a raised exception.
-/

namespace EvoMPS.SW

open Uni

variable {q D : ℕ → ℕ} {qL qR N : ℕ}

/-- The argument `ham_C`: a list of terms or a function. -/
inductive CentreHam
  | terms (n : ℕ)
  | function

/-- `len(ham_C)`; a function has no length. -/
def CentreHam.len : CentreHam → Option ℕ
  | .terms n => some n
  | .function => none

/-- The attributes of `EvoMPS_TDVP_Sandwich` used here: the state, the array `self.q` (numbered as in python) and `self.ham_sites`. -/
structure TdvpSw (q D : ℕ → ℕ) (qL qR N : ℕ) where
  st : Sw q D qL qR N
  qArr : ℕ → ℕ
  hamSites : ℕ

/-- `mps_sandwich.py:584-589` `get_q` of such an object. -/
def TdvpSw.getQ (T : TdvpSw q D qL qR N) (n : ℤ) : ℕ :=
  if n < 1 then qL else if n > N then qR else T.qArr n.toNat

/-- `tdvp_sandwich.py:366-382` `EvoMPS_TDVP_Sandwich.from_mps(mps, ham_L, ham_C, ham_R, ham_sites)`.  Of what the constructor
(`tdvp_sandwich.py:296-320`, `mps_sandwich.py:58-114`) makes, `N_centre = N // 2`, `q` and `ham_sites` remain; tensors, environments
and bond dimensions are replaced.  The call of `calc_B` in the constructor, which only sets `eta_sq_uni`, and `calc_C`, `calc_K` after the update
of the state are left out. -/
noncomputable def swFromMps (eps : ℝ) (S : Sw q D qL qR N) (hamL : HamArg) (hamC : CentreHam) (hamR : HamArg)
    (hamSites : Option ℕ) : Option (TdvpSw q D qL qR N) :=
  hamC.len.bind fun m =>
  if m ≠ N + 1 then none else
  (Uni.fromMps S.uniL hamL hamSites).bind fun uL =>
  (Uni.fromMps S.uniR hamR hamSites).bind fun uR =>
  let T : Sw q D qL qR N :=
    { nc := N / 2, A := S.A, l := S.l, r := S.r, lEnd := S.lEnd, rEnd := S.rEnd, uniL := uL.1, uniR := uR.1 }
  (updateSw eps true T).map fun T => ⟨T, fun _ => qL, uL.2⟩

end EvoMPS.SW
