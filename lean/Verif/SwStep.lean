import Verif.SwGrad
import Verif.SwStepSpec

/-!
# Time steps of sandwich states without bond expansion (`tdvp_sandwich.py`)

One local dimension `q` and one bond dimension `D`, as in `SwEnergy.lean`.
-/

namespace EvoMPS.Uni

open Matrix

variable {q D : ℕ}

/-- `mps_sandwich.py:250-263` and `mps_gen.py:349-361` `calc_l()` with default arguments. -/
def SwT.calcLs (S : SwT q D) : SwT q D :=
  let l := Function.update S.l 0 (S.uniL.l (S.uniL.L - 1))
  let l := (List.range' 1 S.N).foldl (fun l n => Function.update l n (epsL (l (n - 1)) (S.A n) (S.A n))) l
  { S with l := Function.update l (S.N + 1) (epsL (l S.N) (S.uniR.A 0) (S.uniR.A 0)) }

/-- `mps_sandwich.py:265-276` and `mps_gen.py:363-374` `calc_r()` with default arguments. -/
def SwT.calcRs (S : SwT q D) : SwT q D :=
  let r := Function.update S.r S.N (S.uniR.r (S.uniR.L - 1))
  { S with r := (List.range' 0 S.N).reverse.foldl (fun r n =>
      Function.update r n (epsR (r (n + 1)) (S.A (n + 1)) (S.A (n + 1)))) r }

/-- `tdvp_sandwich.py:711-721` and `mps_sandwich.py:231-247` `update(restore_CF=False, normalize=False)`. -/
noncomputable def SwT.update (S : SwT q D) (sL sR : Solver D) (jL jR : Matrix (Fin D) (Fin D) ℂ) : Option (SwT q D) :=
  S.calcLs.calcRs.calcC.bind fun S => S.calcK sL sR jL jR

/-- The matrix objects in `self.l` after `calc_l()`: `l[0]` is the object `uni_l.l[-1]`, the others are new arrays. -/
def SwT.lObjs (S : SwT q D) (lU : MM ℂ D D) (n : ℕ) : MM ℂ D D := if n = 0 then lU else .dense (S.l n)

/-- The matrix objects in `self.r` after `calc_r()`: `r[N]` is the object `uni_r.r[-1]`. -/
def SwT.rObjs (S : SwT q D) (rU : MM ℂ D D) (n : ℕ) : MM ℂ D D := if n = S.N then rU else .dense (S.r n)

/-- The loop `tdvp_sandwich.py:818-821`: the tensors and the list `B`, whose entries are set to `None`. -/
def eulerW (N : ℕ) (dtau : ℂ) (X : (ℕ → Ten ℂ q D D) × WList q D) : (ℕ → Ten ℂ q D D) × WList q D :=
  (List.range' 1 N).foldl (fun X n => (X.2 n).elim X fun b =>
    (Function.update X.1 n (X.1 n + (-dtau) • b), Function.update X.2 n none)) X

/-- `tdvp_sandwich.py:801-837` `take_step(dtau, B)` with `dynexp = False`: the object and, if `B` was given, the list of the caller
afterwards. -/
noncomputable def SwT.takeStep (P : Num) (S : SwT q D) (lm rm : ℕ → MM ℂ D D) (dtau : ℂ) (B : Option (WList q D)) :
    Option (SwT q D × Option (WList q D)) :=
  (B.elim ((S.calcB P lm rm).map SwTanOut.B) some).map fun F =>
    let X := eulerW S.N dtau (S.A, F)
    ({ S with A := X.1 }, B.map fun _ => X.2)

/-- The loop `tdvp_sandwich.py:864-867` and `900-902`: `A[n] = A0[n] - c * B[n]` where `B[n]` is given. -/
def rkFirstW (N : ℕ) (c : ℂ) (A0 : ℕ → Ten ℂ q D D) (B : WList q D) (A : ℕ → Ten ℂ q D D) : ℕ → Ten ℂ q D D :=
  (List.range' 1 N).foldl (fun A n => (B n).elim A fun b => Function.update A n (A0 n - c • b)) A

/-- The loops `tdvp_sandwich.py:875-879` and `887-891`: `A[n] = A0[n] - c * B[n]` and `B_fin[n] += 2 * B[n]` where `B[n]` is
given.  `None += ...` raises. -/
def rkLoopW (N : ℕ) (c : ℂ) (A0 : ℕ → Ten ℂ q D D) (B : WList q D) (X : (ℕ → Ten ℂ q D D) × WList q D) :
    Option ((ℕ → Ten ℂ q D D) × WList q D) :=
  (List.range' 1 N).foldlM (fun X n => (B n).elim (some X) fun b => (X.2 n).map fun f =>
    (Function.update X.1 n (A0 n - c • b), Function.update X.2 n (some (f + (2 : ℂ) • b)))) X

/-- The lists of tangent vectors `tdvp_sandwich.py:871-873` and `883-885`: `calc_B_n(n, set_eta=False)` for all sites. -/
noncomputable def SwT.slopes (P : Num) (S : SwT q D) (lm rm : ℕ → MM ℂ D D) : Option (WList q D) :=
  (List.range' 1 S.N).foldlM (fun B n => (S.calcBn P lm rm n).map fun Bn => Function.update B n (Bn.map Prod.fst)) fun _ => none

/-- The loop `tdvp_sandwich.py:895-898`: `k4` is computed site by site and added. -/
noncomputable def SwT.rkLast (P : Num) (S : SwT q D) (lm rm : ℕ → MM ℂ D D) (F : WList q D) : Option (WList q D) :=
  (List.range' 1 S.N).foldlM (fun F n => (S.calcBn P lm rm n).bind fun Bn =>
    Bn.elim (some F) fun b => (F n).map fun f => Function.update F n (some (f + b.1))) F

/-- `tdvp_sandwich.py:839-902` `take_step_RK4(dtau, B_i)`: the object and, if `B_i` was given, the contents of the caller's list
afterwards.  `B_i[:]` copies the list but not the arrays in it, and `+=` changes an array in place, so the arrays of the caller
are those of `B_fin`.  `lU`, `rU` are the matrix objects `uni_l.l[-1]`, `uni_r.r[-1]`. -/
noncomputable def SwT.takeStepRK4 (P : Num) (S : SwT q D) (sL sR : Solver D) (jL jR : Matrix (Fin D) (Fin D) ℂ)
    (lU rU : MM ℂ D D) (lm rm : ℕ → MM ℂ D D) (dtau : ℂ) (Bi : Option (WList q D)) : Option (SwT q D × Option (WList q D)) :=
  let A0 := S.A
  (Bi.elim ((S.calcB P lm rm).map SwTanOut.B) some).bind fun F =>
  (SwT.update { S with A := rkFirstW S.N (dtau / 2) A0 F S.A } sL sR jL jR).bind fun S =>
  (S.slopes P (S.lObjs lU) (S.rObjs rU)).bind fun k2 =>
  (rkLoopW S.N (dtau / 2) A0 k2 (S.A, F)).bind fun X =>
  (SwT.update { S with A := X.1 } sL sR jL jR).bind fun S =>
  (S.slopes P (S.lObjs lU) (S.rObjs rU)).bind fun k3 =>
  (rkLoopW S.N dtau A0 k3 (S.A, X.2)).bind fun X =>
  (SwT.update { S with A := X.1 } sL sR jL jR).bind fun S =>
  (S.rkLast P (S.lObjs lU) (S.rObjs rU) X.2).map fun F =>
    ({ S with A := rkFirstW S.N (dtau / 6) A0 F S.A }, Bi.map fun _ => F)

end EvoMPS.Uni
