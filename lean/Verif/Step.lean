import Verif.Tangent
import Verif.StepSpec

/-!
# Time steps without bond expansion (`tdvp_gen.py`)

Site `k` here is python's site `n = k + 1`; `none` stands for a raised exception unless said otherwise.
-/

namespace EvoMPS

open Matrix

variable {q D : ℕ → ℕ}

/-- Assignment to `self.A`. -/
def TDVP.setA {R : Type*} (S : TDVP R q D) (A : Tensors R q D) : TDVP R q D :=
  { S with A := A }

/-- The arrays of roots and null spaces that `take_step` computes in advance. -/
structure Pre (q D : ℕ → ℕ) where
  l_s : ∀ n, Matrix (Fin (D n)) (Fin (D n)) ℂ
  l_si : ∀ n, Matrix (Fin (D n)) (Fin (D n)) ℂ
  r_s : ∀ n, Matrix (Fin (D n)) (Fin (D n)) ℂ
  r_si : ∀ n, Matrix (Fin (D n)) (Fin (D n)) ℂ
  Vrh : ∀ k, Option (Fin (q k) → Matrix (Fin (D (k + 1))) (Fin (D (k + 1) * q k - D k)) ℂ)
  Vlh : ∀ k, Option (Fin (q k) → Matrix (Fin (q k * D k - D (k + 1))) (Fin (D k)) ℂ)

/-- `tdvp_gen.py:870-888`: roots for all sites and null spaces for the gauge in use, or both with
`both` (`dynexp` or `calc_Y_2s`).  The loops fill the entries independently of each other. -/
noncomputable def precompute (P : Num) (g : Gauge) (both : Bool) (S : TDVP ℂ q D)
    (lm rm : ∀ n, MM ℂ (D n) (D n)) : Pre q D where
  l_s := fun n => (P.roots (lm n)).1
  l_si := fun n => (P.roots (lm n)).2
  r_s := fun n => (P.roots (rm n)).1
  r_si := fun n => (P.roots (rm n)).2
  Vrh := fun k => match g, both with
    | .left, false => none
    | _, _ => calcVsh P.qr (S.A k) (P.roots (rm (k + 1))).1
  Vlh := fun k => match g, both with
    | .right, false => none
    | _, _ => calcVshl P.qr (S.A k) (P.roots (lm k)).1

/-- `tdvp_gen.py:712-733` `_calc_B_r_n(n, ...)` with given roots; a null space that is not given is
computed. -/
noncomputable def calcBrnPre (P : Num) (N : ℕ) (ham : Ham ℂ q) (S : TDVP ℂ q D) (pre : Pre q D) (k : ℕ) :
    Option (Option (Ten ℂ (q k) (D k) (D (k + 1)) × ℂ)) :=
  if D k < q k * D (k + 1) then
    let Vrh := (pre.Vrh k).elim (calcVsh P.qr (S.A k) (pre.r_s (k + 1))) some
    Vrh.bind fun Vrh =>
      (calcXn N ham S k Vrh (pre.l_s k) (pre.l_si k) (pre.r_s (k + 1)) (pre.r_si (k + 1))).map fun x =>
        some (tenR (pre.l_si k) (pre.r_si (k + 1)) Vrh x, adot x x)
  else some none

/-- `tdvp_gen.py:735-756` `_calc_B_l_n(n, ...)` with given roots. -/
noncomputable def calcBlnPre (P : Num) (N : ℕ) (ham : Ham ℂ q) (S : TDVP ℂ q D) (pre : Pre q D) (k : ℕ) :
    Option (Option (Ten ℂ (q k) (D k) (D (k + 1)) × ℂ)) :=
  if D (k + 1) < q k * D k then
    let Vlh := (pre.Vlh k).elim (calcVshl P.qr (S.A k) (pre.l_s k)) some
    Vlh.bind fun Vlh =>
      (calcXln N ham S k Vlh (pre.l_s k) (pre.l_si k) (pre.r_s (k + 1)) (pre.r_si (k + 1))).map fun x =>
        some (tenL (pre.l_si k) (pre.r_si (k + 1)) Vlh x, adot x x)
  else some none

/-- One iteration of the loop in `tdvp_gen.py:684-689` with given arrays. -/
noncomputable def calcBPreIter (P : Num) (g : Gauge) (N : ℕ) (ham : Ham ℂ q) (S : TDVP ℂ q D)
    (pre : Pre q D) (T : TangentOut q D) (k : ℕ) : Option (TangentOut q D) :=
  let Bn := match g with
    | .right => calcBrnPre P N ham S pre k
    | .left => calcBlnPre P N ham S pre k
  Bn.map fun Bn =>
    let etaSq := Bn.elim T.etaSq fun x => Function.update T.etaSq k x.2
    { B := Function.update T.B k (Bn.map Prod.fst), etaSq := etaSq, eta := T.eta + etaSq k }

/-- `tdvp_gen.py:651-696` `calc_B(set_eta=True, l_s, ...)` with given arrays. -/
noncomputable def calcBPre (P : Num) (g : Gauge) (N : ℕ) (ham : Ham ℂ q) (S : TDVP ℂ q D)
    (pre : Pre q D) : Option (TangentOut q D) :=
  ((List.range' 0 N).foldl
    (fun (T : Option (TangentOut q D)) k => T.bind fun T => calcBPreIter P g N ham S pre T k)
    (some { B := fun _ => none, etaSq := 0, eta := 0 })).map fun T =>
    { T with eta := P.sq T.eta }

/-- The loop `tdvp_gen.py:901-903` and `926-928`: `A[n] += -dtau * B[n]` where `B[n]` is given. -/
def eulerLoop (N : ℕ) (dtau : ℂ) (B : BList q D) (A : Tensors ℂ q D) : Tensors ℂ q D :=
  (List.range' 0 N).foldl (fun A k =>
    Function.update A k ((B k).elim (A k) fun b => A k + (-dtau) • b)) A

/-- The second half of one iteration of the loop in `tdvp_gen.py:860-864`: `A[m]` is changed once no later
`B` depends on it, `m = n - ham_sites + 1`. -/
def saveMemApply (hs : ℕ) (dtau : ℂ) (j : ℕ) (X : Tensors ℂ q D × BList q D) :
    Tensors ℂ q D × BList q D :=
  if hs ≤ j + 1 then
    let m := j + 1 - hs
    (X.2 m).elim X fun b =>
      (Function.update X.1 m (X.1 m + (-dtau) • b), Function.update X.2 m none)
  else X

/-- One iteration of the loop in `tdvp_gen.py:855-864`, python's loop variable is `n = j + 1`. -/
noncomputable def saveMemIter (P : Num) (N : ℕ) (ham : Ham ℂ q) (S : TDVP ℂ q D)
    (lm rm : ∀ n, MM ℂ (D n) (D n)) (dtau : ℂ) (X : Tensors ℂ q D × BList q D) (j : ℕ) :
    Option (Tensors ℂ q D × BList q D) :=
  (if j < N then
    (calcBn P .right N ham (S.setA X.1) lm rm j).map fun Bn =>
      (X.1, Function.update X.2 j (Bn.map Prod.fst))
  else some X).map (saveMemApply ham.sites dtau j)

/-- `tdvp_gen.py:852-866`: the memory saving branch of `take_step`, with the assertion of line 866.
The bookkeeping of `eta_sq` is left out. -/
noncomputable def takeStepSaveMem (P : Num) (N : ℕ) (ham : Ham ℂ q) (S : TDVP ℂ q D)
    (lm rm : ∀ n, MM ℂ (D n) (D n)) (dtau : ℂ) : Option (TDVP ℂ q D) :=
  ((List.range' 0 (N + ham.sites - 1)).foldl
    (fun (X : Option (Tensors ℂ q D × BList q D)) j => X.bind fun X => saveMemIter P N ham S lm rm dtau X j)
    (some (S.A, fun _ => none))).bind fun X =>
      if ((List.range' 0 N).all fun k => (X.2 k).isNone) = true then some (S.setA X.1) else none

/-- `tdvp_gen.py:813-930` `take_step(dtau, B, save_memory)` with `dynexp = False` and
`calc_Y_2s = False`.  The second component is what `calc_B` left in `self.eta_sq`, `self.eta`, if it was
called. -/
noncomputable def takeStep (P : Num) (g : Gauge) (N : ℕ) (ham : Ham ℂ q) (S : TDVP ℂ q D)
    (lm rm : ∀ n, MM ℂ (D n) (D n)) (dtau : ℂ) (B : Option (BList q D)) (saveMemory : Bool) :
    Option (TDVP ℂ q D × Option (TangentOut q D)) :=
  match g, saveMemory, B with
  | .right, true, none => (takeStepSaveMem P N ham S lm rm dtau).map fun S => (S, none)
  | g, _, none => (calcBPre P g N ham S (precompute P g false S lm rm)).map fun out =>
      (S.setA (eulerLoop N dtau out.B S.A), some out)
  | _, _, some B => some (S.setA (eulerLoop N dtau B S.A), none)

/-- `tdvp_gen.py:450-485` `update(restore_CF=False, normalize=False)`. -/
def tdvpUpdate {R : Type*} [CommRing R] [StarRing R] (g : Gauge) (N : ℕ) (ham : Ham R q) (h0 : D 0 = 1)
    (hN : D N = 1) (S : TDVP R q D) : Option (TDVP R q D) :=
  let S : TDVP R q D := { S with toMPS := updateNoCF N S.toMPS }
  let S := calcCs N ham S
  match g with
  | .right => some (calcKs N ham h0 S)
  | .left => calcKls N ham hN S

/-- The matrix objects in `self.l` after `calc_l` (`mps_gen.py:360-361`): `l[0]` is left alone, the
others are new arrays. -/
def lObjs {R : Type*} (lm : ∀ n, MM R (D n) (D n)) (l : Envs R D) (n : ℕ) : MM R (D n) (D n) :=
  if n = 0 then lm n else .dense (l n)

/-- The matrix objects in `self.r` after `calc_r` (`mps_gen.py:373-374`): `r[N]` is left alone. -/
def rObjs {R : Type*} (N : ℕ) (rm : ∀ n, MM R (D n) (D n)) (r : Envs R D) (n : ℕ) : MM R (D n) (D n) :=
  if n = N then rm n else .dense (r n)

/-- The loops `tdvp_gen.py:959-962` and `966-969`: `A[n] = A0[n] - c * B[n]` and `B_fin[n] += 2 * B[n]`
where `B[n]` is given.  `None += ...` raises. -/
def rkLoop (N : ℕ) (c : ℂ) (A0 : Tensors ℂ q D) (B : BList q D) (X : Tensors ℂ q D × BList q D) :
    Option (Tensors ℂ q D × BList q D) :=
  (List.range' 0 N).foldl (fun (X : Option (Tensors ℂ q D × BList q D)) k => X.bind fun X =>
    (B k).elim (some X) fun b => (X.2 k).map fun f =>
      (Function.update X.1 k (A0 k - c • b), Function.update X.2 k (some (f + (2 : ℂ) • b)))) (some X)

/-- The loop `tdvp_gen.py:973-976`: `k4` is computed site by site and added. -/
noncomputable def rkLast (P : Num) (g : Gauge) (N : ℕ) (ham : Ham ℂ q) (S : TDVP ℂ q D)
    (lm rm : ∀ n, MM ℂ (D n) (D n)) (F : BList q D) : Option (BList q D) :=
  (List.range' 0 N).foldl (fun (F : Option (BList q D)) k => F.bind fun F =>
    (calcBn P g N ham S lm rm k).bind fun Bn =>
      Bn.elim (some F) fun b => (F k).map fun f => Function.update F k (some (f + b.1))) (some F)

/-- `tdvp_gen.py:932-980` `take_step_RK4(dtau, B_i)`.  Returned are the object and the contents of the
caller's list `B_i` afterwards: `B_i[:]` copies the list but not the arrays in it, and `+=` on an array
changes it in place, so the caller's arrays are those of `B_fin`. -/
noncomputable def takeStepRK4 (P : Num) (g : Gauge) (N : ℕ) (ham : Ham ℂ q) (h0 : D 0 = 1) (hN : D N = 1)
    (S : TDVP ℂ q D) (lm rm : ∀ n, MM ℂ (D n) (D n)) (dtau : ℂ) (Bi : Option (BList q D)) :
    Option (TDVP ℂ q D × Option (BList q D)) :=
  let A0 := S.A
  (Bi.elim ((calcB P g N ham S lm rm).map TangentOut.B) some).bind fun F =>
  (tdvpUpdate g N ham h0 hN (S.setA (eulerLoop N (dtau / 2) F S.A))).bind fun S =>
  (calcB P g N ham S (lObjs lm S.l) (rObjs N rm S.r)).bind fun k2 =>
  (rkLoop N (dtau / 2) A0 k2.B (S.A, F)).bind fun X =>
  (tdvpUpdate g N ham h0 hN (S.setA X.1)).bind fun S =>
  (calcB P g N ham S (lObjs lm S.l) (rObjs N rm S.r)).bind fun k3 =>
  (rkLoop N dtau A0 k3.B (S.A, X.2)).bind fun X =>
  (tdvpUpdate g N ham h0 hN (S.setA X.1)).bind fun S =>
  (rkLast P g N ham S (lObjs lm S.l) (rObjs N rm S.r) X.2).map fun F =>
    (S.setA ((List.range' 0 N).foldl (fun A k =>
      Function.update A k ((F k).elim (A k) fun f => A0 k - (dtau / 6) • f)) S.A),
     Bi.map fun _ => F)

end EvoMPS
