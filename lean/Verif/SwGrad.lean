import Verif.SwEnergy
import Verif.Tangent

/-!
# Sandwich states: the tangent vector (`tdvp_sandwich.py`)

As in `SwEnergy.lean`, one local dimension `q` and one bond dimension `D` in all parts.  The environments `l[n]`, `r[n]` appear
twice, as plain matrices in the state and, where the code looks at their class, as matrix objects `lm n`, `rm n`
(see `Tangent.lean`).
-/

namespace EvoMPS.Uni

open Matrix

variable {q D : ℕ}

/-- `tdvp_sandwich.py:384-390` `get_AA(n)`. -/
def SwT.getAA (S : SwT q D) (n : ℤ) : Option (Ten2 ℂ q q D D) :=
  if n < -1 then some (S.uniL.AA (pmod (n - 1) S.uniL.L))
  else if n > S.N then some (S.uniR.AA (pmod (n - S.N - 1) S.uniR.L))
  else S.AA (n + 1).toNat

/-- `tdvp_sandwich.py:392-398` `get_AAA(n)`. -/
def SwT.getAAA (S : SwT q D) (n : ℤ) : Option (Ten3 ℂ q q q D D) :=
  if n < -1 then some (calcAAA_AA (S.uniL.AA (pmod (n - 1) S.uniL.L)) (S.getA (n + 2)))
  else if n > S.N then some (calcAAA_AA (S.uniR.AA (pmod (n - S.N - 1) S.uniR.L)) (S.getA (n + 2)))
  else S.AAA (n + 1).toNat

/-- `tdvp_sandwich.py:400-403` `get_C(n)` for terms on two sites. -/
def SwT.getC2 (S : SwT q D) (n : ℤ) : Option (Ten2 ℂ q q D D) :=
  if n < -1 ∨ n > S.N then none else S.C2 (n + 1).toNat

/-- `tdvp_sandwich.py:400-403` `get_C(n)` for terms on three sites. -/
def SwT.getC3 (S : SwT q D) (n : ℤ) : Option (Ten3 ℂ q q q D D) :=
  if n < -1 ∨ n > S.N then none else S.C3 (n + 1).toNat

/-- `tdvp_sandwich.py:503-534` `calc_x(n, ..., right=True)`, `n >= 1`.  `none` is a raised exception; products `AA` that are
`None` count as one here. -/
def SwT.calcXr (S : SwT q D) (n : ℕ) {v : ℕ} (Vsh : Fin q → Matrix (Fin D) (Fin v) ℂ)
    (l_s r_s l_si r_si : Matrix (Fin D) (Fin D) ℂ) : Option (Matrix (Fin D) (Fin v) ℂ) :=
  if S.hamSites = 2 then
    some (calcX (some (S.K (n + 1))) (S.getC2 n) (S.getC2 ((n : ℤ) - 1)) (S.r (n + 1)) (S.getL ((n : ℤ) - 2))
      (S.getA ((n : ℤ) - 1)) (S.A n) (S.getA ((n : ℤ) + 1)) l_s l_si r_s r_si Vsh)
  else
    (S.getAA ((n : ℤ) - 2)).bind fun AAm2 => (S.getAA ((n : ℤ) + 1)).bind fun AAp1 =>
    calcX3 (some (S.K (n + 1))) (S.getC3 n) (S.getC3 ((n : ℤ) - 1)) (S.getC3 ((n : ℤ) - 2))
      (S.getR ((n : ℤ) + 1)) (S.getR ((n : ℤ) + 2)) (some (S.getL ((n : ℤ) - 2))) (some (S.getL ((n : ℤ) - 3)))
      AAm2 (S.getA ((n : ℤ) - 1)) (S.A n) (S.getA ((n : ℤ) + 1)) AAp1 l_s l_si r_s r_si Vsh

/-- `tdvp_sandwich.py:503-549` `calc_x(n, ..., right=False)`, `n >= 1`. -/
def SwT.calcXleft (S : SwT q D) (n : ℕ) {v : ℕ} (Vsh : Fin q → Matrix (Fin v) (Fin D) ℂ)
    (l_s r_s l_si r_si : Matrix (Fin D) (Fin D) ℂ) : Option (Matrix (Fin v) (Fin D) ℂ) :=
  if S.hamSites = 2 then
    calcXl (some (S.Kl (n - 1))) (S.getC2 n) (S.getC2 ((n : ℤ) - 1)) (S.r (n + 1)) (some (S.getL ((n : ℤ) - 2)))
      (S.getA ((n : ℤ) - 1)) (S.A n) (S.getA ((n : ℤ) + 1)) l_s l_si r_s r_si Vsh
  else
    (S.getAA ((n : ℤ) - 2)).bind fun AAm2 => (S.getAA ((n : ℤ) + 1)).map fun AAp1 =>
    calcXl3 (some (S.Kl (n - 1))) (S.getC3 n) (S.getC3 ((n : ℤ) - 1)) (S.getC3 ((n : ℤ) - 2))
      (S.getR ((n : ℤ) + 1)) (S.getR ((n : ℤ) + 2)) (S.getL ((n : ℤ) - 2)) (S.getL ((n : ℤ) - 3))
      AAm2 (S.getA ((n : ℤ) - 1)) (S.A n) (S.getA ((n : ℤ) + 1)) AAp1 l_s l_si r_s r_si Vsh

/-- `tdvp_sandwich.py:565-573`: `x.inv()`, or `invmh(x)` for an array. -/
noncomputable def _root_.EvoMPS.Num.invOf (P : Num) {n : ℕ} (x : MM ℂ n n) : Matrix (Fin n) (Fin n) ℂ :=
  match x.inv with
  | some y => y.toArray
  | none => invmh P.eigh x.toArray

/-- `tdvp_sandwich.py:552-627` `calc_B_centre()`, `N_centre >= 1`.  `none` is a raised exception.  The loops over the local
states of the neighbours run up to `q[2]` and `q[0]` in the code, which is `q` here. -/
noncomputable def SwT.calcBCentre (P : Num) (S : SwT q D) (lm rm : ℕ → MM ℂ D D) : Option (Ten ℂ q D D × ℂ) :=
  let Nc := S.nc
  let rc_i := P.invOf (rm Nc)
  let lcm1_i := P.invOf (lm (Nc - 1))
  let Acm1 := S.getA ((Nc : ℤ) - 1)
  let Ac := S.A Nc
  let Acp1 := S.getA ((Nc : ℤ) + 1)
  let rc := S.r Nc
  let rcp1 := S.getR ((Nc : ℤ) + 1)
  let lcm1 := S.getL ((Nc : ℤ) - 1)
  let lcm2 := S.getL ((Nc : ℤ) - 2)
  let K_l_cm1 := S.Kl (Nc - 1) - adotNoconj (S.Kl (Nc - 1)) (S.r (Nc - 1)) • lcm1
  let Kcp1 := S.K (Nc + 1) - adot (S.l Nc) (S.K (Nc + 1)) • rc
  (if S.hamSites = 2 then
    (S.getC2 Nc).bind fun C => (S.getAA Nc).bind fun AA =>
    (S.getC2 ((Nc : ℤ) - 1)).bind fun Cm1 => (S.getAA ((Nc : ℤ) - 1)).map fun AAm1 =>
    let Cc : Ten2 ℂ q q D D := fun s t => C s t - S.hExpect Nc • AA s t
    let Ccm1 : Ten2 ℂ q q D D := fun s t => Cm1 s t - S.hExpect (pmod ((Nc : ℤ) - 1) (S.N + 1)) • AAm1 s t
    fun s : Fin q => Ac s * Kcp1 * rc_i + (forSum q fun t => Cc s t * rcp1 * (Acp1 t)ᴴ * rc_i)
      + lcm1_i * (K_l_cm1 * Ac s + forSum q fun t => (Acm1 t)ᴴ * (lcm2 * Ccm1 t s))
  else
    (S.getC3 Nc).bind fun C => (S.getAAA Nc).bind fun AAA =>
    (S.getC3 ((Nc : ℤ) - 1)).bind fun Cm1 => (S.getAAA ((Nc : ℤ) - 1)).bind fun AAAm1 =>
    (S.getC3 ((Nc : ℤ) - 2)).bind fun Cm2 => (S.getAAA ((Nc : ℤ) - 2)).bind fun AAAm2 =>
    (S.getAA ((Nc : ℤ) + 1)).bind fun AAp1 => (S.getAA ((Nc : ℤ) - 2)).map fun AAm2 =>
    let Cc : Ten3 ℂ q q q D D := fun s t u => C s t u - S.hExpect Nc • AAA s t u
    let Ccm1 : Ten3 ℂ q q q D D := fun s t u =>
      Cm1 t s u - S.hExpect (pmod ((Nc : ℤ) - 1) (S.N + 1)) • AAAm1 t s u
    let Ccm2 : Ten3 ℂ q q q D D := fun s t u =>
      Cm2 t u s - S.hExpect (pmod ((Nc : ℤ) - 2) (S.N + 1)) • AAAm2 t u s
    fun s : Fin q => Ac s * Kcp1 * rc_i + lcm1_i * (K_l_cm1 * Ac s)
      + epsR2 (S.getR ((Nc : ℤ) + 2)) (Cc s) AAp1 * rc_i
      + lcm1_i * epsL2 (S.getL ((Nc : ℤ) - 3)) AAm2 (Ccm2 s)
      + lcm1_i * epsL lcm2 Acm1 (fun t => epsR rcp1 (Ccm1 s t) Acp1) * rc_i).map
  fun Bc => (Bc, adot lcm1 (epsR rc Bc Bc))

/-- `tdvp_sandwich.py:629-678` `calc_B_n(n)`, with `calc_l_r_roots` (692-709), `1 <= n <= N`; the second component is the value of `eta_sq[n]`.  The outer
`none` is a raised exception, the inner one the return value `None`. -/
noncomputable def SwT.calcBn (P : Num) (S : SwT q D) (lm rm : ℕ → MM ℂ D D) (n : ℕ) : Option (Option (Ten ℂ q D D × ℂ)) :=
  if n = S.nc then (S.calcBCentre P lm rm).map some
  else
    let (l_s, l_si) := P.roots (lm (n - 1))
    let (r_s, r_si) := P.roots (rm n)
    if n > S.nc then
      match calcVsh P.qr (S.A n) r_s with
      | none => some none
      | some Vsh => (S.calcXr n Vsh l_s r_s l_si r_si).map fun x =>
          some (fun s => l_si * x * (Vsh s)ᴴ * r_si, adot x x)
    else
      match calcVshl P.qr (S.A n) l_s with
      | none => some none
      | some Vsh => (S.calcXleft n Vsh l_s r_s l_si r_si).map fun x =>
          some (fun s => l_si * (Vsh s)ᴴ * x * r_si, adot x x)

/-- What `calc_B()` computes: the list it returns, `self.eta_sq` and `self.eta`. -/
structure SwTanOut (q D : ℕ) where
  B : ℕ → Option (Ten ℂ q D D)
  etaSq : ℕ → ℂ
  eta : ℂ

/-- `tdvp_sandwich.py:680-690` `calc_B()`. -/
noncomputable def SwT.calcB (P : Num) (S : SwT q D) (lm rm : ℕ → MM ℂ D D) : Option (SwTanOut q D) :=
  ((List.range' 1 S.N).foldlM (fun (T : SwTanOut q D) n => (S.calcBn P lm rm n).map fun Bn =>
    { T with B := Function.update T.B n (Bn.map Prod.fst)
             etaSq := Bn.elim T.etaSq fun x => Function.update T.etaSq n x.2 })
    { B := fun _ => none, etaSq := fun _ => 0, eta := 0 }).map fun T =>
  { T with eta := P.sq (∑ n ∈ Finset.range (S.N + 1), T.etaSq n) }

end EvoMPS.Uni
