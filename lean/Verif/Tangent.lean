import Verif.Energy
import Verif.Nullspace
import Verif.MatMul
import Mathlib.Analysis.Complex.Norm

/-!
# The TDVP tangent vector (`tdvp_common.py`, `tdvp_gen.py`)

Site `k` here is python's site `n = k + 1`.  `none` of an `Option` result that stands for a raised
exception is said to do so.  The environments `l[n]`, `r[n]` appear twice: as plain matrices in the
object state and, where the code looks at their class, as matrix objects `MM`; the theorems relate the two.
Products with matrix objects are written as products of the matrices they stand for (the equality is
property C40).
-/

namespace EvoMPS

open Matrix

/-- `tdvp_common.py:206-268` `herm_sqrt_inv(x, zero_tol)` (returns the root and the inverse root).
`sq` is `scipy.sqrt`; eigenvalues are real, their comparison with the tolerance is that of the real
parts. -/
noncomputable def hermSqrtInv (eigh : Eigh ℂ) (sq : ℂ → ℂ) (tol : ℝ) {n : ℕ} :
    MM ℂ n n → MM ℂ n n × MM ℂ n n
  | .eye _ => (.eye _, .eye _)
  | .diag d =>
    (.diag fun i => if (d i).re ≤ tol then 0 else sq (d i),
     .diag fun i => if (d i).re ≤ tol then 0 else 1 / sq (d i))
  | .dense M =>
    let ev := eigh.ev M
    let EV := eigh.vec M
    let evSqrt := fun i => if (ev i).re ≤ tol then 0 else sq (ev i)
    let evSqrtI := fun i => if (ev i).re ≤ tol then 0 else 1 / sq (ev i)
    (.dense (EV * mmulDiagR evSqrt EVᴴ), .dense (EV * mmulDiagR evSqrtI EVᴴ))

section
variable {R : Type*} [CommRing R] [StarRing R]

/-- `tdvp_common.py:285-290`: the array `R` of shape `(D, q, Dm1)` with
`R[:, s, :] = r_s A[s]ᴴ`, reshaped to `(q * D, Dm1)`. -/
def vshMat {p a b : ℕ} (A : Ten R p a b) (r_s : Matrix (Fin b) (Fin b) R) :
    Matrix (Fin (b * p)) (Fin a) R :=
  Matrix.of fun i j => (r_s * (A i.modNat)ᴴ) i.divNat j

/-- `tdvp_common.py:277-310` `calc_Vsh(A, r_s)`.  `none` is the return value `None`.
`Vconj = nullspace_qr(Rᴴ).T` is reshaped to `(q * D - Dm1, D, q)` and transposed. -/
def calcVsh (qr : FullQR R) {p a b : ℕ} (A : Ten R p a b) (r_s : Matrix (Fin b) (Fin b) R) :
    Option (Fin p → Matrix (Fin b) (Fin (b * p - a)) R) :=
  if b * p ≤ a then none
  else some fun s => Matrix.of fun d α => nullspaceQr qr (vshMat A r_s)ᴴ (flat d s) α

/-- `tdvp_common.py:320-325`: the array `L` of shape `(D, q, Dm1)` with
`L[:, s, :] = (l_s A[s])ᴴ`, reshaped to `(D, q * Dm1)`. -/
def vshlMat {p a b : ℕ} (A : Ten R p a b) (l_s : Matrix (Fin a) (Fin a) R) :
    Matrix (Fin b) (Fin (p * a)) R :=
  Matrix.of fun d i => (l_s * A i.divNat)ᴴ d i.modNat

/-- `tdvp_common.py:312-344` `calc_Vsh_l(A, lm1_sqrt)`.  `none` is the return value `None`. -/
def calcVshl (qr : FullQR R) {p a b : ℕ} (A : Ten R p a b) (l_s : Matrix (Fin a) (Fin a) R) :
    Option (Fin p → Matrix (Fin (p * a - b)) (Fin a) R) :=
  if p * a ≤ b then none
  else some fun s => Matrix.of fun α i => star (nullspaceQr qr (vshlMat A l_s) (flat s i) α)

/-- `tdvp_common.py:384-417` `calc_x(Kp1, C, Cm1, rp1, lm2, Am1, A, Ap1, lm1_s, lm1_si, r_s, r_si,
Vsh)`.  Arguments that are `None` at the ends of the chain and then not looked at (`rp1`, `lm2`, `Am1`,
`Ap1`) are total here. -/
def calcX {pm p pp z a b c v : ℕ} (Kp1 : Option (Matrix (Fin b) (Fin b) R))
    (C : Option (Ten2 R p pp a c)) (Cm1 : Option (Ten2 R pm p z b)) (rp1 : Matrix (Fin c) (Fin c) R)
    (lm2 : Matrix (Fin z) (Fin z) R) (Am1 : Ten R pm z a) (A : Ten R p a b) (Ap1 : Ten R pp b c)
    (l_s l_si : Matrix (Fin a) (Fin a) R) (r_s r_si : Matrix (Fin b) (Fin b) R)
    (Vsh : Fin p → Matrix (Fin b) (Fin v) R) : Matrix (Fin a) (Fin v) R :=
  let x : Matrix (Fin a) (Fin v) R := 0
  let x := if C.isSome || Kp1.isSome then
      let part (s : Fin p) : Matrix (Fin a) (Fin v) R :=
        let sub : Matrix (Fin a) (Fin b) R := match C with
          | none => 0
          | some C => epsR rp1 (C s) Ap1
        let sub : Matrix (Fin a) (Fin b) R := match Kp1 with
          | none => sub
          | some K => sub + A s * K
        sub * (r_si * Vsh s)
      x + l_s * forSum p part
    else x
  match Cm1 with
  | none => x
  | some Cm1 => x + l_si * forSum p fun s => epsL lm2 Am1 (fun t => Cm1 t s) * (r_s * Vsh s)

/-- `tdvp_common.py:419-461` `calc_x_3s(...)`.  `none` is a raised exception: the assertion of line
428, or `Cm2[:, :, u]` with `Cm2 = None`. -/
def calcX3 {pmm pm p pp ppp y z a b c d v : ℕ} (Kp1 : Option (Matrix (Fin b) (Fin b) R))
    (C : Option (Ten3 R p pp ppp a d)) (Cm1 : Option (Ten3 R pm p pp z c))
    (Cm2 : Option (Ten3 R pmm pm p y b)) (rp1 : Matrix (Fin c) (Fin c) R)
    (rp2 : Matrix (Fin d) (Fin d) R) (lm2 : Option (Matrix (Fin z) (Fin z) R))
    (lm3 : Option (Matrix (Fin y) (Fin y) R)) (Am2Am1 : Ten2 R pmm pm y a) (Am1 : Ten R pm z a)
    (A : Ten R p a b) (Ap1 : Ten R pp b c) (Ap1Ap2 : Ten2 R pp ppp b d)
    (l_s l_si : Matrix (Fin a) (Fin a) R) (r_s r_si : Matrix (Fin b) (Fin b) R)
    (Vsh : Fin p → Matrix (Fin b) (Fin v) R) : Option (Matrix (Fin a) (Fin v) R) :=
  let x : Matrix (Fin a) (Fin v) R := 0
  if C.isNone && Kp1.isSome then none
  else
    let x := match C with
      | none => x
      | some C =>
        let part (s : Fin p) : Matrix (Fin a) (Fin v) R :=
          let sub := epsR2 rp2 (C s) Ap1Ap2
          let sub : Matrix (Fin a) (Fin b) R := match Kp1 with
            | none => sub
            | some K => sub + A s * K
          sub * (r_si * Vsh s)
        x + l_s * forSum p part
    let x := match lm2, Cm1 with
      | some lm2, some Cm1 => x + l_si * forSum p fun t =>
          (forSum pm fun s => (lm2 * Am1 s)ᴴ * epsR rp1 (Cm1 s t) Ap1) * (r_si * Vsh t)
      | _, _ => x
    match lm3 with
    | none => some x
    | some lm3 => Cm2.map fun Cm2 =>
        x + l_si * forSum p fun u => epsL2 lm3 Am2Am1 (fun s t => Cm2 s t u) * (r_s * Vsh u)

/-- `tdvp_common.py:463-500` `calc_x_l(...)`.  `none` is a raised exception: `Cm1[:, s]` with
`Cm1 = None`. -/
def calcXl {pm p pp z a b c v : ℕ} (Km1 : Option (Matrix (Fin a) (Fin a) R))
    (C : Option (Ten2 R p pp a c)) (Cm1 : Option (Ten2 R pm p z b)) (rp1 : Matrix (Fin c) (Fin c) R)
    (lm2 : Option (Matrix (Fin z) (Fin z) R)) (Am1 : Ten R pm z a) (A : Ten R p a b)
    (Ap1 : Ten R pp b c) (l_s l_si : Matrix (Fin a) (Fin a) R) (r_s r_si : Matrix (Fin b) (Fin b) R)
    (VshL : Fin p → Matrix (Fin v) (Fin a) R) : Option (Matrix (Fin v) (Fin b) R) :=
  let x : Matrix (Fin v) (Fin b) R := 0
  let x := match C with
    | none => x
    | some C => x + (forSum p fun s => VshL s * (l_s * epsR rp1 (C s) Ap1)) * r_si
  let second (E : Fin p → Matrix (Fin a) (Fin b) R) : Matrix (Fin v) (Fin b) R :=
    let part (s : Fin p) : Matrix (Fin v) (Fin b) R :=
      let sub : Matrix (Fin a) (Fin b) R := match Km1 with
        | none => E s
        | some K => E s + K * A s
      VshL s * (l_si * sub)
    x + forSum p part * r_s
  match lm2 with
  | none => some (second fun _ => 0)
  | some lm2 => Cm1.map fun Cm1 => second fun s => epsL lm2 Am1 (fun t => Cm1 t s)

/-- `tdvp_common.py:502-529` `calc_x_l_3s(...)`. -/
def calcXl3 {pmm pm p pp ppp y z a b c d v : ℕ} (Km1 : Option (Matrix (Fin a) (Fin a) R))
    (C : Option (Ten3 R p pp ppp a d)) (Cm1 : Option (Ten3 R pm p pp z c))
    (Cm2 : Option (Ten3 R pmm pm p y b)) (rp1 : Matrix (Fin c) (Fin c) R)
    (rp2 : Matrix (Fin d) (Fin d) R) (lm2 : Matrix (Fin z) (Fin z) R)
    (lm3 : Matrix (Fin y) (Fin y) R) (AAm2 : Ten2 R pmm pm y a) (Am1 : Ten R pm z a)
    (A : Ten R p a b) (Ap1 : Ten R pp b c) (AAp1 : Ten2 R pp ppp b d)
    (l_s l_si : Matrix (Fin a) (Fin a) R) (r_s r_si : Matrix (Fin b) (Fin b) R)
    (VshL : Fin p → Matrix (Fin v) (Fin a) R) : Matrix (Fin v) (Fin b) R :=
  let x : Matrix (Fin v) (Fin b) R := 0
  let VL : Ten R p a v := fun s => (VshL s)ᴴ
  let x := match Km1 with
    | none => x
    | some K => x + epsL (l_si * K) VL A * r_s
  let x := match C with
    | none => x
    | some C => x + epsL l_s VL (fun s => epsR2 rp2 (C s) AAp1) * r_si
  let x := match Cm1 with
    | none => x
    | some Cm1 =>
      let lVL : Ten R p a v := fun s => l_si * VL s
      let part : Ten R pp v c := fun u => epsL2 lm2 (calcAA Am1 lVL) (fun s t => Cm1 s t u)
      x + epsR rp1 part Ap1 * r_si
  match Cm2 with
  | none => x
  | some Cm2 => x + epsL l_si VL (fun u => epsL2 lm3 AAm2 (fun s t => Cm2 s t u)) * r_s

variable {q D : ℕ → ℕ}

/-- Entry `k + 1` of the array `self.C` for three-site terms; entries after `N - 2` stay `None`
(`tdvp_gen.py:286-293`, where the object array is made, and 325-377, which never writes them). -/
def TDVP.c3 (N : ℕ) (S : TDVP R q D) (k : ℕ) :
    Option (Ten3 R (q k) (q (k + 1)) (q (k + 2)) (D k) (D (k + 2 + 1))) :=
  if k + 3 ≤ N then S.C3 k else none

/-- `tdvp_gen.py:487-558` `calc_x(n, ...)`, python's `n` is `k + 1`.  `none` is a raised exception. -/
def calcXn (N : ℕ) (ham : Ham R q) (S : TDVP R q D) {v : ℕ} : ∀ k : ℕ,
    (Fin (q k) → Matrix (Fin (D (k + 1))) (Fin v) R) →
    Matrix (Fin (D k)) (Fin (D k)) R → Matrix (Fin (D k)) (Fin (D k)) R →
    Matrix (Fin (D (k + 1))) (Fin (D (k + 1))) R → Matrix (Fin (D (k + 1))) (Fin (D (k + 1))) R →
    Option (Matrix (Fin (D k)) (Fin v) R)
  | 0, Vsh, l_s, l_si, r_s, r_si =>
    let Kp1 := if 0 + 1 + ham.sites ≤ N then some (S.K 1) else none
    match ham with
    | .two _ =>
      let C := if 0 + 2 ≤ N then S.C2 0 else none
      some (calcX (pm := 0) (z := 0) Kp1 C none (S.r 2) 0 0 (S.A 0) (S.A 1) l_s l_si r_s r_si Vsh)
    | .three _ =>
      calcX3 (pmm := 0) (pm := 0) (y := 0) (z := 0) Kp1 (S.c3 N 0) none none (S.r 2) (S.r 3) none none
        0 0 (S.A 0) (S.A 1) (S.AA 1) l_s l_si r_s r_si Vsh
  | 1, Vsh, l_s, l_si, r_s, r_si =>
    let Kp1 := if 1 + 1 + ham.sites ≤ N then some (S.K 2) else none
    match ham with
    | .two _ =>
      let C := if 1 + 2 ≤ N then S.C2 1 else none
      some (calcX Kp1 C (S.C2 0) (S.r 3) (S.l 0) (S.A 0) (S.A 1) (S.A 2) l_s l_si r_s r_si Vsh)
    | .three _ =>
      calcX3 (pmm := 0) (y := 0) Kp1 (S.c3 N 1) (S.c3 N 0) none (S.r 3) (S.r 4) (some (S.l 0)) none
        0 (S.A 0) (S.A 1) (S.A 2) (S.AA 2) l_s l_si r_s r_si Vsh
  | k + 2, Vsh, l_s, l_si, r_s, r_si =>
    let Kp1 := if k + 2 + 1 + ham.sites ≤ N then some (S.K (k + 2 + 1)) else none
    match ham with
    | .two _ =>
      let C := if k + 2 + 2 ≤ N then S.C2 (k + 2) else none
      some (calcX Kp1 C (S.C2 (k + 1)) (S.r (k + 2 + 1 + 1)) (S.l (k + 1)) (S.A (k + 1)) (S.A (k + 2))
        (S.A (k + 2 + 1)) l_s l_si r_s r_si Vsh)
    | .three _ =>
      calcX3 Kp1 (S.c3 N (k + 2)) (S.c3 N (k + 1)) (S.c3 N k) (S.r (k + 2 + 1 + 1))
        (S.r (k + 2 + 2 + 1)) (some (S.l (k + 1))) (some (S.l k)) (S.AA k) (S.A (k + 1)) (S.A (k + 2))
        (S.A (k + 2 + 1)) (S.AA (k + 2 + 1)) l_s l_si r_s r_si Vsh

/-- `tdvp_gen.py:560-609` `calc_x_l(n, ...)`, python's `n` is `k + 1`.  `none` is a raised
exception.  `self.K` holds the matrices of `calc_K_l` here. -/
def calcXln (N : ℕ) (ham : Ham R q) (S : TDVP R q D) {v : ℕ} : ∀ k : ℕ,
    (Fin (q k) → Matrix (Fin v) (Fin (D k)) R) →
    Matrix (Fin (D k)) (Fin (D k)) R → Matrix (Fin (D k)) (Fin (D k)) R →
    Matrix (Fin (D (k + 1))) (Fin (D (k + 1))) R → Matrix (Fin (D (k + 1))) (Fin (D (k + 1))) R →
    Option (Matrix (Fin v) (Fin (D (k + 1))) R)
  | 0, VshL, l_s, l_si, r_s, r_si =>
    match ham with
    | .two _ =>
      let C := if 0 + 2 ≤ N then S.C2 0 else none
      calcXl (pm := 0) (z := 0) none C none (S.r 2) none 0 (S.A 0) (S.A 1) l_s l_si r_s r_si VshL
    | .three _ =>
      some (calcXl3 (pmm := 0) (pm := 0) (y := 0) (z := 0) none (S.c3 N 0) none none (S.r 2) (S.r 3) 0 0
        0 0 (S.A 0) (S.A 1) (S.AA 1) l_s l_si r_s r_si VshL)
  | 1, VshL, l_s, l_si, r_s, r_si =>
    match ham with
    | .two _ =>
      let C := if 1 + 2 ≤ N then S.C2 1 else none
      calcXl (some (S.Kl 1)) C (S.C2 0) (S.r 3) (some (S.l 0)) (S.A 0) (S.A 1) (S.A 2)
        l_s l_si r_s r_si VshL
    | .three _ =>
      some (calcXl3 (pmm := 0) (y := 0) (some (S.Kl 1)) (S.c3 N 1) (S.c3 N 0) none (S.r 3) (S.r 4)
        (S.l 0) 0 0 (S.A 0) (S.A 1) (S.A 2) (S.AA 2) l_s l_si r_s r_si VshL)
  | k + 2, VshL, l_s, l_si, r_s, r_si =>
    match ham with
    | .two _ =>
      let C := if k + 2 + 2 ≤ N then S.C2 (k + 2) else none
      calcXl (some (S.Kl (k + 2))) C (S.C2 (k + 1)) (S.r (k + 2 + 1 + 1)) (some (S.l (k + 1)))
        (S.A (k + 1)) (S.A (k + 2)) (S.A (k + 2 + 1)) l_s l_si r_s r_si VshL
    | .three _ =>
      some (calcXl3 (some (S.Kl (k + 2))) (S.c3 N (k + 2)) (S.c3 N (k + 1)) (S.c3 N k)
        (S.r (k + 2 + 1 + 1)) (S.r (k + 2 + 2 + 1)) (S.l (k + 1)) (S.l k) (S.AA k) (S.A (k + 1))
        (S.A (k + 2)) (S.A (k + 2 + 1)) (S.AA (k + 2 + 1)) l_s l_si r_s r_si VshL)

end

/-- The numerical routines and settings the tangent vector depends on. -/
structure Num where
  qr : FullQR ℂ
  eigh : Eigh ℂ
  /-- `scipy.sqrt` -/
  sq : ℂ → ℂ
  /-- `self.zero_tol` -/
  tol : ℝ

variable {q D : ℕ → ℕ}

/-- `tdvp_common.py:270-275` `calc_l_r_roots`, one environment. -/
noncomputable def Num.roots (P : Num) {n : ℕ} (x : MM ℂ n n) :
    Matrix (Fin n) (Fin n) ℂ × Matrix (Fin n) (Fin n) ℂ :=
  let (s, si) := hermSqrtInv P.eigh P.sq P.tol x
  (s.toArray, si.toArray)

/-- The tensor `B[s] = (l_si x) (r_si Vsh[s])ᴴ` of `tdvp_gen.py:728-731`. -/
def tenR {R : Type*} [CommRing R] [StarRing R] {p a b v : ℕ} (l_si : Matrix (Fin a) (Fin a) R)
    (r_si : Matrix (Fin b) (Fin b) R) (Vsh : Fin p → Matrix (Fin b) (Fin v) R)
    (x : Matrix (Fin a) (Fin v) R) : Ten R p a b :=
  fun s => l_si * x * (r_si * Vsh s)ᴴ

/-- The tensor `B[s] = l_si VshL[s]ᴴ x r_si` of `tdvp_gen.py:751-753`. -/
def tenL {R : Type*} [CommRing R] [StarRing R] {p a b v : ℕ} (l_si : Matrix (Fin a) (Fin a) R)
    (r_si : Matrix (Fin b) (Fin b) R) (VshL : Fin p → Matrix (Fin v) (Fin a) R)
    (x : Matrix (Fin v) (Fin b) R) : Ten R p a b :=
  fun s => l_si * (VshL s)ᴴ * x * r_si

/-- `tdvp_gen.py:712-733` `_calc_B_r_n(n)` without precomputed arguments, python's `n` is `k + 1`.
The outer `none` is a raised exception, the inner one the return value `None`.  The second
component is the value for `eta_sq[n]`. -/
noncomputable def calcBrn (P : Num) (N : ℕ) (ham : Ham ℂ q) (S : TDVP ℂ q D)
    (lm rm : ∀ n, MM ℂ (D n) (D n)) (k : ℕ) : Option (Option (Ten ℂ (q k) (D k) (D (k + 1)) × ℂ)) :=
  if D k < q k * D (k + 1) then
    let (l_s, l_si) := P.roots (lm k)
    let (r_s, r_si) := P.roots (rm (k + 1))
    (calcVsh P.qr (S.A k) r_s).bind fun Vsh =>
      (calcXn N ham S k Vsh l_s l_si r_s r_si).map fun x =>
        some (tenR l_si r_si Vsh x, adot x x)
  else some none

/-- `tdvp_gen.py:735-756` `_calc_B_l_n(n)` without precomputed arguments. -/
noncomputable def calcBln (P : Num) (N : ℕ) (ham : Ham ℂ q) (S : TDVP ℂ q D)
    (lm rm : ∀ n, MM ℂ (D n) (D n)) (k : ℕ) : Option (Option (Ten ℂ (q k) (D k) (D (k + 1)) × ℂ)) :=
  if D (k + 1) < q k * D k then
    let (l_s, l_si) := P.roots (lm k)
    let (r_s, r_si) := P.roots (rm (k + 1))
    (calcVshl P.qr (S.A k) l_s).bind fun Vsh =>
      (calcXln N ham S k Vsh l_s l_si r_s r_si).map fun x =>
        some (tenL l_si r_si Vsh x, adot x x)
  else some none

/-- `self.gauge_fixing`. -/
inductive Gauge where
  | right | left

/-- `tdvp_gen.py:698-710` `calc_B_n(n)`. -/
noncomputable def calcBn (P : Num) (g : Gauge) (N : ℕ) (ham : Ham ℂ q) (S : TDVP ℂ q D)
    (lm rm : ∀ n, MM ℂ (D n) (D n)) (k : ℕ) : Option (Option (Ten ℂ (q k) (D k) (D (k + 1)) × ℂ)) :=
  match g with
  | .right => calcBrn P N ham S lm rm k
  | .left => calcBln P N ham S lm rm k

/-- What `calc_B()` computes: the list it returns, `self.eta_sq`, `self.eta`. -/
structure TangentOut (q D : ℕ → ℕ) where
  B : ∀ k, Option (Ten ℂ (q k) (D k) (D (k + 1)))
  etaSq : ℕ → ℂ
  eta : ℂ

/-- One iteration of the loop in `tdvp_gen.py:684-689`; the field `eta` accumulates
`eta_sq_tot`. -/
noncomputable def calcBIter (P : Num) (g : Gauge) (N : ℕ) (ham : Ham ℂ q) (S : TDVP ℂ q D)
    (lm rm : ∀ n, MM ℂ (D n) (D n)) (T : TangentOut q D) (k : ℕ) : Option (TangentOut q D) :=
  (calcBn P g N ham S lm rm k).map fun Bn =>
    let etaSq := Bn.elim T.etaSq fun x => Function.update T.etaSq k x.2
    { B := Function.update T.B k (Bn.map Prod.fst), etaSq := etaSq, eta := T.eta + etaSq k }

/-- `tdvp_gen.py:651-696` `calc_B()` with default arguments.  `none` is a raised exception. -/
noncomputable def calcB (P : Num) (g : Gauge) (N : ℕ) (ham : Ham ℂ q) (S : TDVP ℂ q D)
    (lm rm : ∀ n, MM ℂ (D n) (D n)) : Option (TangentOut q D) :=
  ((List.range' 0 N).foldl
    (fun (T : Option (TangentOut q D)) k => T.bind fun T => calcBIter P g N ham S lm rm T k)
    (some { B := fun _ => none, etaSq := 0, eta := 0 })).map fun T =>
    { T with eta := P.sq T.eta }

end EvoMPS
