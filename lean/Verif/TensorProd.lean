import Verif.UniformTangent
import Verif.DynExp
import Verif.TensorProdSpec

/-!
# The uniform chain with a Hamiltonian in tensor-product form (`self.ham_tp`)

`self.C[k]` is then a list of pairs.  With an empty list `ham_tp` the code gets the number 0
where a matrix is expected; here it is the zero matrix, so the model describes the code for lists with at least one term.
-/

namespace EvoMPS

open Matrix

section
variable {R : Type*} [CommRing R] [StarRing R]

/-- `tdvp_common.py:134-143` `calc_K_tp(Kp1, lm1, rp1, A, Ap1, C_tp)` with `lm1` given. -/
def calcKSiteTp {p p' a b c : ℕ} (Kp1 : Matrix (Fin b) (Fin b) R) (lm1 : Matrix (Fin a) (Fin a) R) (rp1 : Matrix (Fin c) (Fin c) R)
    (A : Ten R p a b) (Ap1 : Ten R p' b c) (C : List (Ten R p a b × Ten R p' b c)) : Matrix (Fin a) (Fin a) R × R :=
  let K := epsR Kp1 A A
  let Hr := epsR2tp rp1 C A Ap1
  let ex := adot lm1 Hr
  (K + Hr, ex)

/-- `tdvp_common.py:156-165` `calc_K_l_tp(Km1, lm2, r, Am1, A, Cm1_tp)` with `r` given. -/
def calcKlSiteTp {p p' a b c : ℕ} (Km1 : Matrix (Fin b) (Fin b) R) (lm2 : Matrix (Fin a) (Fin a) R) (r : Matrix (Fin c) (Fin c) R)
    (Am1 : Ten R p a b) (A : Ten R p' b c) (Cm1 : List (Ten R p a b × Ten R p' b c)) : Matrix (Fin c) (Fin c) R × R :=
  let K := epsL Km1 A A
  let Hl := epsL2tp lm2 Am1 A Cm1
  let ex := adotNoconj Hl r
  (K + Hl, ex)

/-- `tdvp_common.py:356-382` `calc_x_tp(Kp1, C_tp, Cm1_tp, rp1, lm2, Am1, A, Ap1, lm1_s, lm1_si, r_s, r_si, Vsh)`.  As in `calcX`
arguments that are not looked at are total. -/
def calcXtp {pm p pp z a b c v : ℕ} (Kp1 : Option (Matrix (Fin b) (Fin b) R))
    (C : Option (List (Ten R p a b × Ten R pp b c))) (Cm1 : Option (List (Ten R pm z a × Ten R p a b))) (rp1 : Matrix (Fin c) (Fin c) R)
    (lm2 : Matrix (Fin z) (Fin z) R) (Am1 : Ten R pm z a) (A : Ten R p a b) (Ap1 : Ten R pp b c)
    (l_s l_si : Matrix (Fin a) (Fin a) R) (r_s r_si : Matrix (Fin b) (Fin b) R)
    (Vsh : Fin p → Matrix (Fin b) (Fin v) R) : Matrix (Fin a) (Fin v) R :=
  let x : Matrix (Fin a) (Fin v) R := 0
  let V : Ten R p v b := fun s => (Vsh s)ᴴ
  let Vri : Ten R p v b := fun s => V s * r_si
  let x := match C with
    | none => x
    | some C => x + l_s * epsR2tp rp1 C Vri Ap1
  let x := match Cm1 with
    | none => x
    | some Cm1 => Cm1.foldl (fun x C => x + l_si * (epsL lm2 Am1 C.1 * epsR r_s C.2 V)) x
  match Kp1 with
  | none => x
  | some K => x + l_s * epsR K A Vri

/-- `tdvp_common.py:531-541` `calc_BB_Y_2s_tp(C_tp, Vlh, Vrh_p1, l_s_m1, r_s_p1)`: `Y`. -/
def calcBBYtp {p p' a b c v w : ℕ} (C : List (Ten R p a b × Ten R p' b c)) (Vlh : Fin p → Matrix (Fin v) (Fin a) R)
    (Vrh : Fin p' → Matrix (Fin c) (Fin w) R) (l_s : Matrix (Fin a) (Fin a) R)
    (r_s : Matrix (Fin c) (Fin c) R) : Matrix (Fin v) (Fin w) R :=
  let Vl : Ten R p a v := fun s => (Vlh s)ᴴ
  let Vr : Ten R p' w c := fun s => (Vrh s)ᴴ
  C.foldl (fun Y C => Y + epsL l_s Vl C.1 * epsR r_s C.2 Vr) 0

end

namespace Uni

variable {q D : ℕ}

/-- An object with `self.ham_tp` set.  `Ctp` is `self.C`; the fields `C2` and `C3` stand for earlier values of it. -/
structure UTP (q D : ℕ) extends UTDVP q D where
  hamTp : List (Matrix (Fin q) (Fin q) ℂ × Matrix (Fin q) (Fin q) ℂ)
  Ctp : ℕ → List (Ten ℂ q D D × Ten ℂ q D D)

/-- `tdvp_uniform.py:206-240` `calc_C()` with `ham_tp` set: the products `AA` are not computed. -/
def UTP.calcC (T : UTP q D) : UTP q D :=
  match T.ham with
  | .two _ => { T with Ctp := (List.range T.L).foldl (fun C k =>
      Function.update C k (calcCtp T.hamTp (T.A k) (T.A ((k + 1) % T.L)))) T.Ctp }
  | .three h =>
    let p := (List.range T.L).foldl (fun (p : (ℕ → Ten3 ℂ q q q D D) × (ℕ → Ten3 ℂ q q q D D)) k =>
      let AAA := Function.update p.1 k (calcAAA_AA (T.AA k) (T.A ((k + 2) % T.L)))
      let C := Function.update p.2 k (calcC3 h (AAA k))
      (AAA, C)) (T.AAA, T.C3)
    { T with AAA := p.1, C3 := p.2 }

/-- The contraction used in `calc_K` for the term starting at site `k` (`tdvp_uniform.py:309-313`). -/
def UTP.Hrk (T : UTP q D) (k : ℕ) : Matrix (Fin D) (Fin D) ℂ :=
  match T.ham with
  | .two _ => epsR2tp (T.r ((k + 1) % T.L)) (T.Ctp k) (T.A k) (T.A ((k + 1) % T.L))
  | .three _ => T.toUTDVP.Hrk k

/-- `tdvp_uniform.py:309-328`. -/
def UTP.Hr (T : UTP q D) : Matrix (Fin D) (Fin D) ℂ :=
  (List.range' 1 (T.L - 1)).foldl (fun Hr k =>
    Hr + (List.range k).reverse.foldl (fun Hrk j => epsR Hrk (T.A j) (T.A j)) (T.Hrk k)) (T.Hrk 0)

/-- One iteration of the second loop of `calc_K` (`tdvp_uniform.py:345-349`), `k >= 1`. -/
def UTP.calcKIter (T : UTP q D) (K : ℕ → Matrix (Fin D) (Fin D) ℂ) (k : ℕ) : ℕ → Matrix (Fin D) (Fin D) ℂ :=
  match T.ham with
  | .two _ =>
    let L := T.L
    let (Kk, hk) := calcKSiteTp (K ((k + 1) % L)) (T.l (k - 1)) (T.r ((k + 1) % L)) (T.A k) (T.A ((k + 1) % L)) (T.Ctp k)
    Function.update K k (Kk - hk • T.r (pmod ((k : ℤ) - 1) L))
  | .three _ => T.toUTDVP.calcKIter K k

/-- `tdvp_uniform.py:294-358` `calc_K()`. -/
noncomputable def UTP.calcK (T : UTP q D) (solver : Solver D) (junk : Matrix (Fin D) (Fin D) ℂ) :
    Option (UTP q D) :=
  let L := T.L
  if L = 0 then none else
  let Hr := T.Hr
  let h := adot (T.l (L - 1)) Hr
  let QHr := Hr - h • T.r (L - 1)
  let out := T.K0init.getD (T.K 0)
  (T.calcPPinv solver junk QHr false (some out)).map fun K0 =>
  let K := Function.update T.K 0 K0
  { T with hExpect := h / L, K0init := none, K := (List.range' 1 (L - 1)).reverse.foldl T.calcKIter K }

/-- `tdvp_uniform.py:391-397`: the terms ending in the block. -/
def UTP.lH (T : UTP q D) : Matrix (Fin D) (Fin D) ℂ :=
  let L := T.L
  match T.ham with
  | .two _ =>
    ((List.range (L - 1)).map fun i : ℕ => pmod ((i : ℤ) - 1) L).foldl (fun lH k =>
      lH + (List.range' ((k + 2) % L) (L - (k + 2) % L)).foldl (fun lHk j => epsL lHk (T.A j) (T.A j))
        (epsL2tp (T.l (pmod ((k : ℤ) - 1) L)) (T.A k) (T.A ((k + 1) % L)) (T.Ctp k)))
      (epsL2tp (T.l (pmod ((L : ℤ) - 3) L)) (T.A (pmod ((L : ℤ) - 2) L)) (T.A (pmod ((L : ℤ) - 1) L)) (T.Ctp (pmod ((L : ℤ) - 2) L)))
  | .three _ => T.toUTDVP.lH

/-- One iteration of the second loop of `calc_K_l` (`tdvp_uniform.py:425-431`).  It reads `self.K`. -/
def UTP.calcKlIter (T : UTP q D) (Kl : ℕ → Option (Matrix (Fin D) (Fin D) ℂ)) (k : ℕ) :
    ℕ → Option (Matrix (Fin D) (Fin D) ℂ) :=
  match T.ham with
  | .two _ =>
    let L := T.L
    let (Kk, hk) := calcKlSiteTp (T.K (pmod ((k : ℤ) - 1) L)) (T.l (pmod ((k : ℤ) - 2) L)) (T.r k) (T.A (pmod ((k : ℤ) - 1) L)) (T.A k)
      (T.Ctp (pmod ((k : ℤ) - 1) L))
    Function.update Kl k (some (Kk - hk • T.l k))
  | .three _ => T.toUTDVP.calcKlIter Kl k

/-- `tdvp_uniform.py:369-454` `calc_K_l()`. -/
noncomputable def UTP.calcKl (T : UTP q D) (solver : Solver D) (junk : Matrix (Fin D) (Fin D) ℂ) :
    Option (UTP q D × ℂ) :=
  let L := T.L
  if L = 0 then none else
  let lH := T.lH
  let h := adotNoconj lH (T.r (L - 1))
  let lHQ := lH - h • T.l (L - 1)
  (T.calcPPinv solver junk lHQ true (T.Kl (L - 1))).map fun K1 =>
  let Kl := Function.update T.Kl (L - 1) (some K1)
  ({ T with Kl := (List.range (L - 1)).foldl T.calcKlIter Kl }, h / L)

/-- `tdvp_uniform.py:512-537`: the call of `calc_x_tp` or `calc_x_3s` for site `k`. -/
def UTP.calcXk (T : UTP q D) (k : ℕ) {v : ℕ} (Vsh : Fin q → Matrix (Fin D) (Fin v) ℂ)
    (l_s l_si r_s r_si : Matrix (Fin D) (Fin D) ℂ) : Option (Matrix (Fin D) (Fin v) ℂ) :=
  let L := T.L
  match T.ham with
  | .two _ => some (calcXtp (some (T.K ((k + 1) % L))) (some (T.Ctp k)) (some (T.Ctp (pmod ((k : ℤ) - 1) L)))
      (T.r ((k + 1) % L)) (T.l (pmod ((k : ℤ) - 2) L)) (T.A (pmod ((k : ℤ) - 1) L)) (T.A k) (T.A ((k + 1) % L))
      l_s l_si r_s r_si Vsh)
  | .three _ => T.toUTDVP.calcXk k Vsh l_s l_si r_s r_si

/-- One iteration of the loop of `calc_B` (`tdvp_uniform.py:509-549`). -/
noncomputable def UTP.calcBIter (P : Num) (T : UTP q D) (lm rm : ℕ → MM ℂ D D) (setEta : Bool)
    (U : UTangent q D) (k : ℕ) : Option (UTangent q D) :=
  let (l_s, l_si) := P.roots (lm (pmod ((k : ℤ) - 1) T.L))
  let (r_s, r_si) := P.roots (rm k)
  (calcVsh P.qr (T.A k) r_s).bind fun Vsh =>
  (T.calcXk k Vsh l_s l_si r_s r_si).map fun x =>
  { U with
    etaSq := if setEta then Function.update U.etaSq k (adot x x) else U.etaSq
    B := Function.update U.B k (getBFromX x Vsh l_si r_si) }

/-- `tdvp_uniform.py:493-556` `calc_B(set_eta)`. -/
noncomputable def UTP.calcB (P : Num) (T : UTP q D) (lm rm : ℕ → MM ℂ D D) (setEta : Bool)
    (etaSq : ℕ → ℂ) : Option (UTangent q D) :=
  ((List.range T.L).foldl (fun U k => U.bind fun U => T.calcBIter P lm rm setEta U k)
    (some { B := fun _ => 0, etaSq := etaSq, eta := 0 })).map fun U =>
  { U with eta := P.sq ((List.range T.L).foldl (fun a k => a + U.etaSq k) 0) }

/-- `tdvp_uniform.py:1637-1642` `expect_2s(op, k)`; `isHam` is `op is self.ham`.  `self.C[k]` is a list, and a list has no `shape`. -/
def UTP.expect2s (T : UTP q D) (op : Fin q → Fin q → Fin q → Fin q → ℂ) (isHam : Bool) (k : ℕ) : Option ℂ :=
  if isHam = true ∧ T.ham.sites = 2 then none else T.toUMPS.expect2s op k

/-- The object that has the term as an array instead. -/
def UTP.dense (T : UTP q D) : UTDVP q D := { T.toUTDVP with ham := .two (tpDense T.hamTp) }

end Uni

end EvoMPS
