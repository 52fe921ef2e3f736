import Verif.Excite
import Verif.TensorProd
import Verif.EpsMaps

/-!
# Excitations with a Hamiltonian in tensor-product form (`Excite_H_Op_tp` of `mps_uniform_excite.py`)

As in `Excite.lean`: `force_pseudo=False`, no phase alignment, no CUDA, no sanity checks.  The buffers `tmp`, `tmp2`, `tmp3` of the
code are overwritten before they are read, and `m.dot_inplace`, `m.mmul` are products; here they are expressions.
-/

namespace EvoMPS.Uni

open Matrix

variable {q D v : ℕ}

/-- `mps_uniform_excite.py:418-435` `get_Aop(A, op_tp, index, conj)`; `index` is at most 3 in all calls. -/
def getAop {a b : ℕ} (A : Ten ℂ q a b) (tp : List (Matrix (Fin q) (Fin q) ℂ × Matrix (Fin q) (Fin q) ℂ)) (index : Fin 4)
    (conj : Bool) : List (Ten ℂ q a b) :=
  tp.foldl (fun Aops o =>
    if index.val < 2 then
      let op := if index = 0 then o.1 else o.2
      let op := if conj then op.map star else op
      Aops ++ [opDotTen opᵀ A]
    else
      let op := if index = 2 then o.1 else o.2
      let op := if conj then op.map star else op
      Aops ++ [opDotTen op A]) []

/-- `mps_uniform_excite.py:437-452` `get_A_ops(A0, A1, op_tp, conj)`. -/
def getAops {a b c : ℕ} (A0 : Ten ℂ q a b) (A1 : Ten ℂ q b c) (tp : List (Matrix (Fin q) (Fin q) ℂ × Matrix (Fin q) (Fin q) ℂ))
    (conj : Bool) : List (Ten ℂ q a b × Ten ℂ q b c) :=
  if conj then tp.foldl (fun Aops o => Aops ++ [(opDotTen (o.1.map star)ᵀ A0, opDotTen (o.2.map star)ᵀ A1)]) []
  else tp.foldl (fun Aops o => Aops ++ [(opDotTen o.1 A0, opDotTen o.2 A1)]) []

/-- What an object `Excite_H_Op_tp` refers to (`mps_uniform_excite.py:455-533`): as `Excite_H_Op`, and `tdvp.ham_tp`. -/
structure ExcTp (q D v : ℕ) extends ExcOp q D v where
  hamTp : List (Matrix (Fin q) (Fin q) ℂ × Matrix (Fin q) (Fin q) ℂ)

namespace ExcTp

/-- The tuple returned by `calc_BHB_prereq`, without `V_`. -/
structure Pre (q D v : ℕ) where
  AhlAo1 : List (Matrix (Fin D) (Fin D) ℂ)
  A_o2c : List (Ten ℂ q D D)
  Ao1 : List (Ten ℂ q D D)
  Ao1c : List (Ten ℂ q D D)
  A_Vr_ho2 : List (Matrix (Fin D) (Fin v) ℂ)
  A_A_o12c : List (Ten ℂ q D D × Ten ℂ q D D)
  rhs10 : Matrix (Fin D) (Fin v) ℂ
  ham_tp : List (Matrix (Fin q) (Fin q) ℂ × Matrix (Fin q) (Fin q) ℂ)

/-- `mps_uniform_excite.py:535-590` `calc_BHB_prereq(tdvp, tdvp2)`, `ham_sites == 2`.  `[X[al] for al in range(len(Y))]` is `zip`. -/
noncomputable def pre (E : ExcTp q D v) : Pre q D v :=
  open Classical in
  let l := E.S.l 0
  let r_ := E.S2.r 0
  let A := E.S.A 0
  let A_ := E.S2.A 0
  let ham_tp := E.hamTp ++ [(-(E.S.hExpect.re : ℂ) • (1 : Matrix (Fin q) (Fin q) ℂ), 1)]
  let A_o2c := getAop A_ ham_tp 1 true
  let A_o1 := getAop A_ ham_tp 2 false
  { AhlAo1 := ham_tp.map fun o => epsLOp1 l A A (fun s t => (o.1)ᴴ s t)
    A_o2c := A_o2c
    Ao1 := getAop A ham_tp 2 false
    Ao1c := getAop A ham_tp 0 true
    A_Vr_ho2 := ham_tp.map fun o => epsROp1 E.r_s A_ E.V (fun s t => o.2 s t)
    A_A_o12c := getAops A_ A_ ham_tp true
    rhs10 := (A_o1.zip A_o2c).foldl (fun rhs X => rhs + epsR (epsR r_ A_ X.2 * E.r_si) X.1 E.V) 0
    ham_tp := ham_tp }

/-- `mps_uniform_excite.py:592-735` `calc_BHB(x, p, tdvp, tdvp2, prereq, M_prev, y_pi_prev, pinv_solver)`.  `none` is a raised
exception; for `ham_sites == 3` the function returns `None`, which `matvec` cannot unpack. -/
noncomputable def calcBHB (E : ExcTp q D v) (solver : Solver D) (junk : Matrix (Fin D) (Fin D) ℂ)
    (x : Matrix (Fin D) (Fin v) ℂ) (mem : ExcOp.Mem D) : Option (Matrix (Fin D) (Fin v) ℂ × ExcOp.Mem D) :=
  open Classical in
  match E.S.ham with
  | .three _ => none
  | .two _ =>
    let pre := E.pre
    let l := E.S.l 0
    let r_ := E.S2.r 0
    let A := E.S.A 0
    let A_ := E.S2.A 0
    let K_r := E.S2.K 0
    let B := getBFromX x E.Vsh E.l_si E.r_si
    if B = 0 then some (0, mem) else
    let y := epsL l B A
    (pinv1mE solver junk y [A_] [A] E.lMix E.rMix (-E.p) true E.same mem.1).bind fun M =>
    let Mh := Mᴴ
    let Bo1 := getAop B pre.ham_tp 2 false
    let res_ls : Matrix (Fin D) (Fin v) ℂ := (Bo1.zip (pre.A_o2c.zip pre.Ao1)).foldl (fun res X =>
      let res := res + epsR (epsR r_ A_ X.2.1 * E.r_si) X.1 E.V
      res + Complex.exp (Complex.I * E.p) • epsR (epsR r_ B X.2.1 * E.r_si) X.2.2 E.V) 0
    let res_lsi := Complex.exp (-Complex.I * E.p) • (Mh * pre.rhs10)
    let Bo2 := getAop B pre.ham_tp 3 false
    let res_lsi := ((pre.AhlAo1.zip Bo2).zip (pre.Ao1c.zip pre.A_Vr_ho2)).foldl (fun res X =>
      let res : Matrix (Fin D) (Fin v) ℂ := res + X.1.1 * epsR E.r_s X.1.2 E.V
      let res : Matrix (Fin D) (Fin v) ℂ := res + Complex.exp (-Complex.I * E.p) • (epsL l X.2.1 B * X.2.2)
      res + Complex.exp (-2 * Complex.I * E.p) • (epsL Mh X.2.1 A_ * X.2.2)) res_lsi
    let K_rri := K_r * E.r_si
    let res_ls := res_ls + epsR K_rri B E.V
    (E.S.Kl 0).bind fun K_l =>
    let res_lsi := res_lsi + K_l * epsR E.r_s B E.V
    let res_lsi := res_lsi + Complex.exp (-Complex.I * E.p) • (Mh * epsR K_rri A_ E.V)
    let y1 := Complex.exp (Complex.I * E.p) • epsR K_r B A_
    let tmp := pre.A_A_o12c.foldl (fun tmp X =>
      let tmp := tmp + Complex.exp (Complex.I * E.p) • epsR (epsR r_ A_ X.2) B X.1
      tmp + Complex.exp (2 * Complex.I * E.p) • epsR (epsR r_ B X.2) A X.1) 0
    let y := y1 + tmp
    (pinv1mE solver junk y [A] [A_] E.lMix E.rMix E.p false E.same mem.2).map fun y_pi =>
    let res_ls := res_ls + epsR (y_pi * E.r_si) A E.V
    (E.l_s * res_ls + E.l_si * res_lsi, (some M, some y_pi))

/-- `mps_uniform_excite.py:737-751` `matvec(v)`: the vector and the new starting vectors. -/
noncomputable def matvec (E : ExcTp q D v) (solver : Solver D) (junk : Matrix (Fin D) (Fin D) ℂ) (mem : ExcOp.Mem D)
    (w : Fin (D * v) → ℂ) : Option ((Fin (D * v) → ℂ) × ExcOp.Mem D) :=
  (E.calcBHB solver junk (reshape w) mem).map fun p => (ravel p.1, p.2)

/-- `tdvp_uniform.py:835-842`, also `tdvp_uniform.py:968-975`: the matrix of the operator, column by column. -/
noncomputable def bruteH (E : ExcTp q D v) (solver : Solver D) (junk : Matrix (Fin D) (Fin D) ℂ) :
    Option (Matrix (Fin (D * v)) (Fin (D * v)) ℂ) :=
  ((List.finRange (D * v)).foldl (fun a i => a.bind fun a =>
    (E.matvec solver junk a.2 (Pi.single i 1)).map fun y =>
      (Matrix.of fun b c => if c = i then y.1 b else a.1 b c, y.2))
    (some ((0 : Matrix (Fin (D * v)) (Fin (D * v)) ℂ), ((none, none) : ExcOp.Mem D)))).map Prod.fst

end ExcTp

/-- `tdvp_uniform.py:745-762` `_prepare_excite_op_top_triv(p)` with `ham_tp` set, and the assertions of the constructor
(`mps_uniform_excite.py:475-479`). -/
noncomputable def UTP.prepareTriv (P : Num) (T : UTP q D) (lm rm : MM ℂ D D) (solver : Solver D)
    (junk : Matrix (Fin D) (Fin D) ℂ) (p : ℝ) : Option (ExcTp q D (D * q - D)) :=
  (T.calcKl solver junk).bind fun T1 =>
  let (l_s, l_si) := P.roots lm
  let (r_s, r_si) := P.roots rm
  if T1.1.L = 1 then
    (calcVsh P.qr (T1.1.A 0) r_s).map fun Vsh =>
    { S := T1.1.toUTDVP, S2 := T1.1.toUTDVP, same := true, p := p, l_s := l_s, l_si := l_si, r_s := r_s, r_si := r_si,
      Vsh := Vsh, hamTp := T1.1.hamTp }
  else none

/-- `tdvp_uniform.py:851-878` `_prepare_excite_op_top_nontriv(donor, p, phase_align=False)` with `self.ham_tp` set.  Of the donor
only tensors, environments and `K` are used. -/
noncomputable def UTP.prepareNontriv (P : Num) (T donor : UTP q D) (lm rm : MM ℂ D D) (solver : Solver D)
    (junk : Matrix (Fin D) (Fin D) ℂ) (p : ℝ) : Option (ExcTp q D (D * q - D)) :=
  (T.calcKl solver junk).bind fun T1 =>
  let (l_s, l_si) := P.roots lm
  let (r_s, r_si) := P.roots rm
  if T1.1.L = 1 ∧ T1.1.L = donor.L then
    (calcVsh P.qr (donor.A 0) r_s).map fun Vsh =>
    { S := T1.1.toUTDVP, S2 := donor.toUTDVP, same := false, p := p, l_s := l_s, l_si := l_si, r_s := r_s, r_si := r_si,
      Vsh := Vsh, hamTp := T1.1.hamTp }
  else none

end EvoMPS.Uni
