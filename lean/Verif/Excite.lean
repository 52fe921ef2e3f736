import Verif.UniformTangent

/-!
# Excitations of the uniform chain (`mps_uniform_excite.py`, `tdvp_uniform.py`)

The effective Hamiltonian `Excite_H_Op` with `force_pseudo=False` for Hamiltonian arrays on two and three sites.  The tensor-product
form (`Excite_H_Op_tp`) is in `ExciteTp.lean`.  Not modelled: `force_pseudo=True`, `phase_align=True`, CUDA, the sanity checks (which only log) and the
eigensolvers; the loop over the attempts is in `Retry.lean`.
-/

namespace EvoMPS.Uni

open Matrix

variable {q D : ℕ}

/-- `tdvp_common.py:90-94` `calc_C_conj_mat_op_AA(op, AA)`. -/
def calcCconj {a b : ℕ} (op : Fin q → Fin q → Fin q → Fin q → ℂ) (AA : Ten2 ℂ q q a b) : Ten2 ℂ q q a b :=
  ten2OfMat ((matOfOp2 op)ᴴ * matOfTen2 AA)

/-- `tensordot(op.conj(), AAA, ((0, 1, 2), (0, 1, 2)))`, as in `mps_uniform_excite.py:173, 241`. -/
def calcC3conj {a b : ℕ} (op : Fin q → Fin q → Fin q → Fin q → Fin q → Fin q → ℂ) (AAA : Ten3 ℂ q q q a b) :
    Ten3 ℂ q q q a b :=
  fun i j k => ∑ s, ∑ t, ∑ u, star (op s t u i j k) • AAA s t u

/-- What the object `Excite_H_Op` refers to (`mps_uniform_excite.py:46-95`): the two states, whether they are one object (`same`),
the momentum, the roots of `tdvp.l[0]` and `tdvp2.r[0]` and `tdvp2.Vsh[0]`. -/
structure ExcOp (q D v : ℕ) where
  S : UTDVP q D
  S2 : UTDVP q D
  same : Bool
  p : ℝ
  l_s : Matrix (Fin D) (Fin D) ℂ
  l_si : Matrix (Fin D) (Fin D) ℂ
  r_s : Matrix (Fin D) (Fin D) ℂ
  r_si : Matrix (Fin D) (Fin D) ℂ
  Vsh : Fin q → Matrix (Fin D) (Fin v) ℂ

variable {v : ℕ}

namespace ExcOp

/-- `ham_ = self.ham - tdvp.h_expect.real * eyed` on two sites, `mps_uniform_excite.py:123-125`. -/
def ham2 (E : ExcOp q D v) (h : Fin q → Fin q → Fin q → Fin q → ℂ) : Fin q → Fin q → Fin q → Fin q → ℂ :=
  fun s t u w => h s t u w - (E.S.hExpect.re : ℂ) * if s = u ∧ t = w then 1 else 0

/-- The same on three sites. -/
def ham3 (E : ExcOp q D v) (h : Fin q → Fin q → Fin q → Fin q → Fin q → Fin q → ℂ) :
    Fin q → Fin q → Fin q → Fin q → Fin q → Fin q → ℂ :=
  fun s t u s' t' u' => h s t u s' t' u' - (E.S.hExpect.re : ℂ) * if s = s' ∧ t = t' ∧ u = u' then 1 else 0

/-- `V_`, `mps_uniform_excite.py:127`. -/
def V (E : ExcOp q D v) : Ten ℂ q v D := fun s => (E.Vsh s)ᴴ

/-- `Vri_`, `mps_uniform_excite.py:129-135`. -/
def Vri (E : ExcOp q D v) : Ten ℂ q v D := fun s => E.V s * E.r_si

/-- `Vr_`, `mps_uniform_excite.py:137-143`. -/
def Vr (E : ExcOp q D v) : Ten ℂ q v D := fun s => E.V s * E.r_s

/-- The tuple returned by `calc_BHB_prereq` for two sites, without `V_`, `Vr_`, `Vri_`. -/
structure Pre2 (q D v : ℕ) where
  C : Ten2 ℂ q q D D
  Cconj : Ten2 ℂ q q D D
  C_VriA_conj : Ten2 ℂ q q v D
  C_AhlA : Ten2 ℂ q q D D
  C_A_Vrh : Ten2 ℂ q q D v
  rhs10 : Matrix (Fin D) (Fin v) ℂ

/-- `mps_uniform_excite.py:145-165` `calc_BHB_prereq`, `ham_sites == 2`. -/
def pre2 (E : ExcOp q D v) (h : Fin q → Fin q → Fin q → Fin q → ℂ) : Pre2 q D v :=
  let l := E.S.l 0
  let r_ := E.S2.r 0
  let A := E.S.A 0
  let A_ := E.S2.A 0
  let AA_ := E.S2.AA 0
  let ham_ := E.ham2 h
  let VriA := calcAA E.Vri A_
  -- tensordot over the axes (0, 2), then the two remaining axes are exchanged
  let C_AhlA : Ten2 ℂ q q D D := fun s b => ∑ u, ∑ u', ham_ u b u' s • ((A u)ᴴ * (l * A u'))
  -- tensordot over the axes (3, 1), then the two remaining axes are exchanged
  let C_A_Vrh : Ten2 ℂ q q D v := fun s a => ∑ s', ∑ t, ham_ a t s s' • (A_ s' * (E.Vr t)ᴴ)
  let C_VriA_conj := calcCconj ham_ VriA
  { C := calcC ham_ AA_
    Cconj := calcCconj ham_ AA_
    C_VriA_conj := C_VriA_conj
    C_AhlA := C_AhlA
    C_A_Vrh := C_A_Vrh
    rhs10 := epsR2 r_ AA_ C_VriA_conj }

/-- The tuple returned by `calc_BHB_prereq` for three sites, without `V_`, `Vr_`, `Vri_`, `Vri_A_`. -/
structure Pre3 (q D v : ℕ) where
  Cconj : Ten3 ℂ q q q D D
  C_VriAA_conj : Ten3 ℂ q q q v D
  C_AAA_r_Ah_Vrih : Ten ℂ q D v
  C_AhAhlAA : Ten2 ℂ q q D D
  C_AA_r_Ah_Vrih : Ten2 ℂ q q D v
  C_AAA_Vrh : Ten2 ℂ q q D v
  C_Vri_A_r_Ah : Ten3 ℂ q q q v D
  C_AhlAA : Ten3 ℂ q q q D D
  C_AhlAA_conj : Ten3 ℂ q q q D D
  C_AA_Vrh : Ten3 ℂ q q q D v
  rhs10 : Matrix (Fin D) (Fin v) ℂ

/-- `mps_uniform_excite.py:166-248` `calc_BHB_prereq`, `ham_sites == 3`.  Every `tensordot` with the following exchange of
axes is written as one sum. -/
def pre3 (E : ExcOp q D v) (h : Fin q → Fin q → Fin q → Fin q → Fin q → Fin q → ℂ) : Pre3 q D v :=
  let l := E.S.l 0
  let r_ := E.S2.r 0
  let A := E.S.A 0
  let A_ := E.S2.A 0
  let AA := E.S.AA 0
  let AA_ := E.S2.AA 0
  let AAA_ := E.S2.AAA 0
  let ham_ := E.ham3 h
  let C_VriAA_conj : Ten3 ℂ q q q v D := calcC3conj ham_ fun s t u => E.Vri s * AA_ t u
  -- axes ((3, 4, 5, 2, 1), (0, 1, 2, 3, 4))
  let C_AAA_r_Ah_Vrih : Ten ℂ q D v := fun a => ∑ s, ∑ t, ∑ u, ∑ k, ∑ j,
    ham_ a j k s t u • (AAA_ s t u * (r_ * (A_ k)ᴴ) * (E.Vri j)ᴴ)
  -- axes ((0, 1, 3, 4), (0, 1, 2, 3)), exchanged
  let C_AhAhlAA : Ten2 ℂ q q D D := fun b a => ∑ i, ∑ j, ∑ s, ∑ t, ham_ i j a s t b • ((AA i j)ᴴ * (l * AA s t))
  -- axes ((4, 5, 1, 2), (0, 1, 2, 3)), exchanged
  let C_AA_r_Ah_Vrih : Ten2 ℂ q q D v := fun b a => ∑ u, ∑ t, ∑ j, ∑ k,
    ham_ a j k b u t • (AA_ u t * (r_ * (A_ k)ᴴ) * (E.Vri j)ᴴ)
  -- axes ((3, 4, 5, 2), (0, 1, 2, 3))
  let C_AAA_Vrh : Ten2 ℂ q q D v := fun a b => ∑ s, ∑ t, ∑ u, ∑ k, ham_ a b k s t u • (AAA_ s t u * (E.Vr k)ᴴ)
  -- axes ((5, 2, 1), (0, 1, 2))
  let C_Vri_A_r_Ah : Ten3 ℂ q q q v D := fun a b c => ∑ u, ∑ k, ∑ j,
    star (ham_ a j k b c u) • (E.Vri j * A_ k * (r_ * (A_ u)ᴴ))
  -- axes ((4, 3, 0), (0, 1, 2)), then (2, 0, 1)
  let C_AhlAA : Ten3 ℂ q q q D D := fun c a b => ∑ j, ∑ i, ∑ s, ham_ s a b i j c • ((A s)ᴴ * (l * AA i j))
  -- axes ((1, 0, 3), (0, 1, 2))
  let C_AhlAA_conj : Ten3 ℂ q q q D D := fun a b c => ∑ j, ∑ i, ∑ s, star (ham_ i j a s b c) • ((A s)ᴴ * (l * AA i j))
  -- axes ((4, 5, 2), (2, 1, 0)), then (2, 0, 1)
  let C_AA_Vrh : Ten3 ℂ q q q D v := fun c a b => ∑ t, ∑ u, ∑ k, ham_ a b k c t u • (AA_ t u * (E.Vr k)ᴴ)
  { Cconj := calcC3conj ham_ AAA_
    C_VriAA_conj := C_VriAA_conj
    C_AAA_r_Ah_Vrih := C_AAA_r_Ah_Vrih
    C_AhAhlAA := C_AhAhlAA
    C_AA_r_Ah_Vrih := C_AA_r_Ah_Vrih
    C_AAA_Vrh := C_AAA_Vrh
    C_Vri_A_r_Ah := C_Vri_A_r_Ah
    C_AhlAA := C_AhlAA
    C_AhlAA_conj := C_AhlAA_conj
    C_AA_Vrh := C_AA_Vrh
    rhs10 := epsR3 r_ AAA_ C_VriAA_conj }

/-- The environments handed to `pinv_1mE` (`mps_uniform_excite.py:62-71`): those of the state if there is only one, else `None`. -/
def lMix (E : ExcOp q D v) : Option (Matrix (Fin D) (Fin D) ℂ) := if E.same then some (E.S.l 0) else none

/-- The same for `r`. -/
def rMix (E : ExcOp q D v) : Option (Matrix (Fin D) (Fin D) ℂ) := if E.same then some (E.S.r 0) else none

/-- `mps_uniform_excite.py:331-332, 334, 336-358`: everything in `res` before the terms with `K`, `ham_sites == 2`. -/
noncomputable def local2 (E : ExcOp q D v) (h : Fin q → Fin q → Fin q → Fin q → ℂ) (B : Ten ℂ q D D)
    (Mh : Matrix (Fin D) (Fin D) ℂ) : Matrix (Fin D) (Fin v) ℂ :=
  let pre := E.pre2 h
  let l := E.S.l 0
  let r_ := E.S2.r 0
  let A := E.S.A 0
  let A_ := E.S2.A 0
  let BA_ := calcAA B A_
  let AB := calcAA A B
  let tmp : Ten2 ℂ q q D D := BA_ + Complex.exp (Complex.I * E.p) • AB
  let res := E.l_s * epsR2 r_ tmp pre.C_VriA_conj
  let res := res + Complex.exp (-Complex.I * E.p) • (E.l_si * (Mh * pre.rhs10))
  let subres := forSum q fun s =>
    epsR (B s) (pre.C_AhlA s) E.Vr
      + Complex.exp (-Complex.I * E.p) • epsL (l * B s) A (pre.C_A_Vrh s)
      + Complex.exp (-2 * Complex.I * E.p) • ((A s)ᴴ * Mh * epsR 1 (pre.C s) E.Vr)
  res + E.l_si * subres

/-- `mps_uniform_excite.py:328-329, 334, 336-358`: the same for `ham_sites == 3`. -/
noncomputable def local3 (E : ExcOp q D v) (h : Fin q → Fin q → Fin q → Fin q → Fin q → Fin q → ℂ) (B : Ten ℂ q D D)
    (Mh : Matrix (Fin D) (Fin D) ℂ) : Matrix (Fin D) (Fin v) ℂ :=
  let pre := E.pre3 h
  let l := E.S.l 0
  let r_ := E.S2.r 0
  let A := E.S.A 0
  let A_ := E.S2.A 0
  let AA := E.S.AA 0
  let BA_ := calcAA B A_
  let AB := calcAA A B
  let BAA_ := calcAAA_AA BA_ A_
  let ABA_ := calcAAA_AA AB A_
  let AAB := calcAAA_AA AA B
  let tmp : Ten3 ℂ q q q D D :=
    BAA_ + Complex.exp (Complex.I * E.p) • ABA_ + Complex.exp (2 * Complex.I * E.p) • AAB
  let res := E.l_s * epsR3 r_ tmp pre.C_VriAA_conj
  let res := res + Complex.exp (-Complex.I * E.p) • (E.l_si * (Mh * pre.rhs10))
  let subres := Complex.exp (-2 * Complex.I * E.p) • epsL Mh A pre.C_AAA_r_Ah_Vrih
  let subres := subres + Complex.exp (-3 * Complex.I * E.p) • epsL2 Mh AA pre.C_AAA_Vrh
  let subres := subres + forSum q fun s =>
    epsR (B s) (pre.C_AhAhlAA s) E.Vr
      + Complex.exp (-Complex.I * E.p) • epsL (l * B s) A (pre.C_AA_r_Ah_Vrih s)
      + (A s)ᴴ * (l * epsR2 1 AB (pre.C_Vri_A_r_Ah s))
      + Complex.exp (-Complex.I * E.p) • (epsL2 1 (pre.C_AhlAA_conj s) BA_ * (E.Vr s)ᴴ)
      + Complex.exp (-2 * Complex.I * E.p) • epsL2 (l * B s) AA (pre.C_AA_Vrh s)
      + Complex.exp (Complex.I * E.p) • epsR2 (B s * r_) (pre.C_AhlAA s) (calcAA E.Vri A_)
  res + E.l_si * subres

/-- `mps_uniform_excite.py:371-377`: the right-hand side of the last linear system without the term with `K`. -/
noncomputable def rhsY (E : ExcOp q D v) (B : Ten ℂ q D D) : Matrix (Fin D) (Fin D) ℂ :=
  let r_ := E.S2.r 0
  let A := E.S.A 0
  let A_ := E.S2.A 0
  let BA_ := calcAA B A_
  let AB := calcAA A B
  match E.S.ham with
  | .two h =>
    let tmp : Ten2 ℂ q q D D := Complex.exp (Complex.I * E.p) • BA_ + Complex.exp (2 * Complex.I * E.p) • AB
    epsR2 r_ tmp (E.pre2 h).Cconj
  | .three h =>
    let tmp : Ten3 ℂ q q q D D := Complex.exp (Complex.I * E.p) • calcAAA_AA BA_ A_
      + Complex.exp (2 * Complex.I * E.p) • calcAAA_AA AB A_
      + Complex.exp (3 * Complex.I * E.p) • calcAAA_AA (E.S.AA 0) B
    epsR3 r_ tmp (E.pre3 h).Cconj

/-- The results of earlier calls used as starting vectors, `self.M_prev` and `self.y_pi_prev`. -/
abbrev Mem (D : ℕ) := Option (Matrix (Fin D) (Fin D) ℂ) × Option (Matrix (Fin D) (Fin D) ℂ)

/-- `mps_uniform_excite.py:251-401` `calc_BHB(x, p, tdvp, tdvp2, prereq, M_prev, y_pi_prev, pinv_solver)`.  `none` is a raised
exception. -/
noncomputable def calcBHB (E : ExcOp q D v) (solver : Solver D) (junk : Matrix (Fin D) (Fin D) ℂ)
    (x : Matrix (Fin D) (Fin v) ℂ) (mem : Mem D) : Option (Matrix (Fin D) (Fin v) ℂ × Mem D) :=
  open Classical in
  let l := E.S.l 0
  let A := E.S.A 0
  let A_ := E.S2.A 0
  let K_r := E.S2.K 0
  let B := getBFromX x E.Vsh E.l_si E.r_si
  if B = 0 then some (0, mem) else
  let y := epsL l B A
  (pinv1mE solver junk y [A_] [A] E.lMix E.rMix (-E.p) true E.same mem.1).bind fun M =>
  let Mh := Mᴴ
  let res := match E.S.ham with
    | .two h => E.local2 h B Mh
    | .three h => E.local3 h B Mh
  let res := res + E.l_s * epsR K_r B E.Vri
  (E.S.Kl 0).bind fun K_l =>
  let res := res + E.l_si * (K_l * epsR E.r_s B E.V)
  let res := res + Complex.exp (-Complex.I * E.p) • (E.l_si * (Mh * epsR K_r A_ E.Vri))
  let y1 := Complex.exp (Complex.I * E.p) • epsR K_r B A_
  let y := y1 + E.rhsY B
  (pinv1mE solver junk y [A] [A_] E.lMix E.rMix E.p false E.same mem.2).map fun y_pi =>
  (res + E.l_s * epsR y_pi A E.Vri, (some M, some y_pi))

/-- `mps_uniform_excite.py:403-416` `matvec(v)`: the vector and the new starting vectors. -/
noncomputable def matvec (E : ExcOp q D v) (solver : Solver D) (junk : Matrix (Fin D) (Fin D) ℂ) (mem : Mem D)
    (w : Fin (D * v) → ℂ) : Option ((Fin (D * v) → ℂ) × Mem D) :=
  (E.calcBHB solver junk (reshape w) mem).map fun p => (ravel p.1, p.2)

/-- `tdvp_uniform.py:835-842`, also `tdvp_uniform.py:968-975`: the matrix of the operator, column by column. -/
noncomputable def bruteH (E : ExcOp q D v) (solver : Solver D) (junk : Matrix (Fin D) (Fin D) ℂ) :
    Option (Matrix (Fin (D * v)) (Fin (D * v)) ℂ) :=
  ((List.finRange (D * v)).foldl (fun a i => a.bind fun a =>
    (E.matvec solver junk a.2 (Pi.single i 1)).map fun y =>
      (Matrix.of fun b c => if c = i then y.1 b else a.1 b c, y.2))
    (some ((0 : Matrix (Fin (D * v)) (Fin (D * v)) ℂ), ((none, none) : Mem D)))).map Prod.fst

end ExcOp

/-- `tdvp_uniform.py:745-762` `_prepare_excite_op_top_triv(p)` and `mps_uniform_excite.py:40-44` (the assertions).  `solver` is
`self.K_solver`; `lm`, `rm` are `self.l[0]`, `self.r[0]` as matrix objects.  If `calc_Vsh` returns `None`, its first use raises. -/
noncomputable def UTDVP.prepareTriv (P : Num) (S : UTDVP q D) (lm rm : MM ℂ D D) (solver : Solver D)
    (junk : Matrix (Fin D) (Fin D) ℂ) (p : ℝ) : Option (ExcOp q D (D * q - D)) :=
  (S.calcKl solver junk).bind fun S1 =>
  let (l_s, l_si) := P.roots lm
  let (r_s, r_si) := P.roots rm
  if S1.1.L = 1 then
    (calcVsh P.qr (S1.1.A 0) r_s).map fun Vsh =>
    { S := S1.1, S2 := S1.1, same := true, p := p, l_s := l_s, l_si := l_si, r_s := r_s, r_si := r_si, Vsh := Vsh }
  else none

/-- `tdvp_uniform.py:851-878` `_prepare_excite_op_top_nontriv(donor, p, phase_align=False)`; `donor` is another object with the same
`q` and `D` (`mps_uniform_excite.py:40-44`).  `rm` is `donor.r[0]`.  The Hamiltonian used is that of `self`. -/
noncomputable def UTDVP.prepareNontriv (P : Num) (S donor : UTDVP q D) (lm rm : MM ℂ D D) (solver : Solver D)
    (junk : Matrix (Fin D) (Fin D) ℂ) (p : ℝ) : Option (ExcOp q D (D * q - D)) :=
  (S.calcKl solver junk).bind fun S1 =>
  let (l_s, l_si) := P.roots lm
  let (r_s, r_si) := P.roots rm
  if S1.1.L = 1 ∧ S1.1.L = donor.L then
    (calcVsh P.qr (donor.A 0) r_s).map fun Vsh =>
    { S := S1.1, S2 := donor, same := false, p := p, l_s := l_s, l_si := l_si, r_s := r_s, r_si := r_si, Vsh := Vsh }
  else none

end EvoMPS.Uni
