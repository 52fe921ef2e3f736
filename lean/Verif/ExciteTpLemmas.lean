import Verif.ExciteTp
import Verif.ExciteLocal
import Verif.ExciteTotal
import Verif.TensorProdLemmas

/-!
# Excitations with a Hamiltonian in tensor-product form (helper lemmas)
-/

namespace EvoMPS

open Matrix

namespace Exc

open Uni

variable {q D v : ℕ}

theorem foldl_append_map {α β : Type*} (L : List α) (f : α → β) : L.foldl (fun acc o => acc ++ [f o]) [] = L.map f := by
  have : ∀ acc : List β, L.foldl (fun acc o => acc ++ [f o]) acc = acc ++ L.map f := by
    induction L with
    | nil => simp
    | cons o L ih => intro acc; simp [ih]
  simpa using this []

section
variable {a b c : ℕ} (A : Ten ℂ q a b) (tp : List (Matrix (Fin q) (Fin q) ℂ × Matrix (Fin q) (Fin q) ℂ))

theorem getAop_0c : getAop A tp 0 true = tp.map fun o => opDotTen (o.1)ᴴ A := by
  rw [getAop, ← foldl_append_map]; rfl

theorem getAop_1c : getAop A tp 1 true = tp.map fun o => opDotTen (o.2)ᴴ A := by
  rw [getAop, ← foldl_append_map]; rfl

theorem getAop_2 : getAop A tp 2 false = tp.map fun o => opDotTen o.1 A := by
  rw [getAop, ← foldl_append_map]; rfl

theorem getAop_3 : getAop A tp 3 false = tp.map fun o => opDotTen o.2 A := by
  rw [getAop, ← foldl_append_map]; rfl

theorem getAops_c (A1 : Ten ℂ q b c) : getAops A A1 tp true = tp.map fun o => (opDotTen (o.1)ᴴ A, opDotTen (o.2)ᴴ A1) := by
  rw [getAops, if_pos rfl, ← foldl_append_map]; rfl

end

/-- An operator on the bra is its adjoint on the ket. -/
theorem epsR_move {a b b' c : ℕ} (o : Matrix (Fin q) (Fin q) ℂ) (x : Matrix (Fin b) (Fin b') ℂ) (A : Ten ℂ q a b) (B : Ten ℂ q c b') :
    epsR x A (opDotTen oᴴ B) = epsR x (opDotTen o A) B := by
  simp only [epsR_eq, opDotTen_eq, conjTranspose_sum, conjTranspose_smul, conjTranspose_apply, star_star, Matrix.mul_sum, Matrix.sum_mul,
    Matrix.mul_smul, Matrix.smul_mul]
  exact Finset.sum_comm

theorem epsL_move {a a' b c : ℕ} (o : Matrix (Fin q) (Fin q) ℂ) (x : Matrix (Fin a) (Fin a') ℂ) (A : Ten ℂ q a b) (B : Ten ℂ q a' c) :
    epsL x (opDotTen oᴴ A) B = epsL x A (opDotTen o B) := by
  simp only [epsL_eq, opDotTen_eq, conjTranspose_sum, conjTranspose_smul, conjTranspose_apply, star_star, Matrix.mul_sum, Matrix.sum_mul,
    Matrix.mul_smul, Matrix.smul_mul]
  exact Finset.sum_comm

/-- The root next to the isometry. -/
theorem epsR_Vr {a b : ℕ} (w : Matrix (Fin b) (Fin D) ℂ) (A : Ten ℂ q a b) (V : Ten ℂ q v D) {s : Matrix (Fin D) (Fin D) ℂ}
    (hs : sᴴ = s) : epsR w A (fun t => V t * s) = epsR (w * s) A V := by
  simp only [epsR_eq, conjTranspose_mul, hs, Matrix.mul_assoc]

section
variable (tp : List (Matrix (Fin q) (Fin q) ℂ × Matrix (Fin q) (Fin q) ℂ))

/-- A term of two sites in the two forms. -/
theorem two_dense {a b c a' b' c' : ℕ} (x : Matrix (Fin c) (Fin c') ℂ) (X : Ten ℂ q a b) (Y : Ten ℂ q b c)
    (Z : Ten ℂ q a' b') (W : Ten ℂ q b' c') :
    epsR2 x (calcC (tpDense tp) (calcAA X Y)) (calcAA Z W) = (tp.map fun o => epsR (epsR x Y (opDotTen (o.2)ᴴ W)) (opDotTen o.1 X) Z).sum := by
  rw [← epsR2tp_dense, epsR2tp, calcCtp_eq, foldl_add_eq, zero_add, List.map_map]
  simp only [Function.comp_def, epsR_move]

/-- A term of two sites with the isometry at the second one in the bra. -/
theorem lr_dense (w : Matrix (Fin D) (Fin D) ℂ) (A X Y : Ten ℂ q D D) (V : Ten ℂ q v D) {r_s : Matrix (Fin D) (Fin D) ℂ} (hs : r_sᴴ = r_s) :
    ∑ s, ∑ t, (A s)ᴴ * w * calcC (tpDense tp) (calcAA X Y) s t * (V t * r_s)ᴴ
      = (tp.map fun o => epsL w A (opDotTen o.1 X) * epsR r_s (opDotTen o.2 Y) V).sum := by
  simp only [calcC_tpDense]
  induction tp with
  | nil => simp
  | cons o L ih =>
    rw [List.map_cons, List.sum_cons, ← ih]
    simp only [List.map_cons, List.sum_cons, Matrix.mul_add, Matrix.add_mul, Finset.sum_add_distrib]
    congr 1
    simp only [epsL_eq, epsR_eq, Matrix.sum_mul, Matrix.mul_sum, conjTranspose_mul, hs, Matrix.mul_assoc]
    exact Finset.sum_comm

end

/-- The operator minus the energy. -/
theorem tp_shift (tp : List (Matrix (Fin q) (Fin q) ℂ × Matrix (Fin q) (Fin q) ℂ)) (e : ℂ) :
    tpDense (tp ++ [(-e • (1 : Matrix (Fin q) (Fin q) ℂ), (1 : Matrix (Fin q) (Fin q) ℂ))])
      = fun s t u w => tpDense tp s t u w - e * if s = u ∧ t = w then 1 else 0 := by
  funext s t u w
  simp only [tpDense, List.map_append, List.sum_append, List.map_cons, List.map_nil, List.sum_cons, List.sum_nil, add_zero,
    Matrix.smul_apply, Matrix.one_apply, smul_eq_mul]
  by_cases h1 : s = u <;> by_cases h2 : t = w <;> simp [h1, h2, sub_eq_add_neg]

theorem sum_map_add {α M : Type*} [AddCommMonoid M] (L : List α) (f g : α → M) :
    (L.map fun o => f o + g o).sum = (L.map f).sum + (L.map g).sum := by
  induction L with
  | nil => simp
  | cons o L ih => simp only [List.map_cons, List.sum_cons, ih]; exact add_add_add_comm _ _ _ _

theorem sum_map_smul {α M : Type*} [AddCommMonoid M] [Module ℂ M] (L : List α) (z : ℂ) (f : α → M) :
    (L.map fun o => z • f o).sum = z • (L.map f).sum := by
  induction L with
  | nil => simp
  | cons o L ih => simp only [List.map_cons, List.sum_cons, ih, smul_add]

/-- What the two operators have to have in common. -/
structure TpSame (Et : ExcTp q D v) (E : ExcOp q D v) : Prop where
  A : E.S.A 0 = Et.S.A 0
  l : E.S.l 0 = Et.S.l 0
  r : E.S.r 0 = Et.S.r 0
  e : E.S.hExpect = Et.S.hExpect
  Kl : E.S.Kl 0 = Et.S.Kl 0
  A2 : E.S2.A 0 = Et.S2.A 0
  r2 : E.S2.r 0 = Et.S2.r 0
  K2 : E.S2.K 0 = Et.S2.K 0
  AA2 : E.S2.AA 0 = calcAA (Et.S2.A 0) (Et.S2.A 0)
  same : E.same = Et.same
  p : E.p = Et.p
  ls : E.l_s = Et.l_s
  lsi : E.l_si = Et.l_si
  rs : E.r_s = Et.r_s
  rsi : E.r_si = Et.r_si
  V : E.Vsh = Et.Vsh
  two : ∃ h, Et.S.ham = .two h
  ham : E.S.ham = .two (tpDense Et.hamTp)
  rs_herm : Et.r_sᴴ = Et.r_s
  rsi_herm : Et.r_siᴴ = Et.r_si

theorem calcC_lin' (ham : Fin q → Fin q → Fin q → Fin q → ℂ) (T T' : Ten2 ℂ q q D D) :
    calcC ham (T + T') = calcC ham T + calcC ham T' := by
  have := calcC_lin ham 1 T T'
  rwa [one_smul, one_smul] at this

theorem calcC_smul' (ham : Fin q → Fin q → Fin q → Fin q → ℂ) (z : ℂ) (T : Ten2 ℂ q q D D) :
    calcC ham (z • T) = z • calcC ham T := by
  funext s t
  simp only [calcC_eq, Pi.smul_apply, Finset.smul_sum]
  refine Finset.sum_congr rfl fun _ _ => Finset.sum_congr rfl fun _ _ => smul_comm _ _ _

theorem epsR2_smul' (z : ℂ) (T : Ten2 ℂ q q D D) (w : Matrix (Fin D) (Fin D) ℂ) (Y : Ten2 ℂ q q v D) :
    epsR2 w (z • T) Y = z • epsR2 w T Y := by
  simp only [epsR2_eq, Pi.smul_apply, Finset.smul_sum, Matrix.smul_mul]

theorem epsR2_lin' (T T' : Ten2 ℂ q q D D) (w : Matrix (Fin D) (Fin D) ℂ) (Y : Ten2 ℂ q q v D) :
    epsR2 w (T + T') Y = epsR2 w T Y + epsR2 w T' Y := by
  have := epsR2_lin 1 T T' w Y
  rwa [one_smul, one_smul] at this

theorem epsLOp1_adj [DecidableEq ℂ] {a a' b b' : ℕ} (x : Matrix (Fin a) (Fin a') ℂ) (A1 : Ten ℂ q a b) (A2 : Ten ℂ q a' b')
    (o : Matrix (Fin q) (Fin q) ℂ) : epsLOp1 x A1 A2 (fun s t => oᴴ s t) = epsL x A1 (opDotTen o A2) := by
  rw [epsLOp1_eq]
  simp only [conjTranspose_apply, star_star, epsL_eq, opDotTen_eq, Matrix.mul_sum, Matrix.mul_smul]

theorem epsROp1_dot [DecidableEq ℂ] {a a' b b' : ℕ} (x : Matrix (Fin b) (Fin b') ℂ) (A1 : Ten ℂ q a b) (A2 : Ten ℂ q a' b')
    (o : Matrix (Fin q) (Fin q) ℂ) : epsROp1 x A1 A2 (fun s t => o s t) = epsR x (opDotTen o A1) A2 := by
  rw [epsROp1_eq]
  simp only [epsR_eq, opDotTen_eq, Matrix.sum_mul, Matrix.smul_mul]

theorem zip_map_map {α β γ : Type*} (L : List α) (f : α → β) (g : α → γ) :
    (L.map f).zip (L.map g) = L.map fun o => (f o, g o) := by
  induction L with
  | nil => rfl
  | cons o L ih => simp [ih]

theorem calcBHB_tp {Et : ExcTp q D v} {E : ExcOp q D v} (m : TpSame Et E) (solver : Solver D) (junk : Matrix (Fin D) (Fin D) ℂ)
    (x : Matrix (Fin D) (Fin v) ℂ) (mem : ExcOp.Mem D) : Et.calcBHB solver junk x mem = E.calcBHB solver junk x mem := by
  classical
  obtain ⟨h, hh⟩ := m.two
  have eV : E.V = Et.V := by unfold ExcOp.V; rw [m.V]
  have eVri : E.Vri = fun s => Et.V s * Et.r_si := by unfold ExcOp.Vri; rw [eV, m.rsi]
  have eVr : E.Vr = fun s => Et.V s * Et.r_s := by unfold ExcOp.Vr; rw [eV, m.rs]
  have eL : E.lMix = Et.lMix := by unfold ExcOp.lMix; rw [m.same, m.l]
  have eR : E.rMix = Et.rMix := by unfold ExcOp.rMix; rw [m.same, m.r]
  set tp := Et.hamTp ++ [(-(Et.S.hExpect.re : ℂ) • (1 : Matrix (Fin q) (Fin q) ℂ), (1 : Matrix (Fin q) (Fin q) ℂ))] with htp
  have eham : E.ham2 (tpDense Et.hamTp) = tpDense tp := by
    rw [htp, tp_shift]; unfold ExcOp.ham2; rw [m.e]
  have epre : Et.pre.ham_tp = tp := rfl
  unfold ExcTp.calcBHB ExcOp.calcBHB
  simp only [hh, m.ham, m.A, m.A2, m.l, m.K2, m.p, m.ls, m.lsi, m.rs, m.rsi, m.V, m.same, m.Kl, eL, eR, eV, eVri]
  set B := getBFromX x Et.Vsh Et.l_si Et.r_si with hB
  by_cases hz : B = 0
  · rw [if_pos hz, if_pos hz]
  rw [if_neg hz, if_neg hz]
  congr 1
  funext M
  have hY : E.rhsY B = Et.pre.A_A_o12c.foldl (fun tmp X =>
      tmp + Complex.exp (Complex.I * Et.p) • epsR (epsR (Et.S2.r 0) (Et.S2.A 0) X.2) B X.1
        + Complex.exp (2 * Complex.I * Et.p) • epsR (epsR (Et.S2.r 0) B X.2) (Et.S.A 0) X.1) 0 := by
    have e1 : Et.pre.A_A_o12c = tp.map fun o => (opDotTen (o.1)ᴴ (Et.S2.A 0), opDotTen (o.2)ᴴ (Et.S2.A 0)) := getAops_c _ _ _
    simp only [e1, add_assoc]
    rw [foldl_add_eq, zero_add, List.map_map]
    simp only [Function.comp_def]
    rw [sum_map_add, sum_map_smul, sum_map_smul]
    unfold ExcOp.rhsY
    simp only [m.ham, ExcOp.pre2, eham, conj_move2, m.A, m.A2, m.r2, m.AA2, m.p]
    rw [calcC_lin', calcC_smul', calcC_smul', epsR2_lin', epsR2_smul', epsR2_smul', two_dense, two_dense]
    simp only [epsR_move]
  have hrhs : (E.pre2 (tpDense Et.hamTp)).rhs10 = Et.pre.rhs10 := by
    unfold ExcTp.pre ExcOp.pre2
    simp only [getAop_1c, getAop_2, zip_map_map, ← htp, eham]
    rw [foldl_add_eq, zero_add, List.map_map, conj_move2, m.AA2, eVri, m.A2, m.r2, two_dense]
    simp only [Function.comp_def, epsR_Vr _ _ _ m.rsi_herm]
  have hls : epsR2 (Et.S2.r 0) (calcAA B (Et.S2.A 0) + Complex.exp (Complex.I * Et.p) • calcAA (Et.S.A 0) B)
        (E.pre2 (tpDense Et.hamTp)).C_VriA_conj
      = ((getAop B Et.pre.ham_tp 2 false).zip (Et.pre.A_o2c.zip Et.pre.Ao1)).foldl (fun res X =>
        res + epsR (epsR (Et.S2.r 0) (Et.S2.A 0) X.2.1 * Et.r_si) X.1 Et.V
          + Complex.exp (Complex.I * Et.p) • epsR (epsR (Et.S2.r 0) B X.2.1 * Et.r_si) X.2.2 Et.V) 0 := by
    have e1 : Et.pre.A_o2c = tp.map fun o => opDotTen (o.2)ᴴ (Et.S2.A 0) := getAop_1c _ _
    have e2 : Et.pre.Ao1 = tp.map fun o => opDotTen o.1 (Et.S.A 0) := getAop_2 _ _
    rw [epre, e1, e2, getAop_2, zip_map_map, zip_map_map]
    simp only [add_assoc]
    rw [foldl_add_eq, zero_add, List.map_map]
    simp only [Function.comp_def]
    rw [sum_map_add, sum_map_smul]
    unfold ExcOp.pre2
    simp only [eham, conj_move2, eVri, m.A2]
    rw [calcC_lin', calcC_smul', epsR2_lin', epsR2_smul', two_dense, two_dense]
    simp only [epsR_Vr _ _ _ m.rsi_herm]
  have hsub : (forSum q fun s => epsR (B s) ((E.pre2 (tpDense Et.hamTp)).C_AhlA s) E.Vr
        + Complex.exp (-Complex.I * Et.p) • epsL (Et.S.l 0 * B s) (Et.S.A 0) ((E.pre2 (tpDense Et.hamTp)).C_A_Vrh s)
        + Complex.exp (-2 * Complex.I * Et.p) • ((Et.S.A 0 s)ᴴ * Mᴴ * epsR 1 ((E.pre2 (tpDense Et.hamTp)).C s) E.Vr))
      = (tp.map fun o => epsL (Et.S.l 0) (Et.S.A 0) (opDotTen o.1 (Et.S.A 0)) * epsR Et.r_s (opDotTen o.2 B) Et.V).sum
        + Complex.exp (-Complex.I * Et.p) •
          (tp.map fun o => epsL (Et.S.l 0) (Et.S.A 0) (opDotTen o.1 B) * epsR Et.r_s (opDotTen o.2 (Et.S2.A 0)) Et.V).sum
        + Complex.exp (-2 * Complex.I * Et.p) •
          (tp.map fun o => epsL Mᴴ (Et.S.A 0) (opDotTen o.1 (Et.S2.A 0)) * epsR Et.r_s (opDotTen o.2 (Et.S2.A 0)) Et.V).sum := by
    rw [forSum_eq, Finset.sum_add_distrib, Finset.sum_add_distrib, ← Finset.smul_sum, ← Finset.smul_sum, two_t12]
    unfold ExcOp.pre2
    simp only [eham, m.A, m.A2, m.l, m.AA2]
    rw [two_t2, two_t4, eVr, lr_dense tp _ _ _ _ _ m.rs_herm, lr_dense tp _ _ _ _ _ m.rs_herm, lr_dense tp _ _ _ _ _ m.rs_herm]
  have hlsi : ∀ z, ((Et.pre.AhlAo1.zip (getAop B Et.pre.ham_tp 3 false)).zip (Et.pre.Ao1c.zip Et.pre.A_Vr_ho2)).foldl
        (fun (res : Matrix (Fin D) (Fin v) ℂ) X => res + X.1.1 * epsR Et.r_s X.1.2 Et.V
          + Complex.exp (-Complex.I * Et.p) • (epsL (Et.S.l 0) X.2.1 B * X.2.2)
          + Complex.exp (-2 * Complex.I * Et.p) • (epsL Mᴴ X.2.1 (Et.S2.A 0) * X.2.2)) z
      = z + ((tp.map fun o => epsL (Et.S.l 0) (Et.S.A 0) (opDotTen o.1 (Et.S.A 0)) * epsR Et.r_s (opDotTen o.2 B) Et.V).sum
        + Complex.exp (-Complex.I * Et.p) •
          (tp.map fun o => epsL (Et.S.l 0) (Et.S.A 0) (opDotTen o.1 B) * epsR Et.r_s (opDotTen o.2 (Et.S2.A 0)) Et.V).sum
        + Complex.exp (-2 * Complex.I * Et.p) •
          (tp.map fun o => epsL Mᴴ (Et.S.A 0) (opDotTen o.1 (Et.S2.A 0)) * epsR Et.r_s (opDotTen o.2 (Et.S2.A 0)) Et.V).sum) := by
    intro z
    have e1 : Et.pre.AhlAo1 = tp.map fun o => epsL (Et.S.l 0) (Et.S.A 0) (opDotTen o.1 (Et.S.A 0)) :=
      List.map_congr_left fun o _ => epsLOp1_adj _ _ _ _
    have e2 : Et.pre.Ao1c = tp.map fun o => opDotTen (o.1)ᴴ (Et.S.A 0) := getAop_0c _ _
    have e3 : Et.pre.A_Vr_ho2 = tp.map fun o => epsR Et.r_s (opDotTen o.2 (Et.S2.A 0)) Et.V :=
      List.map_congr_left fun o _ => epsROp1_dot _ _ _ _
    rw [epre, e1, e2, e3, getAop_3, zip_map_map, zip_map_map, zip_map_map]
    simp only [add_assoc]
    rw [foldl_add_eq, List.map_map]
    simp only [Function.comp_def, epsL_move]
    rw [sum_map_add, sum_map_add, sum_map_smul, sum_map_smul]
  unfold ExcOp.local2
  simp only [m.l, m.A, m.A2, m.r2, m.p, m.ls, m.lsi]
  rw [hls, hsub, hY, hrhs, hlsi]
  congr 1
  funext K_l
  congr 1
  funext y_pi
  simp only [epsR_Vr _ _ _ m.rsi_herm, Matrix.mul_add, Matrix.mul_smul]
  congr 1
  abel

theorem calcKl_frame {S : UTDVP q D} {Ks : Solver D} {junk : Matrix (Fin D) (Fin D) ℂ} {S1 : UTDVP q D × ℂ}
    (h : S.calcKl Ks junk = some S1) : S1.1 = { S with Kl := S1.1.Kl } := by
  unfold UTDVP.calcKl at h
  dsimp only at h
  split_ifs at h
  obtain ⟨K, -, rfl⟩ := Option.map_eq_some_iff.1 h
  rfl

/-- The two constructors for one state. -/
theorem prep_triv {T : UTP q D} {S : UTDVP q D} (m : TpMatch T S) (he : S.hExpect = T.hExpect) {P : Num} (hP : P.Ok)
    (lm rm : MM ℂ D D) (hrm : rm.toArray.IsHermitian) (Ks : Solver D) (junk : Matrix (Fin D) (Fin D) ℂ) (p : ℝ) :
    Option.Rel TpSame (T.prepareTriv P lm rm Ks junk p) (S.prepareTriv P lm rm Ks junk p) := by
  unfold UTP.prepareTriv UTDVP.prepareTriv
  rw [m.calcKl]
  cases hk : S.calcKl Ks junk with
  | none => exact .none
  | some S1 =>
    have hf := calcKl_frame hk
    simp only [Option.map_some, Option.bind_some]
    have hL : S1.1.L = T.L := by rw [hf]; exact m.L
    have hA : S1.1.A = T.A := by rw [hf]; exact m.A
    rw [hL, hA]
    by_cases h1 : T.L = 1
    · rw [if_pos h1, if_pos h1]
      cases hV : calcVsh P.qr (T.A 0) (P.roots rm).1 with
      | none => exact .none
      | some Vsh =>
        refine .some ?_
        have R := roots_spec hP rm hrm
        refine ⟨?_, ?_, ?_, ?_, rfl, ?_, ?_, ?_, ?_, rfl, rfl, rfl, rfl, rfl, rfl, rfl, m.two, ?_, R.s_herm, R.si_herm⟩
        · exact congrFun hA 0
        · show S1.1.l 0 = T.l 0; rw [hf]; exact congrFun m.l 0
        · show S1.1.r 0 = T.r 0; rw [hf]; exact congrFun m.r 0
        · show S1.1.hExpect = T.hExpect; rw [hf]; exact he
        · exact congrFun hA 0
        · show S1.1.r 0 = T.r 0; rw [hf]; exact congrFun m.r 0
        · show S1.1.K 0 = T.K 0; rw [hf]; exact congrFun m.K 0
        · show S1.1.AA 0 = _
          rw [hf]
          have := m.AA 0 (by omega)
          rw [h1] at this
          exact this
        · show S1.1.ham = _
          rw [hf]; exact m.ham
    · rw [if_neg h1, if_neg h1]
      exact .none

/-- The two constructors for two states. -/
theorem prep_nontriv {T T2 : UTP q D} {S S2 : UTDVP q D} (m : TpMatch T S) (he : S.hExpect = T.hExpect) (m2 : TpMatch T2 S2) {P : Num}
    (hP : P.Ok) (lm rm : MM ℂ D D) (hrm : rm.toArray.IsHermitian) (Ks : Solver D) (junk : Matrix (Fin D) (Fin D) ℂ) (p : ℝ) :
    Option.Rel TpSame (T.prepareNontriv P T2 lm rm Ks junk p) (S.prepareNontriv P S2 lm rm Ks junk p) := by
  unfold UTP.prepareNontriv UTDVP.prepareNontriv
  rw [m.calcKl]
  cases hk : S.calcKl Ks junk with
  | none => exact .none
  | some S1 =>
    have hf := calcKl_frame hk
    simp only [Option.map_some, Option.bind_some]
    have hL : S1.1.L = T.L := by rw [hf]; exact m.L
    rw [hL, m2.L, m2.A]
    by_cases h1 : T.L = 1 ∧ T.L = T2.L
    · rw [if_pos h1, if_pos h1]
      cases hV : calcVsh P.qr (T2.A 0) (P.roots rm).1 with
      | none => exact .none
      | some Vsh =>
        refine .some ?_
        have R := roots_spec hP rm hrm
        refine ⟨?_, ?_, ?_, ?_, rfl, ?_, ?_, ?_, ?_, rfl, rfl, rfl, rfl, rfl, rfl, rfl, m.two, ?_, R.s_herm, R.si_herm⟩
        · show S1.1.A 0 = T.A 0; rw [hf]; exact congrFun m.A 0
        · show S1.1.l 0 = T.l 0; rw [hf]; exact congrFun m.l 0
        · show S1.1.r 0 = T.r 0; rw [hf]; exact congrFun m.r 0
        · show S1.1.hExpect = T.hExpect; rw [hf]; exact he
        · exact congrFun m2.A 0
        · exact congrFun m2.r 0
        · exact congrFun m2.K 0
        · have := m2.AA 0 (by omega)
          rw [← h1.2, h1.1] at this
          exact this
        · show S1.1.ham = _
          rw [hf]; exact m.ham
    · rw [if_neg h1, if_neg h1]
      exact .none

theorem matvec_tp {Et : ExcTp q D v} {E : ExcOp q D v} (m : TpSame Et E) (solver : Solver D) (junk : Matrix (Fin D) (Fin D) ℂ)
    (mem : ExcOp.Mem D) (w : Fin (D * v) → ℂ) : Et.matvec solver junk mem w = E.matvec solver junk mem w := by
  rw [ExcTp.matvec, ExcOp.matvec, calcBHB_tp m]

theorem bruteH_tp {Et : ExcTp q D v} {E : ExcOp q D v} (m : TpSame Et E) (solver : Solver D) (junk : Matrix (Fin D) (Fin D) ℂ) :
    Et.bruteH solver junk = E.bruteH solver junk := by
  unfold ExcTp.bruteH ExcOp.bruteH
  simp only [matvec_tp m]

end Exc

end EvoMPS
