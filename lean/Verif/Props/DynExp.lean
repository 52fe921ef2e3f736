import Verif.PairGauge
import Verif.Props.Step
import Verif.ContractsSvd
import Mathlib.Analysis.SpecialFunctions.Pow.Complex

/-!
# C34: dynamical bond expansion

`ampGrow E X t` is the matrix product of the tensors `E` in which any number of neighbouring pairs is replaced
by `-t * X`, `twoSite A X k` the state with the pair at the sites `k`, `k + 1` replaced by `X k`
(`DynExpSpec.lean`).  `bbProd bb k s t` is the product `BB12[n][s] BB21[n + 1][t]` of what `calc_BB_2s`
returned, `n = k + 1`.
-/

namespace EvoMPS

open Matrix ComplexOrder

section
variable {q D : ℕ → ℕ} {N : ℕ}

/-! ## Helpers -/

theorem bbYs_spec {ham : Ham ℂ q} {T : TDVP ℂ q D} {pre : Pre q D} {Y} (h : bbYs N ham T pre = some Y) :
    (∀ k, k + 1 < N → bbY N ham T pre k = some (Y k)) ∧ ∀ k, N ≤ k + 1 → Y k = none := by
  have key := foldUp_inv (fun (Y : Option (∀ k, Option (YMat q D k))) k => Y.bind fun Y =>
      (bbY N ham T pre k).map fun y => Function.update Y k y)
    (fun n X => ∀ Y, X = some Y → (∀ k < n, bbY N ham T pre k = some (Y k)) ∧ ∀ k, n ≤ k → Y k = none)
    0 (N - 1) (some fun _ => none)
    (by rintro Y h; obtain rfl := Option.some.inj h; exact ⟨by simp, fun _ _ => rfl⟩)
    (by
      intro n _ _ X ih Y hY
      obtain rfl | ⟨Y0, rfl⟩ : X = none ∨ ∃ Y0, X = some Y0 := by cases X <;> simp
      · simp at hY
      rw [Option.bind_some] at hY
      obtain ⟨y, hy, rfl⟩ := Option.map_eq_some_iff.mp hY
      obtain ⟨i1, i2⟩ := ih Y0 rfl
      refine ⟨fun k hk => ?_, fun k hk => ?_⟩
      · by_cases hkn : k = n
        · subst hkn; rw [hy, Function.update_self]
        · rw [Function.update_of_ne hkn]; exact i1 k (by omega)
      · rw [Function.update_of_ne (by omega)]; exact i2 k (by omega))
  obtain ⟨h1, h2⟩ := key Y h
  exact ⟨fun k hk => h1 k (by omega), fun k hk => h2 k (by omega)⟩

theorem bbYs_isSome {ham : Ham ℂ q} {T : TDVP ℂ q D} {pre : Pre q D}
    (h : ∀ k, k + 1 < N → (bbY N ham T pre k).isSome) : ∃ Y, bbYs N ham T pre = some Y := by
  rw [← Option.isSome_iff_exists]
  refine foldUp_inv (fun (Y : Option (∀ k, Option (YMat q D k))) k => Y.bind fun Y =>
      (bbY N ham T pre k).map fun y => Function.update Y k y) (fun _ X => X.isSome) 0 (N - 1) _ rfl ?_
  intro n _ hn X hX
  obtain ⟨Y, rfl⟩ := Option.isSome_iff_exists.mp hX
  rw [Option.bind_some, Option.isSome_map]
  exact h n (by omega)

theorem bbAt_out (svd : Svd) (Y : ∀ k, Option (YMat q D k)) (pre svTol dDmax Dmax) {k : ℕ} (hk : N ≤ k + 1) :
    bbAt svd N Y pre svTol dDmax Dmax k = .nothing := by
  rw [bbAt, if_neg (by omega)]

theorem calcBB2s_le (svd : Svd) {p p' a c v w : ℕ} (Y : Matrix (Fin v) (Fin w) ℂ)
    (Vlh : Fin p → Matrix (Fin v) (Fin a) ℂ) (Vrh : Fin p' → Matrix (Fin c) (Fin w) ℂ) (l_si r_si m svTol) :
    (calcBB2s svd Y Vlh Vrh l_si r_si m svTol).d ≤ m := by
  unfold calcBB2s
  cases svd Y with
  | none => simp [BB.nothing]
  | some f => exact Nat.min_le_right _ _

theorem bbAt_le (svd : Svd) (Y : ∀ k, Option (YMat q D k)) (pre svTol dDmax Dmax) (k : ℕ) :
    ((bbAt svd N Y pre svTol dDmax Dmax k).d : ℤ) ≤ max 0 (dDmaxes D dDmax Dmax (k + 1)) := by
  unfold bbAt
  split
  · split
    · split
      · have := calcBB2s_le svd ‹_› ‹_› ‹_› (pre.l_si k) (pre.r_si (k + 1 + 1))
          (dDmaxes D dDmax Dmax (k + 1)).toNat svTol
        omega
      · simp [BB.nothing]
    · simp [BB.nothing]
  · simp [BB.nothing]

theorem dDOf_le (svd : Svd) (Y : ∀ k, Option (YMat q D k)) (pre svTol dDmax Dmax) (n : ℕ) :
    (dDOf (bbAt svd N Y pre svTol dDmax Dmax) n : ℤ) ≤ max 0 (dDmaxes D dDmax Dmax n) := by
  cases n with
  | zero => simp [dDOf]
  | succ k => exact bbAt_le svd Y pre svTol dDmax Dmax k

theorem dDOf_out (svd : Svd) (Y : ∀ k, Option (YMat q D k)) (pre svTol dDmax Dmax) {n : ℕ} (hn : N ≤ n) :
    dDOf (bbAt svd N Y pre svTol dDmax Dmax) n = 0 := by
  cases n with
  | zero => rfl
  | succ k => rw [dDOf, bbAt_out svd Y pre svTol dDmax Dmax hn]; rfl

theorem bbProd_zero (bb : ∀ k, BB (q k) (q (k + 1)) (D k) (D (k + 1 + 1))) (k : ℕ) (h : dDOf bb (k + 1) = 0) :
    bbProd bb k = 0 := by
  funext s t
  ext i j
  have : IsEmpty (Fin (dDOf bb (k + 1))) := by rw [h]; infer_instance
  rw [bbProd, Matrix.mul_apply]
  exact Finset.sum_of_isEmpty _

theorem ampGrow_none (E : Tensors ℂ q D) (X : Pairs ℂ q D) (t : ℂ) (hX : ∀ k, X k = 0) (n : ℕ) :
    (∀ s : Cfg q n, ampGrow E X t n s = amp E n s) ∧
    ∀ s : Cfg q (n + 1), ampGrow E X t (n + 1) s = amp E (n + 1) s := by
  induction n with
  | zero => exact ⟨fun _ => rfl, fun s => by simp [ampGrow, amp]⟩
  | succ n ih =>
    refine ⟨ih.2, fun s => ?_⟩
    rw [ampGrow, ih.2, hX]
    simp [amp]

/-- All branches of a step. -/
theorem takeStepDyn_spec {P : Num} {svd : Svd} {g : Gauge} {ham : Ham ℂ q} {T : TDVP ℂ q D} {e0 lm rm dtau}
    {Bo : Option (BList q D)} {dDmax Dmax svTol} {G : Grown q D}
    (h : takeStepDyn P svd g N ham T e0 lm rm dtau Bo dDmax Dmax svTol = some G) :
    ∃ B es Y, (Bo.elim ((calcB P g N ham T lm rm).map fun out => (out.B, out.etaSq)) fun B => some (B, e0))
        = some (B, es) ∧ bbYs N ham T (precompute P g true T lm rm) = some Y ∧
      G.dD = dDOf (bbAt svd N Y (precompute P g true T lm rm) svTol dDmax Dmax) ∧ G.etaSq = es ∧
      G.etaBBSq = etaBBSq Y ∧
      ∀ (_ : P.sq dtau * P.sq dtau = dtau) (h0 : D 0 = 1) (hN : D N = 1) (h0' : D 0 + G.dD 0 = 1)
        (hN' : D N + G.dD N = 1) (s : Cfg q N), psi G.mps.A h0' hN' s
          = ampGrow (eulerLoop N dtau B T.A) (bbProd (bbAt svd N Y (precompute P g true T lm rm) svTol dDmax Dmax))
            dtau N s ⟨0, by omega⟩ ⟨0, by omega⟩ := by
  unfold takeStepDyn at h
  simp only [calcBPre_eq] at h
  rw [Option.bind_eq_some_iff] at h
  obtain ⟨⟨B, es⟩, hB, h⟩ := h
  obtain ⟨Y, hY, hG⟩ := Option.map_eq_some_iff.mp h
  refine ⟨B, es, Y, hB, hY, ?_⟩
  generalize hbb : bbAt svd N Y (precompute P g true T lm rm) svTol dDmax Dmax = bb at hG ⊢
  have hout : ∀ n, N ≤ n → dDOf bb n = 0 := by
    intro n hn; rw [← hbb]; exact dDOf_out svd Y _ svTol dDmax Dmax hn
  by_cases hany : ((List.range' 0 (N + 1)).any fun n => decide (0 < dDOf bb n)) = true
  · rw [if_pos hany] at hG
    subst hG
    refine ⟨rfl, rfl, rfl, fun hsq h0 hN h0' hN' s => ?_⟩
    have hc : (-Complex.I * P.sq dtau) * (-Complex.I * P.sq dtau) = -dtau := by
      linear_combination (Complex.I * Complex.I) * hsq + dtau * Complex.I_mul_I
    rw [← (oldPart_eq bb (-Complex.I * P.sq dtau) dtau (eulerLoop N dtau B T.A) hc N).1 s]
    rfl
  · rw [if_neg hany] at hG
    subst hG
    have hz : ∀ n, dDOf bb n = 0 := by
      intro n
      by_cases hn : N ≤ n
      · exact hout n hn
      · by_contra hne
        exact hany (List.any_eq_true.mpr ⟨n, by simp; omega, by simp; omega⟩)
    refine ⟨(funext hz).symm, rfl, rfl, fun hsq h0 hN h0' hN' s => ?_⟩
    rw [(ampGrow_none _ _ _ (fun k => bbProd_zero bb k (hz (k + 1))) N).1 s]
    rfl

/-- The roots and null spaces in use: the environments are above the cutoff. -/
structure PairData (P : Num) (T : TDVP ℂ q D) (lm rm : ∀ n, MM ℂ (D n) (D n)) (k : ℕ) : Prop where
  Rl : Roots (T.l k) (P.roots (lm k)).1 (P.roots (lm k)).2 P.tol
  Rr : Roots (T.r (k + 1 + 1)) (P.roots (rm (k + 1 + 1))).1 (P.roots (rm (k + 1 + 1))).2 P.tol
  fl : (P.roots (lm k)).1 * (P.roots (lm k)).2 = 1 ∧ (P.roots (lm k)).1 * (P.roots (lm k)).1 = T.l k
  fr : (P.roots (rm (k + 1 + 1))).1 * (P.roots (rm (k + 1 + 1))).2 = 1 ∧
    (P.roots (rm (k + 1 + 1))).1 * (P.roots (rm (k + 1 + 1))).1 = T.r (k + 1 + 1)
  ul : IsUnit (∑ s, (T.A k s)ᴴ * T.l k * T.A k s).det
  ur : IsUnit (∑ s, T.A (k + 1) s * T.r (k + 1 + 1) * (T.A (k + 1) s)ᴴ).det

theorem pairData {P : Num} (hP : P.Ok) {T : TDVP ℂ q D} (h : UpToDate N T.A T.l T.r) {lm rm}
    (hst : Stored N lm rm T.l T.r) (hl : Above N P.tol T.l) (hr : Above N P.tol T.r) {k : ℕ} (hk : k + 1 < N) :
    PairData P T lm rm k where
  Rl := hst.roots_l hP h (by omega)
  Rr := hst.roots_r hP h (by omega)
  fl := (hst.roots_l hP h (by omega)).full (hl k (by omega))
  fr := (hst.roots_r hP h (by omega)).full (hr (k + 1 + 1) (by omega))
  ul := by rw [← h.l_succ k (by omega)]; exact above_isUnit hP.tol (hl (k + 1) (by omega))
  ur := by rw [← h.r_pred (k + 1) hk]; exact above_isUnit hP.tol (hr (k + 1) (by omega))

theorem bbY_cases {P : Num} {g : Gauge} {ham : Ham ℂ q} {T : TDVP ℂ q D} {lm rm} {k : ℕ} {y}
    (h : bbY N ham T (precompute P g true T lm rm) k = some y) :
    (y = none ∧ (calcVshl P.qr (T.A k) (P.roots (lm k)).1 = none ∨
      calcVsh P.qr (T.A (k + 1)) (P.roots (rm (k + 1 + 1))).1 = none)) ∨
    ∃ y' Vl Vr, y = some y' ∧ calcVshl P.qr (T.A k) (P.roots (lm k)).1 = some Vl ∧
      calcVsh P.qr (T.A (k + 1)) (P.roots (rm (k + 1 + 1))).1 = some Vr := by
  have e1 : (precompute P g true T lm rm).Vlh k = calcVshl P.qr (T.A k) (P.roots (lm k)).1 := by
    cases g <;> rfl
  have e2 : (precompute P g true T lm rm).Vrh (k + 1) = calcVsh P.qr (T.A (k + 1)) (P.roots (rm (k + 1 + 1))).1 := by
    cases g <;> rfl
  unfold bbY at h
  rw [e1, e2] at h
  cases h1 : calcVshl P.qr (T.A k) (P.roots (lm k)).1 with
  | none => rw [h1] at h; exact Or.inl ⟨by simpa using h.symm, Or.inl rfl⟩
  | some Vl =>
    cases h2 : calcVsh P.qr (T.A (k + 1)) (P.roots (rm (k + 1 + 1))).1 with
    | none => rw [h1, h2] at h; exact Or.inl ⟨by simpa using h.symm, Or.inr rfl⟩
    | some Vr =>
      rw [h1, h2] at h
      refine Or.inr ?_
      cases ham with
      | two hm =>
        obtain ⟨C, _, e⟩ := Option.map_eq_some_iff.mp h
        exact ⟨_, Vl, Vr, e.symm, rfl, rfl⟩
      | three hm =>
        cases k with
        | zero =>
          obtain ⟨C, _, e⟩ := Option.map_eq_some_iff.mp h
          exact ⟨_, Vl, Vr, e.symm, rfl, rfl⟩
        | succ k =>
          obtain ⟨C, _, e⟩ := Option.map_eq_some_iff.mp h
          exact ⟨_, Vl, Vr, e.symm, rfl, rfl⟩

/-- Where there is no room, there is no gauge-fixed pair. -/
theorem pair_trivial {P : Num} {T : TDVP ℂ q D} {lm rm} {k : ℕ} (d : PairData P T lm rm k)
    (hrh : (T.r (k + 1 + 1))ᴴ = T.r (k + 1 + 1))
    (hno : calcVshl P.qr (T.A k) (P.roots (lm k)).1 = none ∨
      calcVsh P.qr (T.A (k + 1)) (P.roots (rm (k + 1 + 1))).1 = none)
    (Z : Ten2 ℂ (q k) (q (k + 1)) (D k) (D (k + 1 + 1))) (hL : LeftGauge2 (T.A k) (T.l k) Z)
    (hR : RightGauge2 (T.A (k + 1)) (T.r (k + 1 + 1)) Z) : Z = 0 := by
  funext s t
  rcases hno with hno | hno
  · have hlt : ¬ D (k + 1) < q k * D k := by
      intro hc
      obtain ⟨V, hV⟩ := calcVshl_isSome (qr := P.qr) (A := T.A k) (l_s := (P.roots (lm k)).1) hc
      rw [hV] at hno
      exact absurd hno (by simp)
    have := vshl_trivial P.qr hlt (by rw [d.Rl.s_herm, d.fl.2]; exact d.ul) (fun s => (P.roots (lm k)).1 * Z s t) (by
      rw [← hL t]
      refine Finset.sum_congr rfl fun s _ => ?_
      rw [d.Rl.s_herm, Matrix.mul_assoc, ← Matrix.mul_assoc (P.roots (lm k)).1, d.fl.2, Matrix.mul_assoc]) s
    have e := congrArg ((P.roots (lm k)).2 * ·) this
    simp only [← Matrix.mul_assoc, mul_eq_one_comm.mp d.fl.1, Matrix.one_mul, Matrix.mul_zero] at e
    exact e
  · have hlt : ¬ D (k + 1) < q (k + 1) * D (k + 1 + 1) := by
      intro hc
      obtain ⟨V, hV⟩ := calcVsh_isSome (qr := P.qr) (A := T.A (k + 1)) (r_s := (P.roots (rm (k + 1 + 1))).1) hc
      rw [hV] at hno
      exact absurd hno (by simp)
    have := vsh_trivial P.qr hlt (by rw [d.Rr.s_herm, d.fr.2]; exact d.ur)
      (fun t => (P.roots (rm (k + 1 + 1))).1 * (Z s t)ᴴ) (by
        rw [← rightGauge2_conj hrh hR s]
        refine Finset.sum_congr rfl fun s _ => ?_
        rw [d.Rr.s_herm, Matrix.mul_assoc, ← Matrix.mul_assoc (P.roots (rm (k + 1 + 1))).1, d.fr.2,
          Matrix.mul_assoc]) t
    have e := congrArg (fun M => ((P.roots (rm (k + 1 + 1))).2 * M)ᴴ) this
    simp only [← Matrix.mul_assoc, mul_eq_one_comm.mp d.fr.1, Matrix.one_mul, Matrix.mul_zero,
      conjTranspose_conjTranspose, conjTranspose_zero] at e
    exact e

/-- The pair the code adds, in terms of the singular value decomposition. -/
theorem bbProd_eq {P : Num} {svd : Svd} {g : Gauge} {T : TDVP ℂ q D} {lm rm} {k : ℕ} (hk : k + 1 < N)
    {Y : ∀ k, Option (YMat q D k)} {y Vl Vr} (hy : Y k = some y)
    (hVl : calcVshl P.qr (T.A k) (P.roots (lm k)).1 = some Vl)
    (hVr : calcVsh P.qr (T.A (k + 1)) (P.roots (rm (k + 1 + 1))).1 = some Vr) (svTol : ℝ) (dDmax Dmax : ℤ) :
    ∃ z, bbProd (bbAt svd N Y (precompute P g true T lm rm) svTol dDmax Dmax) k
        = wten (P.roots (lm k)).2 (P.roots (rm (k + 1 + 1))).2 Vl Vr z ∧
      ∀ f, svd y = some f →
        (bbAt svd N Y (precompute P g true T lm rm) svTol dDmax Dmax k).d
          = min (svCount f.sv svTol) (dDmaxes D dDmax Dmax (k + 1)).toNat ∧
        z = svdMk f (fun i => if (i : ℕ) < min (svCount f.sv svTol) (dDmaxes D dDmax Dmax (k + 1)).toNat
          then (f.sv i : ℂ) else 0) := by
  have e1 : (precompute P g true T lm rm).Vlh k = some Vl := by
    cases g <;> exact hVl
  have e2 : (precompute P g true T lm rm).Vrh (k + 1) = some Vr := by
    cases g <;> exact hVr
  by_cases hpos : 0 < dDmaxes D dDmax Dmax (k + 1)
  · have hbb : bbAt svd N Y (precompute P g true T lm rm) svTol dDmax Dmax k
        = calcBB2s svd y Vl Vr (P.roots (lm k)).2 (P.roots (rm (k + 1 + 1))).2
          (dDmaxes D dDmax Dmax (k + 1)).toNat svTol := by
      unfold bbAt
      rw [if_pos hk, hy, e1, e2]
      simp only [if_pos hpos]
      rfl
    cases hf : svd y with
    | none =>
      refine ⟨0, ?_, by simp⟩
      have : dDOf (bbAt svd N Y (precompute P g true T lm rm) svTol dDmax Dmax) (k + 1) = 0 := by
        rw [dDOf, hbb, calcBB2s, hf]; rfl
      rw [bbProd_zero _ k this]
      funext s t
      simp [wten]
    | some f =>
      have hd : min (svCount f.sv svTol) (dDmaxes D dDmax Dmax (k + 1)).toNat ≤ min _ _ :=
        (Nat.min_le_left _ _).trans (svCount_le f.sv svTol)
      refine ⟨bbZ1 f _ hd * bbZ2 f _ hd, ?_, fun f' hf' => ?_⟩
      rotate_left
      · obtain rfl := Option.some.inj hf'
        refine ⟨by rw [hbb, calcBB2s, hf]; rfl, ?_⟩
        exact bbZ1_bbZ2 f _ hd
      · have : ∀ bb : ∀ k, BB (q k) (q (k + 1)) (D k) (D (k + 1 + 1)), ∀ b : BB (q k) (q (k + 1)) (D k) (D (k + 1 + 1)),
            bb k = b → bbProd bb k = fun s t => (b.B12.elim 0 fun b => b s) * (b.B21.elim 0 fun b => b t) := by
          rintro bb b rfl
          rfl
        rw [this _ _ hbb, calcBB2s, hf]
        funext s t
        show ((P.roots (lm k)).2 * (Vl s)ᴴ * bbZ1 f _ hd) * (bbZ2 f _ hd * (Vr t)ᴴ * (P.roots (rm (k + 1 + 1))).2) = _
        simp only [wten, Matrix.mul_assoc]
  · have hbb : bbAt svd N Y (precompute P g true T lm rm) svTol dDmax Dmax k = .nothing := by
      unfold bbAt
      rw [if_pos hk, hy, e1, e2]
      simp only [if_neg hpos]
    refine ⟨0, ?_, fun f hf => ?_⟩
    · rw [bbProd_zero _ k (by rw [dDOf, hbb]; rfl)]
      funext s t
      simp [wten]
    · have : (dDmaxes D dDmax Dmax (k + 1)).toNat = 0 := by omega
      rw [hbb, this]
      refine ⟨by simp [BB.nothing], ?_⟩
      ext i j
      simp [svdMk]

theorem amp2_sub (A : Tensors ℂ q D) (X X' Z : Pairs ℂ q D) (k : ℕ) (hZ : X k - X' k = Z k) (n : ℕ) (s : Cfg q n) :
    amp2 A X k n s - amp2 A X' k n s = amp2 A Z k n s := by
  rcases Nat.lt_or_ge n (k + 2) with hlt | hge
  · rw [amp2_out _ _ k n hlt, amp2_out _ _ k n hlt, amp2_out _ _ k n hlt, sub_zero]
  · obtain ⟨j, rfl⟩ := Nat.exists_eq_add_of_le hge
    clear hge
    induction j with
    | zero =>
      show amp2 A X k (k + 1 + 1) s - amp2 A X' k (k + 1 + 1) s = amp2 A Z k (k + 1 + 1) s
      rw [amp2_at, amp2_at, amp2_at, ← Matrix.mul_sub, ← hZ]
      rfl
    | succ j ih =>
      show amp2 A X k (k + 2 + j + 1) s - amp2 A X' k (k + 2 + j + 1) s = amp2 A Z k (k + 2 + j + 1) s
      rw [amp2_steps _ _ k (k + 2 + j) (by omega) s, amp2_steps _ _ k (k + 2 + j) (by omega) s,
        amp2_steps _ _ k (k + 2 + j) (by omega) s, ← ih, Matrix.sub_mul]

/-! ## C34 -/

/-- **C34** (limits).  A step enlarges bond `n` by at most `min(dD_max, D_max - D[n])` (by at most `dD_max` if
there is no `D_max`) and not at all if that is negative; no bond grows past `D_max`, bonds that are larger
already stay as they are, and the two ends stay as they are. -/
theorem C34_bounds (P : Num) (svd : Svd) (g : Gauge) (ham : Ham ℂ q) (T : TDVP ℂ q D) (e0 lm rm dtau)
    (Bo : Option (BList q D)) (dDmax Dmax : ℤ) (svTol) (G : Grown q D)
    (h : takeStepDyn P svd g N ham T e0 lm rm dtau Bo dDmax Dmax svTol = some G) (n : ℕ) :
    (G.dD n : ℤ) ≤ max 0 dDmax ∧
    (0 < Dmax → ((D n + G.dD n : ℕ) : ℤ) ≤ max Dmax (D n)) ∧
    G.dD 0 = 0 ∧ G.dD N = 0 := by
  obtain ⟨B, es, Y, _, _, hd, _⟩ := takeStepDyn_spec h
  have h1 := dDOf_le (N := N) svd Y (precompute P g true T lm rm) svTol dDmax Dmax n
  have h2 := dDOf_out (N := N) svd Y (precompute P g true T lm rm) svTol dDmax Dmax (le_refl N)
  rw [hd]
  unfold dDmaxes at h1
  refine ⟨?_, fun hD => ?_, rfl, h2⟩
  · split at h1 <;> omega
  · rw [if_pos hD] at h1
    push_cast
    omega

/-- **C34** (state).  Written with the old bond dimensions, the amplitudes after the step are those of the
Euler step with any number of disjoint pairs of neighbouring tensors replaced by `-dtau * BB12 * BB21`. -/
theorem C34_state (P : Num) (svd : Svd) (g : Gauge) (ham : Ham ℂ q) (T : TDVP ℂ q D) (h0 : D 0 = 1)
    (hN : D N = 1) (e0 lm rm) (dtau : ℂ) (hsq : P.sq dtau * P.sq dtau = dtau)
    (Bo : Option (BList q D)) (hBo : ∀ B, Bo = some B → ∀ k, N ≤ k → B k = none) (dDmax Dmax : ℤ) (svTol)
    (G : Grown q D) (h : takeStepDyn P svd g N ham T e0 lm rm dtau Bo dDmax Dmax svTol = some G) :
    ∃ B Y, (Bo = some B ∨ Bo = none ∧ ∃ out, calcB P g N ham T lm rm = some out ∧ out.B = B) ∧
      bbYs N ham T (precompute P g true T lm rm) = some Y ∧
      ∃ (h0' : D 0 + G.dD 0 = 1) (hN' : D N + G.dD N = 1), ∀ s : Cfg q N,
        psi G.mps.A h0' hN' s = ampGrow (moved T.A dtau B)
          (bbProd (bbAt svd N Y (precompute P g true T lm rm) svTol dDmax Dmax)) dtau N s
          ⟨0, by omega⟩ ⟨0, by omega⟩ := by
  obtain ⟨_, _, b0, bN⟩ := C34_bounds P svd g ham T e0 lm rm dtau Bo dDmax Dmax svTol G h 0
  obtain ⟨B, es, Y, hB, hY, hd, _, _, hs⟩ := takeStepDyn_spec h
  have hB' : (Bo = some B ∨ Bo = none ∧ ∃ out, calcB P g N ham T lm rm = some out ∧ out.B = B) := by
    cases Bo with
    | some B1 =>
      rw [Option.elim_some] at hB
      exact Or.inl (congrArg some (Prod.ext_iff.mp (Option.some.inj hB)).1)
    | none =>
      obtain ⟨out, ho, e⟩ := Option.map_eq_some_iff.mp hB
      exact Or.inr ⟨rfl, out, ho, (Prod.ext_iff.mp e).1⟩
  refine ⟨B, Y, hB', hY, by omega, by omega, fun s => ?_⟩
  rw [hs hsq h0 hN (by omega) (by omega) s]
  have hBN : ∀ k, N ≤ k → B k = none := by
    rcases hB' with hb | ⟨_, out, ho, rfl⟩
    · exact hBo B hb
    · intro k hk
      have := calcB_isSome_iff ho k
      cases hb : out.B k with
      | none => rfl
      | some b =>
        rw [hb] at this
        have := (this.mp rfl).1
        omega
  have : eulerLoop N dtau B T.A = moved T.A dtau B := by
    rw [eulerLoop_eq]
    funext k
    by_cases hk : k < N
    · simp [hk, moved]
    · simp [hk, moved, hBN k (by omega)]
  rw [this]

/-- **C34** (product of neighbours).  Restricted to the old outer bonds the product of two neighbouring enlarged
tensors is `E[n][s] E[n+1][t] - dtau * BB12[n][s] BB21[n+1][t]`, where `E` are the tensors of the Euler step. -/
theorem C34_product (bb : ∀ k, BB (q k) (q (k + 1)) (D k) (D (k + 1 + 1))) (E : Tensors ℂ q D) (c dtau : ℂ)
    (hc : c * c = -dtau) (k : ℕ) (s : Fin (q k)) (t : Fin (q (k + 1))) (i : Fin (D k)) (j : Fin (D (k + 1 + 1))) :
    ((grownA bb c E k s : Matrix (Fin (D k + dDOf bb k)) (Fin (D (k + 1) + dDOf bb (k + 1))) ℂ)
      * (grownA bb c E (k + 1) t : Matrix (Fin (D (k + 1) + dDOf bb (k + 1)))
          (Fin (D (k + 1 + 1) + dDOf bb (k + 1 + 1))) ℂ)) (Fin.castAdd _ i) (Fin.castAdd _ j)
      = (E k s * E (k + 1) t) i j - dtau * bbProd bb k s t i j := by
  rw [Matrix.mul_apply, Fin.sum_univ_add, Matrix.mul_apply]
  simp only [grownA, blocks_11, blocks_12, blocks_21]
  rw [sub_eq_add_neg]
  congr 1
  rw [bbProd, Matrix.mul_apply, ← neg_mul, ← hc, Finset.mul_sum]
  refine Finset.sum_congr rfl fun x _ => ?_
  cases bb12 bb k <;> cases bb21 bb (k + 1) <;> simp
  ring

/-- **C34** (first order).  The derivative of these amplitudes with respect to the step size is minus the
one-site tangent vector minus the sum of the states with one pair replaced. -/
theorem C34_derivative (A : Tensors ℂ q D) (h0 : D 0 = 1) (hN : D N = 1) (B : BList q D) (X : Pairs ℂ q D)
    (s : Cfg q N) :
    HasDerivAt (fun t : ℂ => ampGrow (moved A t B) X t N s ⟨0, by omega⟩ ⟨0, by omega⟩)
      (-tangent A h0 hN B s - ∑ k ∈ Finset.range N, twoSite A h0 hN X k s) 0 := by
  have e1 : ∀ t : ℂ, moved A t B = fun k => A k - t • (B k).getD 0 := by
    intro t
    funext k
    cases h : B k <;> simp [moved, h]
  simp only [e1]
  refine ((ampGrow_hasDerivAt A (fun k => (B k).getD 0) X N).1 s ⟨0, by omega⟩ ⟨0, by omega⟩).congr_deriv ?_
  congr 1
  rw [tangent]
  congr 1
  refine Finset.sum_congr rfl fun k hk => ?_
  cases hb : B k with
  | none => exact oneSite_zero A h0 hN (Finset.mem_range.mp hk) s
  | some b => rfl

/-- **C34** (first order in the step size).  Let `G t` be the object after a step of size `t`.  Its state is
differentiable in `t` at 0; the derivative is that of the Euler step plus minus the pairs `BB12 * BB21`. -/
theorem C34_first_order (P : Num) (hsq : ∀ t, P.sq t * P.sq t = t) (svd : Svd) (g : Gauge) (ham : Ham ℂ q)
    (T : TDVP ℂ q D) (h0 : D 0 = 1) (hN : D N = 1) (e0 lm rm) (Bo : Option (BList q D))
    (hBo : ∀ B, Bo = some B → ∀ k, N ≤ k → B k = none) (dDmax Dmax : ℤ) (svTol) (G : ℂ → Grown q D)
    (h : ∀ t, takeStepDyn P svd g N ham T e0 lm rm t Bo dDmax Dmax svTol = some (G t)) :
    ∃ B Y, (Bo = some B ∨ Bo = none ∧ ∃ out, calcB P g N ham T lm rm = some out ∧ out.B = B) ∧
      bbYs N ham T (precompute P g true T lm rm) = some Y ∧
      ∃ (h0' : ∀ t, D 0 + (G t).dD 0 = 1) (hN' : ∀ t, D N + (G t).dD N = 1), ∀ s : Cfg q N,
        psi (G 0).mps.A (h0' 0) (hN' 0) s = psi T.A h0 hN s ∧
        HasDerivAt (fun t => psi (G t).mps.A (h0' t) (hN' t) s)
          (-tangent T.A h0 hN B s - ∑ k ∈ Finset.range N, twoSite T.A h0 hN
            (bbProd (bbAt svd N Y (precompute P g true T lm rm) svTol dDmax Dmax)) k s) 0 := by
  have hall := fun t => C34_state P svd g ham T h0 hN e0 lm rm t (hsq t) Bo hBo dDmax Dmax svTol (G t) (h t)
  obtain ⟨B, Y, hB, hY, _⟩ := hall 0
  have hdet : ∀ t, ∃ (h0' : D 0 + (G t).dD 0 = 1) (hN' : D N + (G t).dD N = 1), ∀ s : Cfg q N,
      psi (G t).mps.A h0' hN' s = ampGrow (moved T.A t B)
        (bbProd (bbAt svd N Y (precompute P g true T lm rm) svTol dDmax Dmax)) t N s
        ⟨0, by omega⟩ ⟨0, by omega⟩ := by
    intro t
    obtain ⟨B', Y', hB', hY', hs⟩ := hall t
    obtain rfl := Option.some.inj (hY.symm.trans hY')
    have : B' = B := by
      rcases hB with hb | ⟨hn, out, ho, rfl⟩ <;> rcases hB' with hb' | ⟨hn', out', ho', rfl⟩
      · exact Option.some.inj (hb'.symm.trans hb)
      · rw [hb] at hn'; exact absurd hn' (by simp)
      · rw [hb'] at hn; exact absurd hn (by simp)
      · rw [Option.some.inj (ho.symm.trans ho')]
    rw [this] at hs
    exact hs
  choose h0' hN' hs using hdet
  refine ⟨B, Y, hB, hY, h0', hN', fun s => ⟨?_, ?_⟩⟩
  · rw [hs 0 s, (ampGrow_zero (moved T.A 0 B) _ N).1 s]
    have : moved T.A 0 B = T.A := by
      funext k
      cases hb : B k <;> simp [moved, hb]
    rw [this]
    rfl
  · simp only [hs]
    exact C34_derivative T.A h0 hN B _ s

/-- **C34** (no exception).  In the right gauge, with all terms of the Hamiltonian present, a step always
returns. -/
theorem C34_returns (P : Num) (hP : P.Ok) (svd : Svd) (ham : Ham ℂ q)
    (h2 : ∀ hm, ham = .two hm → ∀ k, k + 1 < N → hm k ≠ none)
    (h3 : ∀ hm, ham = .three hm → ∀ k, k + 2 < N → hm k ≠ none) (S : TDVP ℂ q D)
    (h : UpToDate N S.A S.l S.r) (h0 : D 0 = 1) (lm rm) (hst : Stored N lm rm S.l S.r) (e0 dtau)
    (Bo : Option (BList q D)) (dDmax Dmax svTol) :
    ∃ G, takeStepDyn P svd .right N ham (calcKs N ham h0 (calcCs N ham S)) e0 lm rm dtau Bo dDmax Dmax svTol
      = some G := by
  obtain ⟨out, hout⟩ := C30_returns P hP ham h3 S h h0 lm rm hst
  have hC := calcKs_current (N := N) ham h0 _ (calcCs_spec (N := N) ham S).2
  generalize calcKs N ham h0 (calcCs N ham S) = T at *
  have hY : ∃ Y, bbYs N ham T (precompute P .right true T lm rm) = some Y := by
    refine bbYs_isSome fun k hk => ?_
    unfold bbY
    cases (precompute P .right true T lm rm).Vlh k with
    | none => rfl
    | some Vl =>
      cases (precompute P .right true T lm rm).Vrh (k + 1) with
      | none => rfl
      | some Vr =>
        cases ham with
        | two hm =>
          obtain ⟨op, hop⟩ := Option.ne_none_iff_exists'.mp (h2 hm rfl k hk)
          simp only [hC.C2 hm rfl k hk, hop]
          rfl
        | three hm =>
          have hc : ∀ j, j + 3 ≤ N → ∃ C, T.c3 N j = some C := by
            intro j hj
            obtain ⟨op, hop⟩ := Option.ne_none_iff_exists'.mp (h3 hm rfl j (by omega))
            exact ⟨_, by rw [TDVP.c3, if_pos hj, hC.C3 hm rfl j (by omega), hop]; rfl⟩
          cases k with
          | zero =>
            simp only [Option.isSome_map]
            by_cases hk3 : 0 + 3 ≤ N
            · obtain ⟨C, hC⟩ := hc 0 hk3
              rw [if_pos hk3, hC]
              rfl
            · rw [if_neg hk3]
              rfl
          | succ j =>
            simp only [Option.isSome_map]
            obtain ⟨C1, hC1⟩ := hc j (by omega)
            rw [hC1]
            by_cases hk3 : j + 1 + 3 ≤ N
            · obtain ⟨C, hC⟩ := hc (j + 1) hk3
              rw [if_pos hk3, hC]
              rfl
            · rw [if_neg hk3]
              rfl
  obtain ⟨Y, hY⟩ := hY
  cases Bo with
  | some B =>
    unfold takeStepDyn
    simp only [Option.elim_some, Option.bind_some, hY]
    exact ⟨_, rfl⟩
  | none =>
    unfold takeStepDyn
    simp only [calcBPre_eq, hout, Option.elim_none, Option.map_some, Option.bind_some, hY]
    exact ⟨_, rfl⟩

/-- **C34** (what is added).  The pairs that are added satisfy both gauge conditions; so they are orthogonal to
the state, to all its one-site variations, and to each other. -/
theorem C34_orthogonal (P : Num) (hP : P.Ok) (svd : Svd) (g : Gauge) (ham : Ham ℂ q) (T : TDVP ℂ q D)
    (h : UpToDate N T.A T.l T.r) (h0 : D 0 = 1) (hN : D N = 1) (lm rm) (hst : Stored N lm rm T.l T.r)
    (dDmax Dmax : ℤ) (svTol) (Y) (hY : bbYs N ham T (precompute P g true T lm rm) = some Y) :
    let X := bbProd (bbAt svd N Y (precompute P g true T lm rm) svTol dDmax Dmax)
    ∀ k, k + 1 < N →
      LeftGauge2 (T.A k) (T.l k) (X k) ∧ RightGauge2 (T.A (k + 1)) (T.r (k + 1 + 1)) (X k) ∧
      braket (twoSite (N := N) T.A h0 hN X k) (psi T.A h0 hN) = 0 ∧
      (∀ j < N, ∀ b, braket (twoSite (N := N) T.A h0 hN X k) (oneSite T.A h0 hN j b) = 0) ∧
      ∀ j, j ≠ k → j + 1 < N → braket (twoSite (N := N) T.A h0 hN X k) (twoSite T.A h0 hN X j) = 0 := by
  intro X
  have hg : ∀ k, k + 1 < N →
      LeftGauge2 (T.A k) (T.l k) (X k) ∧ RightGauge2 (T.A (k + 1)) (T.r (k + 1 + 1)) (X k) := by
    intro k hk
    have hy := (bbYs_spec hY).1 k hk
    have Rl := hst.roots_l hP h (n := k) (by omega)
    have Rr := hst.roots_r hP h (n := k + 1 + 1) (by omega)
    rcases bbY_cases hy with ⟨hy0, _⟩ | ⟨y, Vl, Vr, hy0, hVl, hVr⟩
    · have : X k = 0 := by
        refine bbProd_zero _ k ?_
        rw [dDOf, bbAt, if_pos hk, hy0]
        rfl
      rw [this]
      exact ⟨fun t => by simp, fun s => by simp⟩
    · obtain ⟨z, hz, _⟩ := bbProd_eq (g := g) (svd := svd) hk hy0 hVl hVr svTol dDmax Dmax
      have hz' : X k = _ := hz
      rw [hz']
      exact ⟨wten_left hVl Rl.s_herm Rl.mul_si Vr z, wten_right hVr Rr.si_mul Vl z⟩
  intro k hk
  obtain ⟨hL, hR⟩ := hg k hk
  refine ⟨hL, hR, pair_left_orth h h0 hN X k hk hL _ fun _ _ => rfl, fun j hj b => ?_, fun j hjk hj => ?_⟩
  · rw [oneSite]
    by_cases hjk : j ≤ k
    · exact pair_right_orth h h0 hN X k hk hR _ fun m h1 _ => Function.update_of_ne (by omega) _ _
    · exact pair_left_orth h h0 hN X k hk hL _ fun m h1 => Function.update_of_ne (by omega) _ _
  · rcases Nat.lt_or_ge j k with hlt | hge
    · exact pair_cross_lt h h0 hN X X j k hk hlt (hg j hj).1
    · rw [← braket_swap, pair_cross_lt h h0 hN X X k j hj (by omega) hL, star_zero]

/-- **C34** (which pairs).  There are gauge-fixed pairs `F` whose sum is the best approximation of `H|ψ⟩` among
all sums of gauge-fixed pairs: their overlap with any other is that of `H|ψ⟩`.  Their squared norm is
`etaBB_sq`.  What the code adds differs from `F` by the singular values it leaves out; it keeps those above
`sv_tol`, at most as many as the limits allow, and the bond grows by their number. -/
theorem C34_projection (P : Num) (hP : P.Ok) (svd : Svd) (g : Gauge) (ham : Ham ℂ q) (S T : TDVP ℂ q D)
    (h0 : D 0 = 1) (hN : D N = 1) (hT : tdvpUpdate g N ham h0 hN S = some T) (hl0 : S.l 0 = 1) (hr0 : S.r N = 1)
    (lm rm) (hst : Stored N lm rm T.l T.r) (hl : Above N P.tol T.l) (hr : Above N P.tol T.r)
    (dDmax Dmax : ℤ) (svTol) (Y) (hY : bbYs N ham T (precompute P g true T lm rm) = some Y) :
    let bb := bbAt svd N Y (precompute P g true T lm rm) svTol dDmax Dmax
    ∃ F : Pairs ℂ q D,
      (∀ k, k + 1 < N → LeftGauge2 (T.A k) (T.l k) (F k) ∧ RightGauge2 (T.A (k + 1)) (T.r (k + 1 + 1)) (F k)) ∧
      (∀ Z : Pairs ℂ q D, (∀ k, k + 1 < N → LeftGauge2 (T.A k) (T.l k) (Z k) ∧
          RightGauge2 (T.A (k + 1)) (T.r (k + 1 + 1)) (Z k)) →
        braket (fun s => ∑ k ∈ Finset.range (N - 1), twoSite (N := N) T.A h0 hN Z k s)
            (fun s => ∑ k ∈ Finset.range (N - 1), twoSite T.A h0 hN F k s)
          = matElem (fun s => ∑ k ∈ Finset.range (N - 1), twoSite T.A h0 hN Z k s) (ham.total (N := N))
            (psi T.A h0 hN)) ∧
      ∀ k, k + 1 < N →
        braket (twoSite (N := N) T.A h0 hN F k) (twoSite T.A h0 hN F k) = etaBBSq Y k ∧
        (Y k = none → F k = 0 ∧ bbProd bb k = 0 ∧ (bb k).d = 0) ∧
        ∀ y, Y k = some y → ∀ f, svd y = some f →
          (bb k).d = min (Finset.univ.filter fun i => svTol < f.sv i).card
            (if 0 < Dmax then min (Dmax - D (k + 1)) dDmax else dDmax).toNat ∧
          etaBBSq Y k = ∑ i, (f.sv i : ℂ) ^ 2 ∧
          braket (fun s => twoSite (N := N) T.A h0 hN F k s - twoSite T.A h0 hN (bbProd bb) k s)
              (fun s => twoSite T.A h0 hN F k s - twoSite T.A h0 hN (bbProd bb) k s)
            = ∑ i : Fin (min _ _), if (bb k).d ≤ (i : ℕ) then (f.sv i : ℂ) ^ 2 else 0 := by
  intro bb
  obtain ⟨_, h⟩ := tdvpUpdate_spec hT hl0 hr0
  have hC := tdvpUpdate_current hT
  have hd : ∀ k, k + 1 < N → PairData P T lm rm k := fun k hk => pairData hP h hst hl hr hk
  -- the pairs with the untruncated parameters
  have hex : ∀ k, ∃ Fk : Ten2 ℂ (q k) (q (k + 1)) (D k) (D (k + 1 + 1)), k + 1 < N →
      (Y k = none → Fk = 0 ∧ bbProd bb k = 0 ∧ (bb k).d = 0 ∧
        (calcVshl P.qr (T.A k) (P.roots (lm k)).1 = none ∨
          calcVsh P.qr (T.A (k + 1)) (P.roots (rm (k + 1 + 1))).1 = none)) ∧
      ∀ y, Y k = some y → ∃ Vl Vr, calcVshl P.qr (T.A k) (P.roots (lm k)).1 = some Vl ∧
        calcVsh P.qr (T.A (k + 1)) (P.roots (rm (k + 1 + 1))).1 = some Vr ∧
        Fk = wten (P.roots (lm k)).2 (P.roots (rm (k + 1 + 1))).2 Vl Vr y := by
    intro k
    by_cases hk : k + 1 < N
    · rcases bbY_cases ((bbYs_spec hY).1 k hk) with ⟨hy0, hno⟩ | ⟨y, Vl, Vr, hy0, hVl, hVr⟩
      · have hd0 : (bb k).d = 0 := by
          show (bbAt svd N Y (precompute P g true T lm rm) svTol dDmax Dmax k).d = 0
          rw [bbAt, if_pos hk, hy0]
          rfl
        refine ⟨0, fun _ => ⟨fun _ => ⟨rfl, bbProd_zero _ k hd0, hd0, hno⟩, fun y hy => ?_⟩⟩
        rw [hy0] at hy; exact absurd hy (by simp)
      · refine ⟨wten (P.roots (lm k)).2 (P.roots (rm (k + 1 + 1))).2 Vl Vr y, fun _ => ⟨fun hn => ?_, fun y' hy' => ?_⟩⟩
        · rw [hn] at hy0; exact absurd hy0 (by simp)
        · rw [hy0] at hy'
          obtain rfl := Option.some.inj hy'
          exact ⟨Vl, Vr, hVl, hVr, rfl⟩
    · exact ⟨0, fun hk' => absurd hk' hk⟩
  choose F hF using hex
  have hFg : ∀ k, k + 1 < N → LeftGauge2 (T.A k) (T.l k) (F k) ∧
      RightGauge2 (T.A (k + 1)) (T.r (k + 1 + 1)) (F k) := by
    intro k hk
    obtain ⟨f1, f2⟩ := hF k hk
    cases hy : Y k with
    | none => rw [(f1 hy).1]; exact ⟨fun t => by simp, fun s => by simp⟩
    | some y =>
      obtain ⟨Vl, Vr, hVl, hVr, e⟩ := f2 y hy
      rw [e]
      exact ⟨wten_left hVl (hd k hk).Rl.s_herm (hd k hk).Rl.mul_si Vr y, wten_right hVr (hd k hk).Rr.si_mul Vl y⟩
  have hov : ∀ k (hk : k + 1 < N) Vl Vr, calcVshl P.qr (T.A k) (P.roots (lm k)).1 = some Vl →
      calcVsh P.qr (T.A (k + 1)) (P.roots (rm (k + 1 + 1))).1 = some Vr → ∀ y y',
      ov2 (T.l k) (T.r (k + 1 + 1)) (wten (P.roots (lm k)).2 (P.roots (rm (k + 1 + 1))).2 Vl Vr y')
        (wten (P.roots (lm k)).2 (P.roots (rm (k + 1 + 1))).2 Vl Vr y) = adot y' y := by
    intro k hk Vl Vr hVl hVr y y'
    exact ov2_wten hVl hVr (h.l_herm k (by omega)) (hd k hk).Rl.si_herm (hd k hk).Rl.si_mul (hd k hk).fl.1
      (hd k hk).Rr.si_herm (hd k hk).Rr.si_mul (hd k hk).fr.1 y y'
  refine ⟨F, hFg, fun Z hZ => ?_, fun k hk => ?_⟩
  · -- projection
    have hsum : ∀ (f g : ℕ → Cfg q N → ℂ), braket (fun s => ∑ k ∈ Finset.range (N - 1), f k s)
        (fun s => ∑ k ∈ Finset.range (N - 1), g k s)
        = ∑ k ∈ Finset.range (N - 1), ∑ j ∈ Finset.range (N - 1), braket (f k) (g j) := by
      intro f g
      simp only [braket, star_sum, Finset.sum_mul_sum]
      rw [Finset.sum_comm]
      refine Finset.sum_congr rfl fun k _ => ?_
      rw [Finset.sum_comm]
    rw [hsum, matElem_sum_left]
    refine Finset.sum_congr rfl fun k hk => ?_
    have hk' : k + 1 < N := by rw [Finset.mem_range] at hk; omega
    rw [Finset.sum_eq_single k ?_ (fun hn => absurd hk hn)]
    · rw [pair_same h h0 hN F Z k hk']
      obtain ⟨hL, hR⟩ := hZ k hk'
      obtain ⟨f1, f2⟩ := hF k hk'
      have dk := hd k hk'
      cases hy : Y k with
      | none =>
        have hz : Z k = 0 := pair_trivial dk (h.r_herm _ hk') (f1 hy).2.2.2 (Z k) hL hR
        have hz2 : twoSite (N := N) T.A h0 hN Z k = 0 := by
          funext s
          exact (congrFun (congrFun (amp2_sub T.A Z Z Z k (by rw [hz, sub_zero]) N s) ⟨0, by omega⟩)
            ⟨0, by omega⟩).symm.trans (by rw [sub_self]; rfl)
        rw [hz, hz2]
        simp [ov2, matElem, adot_zero_right]
      | some y =>
        obtain ⟨Vl, Vr, hVl, hVr, e⟩ := f2 y hy
        have hZw := wten_surj hVl hVr dk.Rl.s_herm dk.fl.2 (mul_eq_one_comm.mp dk.fl.1) dk.Rr.s_herm
          (h.r_herm _ hk') dk.fr.2 dk.fr.1 dk.ul dk.ur (Z k) hL hR
        rw [bbY_matElem P g hC h h0 hN hk' dk.Rl dk.Rr (hy ▸ (bbYs_spec hY).1 k hk') hVl hVr Z _ hZw.symm, e]
        conv_lhs => rw [← hZw]
        exact hov k hk' Vl Vr hVl hVr _ _
    · intro j hj hjk
      have hj' : j + 1 < N := by rw [Finset.mem_range] at hj; omega
      rcases Nat.lt_or_ge j k with hlt | hge
      · exact pair_cross_lt h h0 hN F Z j k hk' hlt (hFg j hj').1
      · rw [← braket_swap, pair_cross_lt h h0 hN Z F k j hj' (by omega) (hZ k hk').1, star_zero]
  · obtain ⟨f1, f2⟩ := hF k hk
    have hnorm : braket (twoSite (N := N) T.A h0 hN F k) (twoSite T.A h0 hN F k) = etaBBSq Y k := by
      rw [pair_same h h0 hN F F k hk, etaBBSq]
      cases hy : Y k with
      | none => rw [(f1 hy).1]; simp [ov2, adot_zero_right]
      | some y =>
        obtain ⟨Vl, Vr, hVl, hVr, e⟩ := f2 y hy
        rw [e]
        exact hov k hk Vl Vr hVl hVr y y
    refine ⟨hnorm, fun hy => ⟨(f1 hy).1, (f1 hy).2.1, (f1 hy).2.2.1⟩, fun y hy f hf => ?_⟩
    obtain ⟨Vl, Vr, hVl, hVr, e⟩ := f2 y hy
    obtain ⟨z, hz, hzf⟩ := bbProd_eq (g := g) (svd := svd) hk hy hVl hVr svTol dDmax Dmax
    obtain ⟨hdk, hzz⟩ := hzf f hf
    refine ⟨hdk, ?_, ?_⟩
    · rw [etaBBSq, hy, Option.elim_some]
      have : adot y y = adot (svdMk f fun i => (f.sv i : ℂ)) (svdMk f fun i => (f.sv i : ℂ)) :=
        congrArg₂ adot (svdMk_sv f).symm (svdMk_sv f).symm
      rw [this, adot_svdMk]
      refine Finset.sum_congr rfl fun i _ => ?_
      rw [Complex.star_def, Complex.conj_ofReal, sq]
    · have hsub : (fun s => twoSite (N := N) T.A h0 hN F k s - twoSite T.A h0 hN (bbProd bb) k s)
          = twoSite T.A h0 hN (fun k => F k - bbProd bb k) k := by
        funext s
        have e := amp2_sub T.A F (bbProd bb) (fun k => F k - bbProd bb k) k rfl N s
        have := congrFun (congrFun e ⟨0, by omega⟩) ⟨0, by omega⟩
        exact this
      rw [hsub, pair_same h h0 hN _ _ k hk]
      have hw : F k - bbProd bb k = wten (P.roots (lm k)).2 (P.roots (rm (k + 1 + 1))).2 Vl Vr (y - z) := by
        have hz' : bbProd bb k = _ := hz
        rw [hz', e]
        funext s t
        simp only [wten, Pi.sub_apply, Matrix.mul_sub, Matrix.sub_mul]
      simp only [hw]
      rw [hov k hk Vl Vr hVl hVr]
      have hdk' : (bb k).d = _ := hdk
      rw [hdk', hzz]
      generalize min (svCount f.sv svTol) (dDmaxes D dDmax Dmax (k + 1)).toNat = d
      have hyz : y - svdMk f (fun i => if (i : ℕ) < d then (f.sv i : ℂ) else 0)
          = svdMk f (fun i => if d ≤ (i : ℕ) then (f.sv i : ℂ) else 0) := by
        refine (congrArg (· - _) (svdMk_sv f).symm).trans ?_
        simp only [svdMk_sub]
        congr 1
        funext i
        by_cases hi : (i : ℕ) < d
        · simp [hi, Nat.not_le.mpr hi]
        · simp [hi, Nat.not_lt.mp hi]
      rw [hyz, adot_svdMk]
      refine Finset.sum_congr rfl fun i _ => ?_
      split
      · rw [Complex.star_def, Complex.conj_ofReal, sq]
      · simp

end

/-! ## The hypotheses can be met -/

namespace Ex34

/-- The product state `|00⟩`. -/
def A : Tensors ℂ (fun _ => 2) fun _ => 1 := fun _ s => if s = 0 then 1 else 0

def S : TDVP ℂ (fun _ => 2) fun _ => 1 :=
  ⟨⟨A, fun _ => 1, fun _ => 1⟩, fun _ _ _ => 0, fun _ _ _ _ => 0, fun _ => none, fun _ => none, fun _ => 0,
    fun _ => 0, fun _ => 0, none⟩

/-- The term `|11⟩⟨00|`. -/
def ham : Ham ℂ fun _ => 2 :=
  .two fun _ => some fun s s' t t' => if s = 1 ∧ s' = 1 ∧ t = 0 ∧ t' = 0 then 1 else 0

/-- The pair `|11⟩`. -/
def Z : Pairs ℂ (fun _ => 2) fun _ => 1 := fun _ s t => if s = 1 ∧ t = 1 then 1 else 0

theorem Z_val (s : Cfg (fun _ => 2) (1 + 1)) :
    twoSite (N := 1 + 1) A rfl rfl Z 0 s = if s 0 = 1 ∧ s 1 = 1 then 1 else 0 := by
  have e : twoSite (N := 1 + 1) A rfl rfl Z 0 s
      = ((1 : Matrix (Fin 1) (Fin 1) ℂ) * (if s 0 = 1 ∧ s 1 = 1 then 1 else 0 : Matrix (Fin 1) (Fin 1) ℂ)) 0 0 := rfl
  rw [e]
  split <;> simp

theorem psi_val (s : Cfg (fun _ => 2) (1 + 1)) :
    psi (N := 1 + 1) A rfl rfl s = if s 0 = 0 ∧ s 1 = 0 then 1 else 0 := by
  have e : psi (N := 1 + 1) A rfl rfl s
      = (((1 : Matrix (Fin 1) (Fin 1) ℂ) * (if s 0 = 0 then 1 else 0 : Matrix (Fin 1) (Fin 1) ℂ))
        * (if s 1 = 0 then 1 else 0 : Matrix (Fin 1) (Fin 1) ℂ)) 0 0 := rfl
  rw [e]
  generalize s 0 = a
  generalize s 1 = b
  fin_cases a <;> fin_cases b <;> simp

theorem ham_val (s t : Cfg (fun _ => 2) (1 + 1)) :
    ham.total (N := 1 + 1) s t = if s 0 = 1 ∧ s 1 = 1 ∧ t 0 = 0 ∧ t 1 = 0 then 1 else 0 := by
  have hc : ∀ i : Fin (1 + 1), i.val ≠ 0 → i.val ≠ 0 + 1 → s i = t i := fun i h1 h2 => by omega
  simp only [Ham.total, Finset.sum_range_succ, Finset.sum_range_zero, Ham.term, ham]
  rw [dif_pos (by omega), dif_neg (by omega), zero_add, add_zero, Option.elim_some, siteOp2, if_pos hc]
  rfl

theorem elem : matElem (twoSite (N := 1 + 1) A rfl rfl Z 0) (ham.total (N := 1 + 1)) (psi A rfl rfl) = 1 := by
  unfold matElem
  rw [Finset.sum_eq_single (![1, 1] : Fin (1 + 1) → Fin 2), Finset.sum_eq_single (![0, 0] : Fin (1 + 1) → Fin 2)]
  · rw [Z_val, ham_val, psi_val]
    simp
  · intro t _ ht
    rw [ham_val, if_neg, mul_zero, zero_mul]
    rintro ⟨_, _, h1, h2⟩
    refine ht (funext fun i => ?_)
    fin_cases i
    · exact h1
    · exact h2
  · simp
  · intro s _ hs
    refine Finset.sum_eq_zero fun t _ => ?_
    rw [Z_val, if_neg, star_zero, zero_mul, zero_mul]
    rintro ⟨h1, h2⟩
    refine hs (funext fun i => ?_)
    fin_cases i
    · exact h1
    · exact h2
  · simp

/-- All hypotheses hold, and the bond grows: the step adds a multiple of `|11⟩`. -/
example : ∃ T G, tdvpUpdate .right (1 + 1) ham rfl rfl S = some T ∧
    takeStepDyn Ex29.P someSvd .right (1 + 1) ham T 0 (fun n => MM.dense (T.l n)) (fun n => MM.dense (T.r n)) 1
      none 5 3 0 = some G ∧ G.dD 1 = 1 := by
  obtain ⟨hA, hU⟩ := updateNoCF_upToDate (1 + 1) S.toMPS rfl rfl
  have hst : ∀ l r : Envs ℂ fun _ => 1, Stored (1 + 1) (fun n => MM.dense (l n)) (fun n => MM.dense (r n)) l r :=
    fun _ _ _ _ => ⟨toArray_dense _, toArray_dense _⟩
  have hT : tdvpUpdate .right (1 + 1) ham rfl rfl S = some (calcKs (1 + 1) ham rfl (calcCs (1 + 1) ham
      { S with toMPS := updateNoCF (1 + 1) S.toMPS })) := rfl
  have hM' : (calcKs (1 + 1) ham rfl (calcCs (1 + 1) ham
      { S with toMPS := updateNoCF (1 + 1) S.toMPS })).toMPS = updateNoCF (1 + 1) S.toMPS :=
    (calcKs_spec (N := 1 + 1) ham rfl _).1.trans (calcCs_spec (N := 1 + 1) ham _).1
  obtain ⟨G, hG⟩ := C34_returns (N := 1 + 1) Ex29.P Ex29.ok someSvd ham
    (by intro hm h k _; obtain rfl := Ham.two.inj h; simp) (by intro hm h; simp [ham] at h)
    { S with toMPS := updateNoCF (1 + 1) S.toMPS } hU rfl _ _ (hst _ _) 0 1 none 5 3 0
  have e1 : (updateNoCF (1 + 1) S.toMPS).l = (calcKs (1 + 1) ham rfl (calcCs (1 + 1) ham
      { S with toMPS := updateNoCF (1 + 1) S.toMPS })).l := by rw [hM']
  have e2 : (updateNoCF (1 + 1) S.toMPS).r = (calcKs (1 + 1) ham rfl (calcCs (1 + 1) ham
      { S with toMPS := updateNoCF (1 + 1) S.toMPS })).r := by rw [hM']
  simp only [e1, e2] at hG
  refine ⟨_, G, hT, hG, ?_⟩
  rw [← hM'] at hU hA
  generalize calcKs (1 + 1) ham rfl (calcCs (1 + 1) ham { S with toMPS := updateNoCF (1 + 1) S.toMPS }) = T at *
  have hA' : T.A = A := hA
  have hl : ∀ n ≤ 1 + 1, T.l n = 1 := by
    intro n
    induction n with
    | zero => intro _; exact hU.l_zero
    | succ n ih => intro hn; rw [hU.l_succ n (by omega), ih (by omega), hA']; simp [A]
  have hr : ∀ m, ∀ n ≤ 1 + 1, 1 + 1 ≤ n + m → T.r n = 1 := by
    intro m
    induction m with
    | zero => intro n hn hm; obtain rfl : n = 1 + 1 := by omega
              exact hU.r_last
    | succ m ih =>
      intro n hn hm
      by_cases h : n = 1 + 1
      · subst h; exact hU.r_last
      · rw [hU.r_pred n (by omega), ih (n + 1) (by omega) (by omega), hA']; simp [A]
  have hab : ((Ex29.P.tol : ℝ) : ℂ) = 1 / 2 := by simp [Ex29.P]
  obtain ⟨B, es, Y, _, hY, hd, _⟩ := takeStepDyn_spec hG
  obtain ⟨F, hF, hp, hn⟩ := C34_projection (N := 1 + 1) Ex29.P Ex29.ok someSvd .right ham S T rfl rfl hT rfl rfl _ _
    (hst T.l T.r) (fun n hn => by rw [hab, hl n hn]; exact Ex29.one_above 1)
    (fun n hn => by rw [hab, hr (1 + 1) n hn (by omega)]; exact Ex29.one_above 1) 5 3 0 Y hY
  have h1 := hp Z (by
    intro k hk
    rw [hl k (by omega), hr (1 + 1) (k + 1 + 1) (by omega) (by omega), hA']
    exact ⟨fun t => by simp [A, Z], fun s => by simp [A, Z]⟩)
  simp only [show (1 + 1 - 1 : ℕ) = 1 from rfl, Finset.sum_range_one, hA'] at h1
  rw [elem] at h1
  obtain ⟨hn1, hn2, hn3⟩ := hn 0 (by omega)
  rw [hA'] at hn1
  have hne : etaBBSq Y 0 ≠ 0 := by
    intro h0
    rw [h0] at hn1
    have : ∀ s, twoSite (N := 1 + 1) A rfl rfl F 0 s = 0 := by
      intro s
      have hnn : ∀ t ∈ Finset.univ, 0 ≤ star (twoSite (N := 1 + 1) A rfl rfl F 0 t) * twoSite A rfl rfl F 0 t :=
        fun t _ => star_mul_self_nonneg _
      exact CStarRing.star_mul_self_eq_zero_iff _ |>.mp ((Finset.sum_eq_zero_iff_of_nonneg hnn).mp hn1 s (Finset.mem_univ s))
    simp only [braket, this, mul_zero, Finset.sum_const_zero] at h1
    exact absurd h1 (by simp)
  cases hy : Y 0 with
  | none => exact absurd (by rw [etaBBSq, hy]; rfl) hne
  | some y =>
    obtain ⟨f, hf⟩ : ∃ f, someSvd y = some f := ⟨_, rfl⟩
    obtain ⟨d1, d2, _⟩ := hn3 y hy f hf
    have hd1 : G.dD 1 = _ := (congrFun hd 1).trans d1
    rw [hd1]
    show min (svCount f.sv 0) (dDmaxes (fun _ => 1) 5 3 (0 + 1)).toNat = 1
    have hle := svCount_le f.sv 0
    have hpos : svCount f.sv 0 ≠ 0 := by
      intro h0
      refine hne (d2.trans (Finset.sum_eq_zero fun i _ => ?_))
      have : ¬ 0 < f.sv i := by
        intro hi
        have := Finset.card_eq_zero.mp h0
        exact absurd (this ▸ Finset.mem_filter.mpr ⟨Finset.mem_univ i, hi⟩) (Finset.notMem_empty i)
      have : f.sv i = 0 := le_antisymm (not_lt.mp this) (f.nonneg i)
      rw [this]; simp
    have h5 : (dDmaxes (fun _ => 1) 5 3 (0 + 1)).toNat = 2 := by decide
    rw [h5]
    have : svCount f.sv 0 ≤ 1 := hle
    omega

/-- The hypothesis on the square root: any branch of the complex root will do. -/
example : ∀ t : ℂ, (t ^ (1 / 2 : ℂ)) * (t ^ (1 / 2 : ℂ)) = t := by
  intro t
  rw [← sq, ← Complex.cpow_nat_mul]
  norm_num

end Ex34

end EvoMPS
