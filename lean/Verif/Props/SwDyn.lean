import Verif.SwDynLemmas
import Verif.Props.SwStep
import Verif.Props.UniformDyn

/-!
# C84: dynamical expansion of the bonds of sandwich states and their projection error
-/

namespace EvoMPS

open Matrix Uni ComplexOrder

variable {q D : ℕ}

/-! ## Helper lemmas -/

namespace Uni

/-- A loop over the sites that writes only entry `n` in turn `n`. -/
theorem foldlM_entry {α : Type*} {f : (ℕ → α) → ℕ → Option (ℕ → α)} {R : ℕ → α → Prop} {x0 : ℕ → α}
    (hf : ∀ x n y, f x n = some y → (∀ k, k ≠ n → y k = x k) ∧ (x n = x0 n → R n (y n))) (a : ℕ) :
    ∀ m x, (List.range' a m).foldlM f x0 = some x → (∀ n, a ≤ n → n < a + m → R n (x n)) ∧ ∀ n, ¬ (a ≤ n ∧ n < a + m) → x n = x0 n := by
  intro m
  induction m with
  | zero =>
    intro x h
    obtain rfl : x0 = x := by simpa using h
    exact ⟨fun n h1 h2 => by omega, fun _ _ => rfl⟩
  | succ m ih =>
    intro x h
    rw [List.range'_concat, List.foldlM_append] at h
    obtain ⟨y, hy, h⟩ := Option.bind_eq_some_iff.1 h
    have h : f y (a + m) = some x := by simpa using h
    obtain ⟨i1, i2⟩ := ih y hy
    obtain ⟨e1, e2⟩ := hf _ _ _ h
    refine ⟨fun n h1 h2 => ?_, fun n hn => ?_⟩
    · by_cases hn : n = a + m
      · subst hn
        exact e2 (i2 _ (by omega))
      · rw [e1 n hn]
        exact i1 n h1 (by omega)
    · rw [e1 n (by omega)]
      exact i2 n (by omega)

theorem foldlM_isSome {α : Type*} {f : α → ℕ → Option α} {a : ℕ} : ∀ m x0, (∀ x n, a ≤ n → n < a + m → ∃ y, f x n = some y) →
    ∃ x, (List.range' a m).foldlM f x0 = some x := by
  intro m x0
  induction m with
  | zero => intro _; exact ⟨x0, rfl⟩
  | succ m ih =>
    intro h
    obtain ⟨y, hy⟩ := ih fun x n h1 h2 => h x n h1 (by omega)
    obtain ⟨z, hz⟩ := h y (a + m) (by omega) (by omega)
    refine ⟨z, ?_⟩
    rw [List.range'_concat, List.foldlM_append]
    simp only [one_mul, hy]
    simpa using hz

/-- The matrices used for the bond behind site `n`. -/
def SwPairAt (P : Num) (S : SwT q D) (lm rm : ℕ → MM ℂ D D) (n : ℕ) (Vl : Fin q → Matrix (Fin (q * D - D)) (Fin D) ℂ)
    (Vr : Fin q → Matrix (Fin D) (Fin (D * q - D)) ℂ) (Y : Matrix (Fin (q * D - D)) (Fin (D * q - D)) ℂ) : Prop :=
  calcVshl P.qr (S.getA n) (P.roots (lm (n - 1))).1 = some Vl ∧ calcVsh P.qr (S.getA ((n : ℤ) + 1)) (P.roots (rm (n + 1))).1 = some Vr ∧
  S.bbYn n Vl Vr (P.roots (lm (n - 1))).1 (P.roots (lm (n - 1))).2 (P.roots (rm (n + 1))).1 (P.roots (rm (n + 1))).2 = some Y

/-- What `compute_projection_error` stores for one bond. -/
def ProjAt (P : Num) (S : SwT q D) (lm rm : ℕ → MM ℂ D D) (n : ℕ) (e : ℂ) : Prop :=
  (∃ Vl Vr Y, SwPairAt P S lm rm n Vl Vr Y ∧ e = adot Y Y) ∨ (¬ D < q * D ∧ e = 0)

/-- What `calc_BB` stores for one bond. -/
def BBAt (P : Num) (svd : Svd) (S : SwT q D) (lm rm : ℕ → MM ℂ D D) (svTol : ℝ) (dDmax Dmax n : ℕ) (b : BB q q D D) : Prop :=
  (D < Dmax ∧ ∃ Vl Vr Y, SwPairAt P S lm rm n Vl Vr Y ∧
    b = calcBB2s svd Y Vl Vr (P.roots (lm (n - 1))).2 (P.roots (rm (n + 1))).2 (min (Dmax - D) dDmax) svTol) ∨
  ((Dmax ≤ D ∨ ¬ D < q * D) ∧ b = .nothing)

theorem vs_cases (P : Num) (S : SwT q D) (lm rm : ℕ → MM ℂ D D) (n : ℕ) :
    (∃ Vl Vr, calcVshl P.qr (S.getA n) (P.roots (lm (n - 1))).1 = some Vl ∧
      calcVsh P.qr (S.getA ((n : ℤ) + 1)) (P.roots (rm (n + 1))).1 = some Vr) ∨
    (¬ D < q * D ∧ calcVshl P.qr (S.getA n) (P.roots (lm (n - 1))).1 = none) := by
  by_cases h : D < q * D
  · obtain ⟨Vl, hVl⟩ := calcVshl_isSome (qr := P.qr) (A := S.getA n) (l_s := (P.roots (lm (n - 1))).1) h
    obtain ⟨Vr, hVr⟩ := calcVsh_isSome (qr := P.qr) (A := S.getA ((n : ℤ) + 1)) (r_s := (P.roots (rm (n + 1))).1) h
    exact Or.inl ⟨Vl, Vr, hVl, hVr⟩
  · exact Or.inr ⟨h, by rw [calcVshl, if_pos (by omega)]⟩

theorem projStep_spec {P : Num} {S : SwT q D} {lm rm : ℕ → MM ℂ D D} {x y : ℕ → ℂ} {n : ℕ} (h : S.projStep P lm rm x n = some y) :
    (∀ k, k ≠ n → y k = x k) ∧ (x n = 0 → ProjAt P S lm rm n (y n)) := by
  unfold SwT.projStep at h
  dsimp only at h
  rcases vs_cases P S lm rm n with ⟨Vl, Vr, hl, hr⟩ | ⟨hq, hl⟩
  · rw [hl, hr] at h
    obtain ⟨Y, hY, rfl⟩ := Option.map_eq_some_iff.1 h
    refine ⟨fun k hk => Function.update_of_ne hk _ _, fun _ => Or.inl ⟨Vl, Vr, Y, ⟨hl, hr, hY⟩, Function.update_self ..⟩⟩
  · rw [hl] at h
    obtain rfl := Option.some.inj h
    exact ⟨fun _ _ => rfl, fun h0 => Or.inr ⟨hq, h0⟩⟩

theorem bbStep_spec {P : Num} {svd : Svd} {S : SwT q D} {lm rm : ℕ → MM ℂ D D} {svTol dDmax Dmax ce} {x y : ℕ → BB q q D D} {n : ℕ}
    (h : S.bbStep P svd lm rm svTol dDmax Dmax ce x n = some y) :
    (∀ k, k ≠ n → y k = x k) ∧ (x n = .nothing → BBAt P svd S lm rm svTol dDmax Dmax n (y n)) := by
  unfold SwT.bbStep at h
  dsimp only at h
  split at h
  · rename_i hD
    obtain rfl := Option.some.inj h
    exact ⟨fun _ _ => rfl, fun h0 => Or.inr ⟨Or.inl hD.1, h0⟩⟩
  · rcases vs_cases P S lm rm n with ⟨Vl, Vr, hl, hr⟩ | ⟨hq, hl⟩
    · rw [hl, hr] at h
      obtain ⟨Y, hY, rfl⟩ := Option.map_eq_some_iff.1 h
      by_cases hD : D < Dmax
      · rw [if_pos hD]
        exact ⟨fun k hk => Function.update_of_ne hk _ _, fun _ => Or.inl ⟨hD, Vl, Vr, Y, ⟨hl, hr, hY⟩, Function.update_self ..⟩⟩
      · rw [if_neg hD]
        exact ⟨fun _ _ => rfl, fun h0 => Or.inr ⟨Or.inl (by omega), h0⟩⟩
    · rw [hl] at h
      obtain rfl := Option.some.inj h
      exact ⟨fun _ _ => rfl, fun h0 => Or.inr ⟨Or.inr hq, h0⟩⟩

theorem projectionError_spec {P : Num} {S : SwT q D} {lm rm : ℕ → MM ℂ D D} {x : ℕ → ℂ} (h : S.projectionError P lm rm = some x) :
    (∀ n, 1 ≤ n → n < S.N → ProjAt P S lm rm n (x n)) ∧ ∀ n, ¬ (1 ≤ n ∧ n < S.N) → x n = 0 := by
  obtain ⟨h1, h2⟩ := foldlM_entry (R := ProjAt P S lm rm) (fun _ _ _ => projStep_spec) 1 _ _ h
  exact ⟨fun n a b => h1 n a (by omega), fun n hn => h2 n (by omega)⟩

theorem swCalcBB_spec {P : Num} {svd : Svd} {S : SwT q D} {lm rm : ℕ → MM ℂ D D} {svTol dDmax Dmax ce} {x : ℕ → BB q q D D}
    (h : S.calcBB P svd lm rm svTol dDmax Dmax ce = some x) :
    (∀ n, 1 ≤ n → n < S.N → BBAt P svd S lm rm svTol dDmax Dmax n (x n)) ∧ ∀ n, ¬ (1 ≤ n ∧ n < S.N) → x n = .nothing := by
  obtain ⟨h1, h2⟩ := foldlM_entry (R := BBAt P svd S lm rm svTol dDmax Dmax) (fun _ _ _ => bbStep_spec) 1 _ _ h
  exact ⟨fun n a b => h1 n a (by omega), fun n hn => h2 n (by omega)⟩

variable {S T : SwT q D} {H : ℤ → UHam q} {site : ℤ → Ten ℂ q D D} {l r : ℤ → Matrix (Fin D) (Fin D) ℂ}

/-- `Y` exists for a state that is up to date. -/
theorem bbYn_isSome (h : SwReady S H site l r) (o : SwEnergyOut S T H site l r) {n : ℕ} (hN : n < S.N) {v w : ℕ}
    (Vl : Fin q → Matrix (Fin v) (Fin D) ℂ) (Vr : Fin q → Matrix (Fin D) (Fin w) ℂ) (l_s l_si r_s r_si : Matrix (Fin D) (Fin D) ℂ)
    (h1 : 1 ≤ n) : ∃ Y, T.bbYn n Vl Vr l_s l_si r_s r_si = some Y := by
  have hTN := o.frame.1
  have hs := o.frame.2.2.2.2.2
  have hs23 := UHam.sites_le (H 0)
  rw [h.sites 0] at hs23
  unfold SwT.bbYn
  rw [hs]
  rcases (show S.hamSites = 2 ∨ S.hamSites = 3 by omega) with h2 | h2
  · rw [if_pos h2]
    have hc := o.cur n (by omega) (by omega)
    have hn := h.sites n
    rw [h2] at hn
    cases hH : H n with
    | three a => rw [hH] at hn; simp [UHam.sites] at hn
    | two a =>
      have := (hc.two a hH).2
      unfold SwT.getC2
      rw [if_neg (by omega), this]
      exact ⟨_, rfl⟩
  · rw [if_neg (by omega)]
    have hc := o.cur n (by omega) (by omega)
    have hc' := o.cur ((n : ℤ) - 1) (by omega) (by omega)
    have hn := h.sites n
    have hn' := h.sites ((n : ℤ) - 1)
    rw [h2] at hn hn'
    cases hH : H n with
    | two a => rw [hH] at hn; simp [UHam.sites] at hn
    | three a =>
      cases hH' : H ((n : ℤ) - 1) with
      | two a => rw [hH'] at hn'; simp [UHam.sites] at hn'
      | three a' =>
        have e := (hc.three a hH).2.2
        have e' := (hc'.three a' hH').2.2
        unfold SwT.getC3
        rw [if_neg (by omega), if_neg (by omega), e, e']
        exact ⟨_, rfl⟩

/-- The terms of the Hamiltonian in a window that contains all terms that touch both sites of the pair. -/
theorem sitePairHam_eq (h : SwReady S H site l r) (o : SwEnergyOut S T H site l r) {n : ℕ} (h1 : 1 ≤ n) (hN : n < S.N)
    {l_s l_si r_s r_si : Matrix (Fin D) (Fin D) ℂ} {tol : ℝ} (Rl : Roots (l ((n : ℤ) - 1)) l_s l_si tol)
    (Rr : Roots (r ((n : ℤ) + 1)) r_s r_si tol) (hl : ∀ j, (l j)ᴴ = l j) (hr : (r ((n : ℤ) + 1))ᴴ = r ((n : ℤ) + 1)) {v w' : ℕ}
    {Vl : Fin q → Matrix (Fin v) (Fin D) ℂ} {Vr : Fin q → Matrix (Fin D) (Fin w') ℂ} {Y}
    (hY : T.bbYn n Vl Vr l_s l_si r_s r_si = some Y)
    {c : ℤ} {w : ℕ} (hc : c + S.hamSites ≤ n + 2) (hw : (n : ℤ) + S.hamSites ≤ c + w)
    (Z : Ten2 ℂ q q D D) (hZl : LeftGauge2 (site n) (l ((n : ℤ) - 1)) Z)
    (hZr : RightGauge2 (site ((n : ℤ) + 1)) (r ((n : ℤ) + 1)) Z) (y') (hZ : Z = wten l_si r_si Vl Vr y') :
    sitePairHam site l r c w (fun j => (H j).sites) (fun j => (H j).op) n Z = adot y' Y := by
  have hTN := o.frame.1
  have hs := o.frame.2.2.2.2.2
  have hs23 := UHam.sites_le (H 0)
  rw [h.sites 0] at hs23
  have hout : ∀ a : ℕ, a + (H (c + a)).sites ≤ w → (c + a + (H (c + a)).sites ≤ (n : ℤ) + 1 ∨ (n : ℤ) + 1 ≤ c + a) →
      closedElem (l (c - 1)) (r (c + (a + (H (c + a)).sites + (w - (H (c + a)).sites - a) : ℕ) - 1)) a (H (c + a)).sites
        (w - (H (c + a)).sites - a) (H (c + a)).op
        (sitePairProd site n Z c (a + (H (c + a)).sites + (w - (H (c + a)).sites - a)))
        (siteProd site c (a + (H (c + a)).sites + (w - (H (c + a)).sites - a))) = 0 := by
    intro a ha hor
    refine siteElem_out Z h.chain.stepL h.chain.stepR (hl _) hr hZl hZr (by omega) ?_ hor _
    omega
  rw [sitePairHam]
  unfold SwT.bbYn at hY
  rw [hs] at hY
  rcases (show S.hamSites = 2 ∨ S.hamSites = 3 by omega) with h2 | h2
  · rw [if_pos h2] at hY
    obtain ⟨m, hm⟩ : ∃ m : ℕ, (n : ℤ) = c + m := ⟨((n : ℤ) - c).toNat, by omega⟩
    rw [Finset.sum_eq_single m]
    · have hcur := o.cur n (by omega) (by omega)
      have hn := h.sites n
      rw [h2] at hn
      have key := siteElem_at Z h.chain.stepL h.chain.stepR (c := c) (m := m) (a := m) (n := (H (c + m)).sites)
        (b := w - (H (c + m)).sites - m) le_rfl (by rw [h.sites]; omega) (H (c + m)).op
      rw [hm]
      refine key.trans ?_
      rw [hm] at hn hcur hY Rl Rr
      cases hH : H (c + m) with
      | three a => rw [hH] at hn; simp [UHam.sites] at hn
      | two a =>
        have e := (hcur.two a hH).2
        unfold SwT.getC2 at hY
        rw [if_neg (by omega), e, Option.map_some, Option.some.injEq, o.reads.ga, o.reads.ga] at hY
        simp only [UHam.sites, UHam.op]
        rw [lineOp_pair_two, ← hY, hZ, show c + (m + 2 : ℕ) - 1 = c + m + 1 by push_cast; ring,
          show c + (m + 1 : ℕ) = c + m + 1 by push_cast; ring]
        exact ov2_calcBBY _ _ _ Vl Vr (hl _) Rl.si_herm Rl.si_mul Rr.si_herm Rr.mul_si y'
    · intro a ha hne
      rw [Finset.mem_filter] at ha
      refine hout a ha.2 ?_
      rw [h.sites]
      omega
    · intro hn
      rw [Finset.mem_filter, Finset.mem_range, h.sites] at hn
      omega
  · rw [if_neg (by omega)] at hY
    obtain ⟨m, hm⟩ : ∃ m : ℕ, (n : ℤ) = c + (m + 1 : ℕ) := ⟨((n : ℤ) - c - 1).toNat, by omega⟩
    rw [Finset.sum_eq_add (m + 1) m (by omega)]
    · have hcur := o.cur n (by omega) (by omega)
      have hcur' := o.cur ((n : ℤ) - 1) (by omega) (by omega)
      have hn := h.sites n
      have hn' := h.sites ((n : ℤ) - 1)
      rw [h2] at hn hn'
      have key := siteElem_at Z h.chain.stepL h.chain.stepR (c := c) (m := m + 1) (a := m + 1) (n := (H (c + (m + 1 : ℕ))).sites)
        (b := w - (H (c + (m + 1 : ℕ))).sites - (m + 1)) le_rfl (by rw [h.sites]; omega) (H (c + (m + 1 : ℕ))).op
      have key' := siteElem_at Z h.chain.stepL h.chain.stepR (c := c) (m := m + 1) (a := m) (n := (H (c + m)).sites)
        (b := w - (H (c + m)).sites - m) (by omega) (by rw [h.sites]; omega) (H (c + m)).op
      rw [hm]
      refine (congrArg₂ (· + ·) key key').trans ?_
      have em : (n : ℤ) - 1 = c + m := by omega
      rw [em] at hn' hcur' Rl
      have hgl := o.reads.gl ((n : ℤ) - 2) (by omega)
      have hgr := o.reads.gr2 (by omega) ((n : ℤ) + 2) (by omega) (by omega)
      rw [hgl, hgr, o.reads.ga, o.reads.ga, em] at hY
      rw [hm] at hn hcur
      cases hH : H (c + (m + 1 : ℕ)) with
      | two a => rw [hH] at hn; simp [UHam.sites] at hn
      | three a =>
        cases hH' : H (c + m) with
        | two a => rw [hH'] at hn'; simp [UHam.sites] at hn'
        | three a' =>
          have e := (hcur.three a hH).2.2
          have e' := (hcur'.three a' hH').2.2
          unfold SwT.getC3 at hY
          rw [if_neg (by omega), if_neg (by omega), hm, e, e'] at hY
          obtain ⟨-, -, hY⟩ := calcBBY3_some hY
          simp only [Option.elim_some, o.reads.ga] at hY
          simp only [UHam.sites, UHam.op]
          rw [lineOp_pair_right, lineOp_pair_left, hZ, hY, adot_add_right]
          have l1 : l (c + (m + 1 : ℕ) - 1) = l (c + m) := by congr 1; push_cast; ring
          have i1 : c + (m + 1 + 3 : ℕ) - 1 = (c + (m + 1 : ℕ) + 2) := by push_cast; ring
          have i2 : c + (m + 3 : ℕ) - 1 = (n : ℤ) + 1 := by push_cast; omega
          have i3 : c + (m + 1 + 1 : ℕ) = c + (m + 1 : ℕ) + 1 := by push_cast; ring
          have i4 : c + (m + 1 + 2 : ℕ) = c + (m + 1 : ℕ) + 2 := by push_cast; ring
          have i5 : c + (m : ℤ) + 1 = c + (m + 1 : ℕ) := by push_cast; ring
          have i6 : c + (m : ℤ) + 2 = c + (m + 1 : ℕ) + 1 := by push_cast; ring
          have i8 : c + (m + 1 : ℕ) - 2 = c + (m : ℤ) - 1 := by push_cast; ring
          rw [l1, i1, i2, i3, i4, i5, i6, i8,
            ov_calcBBY3_right _ _ _ _ _ _ (hl _) Rl.si_herm Rl.si_mul,
            ov_calcBBY3_left _ _ _ _ (hl _) _ _ Rl.si_herm Rr.si_herm Rr.mul_si]
    · intro a ha hne
      rw [Finset.mem_filter] at ha
      refine hout a ha.2 ?_
      rw [h.sites]
      omega
    · intro hn
      rw [Finset.mem_filter, Finset.mem_range, h.sites] at hn
      omega
    · intro hn
      rw [Finset.mem_filter, Finset.mem_range, h.sites] at hn
      omega

/-- The environments next to the pair. -/
structure SwPairData (P : Num) (site : ℤ → Ten ℂ q D D) (l r : ℤ → Matrix (Fin D) (Fin D) ℂ) (lm rm : ℕ → MM ℂ D D) (n : ℕ) : Prop where
  Rl : Roots (l ((n : ℤ) - 1)) (P.roots (lm (n - 1))).1 (P.roots (lm (n - 1))).2 P.tol
  Rr : Roots (r ((n : ℤ) + 1)) (P.roots (rm (n + 1))).1 (P.roots (rm (n + 1))).2 P.tol
  hl : (l ((n : ℤ) - 1))ᴴ = l ((n : ℤ) - 1)
  hr : (r ((n : ℤ) + 1))ᴴ = r ((n : ℤ) + 1)
  fl : (P.roots (lm (n - 1))).1 * (P.roots (lm (n - 1))).2 = 1 ∧ (P.roots (lm (n - 1))).1 * (P.roots (lm (n - 1))).1 = l ((n : ℤ) - 1)
  fr : (P.roots (rm (n + 1))).1 * (P.roots (rm (n + 1))).2 = 1 ∧ (P.roots (rm (n + 1))).1 * (P.roots (rm (n + 1))).1 = r ((n : ℤ) + 1)
  ul : IsUnit (∑ s, (site n s)ᴴ * l ((n : ℤ) - 1) * site n s).det
  ur : IsUnit (∑ s, site ((n : ℤ) + 1) s * r ((n : ℤ) + 1) * (site ((n : ℤ) + 1) s)ᴴ).det

theorem swPairData {P : Num} (hP : P.Ok) (h : SwReady S H site l r) {lm rm : ℕ → MM ℂ D D} (F : SwFull S l r P.tol lm rm) {n : ℕ}
    (h1 : 1 ≤ n) (hN : n < S.N) : SwPairData P site l r lm rm n := by
  have hn1 : ((n - 1 : ℕ) : ℤ) = (n : ℤ) - 1 := by omega
  have hn2 : ((n + 1 : ℕ) : ℤ) = (n : ℤ) + 1 := by push_cast; rfl
  have lA := F.labove (n - 1) (by omega)
  have rA := F.rabove (n + 1) (by omega)
  have lobj := F.lobj (n - 1) (by omega)
  have robj := F.robj (n + 1) (by omega)
  rw [hn1] at lA lobj
  rw [hn2] at rA robj
  have lP := posDef_of_above hP.tol lA
  have rP := posDef_of_above hP.tol rA
  have rootl := roots_spec hP (lm (n - 1)) (by rw [lobj]; exact lP.isHermitian)
  have rootr := roots_spec hP (rm (n + 1)) (by rw [robj]; exact rP.isHermitian)
  rw [lobj] at rootl
  rw [robj] at rootr
  refine ⟨rootl, rootr, lP.isHermitian, rP.isHermitian, rootl.full lA, rootr.full rA, ?_, ?_⟩
  · rw [← h.chain.stepL n]
    exact isUnit_iff_ne_zero.2 (posDef_of_above hP.tol (F.labove n (by omega))).det_pos.ne'
  · rw [← h.chain.stepR ((n : ℤ) + 1), show (n : ℤ) + 1 - 1 = n by ring]
    exact isUnit_iff_ne_zero.2 (posDef_of_above hP.tol (F.rabove n (by omega))).det_pos.ne'

/-- Where there is no room, there is no gauge-fixed pair. -/
theorem sitePair_trivial {P : Num} {lm rm : ℕ → MM ℂ D D} {n : ℕ} (d : SwPairData P site l r lm rm n) (hq : ¬ D < q * D)
    (Z : Ten2 ℂ q q D D) (hL : LeftGauge2 (site n) (l ((n : ℤ) - 1)) Z) : Z = 0 := by
  funext s t
  have := vshl_trivial P.qr hq (by rw [d.Rl.s_herm, d.fl.2]; exact d.ul) (fun s => (P.roots (lm (n - 1))).1 * Z s t) (by
    rw [← hL t]
    refine Finset.sum_congr rfl fun s _ => ?_
    rw [d.Rl.s_herm, Matrix.mul_assoc, ← Matrix.mul_assoc (P.roots (lm (n - 1))).1, d.fl.2, Matrix.mul_assoc]) s
  have e := congrArg ((P.roots (lm (n - 1))).2 * ·) this
  simp only [← Matrix.mul_assoc, mul_eq_one_comm.mp d.fl.1, Matrix.one_mul, Matrix.mul_zero] at e
  exact e

theorem sitePairProd_zero (c : ℤ) {w : ℕ} (p : ℤ) (h1 : c ≤ p) (h2 : p + 1 < c + w) (s) :
    sitePairProd site p 0 c w s = 0 := by
  obtain ⟨m, rfl⟩ : ∃ m : ℕ, p = c + m := ⟨(p - c).toNat, by omega⟩
  rw [sitePairProd_eq _ site c (by omega)]
  refine Finset.sum_eq_zero fun s0 _ => ?_
  refine List.prod_eq_zero ?_
  rw [List.mem_ofFn]
  exact ⟨⟨m + 1, by omega⟩, by simp [linePair]⟩

/-- The pair the code adds: nothing, or the singular vectors of the largest singular values. -/
theorem BBAt.cases {P : Num} {svd : Svd} {T : SwT q D} {lm rm : ℕ → MM ℂ D D} {svTol dDmax Dmax n} {b : BB q q D D}
    (h : BBAt P svd T lm rm svTol dDmax Dmax n b) :
    ((Dmax ≤ D ∨ ¬ D < q * D ∨ ∃ Y : Matrix (Fin (q * D - D)) (Fin (D * q - D)) ℂ, svd Y = none) ∧ b = .nothing) ∨
    (D < Dmax ∧ ∃ Vl Vr Y f, SwPairAt P T lm rm n Vl Vr Y ∧ svd Y = some f ∧ ∃ B1 B2,
      b = ⟨min (svCount f.sv svTol) (min (Dmax - D) dDmax), some B1, some B2⟩ ∧
      (fun s t => B1 s * B2 t) = wten (P.roots (lm (n - 1))).2 (P.roots (rm (n + 1))).2 Vl Vr
        (svdMk f fun i => if (i : ℕ) < min (svCount f.sv svTol) (min (Dmax - D) dDmax) then (f.sv i : ℂ) else 0)) := by
  rcases h with ⟨hD, Vl, Vr, Y, hY, rfl⟩ | ⟨h, rfl⟩
  · cases hf : svd Y with
    | none =>
      refine Or.inl ⟨Or.inr (Or.inr ⟨Y, hf⟩), ?_⟩
      rw [calcBB2s, hf]
      rfl
    | some f =>
      have hd : min (svCount f.sv svTol) (min (Dmax - D) dDmax) ≤ min _ _ := (Nat.min_le_left _ _).trans (svCount_le f.sv svTol)
      refine Or.inr ⟨hD, Vl, Vr, Y, f, hY, hf, _, _, by rw [calcBB2s, hf]; rfl, ?_⟩
      rw [← bbZ1_bbZ2 f _ hd]
      funext s t
      simp only [wten, Matrix.mul_assoc]
  · refine Or.inl ⟨?_, rfl⟩
    rcases h with h | h
    · exact Or.inl h
    · exact Or.inr (Or.inl h)

theorem bbStep_isSome (h : SwReady S H site l r) (o : SwEnergyOut S T H site l r) {P : Num} {svd : Svd} {lm rm : ℕ → MM ℂ D D}
    {svTol dDmax Dmax ce} {n : ℕ} (h1 : 1 ≤ n) (hN : n < S.N) (x : ℕ → BB q q D D) :
    ∃ y, T.bbStep P svd lm rm svTol dDmax Dmax ce x n = some y := by
  unfold SwT.bbStep
  dsimp only
  split
  · exact ⟨_, rfl⟩
  · rcases vs_cases P T lm rm n with ⟨Vl, Vr, hl, hr⟩ | ⟨hq, hl⟩
    · rw [hl, hr]
      obtain ⟨Y, hY⟩ := bbYn_isSome h o hN Vl Vr (P.roots (lm (n - 1))).1 (P.roots (lm (n - 1))).2 (P.roots (rm (n + 1))).1
        (P.roots (rm (n + 1))).2 h1
      dsimp only
      rw [hY]
      exact ⟨_, rfl⟩
    · rw [hl]
      exact ⟨_, rfl⟩

theorem projStep_isSome (h : SwReady S H site l r) (o : SwEnergyOut S T H site l r) {P : Num} {lm rm : ℕ → MM ℂ D D}
    {n : ℕ} (h1 : 1 ≤ n) (hN : n < S.N) (x : ℕ → ℂ) : ∃ y, T.projStep P lm rm x n = some y := by
  unfold SwT.projStep
  dsimp only
  rcases vs_cases P T lm rm n with ⟨Vl, Vr, hl, hr⟩ | ⟨hq, hl⟩
  · rw [hl, hr]
    obtain ⟨Y, hY⟩ := bbYn_isSome h o hN Vl Vr (P.roots (lm (n - 1))).1 (P.roots (lm (n - 1))).2 (P.roots (rm (n + 1))).1
      (P.roots (rm (n + 1))).2 h1
    dsimp only
    rw [hY]
    exact ⟨_, rfl⟩
  · rw [hl]
    exact ⟨_, rfl⟩

theorem swTakeStepDyn_some {P : Num} {svd : Svd} {S : SwT q D} {lm rm : ℕ → MM ℂ D D} {dtau} {B : Option (WList q D)}
    {dDmax Dmax svTol} {G : SwGrown q D} (h : S.takeStepDyn P svd lm rm dtau B dDmax Dmax svTol = some G) :
    ∃ F bb, (B = some F ∨ B = none ∧ ∃ out, S.calcB P lm rm = some out ∧ out.B = F) ∧
      S.calcBB P svd lm rm svTol dDmax Dmax false = some bb ∧
      G = ⟨dDOf (q := fun _ => q) (D := fun _ => D) fun k => bb (k + 1),
        grownA (q := fun _ => q) (D := fun _ => D) (fun k => bb (k + 1)) (-Complex.I * P.sq dtau)
          fun k => (eulerW S.N dtau (S.A, F)).1 (k + 1)⟩ := by
  unfold SwT.takeStepDyn at h
  obtain ⟨F, hF, h⟩ := Option.bind_eq_some_iff.1 h
  obtain ⟨bb, hbb, rfl⟩ := Option.map_eq_some_iff.1 h
  refine ⟨F, bb, ?_, hbb, rfl⟩
  cases B with
  | some B1 =>
    rw [Option.elim_some] at hF
    exact Or.inl hF
  | none =>
    obtain ⟨out, ho, e⟩ := Option.map_eq_some_iff.1 hF
    exact Or.inr ⟨rfl, out, ho, e⟩

theorem adot_trunc {m n : ℕ} {Y : Matrix (Fin m) (Fin n) ℂ} (f : SvdOf Y) (d : ℕ) :
    adot (Y - svdMk f fun i => if (i : ℕ) < d then (f.sv i : ℂ) else 0) (Y - svdMk f fun i => if (i : ℕ) < d then (f.sv i : ℂ) else 0)
      = ∑ i : Fin (min m n), if d ≤ (i : ℕ) then (f.sv i : ℂ) ^ 2 else 0 := by
  have hyz : Y - svdMk f (fun i => if (i : ℕ) < d then (f.sv i : ℂ) else 0)
      = svdMk f (fun i => if d ≤ (i : ℕ) then (f.sv i : ℂ) else 0) := by
    refine (congrArg (· - _) (svdMk_sv f).symm).trans ?_
    simp only [svdMk_sub]
    congr 1
    funext i
    by_cases hi : (i : ℕ) < d
    · simp [hi, Nat.not_le.mpr hi]
    · simp [hi, Nat.not_lt.mp hi]
  rw [hyz, adot_svdMk]
  refine Finset.sum_congr rfl fun i _ => ?_
  split
  · rw [Complex.star_def, Complex.conj_ofReal, sq]
  · simp

theorem eq_zero_of_adot {m n : ℕ} {Y : Matrix (Fin m) (Fin n) ℂ} (h : adot Y Y = 0) : Y = 0 := by
  rw [adot_eq_trace] at h
  exact Matrix.trace_conjTranspose_mul_self_eq_zero_iff.1 h

theorem b12_nothing {b : BB q q D D} (h : b = .nothing) : b.B12 = none := by
  subst h; rfl

theorem bb_prod {b : BB q q D D} {d : ℕ} {C1 : Fin q → Matrix (Fin D) (Fin d) ℂ} {C2 : Fin q → Matrix (Fin d) (Fin D) ℂ}
    (h : b = ⟨d, some C1, some C2⟩) (B1 B2) (h1 : b.B12 = some B1) (h2 : b.B21 = some B2) :
    (fun s t => B1 s * B2 t) = fun s t => C1 s * C2 t := by
  subst h
  obtain rfl := Option.some.inj h1
  obtain rfl := Option.some.inj h2
  rfl

theorem BBAt.d_le {P : Num} {svd : Svd} {T : SwT q D} {lm rm : ℕ → MM ℂ D D} {svTol dDmax Dmax n} {b : BB q q D D}
    (h : BBAt P svd T lm rm svTol dDmax Dmax n b) : b.d ≤ min (Dmax - D) dDmax := by
  rcases h.cases with ⟨-, rfl⟩ | ⟨hD, Vl, Vr, Y, f, -, -, B1, B2, rfl, -⟩
  · exact Nat.zero_le _
  · exact Nat.min_le_right _ _

end Uni

/-! ## C84 -/

/-- **C84** (limits).  A step with `dynexp=True` enlarges every bond by at most `dD_max` and not beyond `D_max`; the bonds at the two ends
of the window, which it shares with the bulks, keep their dimension. -/
theorem C84_bounds (P : Num) (svd : Svd) (S : SwT q D) (lm rm : ℕ → MM ℂ D D) (dtau B) (dDmax Dmax : ℕ) (svTol) (G : SwGrown q D)
    (h : S.takeStepDyn P svd lm rm dtau B dDmax Dmax svTol = some G) :
    (∀ n, G.dD n ≤ dDmax ∧ D + G.dD n ≤ max D Dmax) ∧ G.dD 0 = 0 ∧ ∀ n, S.N ≤ n → G.dD n = 0 := by
  obtain ⟨F, bb, -, hbb, rfl⟩ := swTakeStepDyn_some h
  obtain ⟨h1, h2⟩ := swCalcBB_spec hbb
  have key : ∀ n, (bb n).d ≤ min (Dmax - D) dDmax := fun n => by
    by_cases hn : 1 ≤ n ∧ n < S.N
    · exact (h1 n hn.1 hn.2).d_le
    · rw [h2 n hn]; exact Nat.zero_le _
  refine ⟨fun n => ?_, rfl, fun n hn => ?_⟩
  · cases n with
    | zero => exact ⟨Nat.zero_le _, by simp [dDOf]⟩
    | succ n =>
      have := key (n + 1)
      have e : dDOf (q := fun _ => q) (D := fun _ => D) (fun k => bb (k + 1)) (n + 1) = (bb (n + 1)).d := rfl
      simp only [e]
      omega
  · cases n with
    | zero => rfl
    | succ n =>
      show (bb (n + 1)).d = 0
      rw [h2 (n + 1) (by omega)]
      rfl

/-- **C84** (the default).  If `D_max` does not exceed the bond dimension, as for the default `D_max=0`, no bond grows and the step is
the plain Euler step.  (For a finite chain, `D_max=0` means that there is no limit: C34.) -/
theorem C84_default (P : Num) (svd : Svd) (S : SwT q D) (lm rm : ℕ → MM ℂ D D) (dtau B) (dDmax Dmax : ℕ) (hD : Dmax ≤ D) (svTol)
    (G : SwGrown q D) (h : S.takeStepDyn P svd lm rm dtau B dDmax Dmax svTol = some G) :
    (∀ n, G.dD n = 0) ∧ ∃ S' B', S.takeStep P lm rm dtau B = some (S', B') ∧
      ∀ k < S.N, ∀ s i j, G.A k s (Fin.castAdd _ i) (Fin.castAdd _ j) = S'.A (k + 1) s i j := by
  refine ⟨fun n => ?_, ?_⟩
  · have := (C84_bounds P svd S lm rm dtau B dDmax Dmax svTol G h).1 n
    omega
  obtain ⟨F, bb, hF, -, rfl⟩ := swTakeStepDyn_some h
  have : B.elim ((S.calcB P lm rm).map SwTanOut.B) some = some F := by
    rcases hF with rfl | ⟨rfl, out, ho, rfl⟩
    · rfl
    · rw [Option.elim_none, ho]; rfl
  refine ⟨_, _, by unfold SwT.takeStep; rw [this]; rfl, fun k _ s i j => ?_⟩
  simp only [grownA, blocks_11]

/-- **C84** (the state).  Written with the old bond dimensions, the product of the tensors of the window after the step is that of
the tensors of the Euler step with any number of disjoint pairs of neighbours replaced by `-dtau * BB12 * BB21`. -/
theorem C84_state (P : Num) (svd : Svd) (S : SwT q D) (lm rm : ℕ → MM ℂ D D) (dtau) (hsq : P.sq dtau * P.sq dtau = dtau) (B)
    (dDmax Dmax : ℕ) (svTol) (G : SwGrown q D) (h : S.takeStepDyn P svd lm rm dtau B dDmax Dmax svTol = some G) :
    ∃ F bb, (B = some F ∨ B = none ∧ ∃ out, S.calcB P lm rm = some out ∧ out.B = F) ∧
      S.calcBB P svd lm rm svTol dDmax Dmax false = some bb ∧
      (∀ n, 1 ≤ n → G.dD n = (bb n).d) ∧
      ∀ N ≤ S.N, ∀ (s : Cfg (fun _ => q) N) i j, (amp G.A N s : Matrix (Fin (D + G.dD 0)) (Fin (D + G.dD N)) ℂ)
          (Fin.castAdd _ i) (Fin.castAdd _ j)
        = ampGrow (q := fun _ => q) (D := fun _ => D) (fun k => (F (k + 1)).elim (S.A (k + 1)) fun b => S.A (k + 1) - dtau • b)
          (fun k s t => ((bb (k + 1)).B12.elim 0 fun b => b s) * ((bb (k + 1)).B21.elim 0 fun b => b t)) dtau N s i j := by
  obtain ⟨F, bb, hF, hbb, rfl⟩ := swTakeStepDyn_some h
  refine ⟨F, bb, hF, hbb, fun n hn => ?_, fun N hN s i j => ?_⟩
  · obtain ⟨k, rfl⟩ : ∃ k, n = k + 1 := ⟨n - 1, by omega⟩
    rfl
  have hc : (-Complex.I * P.sq dtau) * (-Complex.I * P.sq dtau) = -dtau := by
    rw [mul_mul_mul_comm, hsq, neg_mul_neg, Complex.I_mul_I, neg_one_mul]
  have e := congrFun (congrFun ((oldPart_eq (q := fun _ => q) (D := fun _ => D) (fun k => bb (k + 1)) (-Complex.I * P.sq dtau) dtau
    (fun k => (eulerW S.N dtau (S.A, F)).1 (k + 1)) hc N).1 s) i) j
  refine e.trans ?_
  have hE : ∀ k < S.N, (eulerW S.N dtau (S.A, F)).1 (k + 1) = (F (k + 1)).elim (S.A (k + 1)) fun b => S.A (k + 1) - dtau • b := by
    intro k hk
    rw [eulerW_eq]
    simp only
    rw [if_pos (by omega)]
    rfl
  have hg : ∀ (E E' : Tensors ℂ (fun _ => q) fun _ => D) (X), ∀ N, (∀ k < N, E k = E' k) →
      (∀ s, ampGrow E X dtau N s = ampGrow E' X dtau N s) ∧
      ((∀ k < N + 1, E k = E' k) → ∀ s, ampGrow E X dtau (N + 1) s = ampGrow E' X dtau (N + 1) s) := by
    intro E E' X N
    induction N with
    | zero =>
      intro _
      refine ⟨fun _ => rfl, fun h s => ?_⟩
      show E 0 _ = E' 0 _
      rw [h 0 (by omega)]
    | succ N ih =>
      intro h
      have i1 := ih fun k hk => h k (by omega)
      refine ⟨i1.2 h, fun h' s => ?_⟩
      rw [ampGrow, ampGrow, i1.2 h, i1.1, h' (N + 1) (by omega)]
  exact congrFun (congrFun ((hg _ _ (bbProd (q := fun _ => q) (D := fun _ => D) fun k => bb (k + 1)) N
    fun k hk => hE k (by omega)).1 s) i) j

section
variable {S : SwT q D} {H : ℤ → UHam q} {site : ℤ → Ten ℂ q D D} {l r : ℤ → Matrix (Fin D) (Fin D) ℂ}

/-- **C84** (what is added).  The pairs of `calc_BB` satisfy both gauge conditions; so they are orthogonal to the state, to all its one-site
variations, inside and outside of the window, and to all pairs at other sites. -/
theorem C84_orthogonal (h : SwReady S H site l r) (sL sR : Solver D) (jL jR : Matrix (Fin D) (Fin D) ℂ)
    (hsL : ExactSolver S.uniL sL jL true) (hsR : ExactSolver S.uniR sR jR false) (P : Num) (hP : P.Ok) (svd : Svd)
    (lm rm : ℕ → MM ℂ D D) (F : SwFull S l r P.tol lm rm) (T : SwT q D) (hT : (S.calcC.bind fun S => S.calcK sL sR jL jR) = some T)
    (svTol : ℝ) (dDmax Dmax : ℕ) (computeEta : Bool) (bb : ℕ → BB q q D D)
    (hbb : T.calcBB P svd lm rm svTol dDmax Dmax computeEta = some bb) (n : ℕ) (B1 B2)
    (h1 : (bb n).B12 = some B1) (h2 : (bb n).B21 = some B2) :
    (1 ≤ n ∧ n < S.N) ∧
    (∀ t, ∑ s, (site n s)ᴴ * l ((n : ℤ) - 1) * (B1 s * B2 t) = 0) ∧
    (∀ s, ∑ t, B1 s * B2 t * r ((n : ℤ) + 1) * (site ((n : ℤ) + 1) t)ᴴ = 0) ∧
    ∀ (c : ℤ) (w : ℕ), c ≤ n → (n : ℤ) + 1 < c + w →
      closedBraket (l (c - 1)) (r (c + w - 1)) (sitePairProd site n (fun s t => B1 s * B2 t) c w) (siteProd site c w) = 0 ∧
      (∀ (j : ℤ) (b : Ten ℂ q D D), closedBraket (l (c - 1)) (r (c + w - 1)) (sitePairProd site n (fun s t => B1 s * B2 t) c w)
        (siteProd (Function.update site j b) c w) = 0) ∧
      ∀ (p' : ℤ) (Z : Ten2 ℂ q q D D), p' ≠ n → c ≤ p' → p' + 1 < c + w → sitePairBraket site l r c w n p' (fun s t => B1 s * B2 t) Z = 0 := by
  obtain ⟨T', hT', o⟩ := sw_calcK h sL sR jL jR hsL hsR
  obtain rfl : T = T' := Option.some.inj (hT.symm.trans hT')
  have hTN := o.frame.1
  obtain ⟨k1, k2⟩ := swCalcBB_spec hbb
  have hn : 1 ≤ n ∧ n < S.N := by
    by_contra hc
    rw [b12_nothing (k2 n (by rw [hTN]; exact hc))] at h1
    exact absurd h1 (by simp)
  have d := swPairData hP h F hn.1 hn.2
  have hg : LeftGauge2 (site n) (l ((n : ℤ) - 1)) (fun s t => B1 s * B2 t) ∧
      RightGauge2 (site ((n : ℤ) + 1)) (r ((n : ℤ) + 1)) (fun s t => B1 s * B2 t) := by
    rcases (k1 n hn.1 (by omega)).cases with ⟨-, e⟩ | ⟨-, Vl, Vr, Y, f, ⟨hVl, hVr, -⟩, -, C1, C2, e, hw⟩
    · rw [b12_nothing e] at h1
      exact absurd h1 (by simp)
    · rw [o.reads.ga] at hVl hVr
      rw [bb_prod e B1 B2 h1 h2, hw]
      exact ⟨wten_left hVl d.Rl.s_herm d.Rl.mul_si Vr _, wten_right hVr d.Rr.si_mul Vl _⟩
  have eS : ∀ W : ℤ → Ten ℂ q D D, ∀ c (w : ℕ), siteProd W c w = lineProd (fun j : ℕ => W (c + j)) 0 w :=
    fun W c w => funext fun s => siteProd_line W c w s
  refine ⟨hn, fun t => ?_, fun s => ?_, fun c w hc hw => ⟨?_, fun j b => ?_, fun p' Z hp hc' hw' => ?_⟩⟩
  · have := hg.1 t
    simp only [← Matrix.mul_assoc] at this ⊢
    exact this
  · exact hg.2 s
  · rw [eS]
    exact sitePair_out _ h.chain.stepL h.chain.stepR d.hl d.hr hg.1 hg.2 site (Or.inl fun _ _ => rfl) hc hw
  · rw [eS]
    refine sitePair_out _ h.chain.stepL h.chain.stepR d.hl d.hr hg.1 hg.2 _ ?_ hc hw
    rcases lt_or_ge (n : ℤ) j with hj | hj
    · exact Or.inl fun i hi => Function.update_of_ne (by omega) _ _
    · exact Or.inr fun i hi => Function.update_of_ne (by omega) _ _
  · exact sitePair_pair _ h.chain.stepL h.chain.stepR d.hl d.hr hg.1 hg.2 Z p' hp hc hw hc' hw'

/-- **C84** (which pairs, and the projection error).  `compute_projection_error` and `calc_BB` return.  For every pair of neighbouring sites
of the window there is a gauge-fixed pair `F` that represents `H|ψ⟩` among the gauge-fixed pairs: its overlap with any other is that of `H|ψ⟩`, in every
piece of the chain that contains all terms that touch both sites.  Its squared norm is the entry of `compute_projection_error`.  What
`calc_BB` adds differs from `F` by the singular values it leaves out: it keeps those above `sv_tol`, at most `dD_max` and no more than fit below
`D_max`; it adds nothing only if the bond may not grow or the decomposition fails. -/
theorem C84_projection (h : SwReady S H site l r) (sL sR : Solver D) (jL jR : Matrix (Fin D) (Fin D) ℂ)
    (hsL : ExactSolver S.uniL sL jL true) (hsR : ExactSolver S.uniR sR jR false) (P : Num) (hP : P.Ok) (svd : Svd)
    (lm rm : ℕ → MM ℂ D D) (F : SwFull S l r P.tol lm rm) :
    ∃ T, (S.calcC.bind fun S => S.calcK sL sR jL jR) = some T ∧ ∃ eta, T.projectionError P lm rm = some eta ∧
    (∀ n, ¬ (1 ≤ n ∧ n < S.N) → eta n = 0) ∧
    ∀ (svTol : ℝ) (dDmax Dmax : ℕ) (computeEta : Bool), ∃ bb, T.calcBB P svd lm rm svTol dDmax Dmax computeEta = some bb ∧
    ∀ n : ℕ, 1 ≤ n → n < S.N → ∃ X : Ten2 ℂ q q D D,
      LeftGauge2 (site n) (l ((n : ℤ) - 1)) X ∧ RightGauge2 (site ((n : ℤ) + 1)) (r ((n : ℤ) + 1)) X ∧
      (∀ (c : ℤ) (w : ℕ) (Z : Ten2 ℂ q q D D), c + S.hamSites ≤ n + 2 → (n : ℤ) + S.hamSites ≤ c + w →
        LeftGauge2 (site n) (l ((n : ℤ) - 1)) Z → RightGauge2 (site ((n : ℤ) + 1)) (r ((n : ℤ) + 1)) Z →
        sitePairBraket site l r c w n n Z X = sitePairHam site l r c w (fun j => (H j).sites) (fun j => (H j).op) n Z) ∧
      (∀ (c : ℤ) (w : ℕ), c ≤ n → (n : ℤ) + 1 < c + w → sitePairBraket site l r c w n n X X = eta n) ∧
      (((Dmax ≤ D ∨ ¬ D < q * D ∨ ∃ Y : Matrix (Fin (q * D - D)) (Fin (D * q - D)) ℂ, svd Y = none) ∧
          (bb n).d = 0 ∧ (bb n).B12 = none ∧ (bb n).B21 = none) ∨
        ∃ (B1 : Fin q → Matrix (Fin D) (Fin (bb n).d) ℂ) (B2 : Fin q → Matrix (Fin (bb n).d) (Fin D) ℂ) (m : ℕ) (sv : Fin m → ℝ),
        (bb n).B12 = some B1 ∧ (bb n).B21 = some B2 ∧
        (∀ i, 0 ≤ sv i) ∧ (∀ i j, i ≤ j → sv j ≤ sv i) ∧
        (bb n).d = min (Finset.univ.filter fun i => svTol < sv i).card (min (Dmax - D) dDmax) ∧
        eta n = ∑ i, (sv i : ℂ) ^ 2 ∧
        ∀ (c : ℤ) (w : ℕ), c ≤ n → (n : ℤ) + 1 < c + w →
          sitePairBraket site l r c w n n (fun s t => X s t - B1 s * B2 t) (fun s t => X s t - B1 s * B2 t)
            = ∑ i : Fin m, if (bb n).d ≤ (i : ℕ) then (sv i : ℂ) ^ 2 else 0) := by
  obtain ⟨T, hT, o⟩ := sw_calcK h sL sR jL jR hsL hsR
  have hTN := o.frame.1
  have hs23 := UHam.sites_le (H 0)
  rw [h.sites 0] at hs23
  obtain ⟨eta, he⟩ : ∃ eta, T.projectionError P lm rm = some eta :=
    foldlM_isSome _ _ fun x n a b => projStep_isSome h o a (by omega) x
  refine ⟨T, hT, eta, he, fun n hn => (projectionError_spec he).2 n (by rwa [hTN]), fun svTol dDmax Dmax ce => ?_⟩
  obtain ⟨bb, hbb⟩ : ∃ bb, T.calcBB P svd lm rm svTol dDmax Dmax ce = some bb :=
    foldlM_isSome _ _ fun x n a b => bbStep_isSome h o a (by omega) x
  refine ⟨bb, hbb, fun n h1 hN => ?_⟩
  have d := swPairData hP h F h1 hN
  have hlh := h.chain.herm h.posL h.hermL
  have bA := ((swCalcBB_spec hbb).1 n h1 (by omega)).cases
  have nothing : bb n = .nothing → (bb n).d = 0 ∧ (bb n).B12 = none ∧ (bb n).B21 = none := by
    intro e
    rw [e]
    exact ⟨rfl, rfl, rfl⟩
  rcases (projectionError_spec he).1 n h1 (by omega) with ⟨Vl, Vr, Y, ⟨hVl, hVr, hY⟩, hE⟩ | ⟨hq, hE⟩
  · have hVl0 := hVl
    have hVr0 := hVr
    rw [o.reads.ga] at hVl hVr
    have hov : ∀ y y', ov2 (l ((n : ℤ) - 1)) (r ((n : ℤ) + 1))
        (wten (P.roots (lm (n - 1))).2 (P.roots (rm (n + 1))).2 Vl Vr y')
        (wten (P.roots (lm (n - 1))).2 (P.roots (rm (n + 1))).2 Vl Vr y) = adot y' y := fun y y' =>
      ov2_wten hVl hVr d.hl d.Rl.si_herm d.Rl.si_mul d.fl.1 d.Rr.si_herm d.Rr.si_mul d.fr.1 y y'
    refine ⟨wten (P.roots (lm (n - 1))).2 (P.roots (rm (n + 1))).2 Vl Vr Y,
      wten_left hVl d.Rl.s_herm d.Rl.mul_si Vr _, wten_right hVr d.Rr.si_mul Vl _, fun c w Z hc hw hZl hZr => ?_,
      fun c w hc hw => ?_, ?_⟩
    · have hZw := wten_surj hVl hVr d.Rl.s_herm d.fl.2 (mul_eq_one_comm.mp d.fl.1) d.Rr.s_herm d.hr d.fr.2 d.fr.1 d.ul d.ur Z hZl hZr
      rw [sitePairHam_eq h o h1 hN d.Rl d.Rr hlh d.hr hY hc hw Z hZl hZr _ hZw.symm,
        sitePair_same Z h.chain.stepL h.chain.stepR _ (by omega) (by omega)]
      conv_lhs => rw [← hZw]
      exact hov _ _
    · rw [sitePair_same _ h.chain.stepL h.chain.stepR _ hc hw, hov, hE]
    · rcases bA with ⟨e1, e2⟩ | ⟨hD, Vl', Vr', Y', f, ⟨g1, g2, g3⟩, hf, B1, B2, e, hw⟩
      · exact Or.inl ⟨e1, nothing e2⟩
      obtain rfl := Option.some.inj (hVl0.symm.trans g1)
      obtain rfl := Option.some.inj (hVr0.symm.trans g2)
      obtain rfl := Option.some.inj (hY.symm.trans g3)
      right
      rw [e]
      refine ⟨B1, B2, _, f.sv, rfl, rfl, f.nonneg, f.desc, rfl, ?_, fun c w hc1 hw1 => ?_⟩
      · rw [hE]
        have : adot Y Y = adot (svdMk f fun i => (f.sv i : ℂ)) (svdMk f fun i => (f.sv i : ℂ)) :=
          congrArg₂ adot (svdMk_sv f).symm (svdMk_sv f).symm
        rw [this, adot_svdMk]
        refine Finset.sum_congr rfl fun i _ => ?_
        rw [Complex.star_def, Complex.conj_ofReal, sq]
      · have hsub : (fun s t => wten (P.roots (lm (n - 1))).2 (P.roots (rm (n + 1))).2 Vl Vr Y s t - B1 s * B2 t)
            = wten (P.roots (lm (n - 1))).2 (P.roots (rm (n + 1))).2 Vl Vr (Y - svdMk f fun i =>
              if (i : ℕ) < min (svCount f.sv svTol) (min (Dmax - D) dDmax) then (f.sv i : ℂ) else 0) := by
          funext s t
          have e : B1 s * B2 t = _ := congrFun (congrFun hw s) t
          rw [e]
          simp only [wten, Matrix.mul_sub, Matrix.sub_mul]
        rw [hsub, sitePair_same _ h.chain.stepL h.chain.stepR _ hc1 hw1, hov]
        exact adot_trunc f _
  · have z0 : ∀ Z : Ten2 ℂ q q D D, LeftGauge2 (site n) (l ((n : ℤ) - 1)) Z → Z = 0 := sitePair_trivial d hq
    have hbr : ∀ (c : ℤ) (w : ℕ), c ≤ n → (n : ℤ) + 1 < c + w → ∀ X, sitePairBraket site l r c w n n 0 X = 0 := by
      intro c w hc hw X
      rw [sitePair_same _ h.chain.stepL h.chain.stepR _ hc hw, ov2]
      simp [adot_zero_right]
    refine ⟨0, by simp [LeftGauge2], by simp [RightGauge2], fun c w Z hc hw hZl hZr => ?_, fun c w hc hw => ?_, Or.inl ?_⟩
    · rw [z0 Z hZl, hbr c w (by omega) (by omega), sitePairHam]
      refine (Finset.sum_eq_zero fun a ha => ?_).symm
      rw [Finset.mem_filter] at ha
      rw [closedElem]
      refine Finset.sum_eq_zero fun s _ => ?_
      simp only [sitePairProd_zero c (n : ℤ) (w := a + (H (c + a)).sites + (w - (H (c + a)).sites - a)) (by omega) (by omega)]
      simp
    · rw [hbr c w hc hw, hE]
    · rcases bA with ⟨e1, e2⟩ | ⟨hD, Vl', Vr', Y', f, ⟨g1, g2, g3⟩, -⟩
      · exact ⟨e1, nothing e2⟩
      · rw [calcVshl, if_pos (by omega)] at g1
        exact absurd g1 (by simp)

/-- **C84** (it grows).  If `H|ψ⟩` has a component on the gauge-fixed pairs of the sites `n`, `n + 1`, the bond between them grows, up to
the limits, if `sv_tol` is zero. -/
theorem C84_grows (h : SwReady S H site l r) (sL sR : Solver D) (jL jR : Matrix (Fin D) (Fin D) ℂ)
    (hsL : ExactSolver S.uniL sL jL true) (hsR : ExactSolver S.uniR sR jR false) (P : Num) (hP : P.Ok) (svd : Svd)
    (hsvd : ∀ ⦃m n : ℕ⦄ (Y : Matrix (Fin m) (Fin n) ℂ), (svd Y).isSome)
    (lm rm : ℕ → MM ℂ D D) (F : SwFull S l r P.tol lm rm) (T : SwT q D) (hT : (S.calcC.bind fun S => S.calcK sL sR jL jR) = some T)
    (dDmax Dmax : ℕ) (hd : 0 < dDmax) (hD : D < Dmax) (n : ℕ) (h1 : 1 ≤ n) (hN : n < S.N) (c : ℤ) (w : ℕ) (Z : Ten2 ℂ q q D D)
    (hc : c + S.hamSites ≤ n + 2) (hw : (n : ℤ) + S.hamSites ≤ c + w)
    (hZl : LeftGauge2 (site n) (l ((n : ℤ) - 1)) Z) (hZr : RightGauge2 (site ((n : ℤ) + 1)) (r ((n : ℤ) + 1)) Z)
    (hZ : sitePairHam site l r c w (fun j => (H j).sites) (fun j => (H j).op) n Z ≠ 0) (dtau B)
    (hB : B = none → ∃ out, T.calcB P lm rm = some out) :
    ∃ G, T.takeStepDyn P svd lm rm dtau B dDmax Dmax 0 = some G ∧ 0 < G.dD n := by
  obtain ⟨T', hT', eta, he, -, hall⟩ := C84_projection h sL sR jL jR hsL hsR P hP svd lm rm F
  obtain rfl : T = T' := Option.some.inj (hT.symm.trans hT')
  obtain ⟨bb, hbb, hn⟩ := hall 0 dDmax Dmax false
  obtain ⟨X, -, -, x1, x2, x3⟩ := hn n h1 hN
  obtain ⟨F', hF'⟩ : ∃ F', B.elim ((T.calcB P lm rm).map SwTanOut.B) some = some F' := by
    cases B with
    | some F' => exact ⟨F', rfl⟩
    | none =>
      obtain ⟨out, ho⟩ := hB rfl
      exact ⟨out.B, by rw [Option.elim_none, ho]; rfl⟩
  refine ⟨_, by unfold SwT.takeStepDyn; rw [hF', Option.bind_some, hbb]; rfl, ?_⟩
  have ed : (bb n).d = dDOf (q := fun _ => q) (D := fun _ => D) (fun k => bb (k + 1)) n := by
    obtain ⟨k, rfl⟩ : ∃ k, n = k + 1 := ⟨n - 1, by omega⟩
    rfl
  show 0 < dDOf (q := fun _ => q) (D := fun _ => D) (fun k => bb (k + 1)) n
  rw [← ed]
  have hs23 := UHam.sites_le (H 0)
  rw [h.sites 0] at hs23
  have d := swPairData hP h F h1 hN
  rcases x3 with ⟨hno, -⟩ | ⟨B1, B2, m, sv, -, -, s0, -, e1, e2, -⟩
  · exfalso
    rcases hno with hno | hno | ⟨Y, hY⟩
    · omega
    · have := sitePair_trivial d hno Z hZl
      refine hZ ?_
      rw [← x1 c w Z hc hw hZl hZr, this, sitePair_same _ h.chain.stepL h.chain.stepR _ (by omega) (by omega), ov2]
      simp [adot_zero_right]
    · have := hsvd Y
      rw [hY] at this
      simp at this
  · rw [e1]
    refine lt_min ?_ (lt_min (by omega) hd)
    rw [Finset.card_pos]
    by_contra hne
    rw [Finset.not_nonempty_iff_eq_empty, Finset.filter_eq_empty_iff] at hne
    have hz : eta n = 0 := by
      rw [e2]
      refine Finset.sum_eq_zero fun i _ => ?_
      rw [le_antisymm (not_lt.1 (hne (Finset.mem_univ i))) (s0 i)]
      simp
    rcases (projectionError_spec he).1 n h1 (by
      obtain ⟨T', hT', o⟩ := sw_calcK h sL sR jL jR hsL hsR
      obtain rfl : T = T' := Option.some.inj (hT.symm.trans hT')
      rw [o.frame.1]; exact hN) with ⟨Vl, Vr, Y, hY, hE⟩ | ⟨hq, -⟩
    · have hY0 : Y = 0 := by
        rw [hE] at hz
        exact eq_zero_of_adot hz
      obtain ⟨T', hT', o⟩ := sw_calcK h sL sR jL jR hsL hsR
      obtain rfl : T = T' := Option.some.inj (hT.symm.trans hT')
      have hVl := hY.1
      have hVr := hY.2.1
      rw [o.reads.ga] at hVl hVr
      have hZw := wten_surj hVl hVr d.Rl.s_herm d.fl.2 (mul_eq_one_comm.mp d.fl.1) d.Rr.s_herm d.hr d.fr.2 d.fr.1 d.ul d.ur Z hZl hZr
      refine hZ ?_
      rw [sitePairHam_eq h o h1 hN d.Rl d.Rr (h.chain.herm h.posL h.hermL) d.hr hY.2.2 hc hw Z hZl hZr _ hZw.symm, hY0, adot_zero_right]
    · have := sitePair_trivial d hq Z hZl
      refine hZ ?_
      rw [← x1 c w Z hc hw hZl hZr, this, sitePair_same _ h.chain.stepL h.chain.stepR _ (by omega) (by omega), ov2]
      simp [adot_zero_right]

end

/-- The hypotheses of `C84_projection` hold for a window in an entangled chain with any Hamiltonian with terms on two sites. -/
example (o0 o1 o2 o3 oB : Fin 4 → Fin 4 → Fin 4 → Fin 4 → ℂ) :
    ∃ T eta bb, ((demoSwP 2 [.two o0, .two o1, .two o2, .two o3] (.two oB)).calcC.bind fun S =>
        S.calcK (fun _ b _ => (b, 0)) (fun _ b _ => (b, 0)) 0 0) = some T ∧
      T.projectionError demoNum (fun _ => .dense ((demoPauli4 (.two oB)).l 0)) (fun _ => .eye 2) = some eta ∧
      T.calcBB demoNum someSvd (fun _ => .dense ((demoPauli4 (.two oB)).l 0)) (fun _ => .eye 2) 0 16 4 false = some bb := by
  obtain ⟨T, hT, eta, he, -, hall⟩ := C84_projection
    (demoSwP_ready 2 [.two o0, .two o1, .two o2, .two o3] (.two oB) (Or.inl rfl) rfl rfl (by simp [UHam.sites]))
    (fun _ b _ => (b, 0)) (fun _ b _ => (b, 0)) 0 0 (demoPauli4_exactL _) (demoPauli4_exact _) demoNum demoNum_ok someSvd _ _
    (demoSwP_full _ _ _)
  obtain ⟨bb, hbb, -⟩ := hall 0 16 4 false
  exact ⟨T, eta, bb, hT, he, hbb⟩

/-- The same with terms on three sites. -/
example (o0 o1 o2 o3 o4 oB : Fin 4 → Fin 4 → Fin 4 → Fin 4 → Fin 4 → Fin 4 → ℂ) :
    ∃ T eta bb, ((demoSwP 3 [.three o0, .three o1, .three o2, .three o3, .three o4] (.three oB)).calcC.bind fun S =>
        S.calcK (fun _ b _ => (b, 0)) (fun _ b _ => (b, 0)) 0 0) = some T ∧
      T.projectionError demoNum (fun _ => .dense ((demoPauli4 (.three oB)).l 0)) (fun _ => .eye 2) = some eta ∧
      T.calcBB demoNum someSvd (fun _ => .dense ((demoPauli4 (.three oB)).l 0)) (fun _ => .eye 2) 0 16 4 false = some bb := by
  obtain ⟨T, hT, eta, he, -, hall⟩ := C84_projection
    (demoSwP_ready 3 [.three o0, .three o1, .three o2, .three o3, .three o4] (.three oB) (Or.inr rfl) rfl rfl (by simp [UHam.sites]))
    (fun _ b _ => (b, 0)) (fun _ b _ => (b, 0)) 0 0 (demoPauli4_exactL _) (demoPauli4_exact _) demoNum demoNum_ok someSvd _ _
    (demoSwP_full _ _ _)
  obtain ⟨bb, hbb, -⟩ := hall 0 16 4 false
  exact ⟨T, eta, bb, hT, he, hbb⟩

end EvoMPS
