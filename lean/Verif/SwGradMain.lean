import Verif.SwGradSite
import Verif.FidelityLemmas
import Verif.Props.Tangent

/-!
# The tangent vector of a site of the window
-/

set_option linter.unusedSectionVars false

namespace EvoMPS

open Matrix Uni
open scoped ComplexOrder

variable {q D : ℕ}

/-- The matrix objects `lm n`, `rm n` are the environments of the cuts of the window, and these are well above the tolerance. -/
structure SwFull (S : SwT q D) (l r : ℤ → Matrix (Fin D) (Fin D) ℂ) (tol : ℝ) (lm rm : ℕ → MM ℂ D D) : Prop where
  lobj : ∀ n : ℕ, n ≤ S.N → (lm n).toArray = l n
  robj : ∀ n : ℕ, n ≤ S.N → (rm n).toArray = r n
  labove : ∀ n : ℕ, n ≤ S.N → (l n - (tol : ℂ) • 1).PosDef
  rabove : ∀ n : ℕ, n ≤ S.N → (r n - (tol : ℂ) • 1).PosDef

theorem posDef_of_above {m : ℕ} {x : Matrix (Fin m) (Fin m) ℂ} {tol : ℝ} (h0 : 0 ≤ tol) (hx : (x - (tol : ℂ) • 1).PosDef) : x.PosDef := by
  have : ((tol : ℂ) • (1 : Matrix (Fin m) (Fin m) ℂ)).PosSemidef := Matrix.PosSemidef.one.smul (by exact_mod_cast h0)
  have := hx.add_posSemidef this
  rwa [sub_add_cancel] at this

namespace Uni

variable {S T : SwT q D} {H : ℤ → UHam q} {site : ℤ → Ten ℂ q D D} {l r : ℤ → Matrix (Fin D) (Fin D) ℂ}

theorem tanInner_pair (n : ℤ) (B B' : Ten ℂ q D D) : tanInner l r n B B' = pair (fun s => l (n - 1) * B' s * r n) B := rfl

theorem pair_sub_smul (g g' x : Ten ℂ q D D) (c : ℂ) : pair (fun s => g s - c • g' s) x = pair g x - c * pair g' x := by
  simp only [pair, Matrix.sub_mul, Matrix.smul_mul, Matrix.trace_sub, Matrix.trace_smul, Finset.sum_sub_distrib, smul_eq_mul,
    ← Finset.mul_sum]

theorem tanInner_adot {n : ℤ} (hl : (l (n - 1))ᴴ = l (n - 1)) (B B' : Ten ℂ q D D) :
    tanInner l r n B B' = adot (l (n - 1)) (∑ s, B' s * r n * (B s)ᴴ) := by
  rw [adot_eq_trace, hl, Matrix.mul_sum, Matrix.trace_sum, tanInner]
  simp only [Matrix.mul_assoc]

/-- The terms touching a site. -/
theorem touch_exists (h : SwReady S H site l r) (o : SwEnergyOut S T H site l r) (n : ℕ) (h1 : 1 ≤ n) (hN : n ≤ S.N) :
    ∃ t : Ten ℂ q D D,
      (∀ B, sumZ (fun j => gradTerm site l r n B j (H j).sites (H j).op) (n + 1 - S.hamSites) S.hamSites = pair t B) ∧
      (∀ {v : ℕ} {l_s r_s l_si r_si : Matrix (Fin D) (Fin D) ℂ}, l_si * l ((n : ℤ) - 1) = l_s → r n * r_si = r_s → l_siᴴ = l_si →
        (∀ Vsh : Fin q → Matrix (Fin D) (Fin v) ℂ, T.calcXr n Vsh l_s r_s l_si r_si
          = some (l_si * ∑ s, (t s + l ((n : ℤ) - 1) * site n s * T.K (n + 1)) * (r_si * Vsh s))) ∧
        (∀ Vsh : Fin q → Matrix (Fin v) (Fin D) ℂ, T.calcXleft n Vsh l_s r_s l_si r_si
          = some (∑ s, Vsh s * (l_si * (t s + T.Kl (n - 1) * site n s * r n) * r_si)))) ∧
      (∀ (P : Num) (lm rm : ℕ → MM ℂ D D), n = S.nc → l ((S.nc : ℤ) - 1) * P.invOf (lm (S.nc - 1)) = 1 →
        P.invOf (rm S.nc) * r S.nc = 1 →
        ∃ Bc, T.calcBCentre P lm rm = some (Bc, adot (l ((S.nc : ℤ) - 1)) (epsR (r S.nc) Bc Bc)) ∧
          ∀ s, l ((n : ℤ) - 1) * Bc s * r n = t s + l ((n : ℤ) - 1) * site n s * T.K (n + 1)
            + T.Kl (n - 1) * site n s * r n
            - ((l n * T.K (n + 1)).trace + (T.Kl (n - 1) * r ((n : ℤ) - 1)).trace
              + sumZ (fun j => termEnergy site l r j (H j).sites (H j).op) (n + 1 - S.hamSites) S.hamSites
              - (if S.hamSites = 2 then 0 else
                termEnergy site l r ((n : ℤ) - 1) (H ((n : ℤ) - 1)).sites (H ((n : ℤ) - 1)).op
                + termEnergy site l r ((n : ℤ) - 2) (H ((n : ℤ) - 2)).sites (H ((n : ℤ) - 2)).op
                - T.hExpect (n - 1) - T.hExpect (pmod ((n : ℤ) - 2) (S.N + 1))))
              • (l ((n : ℤ) - 1) * site n s * r n)) := by
  have hlh := h.chain.herm h.posL h.hermL
  have hs23 : S.hamSites = 2 ∨ S.hamSites = 3 := by
    have := UHam.sites_le (H 0)
    rw [h.sites 0] at this
    omega
  rcases hs23 with hs | hs
  · have : ∀ j, ∃ o2, H j = .two o2 := fun j => by
      have := h.sites j
      cases hj : H j with
      | two a => exact ⟨a, rfl⟩
      | three a => rw [hj, hs] at this; simp [UHam.sites] at this
    choose o2 hH using this
    refine ⟨touch2 o2 site l r n, ?_, ?_, ?_⟩
    · intro B
      rw [hs]
      exact touch2_sum site l r hH B
    · intro v l_s r_s l_si r_si hl hr _
      exact ⟨fun Vsh => calcXr_two h o h1 hN hl hr hH Vsh, fun Vsh => calcXl_two h o h1 hN hl hr hH Vsh⟩
    · intro P lm rm hn hli hri
      subst hn
      obtain ⟨Bc, b1, b2⟩ := centre_two h o hli hri hH hlh
      refine ⟨Bc, b1, fun s => ?_⟩
      rw [b2 s, if_pos hs, hs, sub_zero, show (S.nc : ℤ) + 1 - (2 : ℕ) = S.nc - 1 by push_cast; ring, sumZ_succ', sumZ_succ', sumZ_zero,
        show (S.nc : ℤ) - 1 + 1 = S.nc by ring]
      congr 2
      ring
  · have : ∀ j, ∃ o3, H j = .three o3 := fun j => by
      have := h.sites j
      cases hj : H j with
      | two a => rw [hj, hs] at this; simp [UHam.sites] at this
      | three a => exact ⟨a, rfl⟩
    choose o3 hH using this
    refine ⟨touch3 o3 site l r n, ?_, ?_, ?_⟩
    · intro B
      rw [hs]
      exact touch3_sum site l r hH B
    · intro v l_s r_s l_si r_si hl hr hsi
      exact ⟨fun Vsh => calcXr_three h o h1 hN hl hr hH hlh Vsh, fun Vsh => calcXl_three h o h1 hN hl hr hH hsi Vsh⟩
    · intro P lm rm hn hli hri
      subst hn
      obtain ⟨Bc, b1, b2⟩ := centre_three h o hli hri hH hlh
      refine ⟨Bc, b1, fun s => ?_⟩
      rw [b2 s, if_neg (by omega), hs, show (S.nc : ℤ) + 1 - (3 : ℕ) = S.nc - 2 by push_cast; ring, sumZ_succ', sumZ_succ', sumZ_succ',
        sumZ_zero, show (S.nc : ℤ) - 2 + 1 + 1 = S.nc by ring, show (S.nc : ℤ) - 2 + 1 = S.nc - 1 by ring]
      congr 2
      ring

/-- The tensor of one site. -/
theorem sw_site (h : SwReady S H site l r) (o : SwEnergyOut S T H site l r) {P : Num} (hP : P.Ok) {lm rm : ℕ → MM ℂ D D}
    (F : SwFull S l r P.tol lm rm)
    (mixL : BlockMixing S.uniL.L S.uniL.A (S.uniL.l (S.uniL.L - 1)) (S.uniL.r (S.uniL.L - 1)))
    (mixR : BlockMixing S.uniR.L S.uniR.A (S.uniR.l (S.uniR.L - 1)) (S.uniR.r (S.uniR.L - 1)))
    (n : ℕ) (h1 : 1 ≤ n) (hN : n ≤ S.N) :
    ∃ (Bn : Option (Ten ℂ q D D × ℂ)) (b : Ten ℂ q D D), T.calcBn P lm rm n = some Bn ∧ (Bn.map Prod.fst).getD 0 = b ∧
      (n < S.nc → LeftGauge (site n) b (l ((n : ℤ) - 1))) ∧ (S.nc < n → RightGauge (site n) b (r n)) ∧
      (Bn.map Prod.snd).getD 0 = tanInner l r n b b ∧
      ∀ B', (n < S.nc → LeftGauge (site n) B' (l ((n : ℤ) - 1))) → (S.nc < n → RightGauge (site n) B' (r n)) →
        Filter.Tendsto (fun p : ℕ × ℕ => sumZ (fun j => gradTerm site l r n B' j (H j).sites (H j).op
          - termEnergy site l r j (H j).sites (H j).op * tanInner l r n B' (site n)) (2 - S.hamSites - p.1 * S.uniL.L)
          (p.1 * S.uniL.L + (S.N + S.hamSites - 1) + p.2 * S.uniR.L)) (Filter.atTop ×ˢ Filter.atTop)
          (nhds (tanInner l r n B' b - (if S.hamSites = 2 ∨ n ≠ S.nc then 0 else
                termEnergy site l r ((n : ℤ) - 1) (H ((n : ℤ) - 1)).sites (H ((n : ℤ) - 1)).op
                + termEnergy site l r ((n : ℤ) - 2) (H ((n : ℤ) - 2)).sites (H ((n : ℤ) - 2)).op
                - T.hExpect (n - 1) - T.hExpect (pmod ((n : ℤ) - 2) (S.N + 1))) * tanInner l r n B' (site n))) := by
  have hn1 : ((n - 1 : ℕ) : ℤ) = (n : ℤ) - 1 := by omega
  have lA := F.labove (n - 1) (by omega)
  have rA := F.rabove n hN
  have lobj := F.lobj (n - 1) (by omega)
  have robj := F.robj n hN
  rw [hn1] at lA lobj
  have lP := posDef_of_above hP.tol lA
  have rP := posDef_of_above hP.tol rA
  have lh : (l ((n : ℤ) - 1))ᴴ = l ((n : ℤ) - 1) := lP.isHermitian
  have rh : (r n)ᴴ = r n := rP.isHermitian
  have gl : ∀ B', LeftGauge (site n) B' (l ((n : ℤ) - 1)) → gradEnvL site l n B' n = 0 := fun B' hB => gauge_envL rfl lh hB
  have gr : ∀ B', RightGauge (site n) B' (r n) → gradEnvR site r n B' ((n : ℤ) - 1) = 0 := fun B' hB => gauge_envR rfl rh hB
  have hTA : T.A n = site n := getW h o h1 hN
  have hTnc := o.frame.2.1
  obtain ⟨t, t1, t2, t3⟩ := touch_exists h o n h1 hN
  have lim := fun B' (a : n < S.nc → LeftGauge (site n) B' (l ((n : ℤ) - 1))) (b : S.nc < n → RightGauge (site n) B' (r n)) =>
    grad_limit h o mixL mixR n h1 hN B' (fun hh => gl B' (a hh)) (fun hh => gr B' (b hh))
  simp only [sumZ_sub_mul, t1] at lim
  simp only [sumZ_sub_mul]
  have rootl := roots_spec hP (lm (n - 1)) (by rw [lobj]; exact lP.isHermitian)
  have rootr := roots_spec hP (rm n) (by rw [robj]; exact rP.isHermitian)
  rw [lobj] at rootl
  rw [robj] at rootr
  obtain ⟨lsi, lss⟩ := rootl.full lA
  obtain ⟨rsi, rss⟩ := rootr.full rA
  have lsi' := mul_eq_one_comm.1 lsi
  have rsi' := mul_eq_one_comm.1 rsi
  unfold SwT.calcBn
  rw [hTnc]
  rcases lt_trichotomy n S.nc with hc | hc | hc
  · -- left gauge
    rw [if_neg (by omega)]
    simp only []
    rw [if_neg (by omega), hTA]
    have hu : IsUnit (∑ s, (site n s)ᴴ * l ((n : ℤ) - 1) * site n s).det := by
      rw [← h.chain.stepL n]
      exact isUnit_iff_ne_zero.2 (posDef_of_above hP.tol (F.labove n hN)).det_pos.ne'
    have c0 : ∀ B', LeftGauge (site n) B' (l ((n : ℤ) - 1)) → tanInner l r n B' (site n) = 0 := fun B' hB => by
      rw [← tanInner_envL, gl B' hB]; simp
    cases hV : calcVshl P.qr (site n) (P.roots (lm (n - 1))).1 with
    | none =>
      refine ⟨none, 0, rfl, rfl, fun _ => by simp [LeftGauge], fun _ => by omega, by simp [tanInner], fun B' a b => ?_⟩
      have hz : B' = 0 := by
        funext s
        have hle : ¬ D < q * D := fun hlt => by
          obtain ⟨V, hV'⟩ := calcVshl_isSome (qr := P.qr) (A := site n) (l_s := (P.roots (lm (n - 1))).1) hlt
          rw [hV] at hV'; exact absurd hV' (by simp)
        have := vshl_trivial P.qr hle (by rw [rootl.s_herm, lss]; exact hu) (fun s => (P.roots (lm (n - 1))).1 * B' s) (by
          rw [← a hc]
          refine Finset.sum_congr rfl fun s _ => ?_
          rw [rootl.s_herm, Matrix.mul_assoc, ← Matrix.mul_assoc (P.roots (lm (n - 1))).1, lss, ← Matrix.mul_assoc]) s
        have e := congrArg ((P.roots (lm (n - 1))).2 * ·) this
        simp only [← Matrix.mul_assoc, lsi', Matrix.one_mul, Matrix.mul_zero] at e
        exact e
      have := lim B' a b
      rw [c0 B' (a hc), if_pos hc.le, if_neg (by omega)] at this
      rw [c0 B' (a hc)]
      convert this using 2
      subst hz
      rw [gradEnvR_at]
      simp [pair, tanInner]
    | some Vsh =>
      have hx := (t2 (v := q * D - D) rootl.si_mul rootr.mul_si rootl.si_herm).2 Vsh
      set x := ∑ s, Vsh s * ((P.roots (lm (n - 1))).2 * (t s + T.Kl (n - 1) * site n s * r n) * (P.roots (rm n)).2) with hxdef
      have ov : ∀ x', tanInner l r n (tenL (P.roots (lm (n - 1))).2 (P.roots (rm n)).2 Vsh x')
          (tenL (P.roots (lm (n - 1))).2 (P.roots (rm n)).2 Vsh x) = adot x' x := fun x' => by
        rw [tanInner_adot lh]
        exact tenL_overlap hV rootr.si_herm rootr.si_mul rsi lh rootl.si_herm rootl.mul_si lsi' x x'
      simp only [hx]
      refine ⟨_, tenL (P.roots (lm (n - 1))).2 (P.roots (rm n)).2 Vsh x, rfl, rfl,
        fun _ => tenL_gauge hV rootl.s_herm rootl.mul_si _ x, fun _ => by omega, (ov x).symm, fun B' a b => ?_⟩
      have := lim B' a b
      rw [c0 B' (a hc), if_pos hc.le, if_neg (by omega)] at this
      rw [c0 B' (a hc)]
      convert this using 2
      have hs := tenL_surj hV rootl.s_herm lsi' lss rsi hu B' (a hc)
      rw [trace_gradEnvR, mul_zero, mul_zero, mul_zero, sub_zero, sub_zero, sub_zero, add_zero, add_comm, ← pair_add]
      conv_lhs => rw [← hs]
      conv_rhs => rw [← hs]
      rw [ov, pair_tenL _ rootl.si_herm rootr.si_herm]
      rfl
  · -- centre
    subst hc
    rw [if_pos rfl]
    have hli : l ((S.nc : ℤ) - 1) * P.invOf (lm (S.nc - 1)) = 1 := by
      have := (invOf_spec P (lm (S.nc - 1)) (by rw [lobj]; exact lP.isHermitian) (by rw [lobj]; exact lP.det_pos.ne')).2
      rwa [lobj] at this
    have hri : P.invOf (rm S.nc) * r S.nc = 1 := by
      have := (invOf_spec P (rm S.nc) (by rw [robj]; exact rP.isHermitian) (by rw [robj]; exact rP.det_pos.ne')).1
      rwa [robj] at this
    obtain ⟨Bc, b1, b2⟩ := t3 P lm rm rfl hli hri
    rw [b1]
    refine ⟨_, Bc, rfl, rfl, fun hc => by omega, fun hc => by omega, ?_, fun B' a b => ?_⟩
    · rw [tanInner_adot lh, ← epsR_eq]; rfl
    · have := lim B' a b
      rw [if_pos le_rfl, if_pos le_rfl] at this
      convert this using 2
      have e : tanInner l r S.nc B' Bc = pair (fun s => l ((S.nc : ℤ) - 1) * Bc s * r S.nc) B' := rfl
      simp only [b2] at e
      rw [e, pair_sub_smul, trace_gradEnvR, trace_gradEnvL]
      have e2 : ∀ a b c : Ten ℂ q D D, pair (fun s => a s + b s + c s) B' = pair a B' + pair b B' + pair c B' := fun a b c => by
        rw [← pair_add, ← pair_add]; rfl
      rw [e2, ← tanInner_pair]
      by_cases hs : S.hamSites = 2
      · rw [if_pos hs, if_pos (Or.inl hs)]; ring
      · rw [if_neg hs, if_neg (by simp [hs])]; ring
  · -- right gauge
    rw [if_neg (by omega)]
    simp only []
    rw [if_pos (by omega), hTA]
    have hu : IsUnit (∑ s, site n s * r n * (site n s)ᴴ).det := by
      rw [← h.chain.stepR n, ← hn1]
      exact isUnit_iff_ne_zero.2 (posDef_of_above hP.tol (F.rabove (n - 1) (by omega))).det_pos.ne'
    have c0 : ∀ B', RightGauge (site n) B' (r n) → tanInner l r n B' (site n) = 0 := fun B' hB => by
      rw [← tanInner_envR, gr B' hB]; simp
    cases hV : calcVsh P.qr (site n) (P.roots (rm n)).1 with
    | none =>
      refine ⟨none, 0, rfl, rfl, fun _ => by omega, fun _ => by simp [RightGauge], by simp [tanInner], fun B' a b => ?_⟩
      have hz : B' = 0 := by
        funext s
        have hle : ¬ D < q * D := fun hlt => by
          obtain ⟨V, hV'⟩ := calcVsh_isSome (qr := P.qr) (A := site n) (r_s := (P.roots (rm n)).1) hlt
          rw [hV] at hV'; exact absurd hV' (by simp)
        have := vsh_trivial P.qr hle (by rw [rootr.s_herm, rss]; exact hu) (fun s => (P.roots (rm n)).1 * (B' s)ᴴ) (by
          rw [← rightGauge_conj rh (b hc)]
          refine Finset.sum_congr rfl fun s _ => ?_
          rw [rootr.s_herm, Matrix.mul_assoc, ← Matrix.mul_assoc (P.roots (rm n)).1, rss, Matrix.mul_assoc]) s
        have e := congrArg ((P.roots (rm n)).2 * ·) this
        simp only [← Matrix.mul_assoc, rsi', Matrix.one_mul, Matrix.mul_zero] at e
        exact conjTranspose_eq_zero.1 e
      have := lim B' a b
      rw [c0 B' (b hc), if_pos hc.le, if_neg (by omega)] at this
      rw [c0 B' (b hc)]
      convert this using 2
      subst hz
      rw [gradEnvL_at]
      simp [pair, tanInner]
    | some Vsh =>
      have hx := (t2 (v := D * q - D) rootl.si_mul rootr.mul_si rootl.si_herm).1 Vsh
      set x := (P.roots (lm (n - 1))).2 * ∑ s, (t s + l ((n : ℤ) - 1) * site n s * T.K (n + 1)) * ((P.roots (rm n)).2 * Vsh s) with hxdef
      have eT : (fun s => (P.roots (lm (n - 1))).2 * x * (Vsh s)ᴴ * (P.roots (rm n)).2)
          = tenR (P.roots (lm (n - 1))).2 (P.roots (rm n)).2 Vsh x := by
        funext s
        simp only [tenR, conjTranspose_mul, rootr.si_herm, Matrix.mul_assoc]
      have ov : ∀ x', tanInner l r n (tenR (P.roots (lm (n - 1))).2 (P.roots (rm n)).2 Vsh x')
          (tenR (P.roots (lm (n - 1))).2 (P.roots (rm n)).2 Vsh x) = adot x' x := fun x' => by
        rw [tanInner_adot lh]
        exact tenR_overlap hV rootr.si_herm rootr.si_mul rsi lh rootl.si_herm rootl.mul_si x x' (by rw [lsi', Matrix.one_mul])
      simp only [hx, Option.map_some, eT]
      refine ⟨_, tenR (P.roots (lm (n - 1))).2 (P.roots (rm n)).2 Vsh x, rfl, rfl,
        fun _ => by omega, fun _ => tenR_gauge hV rootr.si_herm rootr.si_mul _ x, (ov x).symm, fun B' a b => ?_⟩
      have := lim B' a b
      rw [c0 B' (b hc), if_pos hc.le, if_neg (by omega)] at this
      rw [c0 B' (b hc)]
      convert this using 2
      have hs := tenR_surj hV rootr.s_herm rootr.si_herm rsi rss rh lsi' hu B' (b hc)
      rw [trace_gradEnvL, mul_zero, mul_zero, mul_zero, sub_zero, sub_zero, sub_zero, zero_add, ← pair_add]
      conv_lhs => rw [← hs]
      conv_rhs => rw [← hs]
      rw [ov, pair_tenR _ rootl.si_herm]
      rfl

end Uni

end EvoMPS
