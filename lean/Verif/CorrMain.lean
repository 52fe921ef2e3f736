import Verif.CorrLemmas
import Verif.ContractsSpec

/-!
# Helper lemmas for the correlation length: the selected eigenvalues
-/

set_option linter.unusedSectionVars false

namespace EvoMPS.Uni

open Matrix Filter Topology

/-- The behaviour assumed of the solvers when several eigenvalues are wanted: in addition, `las.eigs` with `which='LM'` returns leading
eigenvalues, so that those it does not return are not larger in modulus than those it returns. -/
structure SpecLib.Lead {n : ℕ} (lib : SpecLib n) : Prop extends lib.Ok where
  lead : ∀ T ps, lib.eigs T = some ps → ∀ (μ : ℂ) v, v ≠ 0 → T v = some (μ • v) → (∃ p ∈ ps, p.1 = μ) ∨ ∀ p ∈ ps, ‖μ‖ ≤ ‖p.1‖

theorem someSpecLib_lead (n : ℕ) : (someSpecLib n).Lead where
  toOk := someSpecLib_ok n
  lead T ps h μ v h1 h2 := by
    right
    obtain ⟨p, hp, hm⟩ := ((someSpecLib_ok n).eigs T ps h).2 μ v h1 h2
    simp only [someSpecLib] at h
    split at h
    · simp only [Option.some.injEq] at h
      subst h
      intro p' hp'
      rw [List.mem_singleton.1 hp']
      rwa [List.mem_singleton.1 hp] at hm
    · cases h

variable {q D : ℕ}

theorem largestEigs_spec {lib : SpecLib (D * D)} (hlib : lib.Lead) {o : SpecOpts} {S : UMPS ℂ q D} (hL : 0 < S.L) {ps : EigPairs (D * D)}
    (h : largestEigs lib o false S S = some ps) :
    (∀ p ∈ ps, (reshape p.2 : Matrix (Fin D) (Fin D) ℂ) ≠ 0 ∧ chainTransfer S.L S.L S.A S.A 0 S.L (reshape p.2) = p.1 • reshape p.2) ∧
    ∀ (μ : ℂ) x, x ≠ 0 → chainTransfer S.L S.L S.A S.A 0 S.L x = μ • x → (∃ p ∈ ps, p.1 = μ) ∨ ∀ p ∈ ps, ‖μ‖ ≤ ‖p.1‖ := by
  obtain ⟨E, hE, e1, -, e3, -⟩ := dense_mixed S S hL hL
  rw [Nat.lcm_self] at e1
  have hrv : ∀ x : Matrix (Fin D) (Fin D) ℂ, x ≠ 0 → ravel x ≠ 0 := by
    intro x hx
    rw [← reshape_ne, reshape_ravel]
    exact hx
  have hrs : ∀ (μ : ℂ) (x : Matrix (Fin D) (Fin D) ℂ), chainTransfer S.L S.L S.A S.A 0 S.L x = μ • x → E *ᵥ ravel x = μ • ravel x := by
    intro μ x hx
    rw [← ravel_reshape (E *ᵥ ravel x), e1, reshape_ravel, hx, ravel_smul]
  unfold largestEigs at h
  by_cases hd : (D * D ≤ o.cutoff ∨ o.forceDense) ∧ ¬ o.forceSparse
  · rw [if_pos hd, hE, Option.bind_some] at h
    obtain ⟨k1, k2⟩ := hlib.eig E false ps h
    simp only [Bool.false_eq_true, if_false] at k1 k2
    refine ⟨fun p hp => ⟨reshape_ne.mpr (k1 p hp).1, by rw [← e1, (k1 p hp).2, reshape_smul]⟩, fun μ x hx hμ => Or.inl ?_⟩
    exact k2 μ (ravel x) (hrv x hx) (hrs μ x hμ)
  · rw [if_neg hd, if_neg (by omega)] at h
    obtain ⟨k1, -⟩ := hlib.eigs _ ps h
    have k2 := hlib.lead _ ps h
    simp only [e3] at k1 k2
    refine ⟨fun p hp => ⟨reshape_ne.mpr (k1 p hp).1, by rw [← e1, Option.some.inj (k1 p hp).2, reshape_smul]⟩, fun μ x hx hμ => ?_⟩
    exact k2 μ (ravel x) (hrv x hx) (by rw [hrs μ x hμ])

/-- The eigenvalues of a transfer map whose powers converge. -/
theorem eigen_conv {L : ℕ} {A : ℕ → Ten ℂ q D D} {l r : Matrix (Fin D) (Fin D) ℂ}
    (hlim : ∀ x, Tendsto (fun m : ℕ => chainTransfer L L A A 0 (m * L) x) atTop (𝓝 (adot l x • r)))
    {μ : ℂ} {x : Matrix (Fin D) (Fin D) ℂ} (hx : x ≠ 0) (hμ : chainTransfer L L A A 0 L x = μ • x) : μ = 1 ∨ ‖μ‖ < 1 := by
  obtain ⟨i, j, hij⟩ : ∃ i j, x i j ≠ 0 := by
    by_contra hn
    push Not at hn
    exact hx (by ext i j; exact hn i j)
  have h1 : Tendsto (fun m : ℕ => μ ^ m * x i j) atTop (𝓝 ((adot l x • r) i j)) := by
    have := (tendsto_pi_nhds.1 (tendsto_pi_nhds.1 (hlim x) i)) j
    refine this.congr fun m => ?_
    rw [mixed_pow (dvd_refl L) (dvd_refl L) hμ, Matrix.smul_apply, smul_eq_mul]
  have h2 : Tendsto (fun m : ℕ => μ ^ m) atTop (𝓝 ((adot l x • r) i j / x i j)) := by
    refine (h1.div_const (x i j)).congr fun m => ?_
    rw [mul_div_assoc, div_self hij, mul_one]
  set c := (adot l x • r) i j / x i j
  have h3 : μ * c = c := by
    have a := h2.const_mul μ
    have b := (tendsto_add_atTop_iff_nat 1).2 h2
    refine tendsto_nhds_unique a (b.congr fun m => ?_)
    rw [pow_succ, mul_comm]
  by_cases hc : c = 0
  · right
    rw [hc] at h2
    exact tendsto_pow_atTop_nhds_zero_iff_norm_lt_one.1 h2
  · left
    have : (μ - 1) * c = 0 := by rw [sub_mul, h3, one_mul, sub_self]
    exact sub_eq_zero.mp ((mul_eq_zero.mp this).resolve_right hc)

/-! ## The sorted list -/

theorem sortReal_spec (l : List ℝ) : (sortReal l).reverse.Perm l ∧ (sortReal l).reverse.Pairwise (· ≥ ·) := by
  refine ⟨(List.reverse_perm _).trans (List.mergeSort_perm _ _), ?_⟩
  rw [List.pairwise_reverse]
  have := List.pairwise_mergeSort (le := fun a b : ℝ => decide (a ≤ b)) (fun a b c h1 h2 => by
    simp only [decide_eq_true_eq] at *
    exact h1.trans h2) (fun a b => by
    simp only [Bool.or_eq_true, decide_eq_true_eq]
    exact le_total a b) l
  exact this.imp (by simp)

theorem dropDegenerate_spec {tol ev1 : ℝ} {es rest : List ℝ} {e : ℝ} (hs : es.Pairwise (· ≥ ·)) (h : dropDegenerate tol ev1 es = e :: rest) :
    e ∈ es ∧ ∀ a ∈ es, tol ≤ ev1 - a → a ≤ e := by
  induction es with
  | nil => simp [dropDegenerate] at h
  | cons a es ih =>
    cases es with
    | nil =>
      simp only [dropDegenerate, List.cons.injEq] at h
      obtain ⟨rfl, -⟩ := h
      simp
    | cons b es =>
      simp only [dropDegenerate] at h
      split at h
      · rename_i hlt
        obtain ⟨h1, h2⟩ := ih (List.Pairwise.of_cons hs) h
        refine ⟨List.mem_cons_of_mem _ h1, fun c hc hcl => ?_⟩
        rcases List.mem_cons.mp hc with rfl | hc
        · exact absurd hlt (not_lt.mpr hcl)
        · exact h2 c hc hcl
      · simp only [List.cons.injEq] at h
        obtain ⟨rfl, -⟩ := h
        refine ⟨List.mem_cons_self .., fun c hc _ => ?_⟩
        rcases List.mem_cons.mp hc with rfl | hc
        · exact le_rfl
        · exact (List.pairwise_cons.mp hs).1 c hc

/-- The first entry of the sorted list is one, and the other eigenvalues are among the remaining entries. -/
theorem sorted_lead {lib : SpecLib (D * D)} (hlib : lib.Lead) {o : SpecOpts} {S : UMPS ℂ q D} (hL : 0 < S.L)
    (E : ChainEnv S.L S.A S.l S.r)
    (hlim : ∀ x, Tendsto (fun m : ℕ => chainTransfer S.L S.L S.A S.A 0 (m * S.L) x) atTop (𝓝 (adot (S.l (S.L - 1)) x • S.r (S.L - 1))))
    {ps : EigPairs (D * D)} (h : largestEigs lib o false S S = some ps) {ev1 : ℝ} {evs : List ℝ}
    (hs : (sortReal (ps.map fun p => ‖p.1‖)).reverse = ev1 :: evs) :
    ev1 = 1 ∧ evs.Pairwise (· ≥ ·) ∧ (∀ e ∈ evs, 0 ≤ e ∧ e ≤ 1) ∧
    (∀ e ∈ evs, e ≠ 1 → ∃ p ∈ ps, ‖p.1‖ = e) ∧
    ∀ (μ : ℂ) x, x ≠ 0 → chainTransfer S.L S.L S.A S.A 0 S.L x = μ • x → μ ≠ 1 → ‖μ‖ ∈ evs ∨ ∀ e ∈ evs, ‖μ‖ ≤ e := by
  obtain ⟨h1, h2⟩ := largestEigs_spec hlib hL h
  obtain ⟨hp, hw⟩ := sortReal_spec (ps.map fun p => ‖p.1‖)
  rw [hs] at hp hw
  have hmem : ∀ e, e ∈ ev1 :: evs ↔ ∃ p ∈ ps, ‖p.1‖ = e := by
    intro e
    rw [hp.mem_iff, List.mem_map]
  have hle : ∀ p ∈ ps, p.1 = 1 ∨ ‖p.1‖ < 1 := fun p hp => eigen_conv hlim (h1 p hp).1 (h1 p hp).2
  have hle1 : ∀ e ∈ ev1 :: evs, 0 ≤ e ∧ e ≤ 1 := by
    intro e he
    obtain ⟨p, hp, rfl⟩ := (hmem e).1 he
    refine ⟨norm_nonneg _, ?_⟩
    rcases hle p hp with h | h
    · rw [h, norm_one]
    · exact h.le
  have hr0 : S.r (S.L - 1) ≠ 0 := by
    intro h0
    have := E.norm (S.L - 1) (by omega)
    rw [h0, Matrix.mul_zero, Matrix.trace_zero] at this
    exact zero_ne_one this
  have hev : ev1 = 1 := by
    refine le_antisymm (hle1 ev1 (List.mem_cons_self ..)).2 ?_
    rcases h2 1 _ hr0 (by rw [one_smul]; exact env_blockR hL E (dvd_refl _)) with ⟨p, hp, h3⟩ | h3
    · have h4 : ‖p.1‖ ∈ ev1 :: evs := (hmem _).2 ⟨p, hp, rfl⟩
      rw [h3, norm_one] at h4
      rcases List.mem_cons.mp h4 with h5 | h5
      · exact h5.le
      · exact (List.pairwise_cons.mp hw).1 _ h5
    · obtain ⟨p, hp, h4⟩ := (hmem ev1).1 (List.mem_cons_self ..)
      rw [← h4]
      simpa using h3 p hp
  refine ⟨hev, (List.pairwise_cons.mp hw).2, fun e he => hle1 e (List.mem_cons_of_mem _ he),
    fun e he _ => (hmem e).1 (List.mem_cons_of_mem _ he), fun μ x hx hμ h1μ => ?_⟩
  have hlt : ‖μ‖ < 1 := (eigen_conv hlim hx hμ).resolve_left h1μ
  rcases h2 μ x hx hμ with ⟨p, hp, rfl⟩ | h3
  · left
    rcases List.mem_cons.mp ((hmem _).2 ⟨p, hp, rfl⟩) with h4 | h4
    · rw [h4, hev] at hlt
      exact absurd hlt (lt_irrefl _)
    · exact h4
  · right
    intro e he
    obtain ⟨p, hp, rfl⟩ := (hmem e).1 (List.mem_cons_of_mem _ he)
    exact h3 p hp

end EvoMPS.Uni
