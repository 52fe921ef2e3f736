import Verif.CorrMain

/-!
# Helper lemmas: the correlation length of two states with known spectrum
-/

set_option linter.unusedSectionVars false

namespace EvoMPS.Uni

open Matrix Filter Topology

section
variable {q D : ℕ}

/-- The dense solver returns all eigenvalues of the transfer map. -/
theorem largestEigs_dense {lib : SpecLib (D * D)} (hlib : lib.Ok) {S : UMPS ℂ q D} (hL : 0 < S.L) (hD : D * D ≤ 64) {ps : EigPairs (D * D)}
    (h : largestEigs lib ⟨false, false, 64⟩ false S S = some ps) :
    (∀ p ∈ ps, (reshape p.2 : Matrix (Fin D) (Fin D) ℂ) ≠ 0 ∧ chainTransfer S.L S.L S.A S.A 0 S.L (reshape p.2) = p.1 • reshape p.2) ∧
    ∀ (μ : ℂ) x, x ≠ 0 → chainTransfer S.L S.L S.A S.A 0 S.L x = μ • x → ∃ p ∈ ps, p.1 = μ := by
  obtain ⟨E, hE, e1, -⟩ := dense_mixed S S hL hL
  rw [Nat.lcm_self] at e1
  unfold largestEigs at h
  rw [if_pos (by simp [hD]), hE, Option.bind_some] at h
  obtain ⟨k1, k2⟩ := hlib.eig E false ps h
  simp only [Bool.false_eq_true, if_false] at k1 k2
  refine ⟨fun p hp => ⟨reshape_ne.mpr (k1 p hp).1, by rw [← e1, (k1 p hp).2, reshape_smul]⟩, fun μ x hx hμ => ?_⟩
  refine k2 μ (ravel x) ?_ ?_
  · rw [← reshape_ne, reshape_ravel]
    exact hx
  · rw [← ravel_reshape (E *ᵥ ravel x), e1, reshape_ravel, hμ, ravel_smul]

theorem dropDegenerate_last {tol ev1 : ℝ} {es rest : List ℝ} {e : ℝ} (hs : es.Pairwise (· ≥ ·)) (h : dropDegenerate tol ev1 es = e :: rest) :
    tol ≤ ev1 - e ∨ ∀ a ∈ es, e ≤ a := by
  induction es with
  | nil => simp [dropDegenerate] at h
  | cons a es ih =>
    cases es with
    | nil =>
      simp only [dropDegenerate, List.cons.injEq] at h
      right
      intro b hb
      rw [List.mem_singleton.mp hb, h.1]
    | cons b es =>
      rw [dropDegenerate] at h
      split at h
      · rcases ih (List.pairwise_cons.mp hs).2 h with h1 | h1
        · exact Or.inl h1
        · refine Or.inr fun c hc => ?_
          rcases List.mem_cons.mp hc with rfl | hc
          · exact (h1 b (List.mem_cons_self ..)).trans ((List.pairwise_cons.mp hs).1 b (List.mem_cons_self ..))
          · exact h1 c hc
      · rename_i hn
        rw [List.cons.injEq] at h
        left
        rw [← h.1]
        linarith

theorem dropDegenerate_ne {tol ev1 : ℝ} {es : List ℝ} (h : es ≠ []) : dropDegenerate tol ev1 es ≠ [] := by
  induction es with
  | nil => exact absurd rfl h
  | cons a es ih =>
    cases es with
    | nil => simp [dropDegenerate]
    | cons b es =>
      rw [dropDegenerate]
      split
      · exact ih (by simp)
      · simp

/-- A spectrum of moduli `1`, `c`, `0` gives the value for `c`. -/
theorem corrLength_value {lib : SpecLib (D * D)} (hlib : lib.Ok) {S : UMPS ℂ q D} (hL : 0 < S.L) (hD1 : D ≠ 1) (hD : D * D ≤ 64)
    {ps : EigPairs (D * D)} (h : largestEigs lib ⟨false, false, 64⟩ false S S = some ps) {tol c : ℝ} (hc0 : 0 ≤ c) (hc1 : c < 1)
    (ht : 0 < tol) (htc : tol ≤ 1 - c)
    (hall : ∀ (μ : ℂ) x, x ≠ 0 → chainTransfer S.L S.L S.A S.A 0 S.L x = μ • x → ‖μ‖ = 1 ∨ ‖μ‖ = c ∨ ‖μ‖ = 0)
    (h1 : ∃ x, x ≠ 0 ∧ chainTransfer S.L S.L S.A S.A 0 S.L x = x)
    (h2 : ∃ x, x ≠ 0 ∧ chainTransfer S.L S.L S.A S.A 0 S.L x = (c : ℂ) • x)
    (h3 : ∃ x, x ≠ 0 ∧ chainTransfer S.L S.L S.A S.A 0 S.L x = 0) :
    corrLength lib tol S = some (some (if c = 0 then 0 else ((-(S.L : ℝ) / Real.log c : ℝ) : EReal))) := by
  obtain ⟨a1, a2⟩ := largestEigs_dense hlib hL hD h
  obtain ⟨x1, n1, x1e⟩ := h1
  obtain ⟨x2, n2, x2e⟩ := h2
  obtain ⟨x3, n3, x3e⟩ := h3
  obtain ⟨hp, hw⟩ := sortReal_spec (ps.map fun p => ‖p.1‖)
  have hmem : ∀ e, e ∈ (sortReal (ps.map fun p => ‖p.1‖)).reverse ↔ ∃ p ∈ ps, ‖p.1‖ = e := by
    intro e
    rw [hp.mem_iff, List.mem_map]
  have m1 : (1 : ℝ) ∈ (sortReal (ps.map fun p => ‖p.1‖)).reverse := by
    obtain ⟨p, hp, he⟩ := a2 1 x1 n1 (by rw [one_smul]; exact x1e)
    exact (hmem 1).2 ⟨p, hp, by rw [he, norm_one]⟩
  have m2 : c ∈ (sortReal (ps.map fun p => ‖p.1‖)).reverse := by
    obtain ⟨p, hp, he⟩ := a2 c x2 n2 x2e
    exact (hmem c).2 ⟨p, hp, by rw [he, Complex.norm_real, Real.norm_of_nonneg hc0]⟩
  have m3 : (0 : ℝ) ∈ (sortReal (ps.map fun p => ‖p.1‖)).reverse := by
    obtain ⟨p, hp, he⟩ := a2 0 x3 n3 (by rw [zero_smul]; exact x3e)
    exact (hmem 0).2 ⟨p, hp, by rw [he, norm_zero]⟩
  have m4 : ∀ e ∈ (sortReal (ps.map fun p => ‖p.1‖)).reverse, e = 1 ∨ e = c ∨ e = 0 := by
    intro e he
    obtain ⟨p, hp, rfl⟩ := (hmem e).1 he
    exact hall p.1 _ (a1 p hp).1 (a1 p hp).2
  unfold corrLength
  rw [if_neg hD1, h, Option.bind_some]
  cases hs : (sortReal (ps.map fun p => ‖p.1‖)).reverse with
  | nil => simp [hs] at m1
  | cons ev1 evs =>
    rw [hs] at m1 m2 m3 m4 hw
    obtain ⟨w1, w2⟩ := List.pairwise_cons.mp hw
    have hev : ev1 = 1 := by
      rcases List.mem_cons.mp m1 with h5 | h5
      · exact h5.symm
      · have h6 : (1 : ℝ) ≤ ev1 := w1 _ h5
        rcases m4 ev1 (List.mem_cons_self ..) with h7 | h7 | h7
        · exact h7
        · linarith
        · linarith
    have hcm : c ∈ evs := by
      rcases List.mem_cons.mp m2 with h5 | h5
      · linarith
      · exact h5
    have h0m : (0 : ℝ) ∈ evs := by
      rcases List.mem_cons.mp m3 with h5 | h5
      · linarith
      · exact h5
    simp only
    cases hd : dropDegenerate tol ev1 evs with
    | nil => exact absurd hd (dropDegenerate_ne (List.ne_nil_of_mem hcm))
    | cons e rest =>
      obtain ⟨k1, k2⟩ := dropDegenerate_spec w2 hd
      have hce : c ≤ e := k2 c hcm (by rw [hev]; linarith)
      have hec : e = c := by
        rcases m4 e (List.mem_cons_of_mem _ k1) with h5 | h5 | h5
        · exfalso
          rcases dropDegenerate_last w2 hd with h6 | h6
          · rw [hev, h5] at h6
            linarith
          · have := h6 0 h0m
            linarith
        · exact h5
        · linarith
      rw [hec]
      simp only [if_neg hc1.ne]

end

/-- The Greenberger-Horne-Zeilinger state of the infinite chain: `(|000...⟩ + |111...⟩) / √2`. -/
noncomputable def ghzState : UMPS ℂ 2 2 where
  L := 1
  A := fun _ s => Matrix.single s s 1
  AA := fun _ _ _ => 0
  l := fun _ => 1
  r := fun _ => (1 / 2 : ℂ) • 1
  lL := 1
  rL := 1

theorem ghz_step (k : ℕ) (x : Matrix (Fin 2) (Fin 2) ℂ) :
    chainTransfer 1 1 ghzState.A ghzState.A k 1 x = !![x 0 0, 0; 0, x 1 1] := by
  rw [chainTransfer_succ, chainTransfer_zero, epsR_eq, Fin.sum_univ_two]
  ext i j
  fin_cases i <;> fin_cases j <;>
    simp [ghzState]

theorem ghz_diag (k d : ℕ) (a b : ℂ) : chainTransfer 1 1 ghzState.A ghzState.A k d !![a, 0; 0, b] = !![a, 0; 0, b] := by
  induction d with
  | zero => rw [chainTransfer_zero]
  | succ d ih =>
    rw [chainTransfer_add, ghz_step]
    simpa using ih

theorem ghz_env : ChainEnv ghzState.L ghzState.A ghzState.l ghzState.r where
  left k _ := by
    simp [ghzState, Fin.sum_univ_two]
    ext i j
    fin_cases i <;> fin_cases j <;> simp [Matrix.add_apply]
  right k _ := by
    simp [ghzState, Fin.sum_univ_two]
    ext i j
    fin_cases i <;> fin_cases j <;> simp [Matrix.add_apply]
  norm k _ := by simp [ghzState, Matrix.trace]

/-- A state whose Schmidt basis performs a random walk between two values; it stays with probability 16/25. -/
noncomputable def walkState : UMPS ℂ 4 2 where
  L := 1
  A := fun _ s => ![!![4/5, 0; 0, 0], !![0, 3/5; 0, 0], !![0, 0; 3/5, 0], !![0, 0; 0, 4/5]] s
  AA := fun _ _ _ => 0
  l := fun _ => 1
  r := fun _ => (1 / 2 : ℂ) • 1
  lL := 1
  rL := 1

theorem walk_step (k : ℕ) (x : Matrix (Fin 2) (Fin 2) ℂ) :
    chainTransfer 1 1 walkState.A walkState.A k 1 x
      = !![16 / 25 * x 0 0 + 9 / 25 * x 1 1, 0; 0, 9 / 25 * x 0 0 + 16 / 25 * x 1 1] := by
  rw [chainTransfer_succ, chainTransfer_zero, epsR_eq, Fin.sum_univ_four]
  ext i j
  simp only [Matrix.add_apply, Matrix.mul_apply, Fin.sum_univ_two, Matrix.conjTranspose_apply]
  fin_cases i <;> fin_cases j <;> simp [walkState] <;> ring

theorem walk_pow (m : ℕ) (x : Matrix (Fin 2) (Fin 2) ℂ) :
    chainTransfer 1 1 walkState.A walkState.A 0 (m + 1) x = ((x 0 0 + x 1 1) / 2) • (1 : Matrix (Fin 2) (Fin 2) ℂ)
      + ((7 / 25 : ℂ) ^ (m + 1) * ((x 0 0 - x 1 1) / 2)) • !![1, 0; 0, -1] := by
  induction m generalizing x with
  | zero =>
    rw [walk_step]
    ext i j
    fin_cases i <;> fin_cases j <;> simp <;> ring
  | succ m ih =>
    rw [chainTransfer_add, walk_step, ih]
    ext i j
    fin_cases i <;> fin_cases j <;> simp <;> ring

theorem walk_env : ChainEnv walkState.L walkState.A walkState.l walkState.r where
  left k _ := by
    ext i j
    simp only [Fin.sum_univ_four, Matrix.add_apply, Matrix.mul_apply, Fin.sum_univ_two, Matrix.conjTranspose_apply]
    fin_cases i <;> fin_cases j <;> simp [walkState] <;> norm_num
  right k _ := by
    ext i j
    simp only [Fin.sum_univ_four, Matrix.add_apply, Matrix.mul_apply, Fin.sum_univ_two, Matrix.conjTranspose_apply]
    fin_cases i <;> fin_cases j <;> simp [walkState] <;> norm_num
  norm k _ := by simp [walkState, Matrix.trace]

theorem walk_lim (x : Matrix (Fin 2) (Fin 2) ℂ) :
    Tendsto (fun m : ℕ => chainTransfer walkState.L walkState.L walkState.A walkState.A 0 (m * walkState.L) x) atTop
      (𝓝 (((walkState.l (walkState.L - 1))ᴴ * x).trace • walkState.r (walkState.L - 1))) := by
  have e : ((walkState.l (walkState.L - 1))ᴴ * x).trace • walkState.r (walkState.L - 1)
      = ((x 0 0 + x 1 1) / 2) • (1 : Matrix (Fin 2) (Fin 2) ℂ) + ((0 : ℂ) * ((x 0 0 - x 1 1) / 2)) • !![1, 0; 0, -1] := by
    simp [walkState, Matrix.trace, Fin.sum_univ_two, smul_smul, div_eq_mul_inv]
  rw [e, ← tendsto_add_atTop_iff_nat 1]
  simp only [show walkState.L = 1 from rfl, mul_one, walk_pow]
  refine tendsto_const_nhds.add (Tendsto.smul_const (Tendsto.mul_const _ ?_) _)
  refine (tendsto_pow_atTop_nhds_zero_of_norm_lt_one ?_).comp (tendsto_add_atTop_nat 1)
  norm_num

theorem walk_spec {μ : ℂ} {x : Matrix (Fin 2) (Fin 2) ℂ} (hx : x ≠ 0) (h : chainTransfer 1 1 walkState.A walkState.A 0 1 x = μ • x) :
    μ = 1 ∨ μ = 7 / 25 ∨ μ = 0 := by
  rw [walk_step] at h
  have e : ∀ i j, !![16 / 25 * x 0 0 + 9 / 25 * x 1 1, 0; 0, 9 / 25 * x 0 0 + 16 / 25 * x 1 1] i j = μ * x i j := by
    intro i j
    rw [h]
    rfl
  by_contra hn
  push Not at hn
  obtain ⟨n1, n2, n3⟩ := hn
  have e00 := e 0 0
  have e01 := e 0 1
  have e10 := e 1 0
  have e11 := e 1 1
  simp at e00 e01 e10 e11
  have s1 : (μ - 1) * (x 0 0 + x 1 1) = 0 := by linear_combination -e00 - e11
  have s2 : (μ - 7 / 25) * (x 0 0 - x 1 1) = 0 := by linear_combination e11 - e00
  have t1 := (mul_eq_zero.mp s1).resolve_left (sub_ne_zero.mpr n1)
  have t2 := (mul_eq_zero.mp s2).resolve_left (sub_ne_zero.mpr n2)
  have z0 : x 0 0 = 0 := by linear_combination (t1 + t2) / 2
  have z1 : x 1 1 = 0 := by linear_combination (t1 - t2) / 2
  refine hx ?_
  ext i j
  fin_cases i <;> fin_cases j
  · exact z0
  · exact e01.resolve_left n3
  · exact e10.resolve_left n3
  · exact z1

end EvoMPS.Uni
