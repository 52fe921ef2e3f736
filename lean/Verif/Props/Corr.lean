import Verif.CorrValue

/-!
# C64: correlation length and gap of the transfer operator
-/

namespace EvoMPS

open Matrix Filter Topology Uni

section
variable {q D : ℕ} {lib : SpecLib (D * D)} {S : UMPS ℂ q D}

/-- **C64.** The correlation length bounds the decay of all connected correlations: if `correlation_length` returns `ξ`, then for
every `ξ' > ξ` and all operators on any numbers of sites the correlation over `d` sites is at most a constant times `exp(-d / ξ')`.
The state has a unique dominant eigenvalue and the other eigenvalues differ from one by at least the tolerance. -/
theorem C64_decay (hlib : lib.Lead) (hL : 0 < S.L) (E : ChainEnv S.L S.A S.l S.r)
    (hlim : ∀ x, Tendsto (fun m : ℕ => chainTransfer S.L S.L S.A S.A 0 (m * S.L) x) atTop
      (𝓝 (((S.l (S.L - 1))ᴴ * x).trace • S.r (S.L - 1))))
    {tol : ℝ} (htol : ∀ (μ : ℂ) x, x ≠ 0 → chainTransfer S.L S.L S.A S.A 0 S.L x = μ • x → μ ≠ 1 → ‖μ‖ ≤ 1 - tol)
    {ξ : EReal} (h : corrLength lib tol S = some (some ξ)) (hξ : ξ ≠ ⊥) :
    0 ≤ ξ ∧ ξ ≠ ⊤ ∧ ∀ ξ' : ℝ, ξ < (ξ' : EReal) → ∀ (k : ℕ) {n1 n2 : ℕ} (O1 : (Fin n1 → Fin q) → (Fin n1 → Fin q) → ℂ)
      (O2 : (Fin n2 → Fin q) → (Fin n2 → Fin q) → ℂ),
      ∃ C : ℝ, ∀ d : ℕ, ‖chainCorr S.L S.A S.l S.r k O1 O2 d‖ ≤ C * Real.exp (-(d : ℝ) / ξ') := by
  simp only [← adot_eq_trace] at hlim
  have hexp : ∀ (ξ' : ℝ) (d : ℕ), Real.exp (-(d : ℝ) / ξ') = Real.exp (-1 / ξ') ^ d := by
    intro ξ' d
    rw [← Real.exp_nat_mul]
    congr 1
    ring
  have hL0 : (0 : ℝ) < S.L := by exact_mod_cast hL
  -- an eigenvector orthogonal to the environment does not belong to the eigenvalue one
  have hne : ∀ (μ : ℂ) x, x ≠ 0 → adot (S.l (S.L - 1)) x = 0 → chainTransfer S.L S.L S.A S.A 0 S.L x = μ • x → μ ≠ 1 := by
    rintro μ x hx h0 hμ rfl
    rw [one_smul] at hμ
    have := fix_uniqueR hlim hL (dvd_refl _) hμ
    rw [h0, zero_smul] at this
    exact hx this
  unfold corrLength at h
  by_cases hD : D = 1
  · rw [if_pos hD] at h
    simp only [Option.some.injEq] at h
    subst h
    refine ⟨le_rfl, by simp, fun ξ' hξ' k n1 n2 O1 O2 => ?_⟩
    simp only [hexp]
    refine chainCorr_decay hL E le_rfl (Real.exp_pos _) (by positivity) (fun μ x hx h0 hμ => ?_) k O1 O2
    subst hD
    exfalso
    have hn := E.norm (S.L - 1) (by omega)
    rw [adot_eq_trace] at h0
    have e : ∀ a b : Matrix (Fin 1) (Fin 1) ℂ, (aᴴ * b).trace = star (a 0 0) * b 0 0 := by
      intro a b
      simp [Matrix.trace, Matrix.mul_apply]
    rw [e] at h0 hn
    rcases mul_eq_zero.mp h0 with h1 | h1
    · rw [h1, zero_mul] at hn
      exact zero_ne_one hn
    · refine hx ?_
      ext i j
      rw [Subsingleton.elim i 0, Subsingleton.elim j 0, h1]
      rfl
  · rw [if_neg hD] at h
    obtain ⟨ps, hps, h⟩ := Option.bind_eq_some_iff.mp h
    cases hs : (sortReal (ps.map fun p => ‖p.1‖)).reverse with
    | nil => simp [hs] at h
    | cons ev1 evs =>
      obtain ⟨h1, h2, h3, h4, h5⟩ := sorted_lead hlib hL E hlim hps hs
      simp only [hs] at h
      cases hd : dropDegenerate tol ev1 evs with
      | nil => simp [hd] at h
      | cons ev2 rest =>
        simp only [hd, Option.some.injEq] at h
        obtain ⟨m1, m2⟩ := dropDegenerate_spec h2 hd
        have hb : ∀ (μ : ℂ) x, x ≠ 0 → adot (S.l (S.L - 1)) x = 0 → chainTransfer S.L S.L S.A S.A 0 S.L x = μ • x → ‖μ‖ ≤ ev2 := by
          intro μ x hx h0 hμ
          have hμ1 := hne μ x hx h0 hμ
          rcases h5 μ x hx hμ hμ1 with h6 | h6
          · refine m2 _ h6 ?_
            have := htol μ x hx hμ hμ1
            rw [h1]
            linarith
          · exact h6 _ m1
        obtain ⟨p0, p1⟩ := h3 ev2 m1
        by_cases hz : ev2 = 0
        · rw [if_pos hz] at h
          subst h
          refine ⟨le_rfl, by simp, fun ξ' hξ' k n1 n2 O1 O2 => ?_⟩
          simp only [hexp]
          exact chainCorr_decay hL E p0 (Real.exp_pos _) (by rw [hz]; positivity) hb k O1 O2
        · rw [if_neg hz] at h
          have ho : ev2 ≠ 1 := by
            intro ho
            rw [if_pos ho] at h
            exact hξ h.symm
          rw [if_neg ho] at h
          subst h
          have hp : 0 < ev2 := lt_of_le_of_ne p0 (Ne.symm hz)
          have hlog : Real.log ev2 < 0 := Real.log_neg hp (lt_of_le_of_ne p1 ho)
          have hpos : 0 < -(S.L : ℝ) / Real.log ev2 := div_pos_of_neg_of_neg (by linarith) hlog
          refine ⟨by exact_mod_cast hpos.le, EReal.coe_ne_top _, fun ξ' hξ' k n1 n2 O1 O2 => ?_⟩
          have hξ2 : -(S.L : ℝ) / Real.log ev2 < ξ' := by exact_mod_cast hξ'
          simp only [hexp]
          refine chainCorr_decay hL E p0 (Real.exp_pos _) ?_ hb k O1 O2
          rw [← hexp, ← Real.exp_log hp]
          refine Real.exp_lt_exp.mpr ?_
          rw [lt_div_iff₀ (hpos.trans hξ2)]
          rw [div_lt_iff_of_neg hlog] at hξ2
          linarith

/-- **C64.** The correlation length is attained: there is a matrix orthogonal to the environments that the transfer map of `m` blocks
reduces exactly by the factor `exp(-m L / ξ)`. -/
theorem C64_attained (hlib : lib.Lead) (hL : 0 < S.L) (E : ChainEnv S.L S.A S.l S.r)
    (hlim : ∀ x, Tendsto (fun m : ℕ => chainTransfer S.L S.L S.A S.A 0 (m * S.L) x) atTop
      (𝓝 (((S.l (S.L - 1))ᴴ * x).trace • S.r (S.L - 1))))
    {tol ξ : ℝ} (h : corrLength lib tol S = some (some (ξ : EReal))) (hξ : ξ ≠ 0) :
    ∃ (V : Matrix (Fin D) (Fin D) ℂ) (μ : ℂ), V ≠ 0 ∧ ((S.l (S.L - 1))ᴴ * V).trace = 0 ∧
      ∀ m : ℕ, chainTransfer S.L S.L S.A S.A 0 (m * S.L) V = μ ^ m • V ∧ ‖μ ^ m‖ = Real.exp (-((m * S.L : ℕ) : ℝ) / ξ) := by
  simp only [← adot_eq_trace] at hlim ⊢
  have hL0 : (0 : ℝ) < S.L := by exact_mod_cast hL
  unfold corrLength at h
  by_cases hD : D = 1
  · rw [if_pos hD] at h
    simp only [Option.some.injEq] at h
    exact absurd (by exact_mod_cast h.symm) hξ
  rw [if_neg hD] at h
  obtain ⟨ps, hps, h⟩ := Option.bind_eq_some_iff.mp h
  cases hs : (sortReal (ps.map fun p => ‖p.1‖)).reverse with
  | nil => simp [hs] at h
  | cons ev1 evs =>
    obtain ⟨h1, h2, h3, h4, h5⟩ := sorted_lead hlib hL E hlim hps hs
    simp only [hs] at h
    cases hd : dropDegenerate tol ev1 evs with
    | nil => simp [hd] at h
    | cons ev2 rest =>
      simp only [hd, Option.some.injEq] at h
      obtain ⟨m1, m2⟩ := dropDegenerate_spec h2 hd
      obtain ⟨p0, p1⟩ := h3 ev2 m1
      by_cases hz : ev2 = 0
      · rw [if_pos hz] at h
        exact absurd (by exact_mod_cast h.symm) hξ
      · rw [if_neg hz] at h
        have ho : ev2 ≠ 1 := by
          intro ho
          rw [if_pos ho] at h
          exact (EReal.coe_ne_bot _) h.symm
        rw [if_neg ho] at h
        have hp : 0 < ev2 := lt_of_le_of_ne p0 (Ne.symm hz)
        have hlog : Real.log ev2 < 0 := Real.log_neg hp (lt_of_le_of_ne p1 ho)
        have hξe : ξ = -(S.L : ℝ) / Real.log ev2 := by exact_mod_cast h.symm
        obtain ⟨p, hpm, hpe⟩ := h4 ev2 m1 ho
        obtain ⟨k1, -⟩ := largestEigs_spec hlib hL hps
        obtain ⟨a1, a2⟩ := k1 p hpm
        refine ⟨reshape p.2, p.1, a1, ?_, fun m => ⟨mixed_pow (dvd_refl _) (dvd_refl _) a2 m, ?_⟩⟩
        · have hlT : adot (S.l (S.L - 1)) (chainTransfer S.L S.L S.A S.A 0 S.L (reshape p.2)) = adot (S.l (S.L - 1)) (reshape p.2) := by
            rw [← adot_chainTransferL, env_blockL hL E (dvd_refl _)]
          rw [a2, adot_smul_right] at hlT
          have h6 : (p.1 - 1) * adot (S.l (S.L - 1)) (reshape p.2) = 0 := by rw [sub_mul, hlT, one_mul, sub_self]
          refine (mul_eq_zero.mp h6).resolve_left fun h7 => ?_
          rw [sub_eq_zero.mp h7, norm_one] at hpe
          exact ho hpe.symm
        · rw [norm_pow, hpe, hξe, ← Real.exp_log hp, ← Real.exp_nat_mul]
          congr 1
          rw [Real.log_exp]
          push_cast
          field_simp

/-- **C64.** The gap `g` of the transfer operator: connected correlations decay like `σ ^ d` for every `σ` with `σ ^ L > 1 - g`. -/
theorem C64_gap (hlib : lib.Lead) (hL : 0 < S.L) (E : ChainEnv S.L S.A S.l S.r)
    (hlim : ∀ x, Tendsto (fun m : ℕ => chainTransfer S.L S.L S.A S.A 0 (m * S.L) x) atTop
      (𝓝 (((S.l (S.L - 1))ᴴ * x).trace • S.r (S.L - 1))))
    {g : ℝ} (h : gapE lib S = some (some g)) :
    0 ≤ g ∧ g ≤ 1 ∧ (∀ (μ : ℂ) x, x ≠ 0 → chainTransfer S.L S.L S.A S.A 0 S.L x = μ • x → μ ≠ 1 → ‖μ‖ ≤ 1 - g) ∧
    ∀ σ : ℝ, 0 < σ → 1 - g < σ ^ S.L → ∀ (k : ℕ) {n1 n2 : ℕ} (O1 : (Fin n1 → Fin q) → (Fin n1 → Fin q) → ℂ)
      (O2 : (Fin n2 → Fin q) → (Fin n2 → Fin q) → ℂ), ∃ C : ℝ, ∀ d : ℕ, ‖chainCorr S.L S.A S.l S.r k O1 O2 d‖ ≤ C * σ ^ d := by
  simp only [← adot_eq_trace] at hlim
  unfold gapE at h
  obtain ⟨ps, hps, h⟩ := Option.bind_eq_some_iff.mp h
  split at h
  · simp at h
  split at h
  · rename_i ev1 ev2 rest hs
    obtain ⟨h1, h2, h3, h4, h5⟩ := sorted_lead hlib hL E hlim hps hs
    simp only [Option.some.injEq] at h
    rw [h1, div_one] at h
    obtain ⟨p0, p1⟩ := h3 ev2 (List.mem_cons_self ..)
    have hb : ∀ (μ : ℂ) x, x ≠ 0 → chainTransfer S.L S.L S.A S.A 0 S.L x = μ • x → μ ≠ 1 → ‖μ‖ ≤ 1 - g := by
      intro μ x hx hμ hμ1
      rw [← h, sub_sub_cancel]
      rcases h5 μ x hx hμ hμ1 with h6 | h6
      · rcases List.mem_cons.mp h6 with h7 | h7
        · exact h7.le
        · exact (List.pairwise_cons.mp h2).1 _ h7
      · exact h6 _ (List.mem_cons_self ..)
    refine ⟨by linarith, by linarith, hb, fun σ hσ hgσ k n1 n2 O1 O2 => ?_⟩
    refine chainCorr_decay hL E (by linarith) hσ hgσ (fun μ x hx h0 hμ => hb μ x hx hμ ?_) k O1 O2
    rintro rfl
    rw [one_smul] at hμ
    have := fix_uniqueR hlim hL (dvd_refl _) hμ
    rw [h0, zero_smul] at this
    exact hx this
  · simp at h

end

/-- **C64.** If the dominant eigenvalue is degenerate, `correlation_length` drops all copies of it with a warning. For
the GHZ state it returns zero, although the correlations of `σᶻ` are one at every distance. -/
theorem C64_degenerate_violated {lib : SpecLib (2 * 2)} (hlib : lib.Ok) {tol : ℝ} (h0 : 0 < tol) (h1 : tol ≤ 1) {ξ : Option EReal}
    (h : corrLength lib tol ghzState = some ξ) :
    ξ = some 0 ∧ ChainEnv ghzState.L ghzState.A ghzState.l ghzState.r ∧
    ∀ d : ℕ, chainCorr ghzState.L ghzState.A ghzState.l ghzState.r 0
      (fun (s t : Fin 1 → Fin 2) => if s = t then (-1) ^ (s 0 : ℕ) else 0) (fun (s t : Fin 1 → Fin 2) => if s = t then (-1) ^ (s 0 : ℕ) else 0) d = 1 := by
  refine ⟨?_, ghz_env, fun d => ?_⟩
  · have h' := h
    unfold corrLength at h'
    rw [if_neg (by decide)] at h'
    obtain ⟨ps, hps, -⟩ := Option.bind_eq_some_iff.mp h'
    have := corrLength_value (c := 0) (tol := tol) hlib (S := ghzState) Nat.one_pos (by decide) (by decide) hps le_rfl one_pos h0 (by simpa using h1)
      (fun μ x hx hμ => by
        have hμ' : chainTransfer 1 1 ghzState.A ghzState.A 0 1 x = μ • x := hμ
        rw [ghz_step] at hμ'
        by_cases hz : x 0 0 = 0 ∧ x 1 1 = 0
        · have : (0 : Matrix (Fin 2) (Fin 2) ℂ) = μ • x := by
            rw [← hμ', hz.1, hz.2]
            ext i j
            fin_cases i <;> fin_cases j <;> rfl
          rcases smul_eq_zero.mp this.symm with h5 | h5
          · simp [h5]
          · exact absurd h5 hx
        · left
          have e0 : x 0 0 = μ * x 0 0 := congrFun (congrFun hμ' 0) 0
          have e1 : x 1 1 = μ * x 1 1 := congrFun (congrFun hμ' 1) 1
          have : μ = 1 := by
            by_contra hn
            refine hz ⟨?_, ?_⟩
            · have : (μ - 1) * x 0 0 = 0 := by linear_combination -e0
              exact (mul_eq_zero.mp this).resolve_left (sub_ne_zero.mpr hn)
            · have : (μ - 1) * x 1 1 = 0 := by linear_combination -e1
              exact (mul_eq_zero.mp this).resolve_left (sub_ne_zero.mpr hn)
          rw [this, norm_one])
      ⟨!![1, 0; 0, 0], fun h5 => by simpa using congrFun (congrFun h5 0) 0, ghz_diag 0 1 1 0⟩
      ⟨!![0, 1; 0, 0], fun h5 => by simpa using congrFun (congrFun h5 0) 1, by
        refine (ghz_step 0 _).trans ?_
        ext i j
        fin_cases i <;> fin_cases j <;> simp⟩
      ⟨!![0, 1; 0, 0], fun h5 => by simpa using congrFun (congrFun h5 0) 1, by
        refine (ghz_step 0 _).trans ?_
        ext i j
        fin_cases i <;> fin_cases j <;> simp⟩
    rw [h] at this
    simpa using this
  · rw [chainCorr_eq]
    have eo : ∀ k m, opEnv ghzState.L ghzState.A k 1 (fun (s t : Fin 1 → Fin 2) => if s = t then (-1) ^ (s 0 : ℕ) else 0) (ghzState.r m)
        = !![1 / 2, 0; 0, -1 / 2] := by
      intro k m
      rw [opEnv]
      simp only [ite_smul, zero_smul, Finset.sum_ite_eq, Finset.mem_univ, if_true]
      rw [← (Equiv.funUnique (Fin 1) (Fin 2)).symm.sum_comp, Fin.sum_univ_two]
      ext i j
      fin_cases i <;> fin_cases j <;> simp [chainProd, ghzState, Matrix.add_apply, neg_div]
    rw [eo, deflT]
    have ed : chainTransfer ghzState.L ghzState.L ghzState.A ghzState.A (0 + 1) d !![1 / 2, 0; 0, -1 / 2] = !![1 / 2, 0; 0, -1 / 2] :=
      ghz_diag _ _ _ _
    rw [ed, sandwich]
    simp only [ite_mul, zero_mul, Finset.sum_ite_eq, Finset.mem_univ, if_true]
    rw [← (Equiv.funUnique (Fin 1) (Fin 2)).symm.sum_comp, Fin.sum_univ_two]
    simp [chainProd, ghzState, Matrix.trace, adot_eq_trace, Fin.sum_univ_two]
    norm_num

/-- The hypotheses of C64 are met by a state of bond dimension two with correlation length `-1 / log (7/25)`. -/
example : ∃ ξ : ℝ, 0 < ξ ∧ corrLength (someSpecLib (2 * 2)) (1 / 10) walkState = some (some (ξ : EReal)) ∧
    ChainEnv walkState.L walkState.A walkState.l walkState.r ∧
    (∀ x, Tendsto (fun m : ℕ => chainTransfer walkState.L walkState.L walkState.A walkState.A 0 (m * walkState.L) x) atTop
      (𝓝 (((walkState.l (walkState.L - 1))ᴴ * x).trace • walkState.r (walkState.L - 1)))) ∧
    (∀ (μ : ℂ) x, x ≠ 0 → chainTransfer walkState.L walkState.L walkState.A walkState.A 0 walkState.L x = μ • x → μ ≠ 1 → ‖μ‖ ≤ 1 - 1 / 10) := by
  obtain ⟨E, hE, -⟩ := dense_mixed walkState walkState Nat.one_pos Nat.one_pos
  have hps : ∃ ps, largestEigs (someSpecLib (2 * 2)) ⟨false, false, 64⟩ false walkState walkState = some ps := by
    unfold largestEigs
    rw [if_pos (by decide), hE, Option.bind_some]
    exact ⟨_, rfl⟩
  obtain ⟨ps, hps⟩ := hps
  have hstep := walk_step 0
  have hval := corrLength_value (c := 7 / 25) (tol := 1 / 10) (someSpecLib_ok (2 * 2)) (S := walkState) Nat.one_pos (by decide) (by decide) hps
    (by norm_num) (by norm_num) (by norm_num) (by norm_num)
    (fun μ x hx hμ => by rcases walk_spec hx hμ with h | h | h <;> rw [h] <;> norm_num)
    ⟨1, one_ne_zero, by
      refine (hstep _).trans ?_
      ext i j
      fin_cases i <;> fin_cases j <;> simp <;> norm_num⟩
    ⟨!![1, 0; 0, -1], fun h5 => by simpa using congrFun (congrFun h5 0) 0, by
      refine (hstep _).trans ?_
      ext i j
      fin_cases i <;> fin_cases j <;> simp <;> norm_num⟩
    ⟨!![0, 1; 0, 0], fun h5 => by simpa using congrFun (congrFun h5 0) 1, by
      refine (hstep _).trans ?_
      ext i j
      fin_cases i <;> fin_cases j <;> simp⟩
  rw [if_neg (by norm_num)] at hval
  refine ⟨_, ?_, hval, walk_env, walk_lim, fun μ x hx hμ h1 => ?_⟩
  · exact div_pos_of_neg_of_neg (by simp [walkState]) (Real.log_neg (by norm_num) (by norm_num))
  · rcases walk_spec hx hμ with h | h | h
    · exact absurd h h1
    · rw [h]
      norm_num
    · rw [h]
      norm_num

end EvoMPS
