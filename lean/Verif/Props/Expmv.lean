import Verif.ExpmvLemmas
import Mathlib.Analysis.SpecialFunctions.Exponential

/-!
# C38: the Krylov exponential
-/

namespace EvoMPS

open Krylov

variable {n : ℕ}

/-- **C38** Whenever `gexpmv` returns: all steps are positive, after any number of them the time covered is at most
the requested time, the returned number of steps is right and at most the limit (a limit of 0 means no limit, one
step is always allowed), and if convergence is reported the steps add up to the requested time. -/
theorem C38_steps (matvec : (Fin n → ℂ) → Fin n → ℂ)
    (expm : ∀ k : ℕ, Matrix (Fin k) (Fin k) ℂ → Matrix (Fin k) (Fin k) ℂ) (eps : ℝ) (v : Fin n → ℂ) (t anorm : ℝ)
    (m : Option ℤ) (tol : ℝ) (ht : 0 < tol) (mxstep : ℤ) (breakTol : Option ℝ) (fuel : ℕ) (r : GResult n)
    (h : gexpmv matvec expm eps v t anorm m tol mxstep breakTol fuel = some r) :
    (∀ x ∈ r.steps, 0 < x) ∧ (∀ pre post, r.steps = pre ++ post → pre.sum ≤ |t|) ∧ r.nstep = r.steps.length ∧
      (mxstep ≠ 0 → (r.nstep : ℤ) ≤ max mxstep 1) ∧ (r.conv = true → r.steps.sum = |t|) ∧
      (r.conv = true ↔ (r.nstep : ℤ) < mxstep) ∧ (mxstep = 0 → r.steps.sum = |t|) ∧
      (r.brk = true → r.steps.sum = |t|) := by
  unfold gexpmv at h
  simp only at h
  split_ifs at h with hm h0
  obtain ⟨tN, htN, h⟩ := Option.bind_eq_some_iff.1 h
  obtain ⟨g, hg, rfl⟩ := Option.map_eq_some_iff.1 h
  push Not at hm
  have hm' : 0 < (m.getD (min 20 ((n : ℤ) - 1))).toNat := by have := hm.2; omega
  obtain ⟨g1, g2, g3⟩ := gLoop_inv (n := n) _ (by exact hm') (by exact ht) fuel
    (g := ⟨v, vnorm v, 0, tN, 0, 2, false, (m.getD (min 20 ((n : ℤ) - 1))).toNat,
      1 / ((m.getD (min 20 ((n : ℤ) - 1))).toNat : ℝ), 0, 0, []⟩)
    ⟨rfl, rfl, by simp, abs_nonneg t, (twoDigits_spec htN).2.1, by simp⟩ (by simp) (Or.inr (Or.inr rfl)) hg
  have hsum : ∀ l : List ℝ, (∀ x ∈ l, 0 < x) → 0 ≤ l.sum := fun l hl => List.sum_nonneg fun x hx => (hl x hx).le
  simp only [List.mem_reverse, List.sum_reverse, List.length_reverse, decide_eq_true_iff]
  refine ⟨g1.pos, fun pre post hp => ?_, g1.count, fun hx => g3.resolve_left hx, fun hc => ?_, trivial, fun hx => ?_,
    fun hb => g1.time ▸ g1.k1 hb⟩
  · have hs : g.steps.sum = pre.sum + post.sum := by
      rw [← List.sum_reverse, hp, List.sum_append]
    have hpost : 0 ≤ post.sum := hsum post fun x hx => g1.pos x (by
      rw [← List.mem_reverse, hp]; exact List.mem_append_right _ hx)
    have := g1.le
    rw [g1.time] at this
    simp only at this
    linarith
  · rw [← g1.time]
    rcases g2 with g2 | ⟨-, g2⟩
    · exact g2
    · simp only at g2; omega
  · rw [← g1.time]
    rcases g2 with g2 | ⟨g2, -⟩
    · exact g2
    · exact absurd hx g2

/-- **C38** The two error estimates returned, the largest estimate of a step and the sum of all: neither can be
replaced by the other, every step counts at least the rounding error, and together they stay within 1.2 times the
tolerance per unit of time, plus the rounding error of each step, plus the tolerance once if the Krylov space was
exhausted. -/
theorem C38_errors (matvec : (Fin n → ℂ) → Fin n → ℂ)
    (expm : ∀ k : ℕ, Matrix (Fin k) (Fin k) ℂ → Matrix (Fin k) (Fin k) ℂ) (eps : ℝ) (v : Fin n → ℂ) (t anorm : ℝ)
    (m : Option ℤ) (tol : ℝ) (ht : 0 < tol) (he : 0 ≤ eps * anorm) (mxstep : ℤ) (breakTol : Option ℝ) (fuel : ℕ)
    (r : GResult n) (h : gexpmv matvec expm eps v t anorm m tol mxstep breakTol fuel = some r) :
    r.errs.1 ≤ r.errs.2 ∧ r.errs.2 ≤ r.nstep * r.errs.1 ∧ r.nstep * (eps * anorm) ≤ r.errs.2 ∧
      r.errs.2 ≤ 12 / 10 * tol * r.steps.sum + r.nstep * (eps * anorm) + (if r.brk then tol else 0) := by
  unfold gexpmv at h
  simp only at h
  split_ifs at h with hm h0
  obtain ⟨tN, htN, h⟩ := Option.bind_eq_some_iff.1 h
  obtain ⟨g, hg, rfl⟩ := Option.map_eq_some_iff.1 h
  push Not at hm
  have hm' : 0 < (m.getD (min 20 ((n : ℤ) - 1))).toNat := by have := hm.2; omega
  have hi : ∀ P : Pars n, P.tOut = |t| → GInv P ⟨v, vnorm v, 0, tN, 0, 2, false,
      (m.getD (min 20 ((n : ℤ) - 1))).toNat, 1 / ((m.getD (min 20 ((n : ℤ) - 1))).toNat : ℝ), 0, 0, []⟩ :=
    fun P hP => ⟨rfl, rfl, by simp, by rw [hP]; exact abs_nonneg t, (twoDigits_spec htN).2.1, by simp⟩
  have g1 := (gLoop_inv (n := n) _ (by exact hm') (by exact ht) fuel (hi _ rfl) (by simp) (Or.inr (Or.inr rfl)) hg).1
  have g2 := gLoop_err (n := n) _ (by exact hm') (by exact ht) (by exact he) fuel (hi _ rfl)
    ⟨by simp, le_refl _, by simp, by simp⟩ (by simp) hg
  refine ⟨g2.max, g2.mean, g2.low, ?_⟩
  have := g2.high
  rw [g1.time] at this
  simpa only [List.sum_reverse] using this

/-- **C38** For time 0 the vector is returned unchanged. -/
theorem C38_zero_time (matvec : (Fin n → ℂ) → Fin n → ℂ)
    (expm : ∀ k : ℕ, Matrix (Fin k) (Fin k) ℂ → Matrix (Fin k) (Fin k) ℂ) (eps : ℝ) (v : Fin n → ℂ) (anorm : ℝ)
    (m : Option ℤ) (tol : ℝ) (mxstep : ℤ) (breakTol : Option ℝ) (fuel : ℕ) (r : GResult n)
    (h : gexpmv matvec expm eps v 0 anorm m tol mxstep breakTol fuel = some r) : r.w = v ∧ r.nstep = 0 := by
  unfold gexpmv at h
  simp only at h
  split_ifs at h with hm h0
  obtain ⟨tN, htN, h⟩ := Option.bind_eq_some_iff.1 h
  obtain ⟨g, hg, rfl⟩ := Option.map_eq_some_iff.1 h
  cases fuel with
  | zero => simp [gLoop] at hg
  | succ fuel =>
    simp only [gLoop, abs_zero, lt_irrefl, if_false, Option.some.injEq] at hg
    rw [← hg]
    exact ⟨rfl, rfl⟩

/-- **C38** A limit of 0 removes the bound on the number of steps, and the whole time is then covered, but the call
never reports convergence. -/
theorem C38_unlimited (matvec : (Fin n → ℂ) → Fin n → ℂ)
    (expm : ∀ k : ℕ, Matrix (Fin k) (Fin k) ℂ → Matrix (Fin k) (Fin k) ℂ) (eps : ℝ) (v : Fin n → ℂ) (t anorm : ℝ)
    (m : Option ℤ) (tol : ℝ) (ht : 0 < tol) (breakTol : Option ℝ) (fuel : ℕ) (r : GResult n)
    (h : gexpmv matvec expm eps v t anorm m tol 0 breakTol fuel = some r) : r.steps.sum = |t| ∧ r.conv = false := by
  obtain ⟨-, -, -, -, -, h6, h7, -⟩ := C38_steps matvec expm eps v t anorm m tol ht 0 breakTol fuel r h
  refine ⟨h7 rfl, ?_⟩
  rcases hc : r.conv with _ | _
  · rfl
  · have := h6.1 hc
    omega

/-- **C38** With the default tolerance 0 every call raises. -/
theorem C38_default_tolerance (matvec : (Fin n → ℂ) → Fin n → ℂ)
    (expm : ∀ k : ℕ, Matrix (Fin k) (Fin k) ℂ → Matrix (Fin k) (Fin k) ℂ) (eps : ℝ) (v : Fin n → ℂ) (t anorm : ℝ)
    (m : Option ℤ) (mxstep : ℤ) (breakTol : Option ℝ) (fuel : ℕ) :
    gexpmv matvec expm eps v t anorm m 0 mxstep breakTol fuel = none := by
  unfold gexpmv
  simp

/-- **C38** A vector of length 1 always raises. -/
theorem C38_length_one (matvec : (Fin 1 → ℂ) → Fin 1 → ℂ)
    (expm : ∀ k : ℕ, Matrix (Fin k) (Fin k) ℂ → Matrix (Fin k) (Fin k) ℂ) (eps : ℝ) (v : Fin 1 → ℂ) (t anorm : ℝ)
    (m : Option ℤ) (tol : ℝ) (mxstep : ℤ) (breakTol : Option ℝ) (fuel : ℕ) :
    gexpmv matvec expm eps v t anorm m tol mxstep breakTol fuel = none := by
  unfold gexpmv
  simp only
  rw [if_pos (by push_cast; omega)]

/-- **C38** If the Krylov space is exhausted within the first step (and the breakdown test is exact), the result is
the exponential of the operator applied to the vector. -/
theorem C38_breakdown_exact (A : Matrix (Fin n) (Fin n) ℂ) (eps : ℝ) (v : Fin n → ℂ) (t anorm : ℝ) (m : Option ℤ)
    (tol : ℝ) (mxstep : ℤ) (fuel : ℕ) (r : GResult n)
    (h : gexpmv (fun x => A.mulVec x) (fun _ M => NormedSpace.exp M) eps v t anorm m tol mxstep (some 0) fuel = some r)
    (hb : r.brk = true) (h1 : r.nstep = 1) : r.w = (NormedSpace.exp ((t : ℂ) • A)).mulVec v := by
  unfold gexpmv at h
  simp only at h
  split_ifs at h with hm h0
  obtain ⟨tN, htN, h⟩ := Option.bind_eq_some_iff.1 h
  obtain ⟨g, hg, rfl⟩ := Option.map_eq_some_iff.1 h
  simp only at hb h1 ⊢
  have key : ∀ (P : Pars n) (fuel k : ℕ) (g g' : GState n), gLoop P fuel k g = some g' → g.nstep ≤ g'.nstep ∧
      (g.nstep = g'.nstep → g = g') := by
    intro P fuel k
    induction k with
    | zero => intro g g' h; simp [gLoop] at h
    | succ k ih =>
      intro g g' h
      unfold gLoop at h
      split_ifs at h with hlt
      · obtain ⟨g1, e1, h⟩ := Option.bind_eq_some_iff.1 h
        have hn : g1.nstep = g.nstep + 1 := by
          unfold gStep at e1
          split_ifs at e1 with hbeta
          obtain ⟨ar, -, e1⟩ := Option.bind_eq_some_iff.1 e1
          obtain ⟨e, -, e1⟩ := Option.bind_eq_some_iff.1 e1
          by_cases herr : e.2.1 ≤ 0
          · simp only [if_pos herr] at e1; simp at e1
          · simp only [if_neg herr] at e1
            obtain ⟨tN, -, rfl⟩ := Option.map_eq_some_iff.1 e1
            rfl
        split_ifs at h with hc
        · have := (ih g1 g' h).1
          exact ⟨by omega, by omega⟩
        · simp only [Option.some.injEq] at h
          subst h
          exact ⟨by omega, by omega⟩
      · simp only [Option.some.injEq] at h
        exact ⟨h ▸ le_refl _, fun _ => h⟩
  cases fuel with
  | zero => simp [gLoop] at hg
  | succ fuel =>
    unfold gLoop at hg
    by_cases hlt : (0 : ℝ) < |t|
    · simp only [if_pos hlt] at hg
      obtain ⟨g1, e1, hg⟩ := Option.bind_eq_some_iff.1 hg
      have hg1 : g1 = g := by
        split_ifs at hg with hc
        · refine (key _ _ _ _ _ hg).2 ?_
          have hle := (key _ _ _ _ _ hg).1
          rw [h1] at hle ⊢
          by_contra hne
          have hz : g1.nstep = 0 := by omega
          unfold gStep at e1
          split_ifs at e1 with hbeta
          obtain ⟨ar, -, e1⟩ := Option.bind_eq_some_iff.1 e1
          obtain ⟨e, -, e1⟩ := Option.bind_eq_some_iff.1 e1
          by_cases herr : e.2.1 ≤ 0
          · simp only [if_pos herr] at e1; simp at e1
          · simp only [if_neg herr] at e1
            obtain ⟨tN, -, rfl⟩ := Option.map_eq_some_iff.1 e1
            simp at hz
        · simpa using hg
      subst hg1
      have := gStep_breakdown _ A rfl rfl rfl rfl e1 hb
      rw [this]
      simp only [sub_zero, sign_mul_abs]
    · rw [if_neg hlt] at hg
      simp only [Option.some.injEq] at hg
      rw [← hg] at h1
      simp at h1

theorem exp_eigenvector (A : Matrix (Fin n) (Fin n) ℂ) (lam : ℂ) (v : Fin n → ℂ) (hA : A.mulVec v = lam • v) :
    (NormedSpace.exp A).mulVec v = Complex.exp lam • v := by
  have h := exp_intertwine A (Matrix.diagonal fun _ : Fin 1 => lam) (Matrix.of fun i _ => v i) (by
    ext i j
    rw [Matrix.mul_diagonal]
    simpa [Matrix.mul_apply, Matrix.mulVec, dotProduct, mul_comm] using congrFun hA i)
  rw [Matrix.exp_diagonal] at h
  funext i
  have := congrFun (congrFun h i) 0
  rw [Matrix.mul_diagonal] at this
  rw [Pi.smul_apply, smul_eq_mul, mul_comm, Complex.exp_eq_exp_ℂ]
  simpa [Matrix.mul_apply, Matrix.mulVec, dotProduct, Pi.coe_exp] using this

theorem vnorm_zero : vnorm (0 : Fin n → ℂ) = 0 := by simp [vnorm]

theorem vdot_normalised {v : Fin n → ℂ} (hv : vnorm v ≠ 0) :
    vdot (fun i => v i / (vnorm v : ℂ)) (fun i => v i / (vnorm v : ℂ)) = 1 := by
  have hsq : (vnorm v : ℝ) ^ 2 = ∑ i, ‖v i‖ ^ 2 := Real.sq_sqrt (Finset.sum_nonneg fun _ _ => by positivity)
  have hc : (vnorm v : ℂ) ≠ 0 := by exact_mod_cast hv
  have : ∀ i, star (v i / (vnorm v : ℂ)) * (v i / (vnorm v : ℂ)) = ((‖v i‖ ^ 2 : ℝ) : ℂ) / ((vnorm v : ℝ) ^ 2 : ℝ) := by
    intro i
    rw [star_div₀]
    have h1 : star (vnorm v : ℂ) = (vnorm v : ℂ) := Complex.conj_ofReal _
    have h2 : star (v i) * v i = ((‖v i‖ ^ 2 : ℝ) : ℂ) := by
      rw [← Complex.normSq_eq_norm_sq]; exact (Complex.normSq_eq_conj_mul_self).symm
    rw [h1, div_mul_div_comm, h2]
    push_cast
    ring
  unfold vdot
  rw [Finset.sum_congr rfl fun i _ => this i, ← Finset.sum_div, hsq, ← Complex.ofReal_sum, div_self]
  rw [← hsq]
  exact_mod_cast pow_ne_zero 2 hv

/-- **C38** It does happen: for an eigenvector `gexpmv` returns after one step, reports the breakdown, and the result
is the vector times the exponential of the eigenvalue. -/
theorem C38_eigenvector (A : Matrix (Fin n) (Fin n) ℂ) (lam : ℂ) (eps : ℝ) (v : Fin n → ℂ) (hv : v ≠ 0)
    (hA : A.mulVec v = lam • v) (t : ℝ) (ht : t ≠ 0) (anorm : ℝ) (ha : 0 < anorm) (m : ℤ) (hm : 0 < m) (hmn : m < n)
    (tol : ℝ) (htol : 0 < tol) (mxstep : ℤ) (fuel : ℕ) :
    ∃ r, gexpmv (fun x => A.mulVec x) (fun _ M => NormedSpace.exp M) eps v t anorm (some m) tol mxstep (some 0)
      (fuel + 2) = some r ∧ r.brk = true ∧ r.nstep = 1 ∧ r.steps = [|t|] ∧ r.w = Complex.exp (t * lam) • v := by
  have hb0 : vnorm v ≠ 0 := fun h => hv (vnorm_eq_zero h.le)
  have hb : 0 < vnorm v := lt_of_le_of_ne (Real.sqrt_nonneg _) (Ne.symm hb0)
  have hbc : (vnorm v : ℂ) ≠ 0 := by exact_mod_cast hb0
  have ht0 : 0 < |t| := abs_pos.2 ht
  obtain ⟨k, rfl⟩ : ∃ k : ℕ, m = k + 1 := ⟨(m - 1).toNat, by omega⟩
  -- the Arnoldi loop stops in its first round
  have har : ∃ ar, arnoldi (fun x => A.mulVec x) 0 (k + 1) 1
      ⟨Function.update (fun _ => 0) 0 fun i => v i / (vnorm v : ℂ), fun _ _ => 0⟩ = some (ar, some 1) := by
    unfold arnoldi
    simp only [Nat.sub_self]
    rw [if_pos]
    · exact ⟨_, rfl⟩
    · have : (orth (Function.update (fun _ => 0) 0 fun i => v i / (vnorm v : ℂ)) 1
          (A.mulVec (Function.update (fun _ => (0 : Fin n → ℂ)) 0 (fun i => v i / (vnorm v : ℂ)) 0))).1 = 0 := by
        have e0 : A.mulVec (fun i => v i / (vnorm v : ℂ)) = lam • fun i => v i / (vnorm v : ℂ) := by
          have : (fun i => v i / (vnorm v : ℂ)) = (vnorm v : ℂ)⁻¹ • v := by
            funext i; simp [div_eq_inv_mul]
          rw [this, Matrix.mulVec_smul, hA, smul_comm]
        have e1 : vdot (fun i => v i / (vnorm v : ℂ)) (lam • fun i => v i / (vnorm v : ℂ)) = lam := by
          have := vdot_normalised hb0
          unfold vdot at this ⊢
          simp only [Pi.smul_apply, smul_eq_mul, mul_left_comm _ lam]
          rw [← Finset.mul_sum, this, mul_one]
        simp only [orth, List.range_one, List.foldl_cons, List.foldl_nil, Function.update_self]
        rw [e0, e1, sub_self]
      rw [this, vnorm_zero]
  obtain ⟨ar, har⟩ := har
  -- the run
  have hret : ∃ r, gexpmv (fun x => A.mulVec x) (fun _ M => NormedSpace.exp M) eps v t anorm (some (k + 1 : ℤ)) tol mxstep
      (some 0) (fuel + 2) = some r ∧ r.brk = true ∧ r.nstep = 1 ∧ r.steps = [|t|] := by
    have hp2 : 0 < tol * (((k + 1 : ℕ) : ℝ) + 1) / 1 := by positivity
    unfold gexpmv
    simp only [Option.getD_some]
    rw [if_neg (by omega)]
    have hk : ((k : ℤ) + 1).toNat = k + 1 := by omega
    rw [hk]
    have hbase : 0 < tol * ((((k + 1 : ℕ) : ℝ) + 1) / Real.exp 1) ^ (k + 1 + 1) *
        Real.sqrt (2 * Real.pi * (((k + 1 : ℕ) : ℝ) + 1)) / (4 * vnorm v * anorm) := by
      have := Real.pi_pos
      positivity
    rw [if_neg (by push Not; exact ⟨ha.ne', hbase⟩)]
    obtain ⟨tN, htN⟩ := Option.isSome_iff_exists.1 (twoDigits_isSome (x := 1 / anorm *
      (tol * ((((k + 1 : ℕ) : ℝ) + 1) / Real.exp 1) ^ (k + 1 + 1) *
        Real.sqrt (2 * Real.pi * (((k + 1 : ℕ) : ℝ) + 1)) / (4 * vnorm v * anorm)) ^ (1 / ((k + 1 : ℕ) : ℝ)))
      (mul_pos (by positivity) (Real.rpow_pos_of_pos hbase _)))
    rw [htN, Option.bind_some]
    obtain ⟨tN2, htN2⟩ := Option.isSome_iff_exists.1 (twoDigits_isSome
      (x := 9 / 10 * (|t| - 0) * ((|t| - 0) * tol / tol) ^ (1 / ((k + 1 : ℕ) : ℝ)))
      (by rw [sub_zero]; exact mul_pos (by positivity) (Real.rpow_pos_of_pos (by positivity) _)))
    have hstep : ∃ w b xe se, gStep (⟨fun x => A.mulVec x, fun _ M => NormedSpace.exp M, k + 1, tol, 0,
        (SignType.sign t : ℝ), |t|, eps * anorm, mxstep⟩ : Pars n) (fuel + 2)
        ⟨v, vnorm v, 0, tN, 0, 2, false, k + 1, 1 / ((k + 1 : ℕ) : ℝ), 0, 0, []⟩ =
        some ⟨w, b, 0 + (|t| - 0), tN2, 0 + 1, 0, true, 1, 1 / ((k + 1 : ℕ) : ℝ), xe, se, [|t| - 0]⟩ := by
      unfold gStep
      rw [if_neg hb0]
      simp only
      rw [har, Option.bind_some]
      simp only [reduceCtorEq, if_false, Option.getD_some, rejectLoop, if_true, Option.bind_some]
      rw [if_neg (not_le.2 htol), htN2]
      exact ⟨_, _, _, _, rfl⟩
    obtain ⟨w, b, xe, se, hstep⟩ := hstep
    unfold gLoop
    simp only [if_pos ht0]
    rw [hstep, Option.bind_some]
    simp only
    by_cases hc : mxstep = 0 ∨ ((0 + 1 : ℕ) : ℤ) < mxstep
    · rw [if_pos hc]
      unfold gLoop
      rw [if_neg (by simp)]
      exact ⟨_, rfl, rfl, rfl, by simp⟩
    · rw [if_neg hc]
      exact ⟨_, rfl, rfl, rfl, by simp⟩
  obtain ⟨r, h1, h2, h3, h4⟩ := hret
  refine ⟨r, h1, h2, h3, h4, ?_⟩
  rw [C38_breakdown_exact A eps v t anorm _ tol mxstep _ r h1 h2 h3]
  exact exp_eigenvector _ _ _ (by rw [Matrix.smul_mulVec, hA, smul_smul])

/-- The hypotheses of `C38_eigenvector` are met by a two-dimensional example; the time 1 with a limit of 500 steps. -/
example : ∃ r, gexpmv (fun x => (!![0, 1; 1, 0] : Matrix (Fin 2) (Fin 2) ℂ).mulVec x) (fun _ M => NormedSpace.exp M) 0
    ![1, 1] 1 1 (some 1) 1 500 (some 0) 2 = some r ∧ r.conv = true := by
  obtain ⟨r, h1, h2, h3, -⟩ := C38_eigenvector (!![0, 1; 1, 0] : Matrix (Fin 2) (Fin 2) ℂ) 1 0 ![1, 1]
    (fun h => by simpa using congrFun h 0) (by ext i; fin_cases i <;> simp [Matrix.mulVec, dotProduct, Fin.sum_univ_two])
    1 one_ne_zero 1 one_pos 1 one_pos (by norm_num) 1 one_pos 500 0
  refine ⟨r, h1, ?_⟩
  rw [(C38_steps _ _ _ _ _ _ _ _ one_pos _ _ _ r h1).2.2.2.2.2.1, h3]
  norm_num

end EvoMPS
