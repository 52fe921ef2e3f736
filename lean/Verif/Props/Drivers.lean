import Verif.DriversLemmas
import Mathlib.Analysis.Complex.Basic
import Mathlib.Tactic.NormNum

/-!
# C36, C37: driver loops and the automatic step size
-/

namespace EvoMPS

open Dyn

variable {σ β : Type}

/-! ## `evolve` -/

/-- **C36** (`evolve`).  When `evolve` returns and the integrator is one of the two documented ones, then with
`n = int(t/dt) ≥ 0`: the callback is called with the indices `0..n`, each time with the current object and a fresh
tangent vector, after a total time `i dt`; every step uses the tangent vector of the object it starts from; there
are exactly `n` steps. -/
theorem C36_evolve (S : Sys σ β) (t dt : ℝ) (integ : Integ) (hi : integ ≠ .other) (dynexp : Bool) (Dmax dDmax : ℤ)
    (svTol : ℝ) (hasCb at' : Bool) (w w' : World σ β) (hn : 0 ≤ pyInt (t / dt))
    (h : evolve S t dt integ dynexp Dmax dDmax svTol hasCb at' w = some w') :
    ∃ new, w'.log = w.log ++ new ∧ w'.s = replay S new w.s ∧
      AllCalls (EvolveCall S dt integ dynexp Dmax dDmax w.s) new ∧
      cbIdx new = (if hasCb = true then (List.range ((pyInt (t / dt)).toNat + 1)).map (fun k : ℕ => (k : ℤ)) else []) ∧
      (stepTimes new).sum = pyInt (t / dt) * (dt * Complex.I) ∧
      (integ = .euler → stepTimes new = List.replicate (pyInt (t / dt)).toNat (dt * Complex.I)) ∧
      (integ = .rk4 → rk4Count new = (pyInt (t / dt)).toNat) ∧
      ∃ B, direction S new w.s = some (B, none) := by
  unfold evolve at h
  split_ifs at h with h0
  simp only [hn, if_true] at h
  obtain ⟨new, h1, ⟨h2, h3, h4⟩, h5, h6⟩ := evolveLoop_inv (S := S) (L := w.log) (s0 := w.s) hi
    (pyInt (t / dt)).toNat 0 (inv_nil S (EvolveCall S dt integ dynexp Dmax dDmax w.s) w)
    ⟨by simp, by simp, fun _ => rfl⟩ (by simp) h
  rw [Nat.zero_add] at h2 h3 h4 h5
  have hc : (((pyInt (t / dt)).toNat : ℕ) : ℂ) = (pyInt (t / dt) : ℂ) := by
    exact_mod_cast congrArg (fun z : ℤ => (z : ℂ)) (Int.toNat_of_nonneg hn)
  exact ⟨new, h1.1, h1.2.1, h1.2.2, h5, by rw [h2, hc], h3, h4, h6⟩

/-- **C36** (`evolve`).  The total time falls short of the requested one by less than a step. -/
theorem C36_evolve_total (t dt : ℝ) (hdt : dt ≠ 0) (hn : 0 ≤ t / dt) :
    0 ≤ pyInt (t / dt) ∧ 0 ≤ (t - pyInt (t / dt) * dt) / dt ∧ (t - pyInt (t / dt) * dt) / dt < 1 := by
  have e : (t - pyInt (t / dt) * dt) / dt = t / dt - pyInt (t / dt) := by field_simp
  rw [e]
  unfold pyInt
  rw [if_pos hn]
  refine ⟨Int.floor_nonneg.2 hn, ?_, ?_⟩
  · linarith [Int.floor_le (t / dt)]
  · linarith [Int.lt_floor_add_one (t / dt)]

/-- **C36** (`evolve`).  A whole number of steps is made exactly (in exact arithmetic). -/
theorem C36_evolve_exact (n : ℕ) (dt : ℝ) (hdt : dt ≠ 0) : pyInt (n * dt / dt) = n := by
  rw [mul_div_assoc, div_self hdt, mul_one]
  unfold pyInt
  rw [if_pos (Nat.cast_nonneg n)]
  simp

/-- **C36** (`evolve`).  When it returns. -/
theorem C36_evolve_returns (S : Sys σ β) (t dt : ℝ) (hdt : dt ≠ 0) (integ : Integ) (dynexp : Bool) (Dmax dDmax : ℤ)
    (svTol : ℝ) (hasCb at' : Bool) (w : World σ β)
    (h : S.normalizeKw = true ∨ integ ≠ .rk4 ∨ dynexp = false) :
    (evolve S t dt integ dynexp Dmax dDmax svTol hasCb at' w).isSome := by
  unfold evolve
  rw [if_neg hdt]
  simp only
  split_ifs
  · exact evolveLoop_isSome h _ _ _
  · rfl

/-- **C36** violated for other integrator names: no step is made, whatever the number of steps asked for, and no
error is reported. -/
theorem C36_evolve_integ_violated (S : Sys σ β) (n : ℕ) (dt : ℝ) (hdt : dt ≠ 0) (dynexp : Bool) (Dmax dDmax : ℤ)
    (svTol : ℝ) (hasCb at' : Bool) (s : σ) :
    ∃ w', evolve S (n * dt) dt .other dynexp Dmax dDmax svTol hasCb at' ⟨s, []⟩ = some w' ∧ stepTimes w'.log = [] := by
  obtain ⟨w', e⟩ := Option.isSome_iff_exists.1 (C36_evolve_returns S (n * dt) dt hdt .other dynexp Dmax dDmax svTol
    hasCb at' ⟨s, []⟩ (Or.inr (Or.inl (by decide))))
  refine ⟨w', e, ?_⟩
  unfold evolve at e
  rw [if_neg hdt] at e
  simp only [C36_evolve_exact n dt hdt] at e
  rw [if_pos (Int.natCast_nonneg n)] at e
  exact evolveLoop_other _ _ e

/-- **C36** violated for uniform states: with the Runge-Kutta integrator and dynamical expansion (the default) the
first step that expands raises, because `update` is called with a keyword it does not accept. -/
theorem C36_evolve_uniform_violated (S : Sys σ β) (hS : S.normalizeKw = false) (n : ℕ) (hn : 0 < n) (dt : ℝ)
    (Dmax dDmax : ℤ) (svTol : ℝ) (hasCb at' : Bool) (w : World σ β) (hD : ∀ s, S.maxDLess Dmax s = true) :
    evolve S (n * dt) dt .rk4 true Dmax dDmax svTol hasCb at' w = none := by
  unfold evolve
  split_ifs with h0
  · rfl
  · simp only [C36_evolve_exact n dt h0]
    rw [if_pos (Int.natCast_nonneg n)]
    obtain ⟨m, rfl⟩ : ∃ m, n = m + 1 := ⟨n - 1, by omega⟩
    simp [evolveLoop, evolveStep, hD, hS]

/-! ## `opt_im_time`, `opt_conj_grad` -/

/-- **C36** (`opt_im_time`).  A run that returns is a run as described in `ImRun`: indices from `j` on without gaps,
one callback more than steps, the time passed to the callback is the sum of the steps made so far, at most
`max_itr` steps, no step when the stopping condition holds, and fewer steps only if it holds. -/
theorem C36_im_time (S : Sys σ β) (a : ImArgs) (hW : 0 ≤ a.expandWait) (dtau0 : ℝ) (maxItr : ℤ) (w w' : World σ β)
    (cnt : ℤ) (tau dtau : ℝ) (e : optImTime S a dtau0 maxItr w = some (w', cnt, tau, dtau)) :
    ∃ new, w'.log = w.log ++ new ∧ ImRun S a maxItr w.s new w'.s cnt tau :=
  optImTime_run hW e

/-- **C36** (`opt_im_time`).  It returns for states with a single bond dimension. -/
theorem C36_im_time_returns (S : Sys σ β) (a : ImArgs) (h : S.scalarD = true) (dtau0 : ℝ) (maxItr : ℤ)
    (w : World σ β) : (optImTime S a dtau0 maxItr w).isSome := by
  unfold optImTime
  split_ifs
  · rw [Option.isSome_map]; exact imLoop_isSome h _ _ _
  · rfl

/-- **C36** violated for finite chains, whose bond dimensions are an array: `opt_im_time` raises unless no step is
asked for. -/
theorem C36_im_time_finite_violated (S : Sys σ β) (a : ImArgs) (h : S.scalarD = false) (dtau0 : ℝ) (maxItr : ℤ)
    (w : World σ β) : optImTime S a dtau0 maxItr w = none ↔ 0 < maxItr := by
  unfold optImTime
  split_ifs with h0
  · rw [Option.map_eq_none_iff]
    obtain ⟨n, rfl⟩ := Int.eq_ofNat_of_zero_le h0
    rw [Int.toNat_natCast]
    cases n with
    | zero => simp [imLoop]
    | succ n => simp only [imLoop, h]; simp
  · simp; omega

/-- **C36** (`opt_conj_grad`).  A run that returns is a run as described in `CgRun`. -/
theorem C36_conj_grad (S : Sys σ β) (a : CgArgs) (h0prev : Option ℝ) (maxItr : ℤ) (w w' : World σ β) (cnt : ℤ)
    (h0 : ℝ) (e : optConjGrad S a h0prev maxItr w = some (w', cnt, h0)) :
    ∃ new, w'.log = w.log ++ new ∧ CgRun S a maxItr w.s new w'.s cnt :=
  optConjGrad_run e

/-- **C36** (`opt_conj_grad`).  When it returns. -/
theorem C36_conj_grad_returns (S : Sys σ β) (a : CgArgs) (h : S.cgCall = true) (hr : a.resetEvery ≠ 0)
    (h0prev : Option ℝ) (maxItr : ℤ) (w : World σ β) : (optConjGrad S a h0prev maxItr w).isSome := by
  unfold optConjGrad
  simp only
  split_ifs
  · rw [Option.isSome_map]; exact cgLoop_isSome h _ _ _
  · rfl

/-- **C36** violated for open chains: their `calc_B_CG` does not accept the call, `opt_conj_grad` raises unless no
step is asked for. -/
theorem C36_conj_grad_finite_violated (S : Sys σ β) (a : CgArgs) (h : S.cgCall = false) (hr : a.resetEvery ≠ 0)
    (h0prev : Option ℝ) (maxItr : ℤ) (w : World σ β) : optConjGrad S a h0prev maxItr w = none ↔ 0 < maxItr := by
  unfold optConjGrad
  simp only
  split_ifs with h0
  · rw [Option.map_eq_none_iff]
    obtain ⟨n, rfl⟩ := Int.eq_ofNat_of_zero_le h0
    rw [Int.toNat_natCast]
    cases n with
    | zero => simp [cgLoop]
    | succ n => simp only [cgLoop, h]; simp
  · simp; omega

/-! ## Combined drivers -/

theorem range_shift (n c : ℕ) :
    ((List.range n).map (fun k : ℕ => (k : ℤ))) ++ (List.range c).map (fun k : ℕ => (n : ℤ) + (k : ℤ)) =
      (List.range (n + c)).map (fun k : ℕ => (k : ℤ)) := by
  rw [List.range_add, List.map_append, List.map_map]
  congr 1

theorem gdLoop_run (S : Sys σ β) (tol hInit : ℝ) (maxItr imGap gapEvery : ℤ) (hasCb : Bool) (L : List (Call σ β))
    (s0 : σ) (fuel : ℕ) (j : ℤ) (dtau : ℝ) (h0 : Option ℝ) (w w' : World σ β) (j' : ℤ) (new : List (Call σ β))
    (hl : w.log = L ++ new) (hs : w.s = replay S new s0) (hj : 0 ≤ j) (hjm : j ≤ max (maxItr + 1) 0)
    (hc : cbIdx new = if hasCb = true then (List.range j.toNat).map (fun k : ℕ => (k : ℤ)) else [])
    (hst : ((stepTimes new).length : ℤ) ≤ j)
    (e : gdLoop S tol hInit maxItr imGap gapEvery hasCb fuel j dtau h0 w = some (w', j')) :
    ∃ new', w'.log = L ++ new' ∧ w'.s = replay S new' s0 ∧ 0 ≤ j' ∧ j' ≤ max (maxItr + 1) 0 ∧
      (cbIdx new' = if hasCb = true then (List.range j'.toNat).map (fun k : ℕ => (k : ℤ)) else []) ∧
      ((stepTimes new').length : ℤ) ≤ j' ∧ (j' < maxItr → S.eta w'.s < tol) := by
  induction fuel generalizing j dtau h0 w new with
  | zero => simp [gdLoop] at e
  | succ fuel ih =>
    unfold gdLoop at e
    split_ifs at e with hlt
    · obtain ⟨⟨w1, c1, t1, d1⟩, e1, e2⟩ := Option.bind_eq_some_iff.1 e
      obtain ⟨⟨w2, c2, g2⟩, e3, e4⟩ := Option.bind_eq_some_iff.1 e2
      simp only at e3 e4
      obtain ⟨n1, l1, r1⟩ := optImTime_run (by norm_num) e1
      obtain ⟨n2, l2, r2⟩ := optConjGrad_run e3
      have p1 := r1.count_pos
      have p2 := r2.count_pos
      have b1 := r1.count
      have b2 := r2.count
      have q1 : 0 ≤ c1 := by split_ifs at p1 <;> omega
      have q2 : 0 ≤ c2 := by split_ifs at p2 <;> omega
      have hl' : w2.log = L ++ (new ++ n1 ++ n2) := by rw [l2, l1, hl]; simp
      have hs' : w2.s = replay S (new ++ n1 ++ n2) s0 := by
        rw [replay_append, replay_append, ← hs, ← r1.state, ← r2.state]
      have hj' : j + c1 + c2 ≤ max (maxItr + 1) 0 := by
        have : maxItr + 1 ≤ max (maxItr + 1) 0 := le_max_left _ _
        rcases max_cases (min gapEvery (maxItr - (j + c1)) + 1) 0 with ⟨h, -⟩ | ⟨h, -⟩ <;>
        rcases max_cases (min imGap (maxItr - j) + 1) 0 with ⟨h', -⟩ | ⟨h', -⟩ <;>
        have := min_le_right gapEvery (maxItr - (j + c1)) <;>
        have := min_le_right imGap (maxItr - j) <;> omega
      have hc' : cbIdx (new ++ n1 ++ n2) =
          if hasCb = true then (List.range (j + c1 + c2).toNat).map (fun k : ℕ => (k : ℤ)) else [] := by
        rw [cbIdx_append, cbIdx_append, hc, r1.callbacks, r2.callbacks]
        cases hasCb
        · rfl
        · simp only [if_true]
          have t1 : (j + c1).toNat = j.toNat + c1.toNat := by omega
          have t2 : (j + c1 + c2).toNat = (j + c1).toNat + c2.toNat := by omega
          have := range_shift j.toNat c1.toNat
          rw [Int.toNat_of_nonneg hj] at this
          rw [this, ← t1]
          have := range_shift (j + c1).toNat c2.toNat
          rw [Int.toNat_of_nonneg (by omega : 0 ≤ j + c1)] at this
          rw [this, ← t2]
      have hst' : ((stepTimes (new ++ n1 ++ n2)).length : ℤ) ≤ j + c1 + c2 := by
        rw [stepTimes_append, stepTimes_append, List.length_append, List.length_append, r1.steps, r2.steps]
        push_cast
        omega
      split_ifs at e4 with heta
      · simp only [Option.some.injEq, Prod.mk.injEq] at e4
        obtain ⟨rfl, rfl⟩ := e4
        exact ⟨_, hl', hs', by omega, hj', hc', hst', fun _ => heta⟩
      · exact ih _ _ _ _ _ hl' hs' (by omega) hj' hc' hst' e4
    · simp only [Option.some.injEq, Prod.mk.injEq] at e
      obtain ⟨rfl, rfl⟩ := e
      exact ⟨new, hl, hs, hj, hjm, hc, hst, fun h => absurd h hlt⟩

/-- **C36** (`opt_grad_descent`).  The callback is called with the indices `0..j-1` where `j` is the returned number;
`j` is at most `max_itr + 1`, there are at most `j` steps, and `j < max_itr` only if the error measure is below the
tolerance. -/
theorem C36_grad_descent (S : Sys σ β) (tol hInit : ℝ) (maxItr imGap gapEvery : ℤ) (hasCb : Bool) (fuel : ℕ)
    (w w' : World σ β) (j : ℤ) (e : optGradDescent S tol hInit maxItr imGap gapEvery hasCb fuel w = some (w', j)) :
    ∃ new, w'.log = w.log ++ new ∧ w'.s = replay S new w.s ∧ 0 ≤ j ∧ j ≤ max (maxItr + 1) 0 ∧
      (cbIdx new = if hasCb = true then (List.range j.toNat).map (fun k : ℕ => (k : ℤ)) else []) ∧
      ((stepTimes new).length : ℤ) ≤ j ∧ (j < maxItr → S.eta w'.s < tol) :=
  gdLoop_run S tol hInit maxItr imGap gapEvery hasCb w.log w.s fuel 0 hInit none w w' j [] (by simp) rfl (le_refl _)
    (le_max_right _ _) (by simp) (by simp) e

/-- **C36** (`opt_grad_descent`).  It returns after at most `max_itr` rounds if the object supports it. -/
theorem C36_grad_descent_returns (S : Sys σ β) (hD : S.scalarD = true) (hC : S.cgCall = true) (tol hInit : ℝ)
    (maxItr imGap gapEvery : ℤ) (hg : 0 ≤ imGap) (hasCb : Bool) (fuel : ℕ) (hf : maxItr < fuel) (hf0 : 0 < fuel)
    (w : World σ β) : (optGradDescent S tol hInit maxItr imGap gapEvery hasCb fuel w).isSome := by
  unfold optGradDescent
  have key : ∀ (fuel : ℕ) (j : ℤ) (dtau : ℝ) (h0 : Option ℝ) (w : World σ β), maxItr - j < fuel → 0 < fuel →
      (gdLoop S tol hInit maxItr imGap gapEvery hasCb fuel j dtau h0 w).isSome := by
    intro fuel
    induction fuel with
    | zero => intro _ _ _ _ _ h; omega
    | succ fuel ih =>
      intro j dtau h0 w hj _
      unfold gdLoop
      split_ifs with hlt
      · obtain ⟨⟨w1, c1, t1, d1⟩, e1⟩ := Option.isSome_iff_exists.1 (C36_im_time_returns S
          ⟨tol, hInit, hasCb, true, true, S.D w.s, 1 / 100, 2, 5, j⟩ hD dtau (min imGap (maxItr - j)) w)
        obtain ⟨⟨w2, c2, g2⟩, e2⟩ := Option.isSome_iff_exists.1 (C36_conj_grad_returns S
          ⟨tol, hInit, 1, hasCb, j + c1⟩ hC one_ne_zero h0 (min gapEvery (maxItr - (j + c1))) w1)
        obtain ⟨n1, -, r1⟩ := optImTime_run (by norm_num) e1
        obtain ⟨n2, -, r2⟩ := optConjGrad_run e2
        have p1 := r1.count_pos
        have p2 := r2.count_pos
        rw [if_pos (le_min hg (by omega))] at p1
        have q2 : 0 ≤ c2 := by split_ifs at p2 <;> omega
        rw [e1, Option.bind_some]
        simp only
        rw [e2, Option.bind_some]
        simp only
        split_ifs
        · rfl
        · push_cast at hj
          by_cases hz : fuel = 0
          · subst hz; exfalso; simp at hj; omega
          · exact ih _ _ _ _ (by omega) (Nat.pos_of_ne_zero hz)
      · rfl
  exact key fuel 0 hInit none w (by simpa using hf) hf0

/-- **C36** (`find_ground`).  When it returns, the calls are: calls with gapless callback indices up to a point where
the bond dimension is at least the requested one, then a complete conjugate gradient run with the requested
tolerance (so the error measure is below it unless `max_itr` steps were made), with indices going on. -/
theorem C36_find_ground (S : Sys σ β) (tol hInit : ℝ) (maxItr expandTo expandStep : ℤ) (expandTol cgTol : ℝ)
    (hasCb : Bool) (resetEvery fuel : ℕ) (w w' : World σ β) (j : ℤ)
    (e : findGround S tol hInit maxItr expandTo expandStep expandTol cgTol hasCb resetEvery fuel w = some (w', j)) :
    ∃ new1 new2, ∃ j1 : ℕ, ∃ c : ℤ, w'.log = w.log ++ (new1 ++ new2) ∧ expandTo ≤ S.D (replay S new1 w.s) ∧
      (cbIdx new1 = if hasCb = true then (List.range j1).map (fun k : ℕ => (k : ℤ)) else []) ∧
      CgRun S ⟨tol, hInit, resetEvery, hasCb, j1⟩ maxItr (replay S new1 w.s) new2 w'.s c ∧
      (cbIdx (new1 ++ new2) = if hasCb = true then (List.range j.toNat).map (fun k : ℕ => (k : ℤ)) else []) := by
  have key : ∀ (fuel : ℕ) (j0 : ℤ) (v : World σ β) (new : List (Call σ β)), v.log = w.log ++ new →
      v.s = replay S new w.s → 0 ≤ j0 →
      (cbIdx new = if hasCb = true then (List.range j0.toNat).map (fun k : ℕ => (k : ℤ)) else []) →
      fgLoop S tol hInit maxItr expandTo expandStep expandTol hasCb resetEvery fuel j0 v = some (w', j) →
      ∃ new1 new2, ∃ j1 : ℕ, ∃ c : ℤ, w'.log = w.log ++ (new1 ++ new2) ∧ expandTo ≤ S.D (replay S new1 w.s) ∧
      (cbIdx new1 = if hasCb = true then (List.range j1).map (fun k : ℕ => (k : ℤ)) else []) ∧
      CgRun S ⟨tol, hInit, resetEvery, hasCb, j1⟩ maxItr (replay S new1 w.s) new2 w'.s c ∧
      (cbIdx (new1 ++ new2) = if hasCb = true then (List.range j.toNat).map (fun k : ℕ => (k : ℤ)) else []) := by
    intro fuel
    induction fuel with
    | zero => intro _ _ _ _ _ _ _ e; simp [fgLoop] at e
    | succ fuel ih =>
      intro j0 v new hl hs hj hc e
      unfold fgLoop at e
      split_ifs at e with hsc hlt
      · obtain ⟨⟨w1, c1, g1⟩, e1, e2⟩ := Option.bind_eq_some_iff.1 e
        obtain ⟨⟨w2, c2, t2, d2⟩, e3, e4⟩ := Option.bind_eq_some_iff.1 e2
        simp only at e3 e4
        obtain ⟨n1, l1, r1⟩ := optConjGrad_run e1
        obtain ⟨n2, l2, r2⟩ := optImTime_run (by norm_num) e3
        have p1 := r1.count_pos
        have p2 := r2.count_pos
        have q1 : 0 ≤ c1 := by split_ifs at p1 <;> omega
        have q2 : 0 ≤ c2 := by split_ifs at p2 <;> omega
        refine ih _ _ (new ++ n1 ++ n2) (by rw [l2, l1, hl]; simp)
          (by rw [replay_append, replay_append, ← hs, ← r1.state, ← r2.state]) (by omega) ?_ e4
        rw [cbIdx_append, cbIdx_append, hc, r1.callbacks, r2.callbacks]
        cases hasCb
        · rfl
        · simp only [if_true]
          have t1 : (j0 + c1).toNat = j0.toNat + c1.toNat := by omega
          have t2 : (j0 + c1 + c2).toNat = (j0 + c1).toNat + c2.toNat := by omega
          have := range_shift j0.toNat c1.toNat
          rw [Int.toNat_of_nonneg hj] at this
          rw [this, ← t1]
          have := range_shift (j0 + c1).toNat c2.toNat
          rw [Int.toNat_of_nonneg (by omega : 0 ≤ j0 + c1)] at this
          rw [this, ← t2]
      · obtain ⟨⟨w1, c1, g1⟩, e1, e2⟩ := Option.map_eq_some_iff.1 e
        simp only [Prod.mk.injEq] at e2
        obtain ⟨rfl, rfl⟩ := e2
        obtain ⟨n1, l1, r1⟩ := optConjGrad_run e1
        have p1 := r1.count_pos
        have q1 : 0 ≤ c1 := by split_ifs at p1 <;> omega
        have hj0 : ((j0.toNat : ℕ) : ℤ) = j0 := Int.toNat_of_nonneg hj
        refine ⟨new, n1, j0.toNat, c1, by rw [l1, hl]; simp, by rw [← hs]; exact not_lt.1 hlt, hc, ?_, ?_⟩
        · rw [hj0, ← hs]; exact r1
        · rw [cbIdx_append, hc, r1.callbacks]
          cases hasCb
          · rfl
          · simp only [if_true]
            have t1 : (j0 + c1).toNat = j0.toNat + c1.toNat := by omega
            have := range_shift j0.toNat c1.toNat
            rw [hj0] at this
            rw [this, ← t1]
  unfold findGround at e
  obtain ⟨⟨w1, c1, t1, d1⟩, e1, e2⟩ := Option.bind_eq_some_iff.1 e
  obtain ⟨n1, l1, r1⟩ := optImTime_run (by norm_num) e1
  have p1 := r1.count_pos
  have q1 : 0 ≤ c1 := by split_ifs at p1 <;> omega
  refine key fuel c1 w1 n1 l1 r1.state q1 ?_ e2
  rw [r1.callbacks]
  simp

/-- **C36** violated by `find_ground`: if the bond dimension cannot be enlarged, it never returns, although
`max_itr` bounds the steps of each stage. -/
theorem C36_find_ground_violated (S : Sys σ β) (tol hInit : ℝ) (maxItr expandTo expandStep : ℤ)
    (expandTol cgTol : ℝ) (hasCb : Bool) (resetEvery : ℕ) (w : World σ β) (hD : ∀ s, S.D s < expandTo) (fuel : ℕ) :
    findGround S tol hInit maxItr expandTo expandStep expandTol cgTol hasCb resetEvery fuel w = none := by
  rcases h : findGround S tol hInit maxItr expandTo expandStep expandTol cgTol hasCb resetEvery fuel w with _ | ⟨w', j⟩
  · rfl
  · obtain ⟨n1, -, -, -, -, h2, -⟩ := C36_find_ground S tol hInit maxItr expandTo expandStep expandTol cgTol hasCb
      resetEvery fuel w w' j h
    exact absurd h2 (not_le.2 (hD _))

/-- **C36** violated by `evolve_scipy_ode` and `evolve_scipy_ode_old`: if the integrator is running and evaluates
the right-hand side in its first step, the call raises `TypeError` whenever a step is asked for. -/
theorem C36_scipy_ode_violated (calls0 : ℕ) (calls : ℕ → ℕ) (running : ℕ → Bool) (n : ℕ) (h0 : running 0 = true)
    (hc : 0 < calls 0) : scipyOde calls0 calls running (n + 1) = none := by
  unfold scipyOde
  rcases ifuncs calls0 (.list true) with _ | c
  · rfl
  · simp only [Option.bind_some, odeLoop, h0, if_true]
    obtain ⟨k, hk⟩ : ∃ k, calls 0 = k + 1 := ⟨calls 0 - 1, by omega⟩
    simp [hk, ifuncs, ifunc]

/-! ## Automatic step size -/

/-- **C37** One adjustment keeps the step between one hundredth and two times the base step. -/
theorem C37_autostep (dtau base eta dh dhPred : ℝ) (hb : 0 < base) (h1 : base / 100 ≤ dtau) (h2 : dtau ≤ 2 * base) :
    base / 100 ≤ (autostep dtau base eta dh dhPred).1 ∧ (autostep dtau base eta dh dhPred).1 ≤ 2 * base :=
  autostep_range dtau base eta dh dhPred hb h1 h2

/-- **C37** Every history of error measures and energies, every number of adjustments. -/
theorem C37_history (base : ℝ) (hb : 0 < base) (hist : List (ℝ × ℝ)) :
    let p := hist.foldl (fun (p : ℝ × ℝ) e => autostep p.1 base e.1 e.2 p.2) (base, 0)
    base / 100 ≤ p.1 ∧ p.1 ≤ 2 * base := by
  have : ∀ (p : ℝ × ℝ), base / 100 ≤ p.1 ∧ p.1 ≤ 2 * base →
      base / 100 ≤ (hist.foldl (fun (p : ℝ × ℝ) e => autostep p.1 base e.1 e.2 p.2) p).1 ∧
        (hist.foldl (fun (p : ℝ × ℝ) e => autostep p.1 base e.1 e.2 p.2) p).1 ≤ 2 * base := by
    induction hist with
    | nil => exact fun p h => h
    | cons e l ih => exact fun p h => ih _ (autostep_range _ _ _ _ _ hb h.1 h.2)
  exact this (base, 0) ⟨by show base / 100 ≤ base; linarith, by show base ≤ 2 * base; linarith⟩

/-- **C37** Every step made by `opt_im_time`, and the step it returns. -/
theorem C37_im_time (S : Sys σ β) (a : ImArgs) (hb : 0 < a.base) (dtau0 : ℝ)
    (hd : a.base / 100 ≤ dtau0 ∧ dtau0 ≤ 2 * a.base) (maxItr : ℤ) (w w' : World σ β) (cnt : ℤ) (tau dtau : ℝ)
    (e : optImTime S a dtau0 maxItr w = some (w', cnt, tau, dtau)) :
    (a.base / 100 ≤ dtau ∧ dtau ≤ 2 * a.base) ∧ ∃ new, w'.log = w.log ++ new ∧
      ∀ z ∈ stepTimes new, ∃ x : ℝ, z = x ∧ a.base / 100 ≤ x ∧ x ≤ 2 * a.base := by
  unfold optImTime at e
  split_ifs at e with h0
  · obtain ⟨⟨i', st'⟩, e1, e2⟩ := Option.map_eq_some_iff.1 e
    simp only [Prod.mk.injEq] at e2
    obtain ⟨rfl, rfl, rfl, rfl⟩ := e2
    exact imLoop_range (L := w.log) hb _ _ (st := ⟨w, dtau0, 0, 0, 0, 0⟩) hd (new := []) (by simp) (by simp) e1
  · simp only [Option.some.injEq, Prod.mk.injEq] at e
    obtain ⟨rfl, rfl, rfl, rfl⟩ := e
    exact ⟨hd, [], by simp, by simp⟩

/-- **C37** The rule is not idle: after a raised energy the step becomes one hundredth of the base step, a step whose
prediction is right grows. -/
theorem C37_both_directions (base : ℝ) (hb : 0 < base) :
    (autostep base base 1 (-1) 1).1 = base / 100 ∧ base < (autostep base base 1 1 1).1 := by
  constructor
  · norm_num [autostep]
    ring
  · norm_num [autostep]
    constructor <;> linarith

/-! ## The hypotheses can be met -/

/-- A toy object: a pair of numbers, the bond dimension grows by expansions, the error measure shrinks with every
step. -/
noncomputable def toy : Sys (ℤ × ℕ) ℝ where
  update _ _ _ s := s
  calcB s := ((s.2 : ℝ), s)
  calcBCG _ _ _ h _ _ s := ((s.2, s.2, 0, h), s)
  takeStep _ _ d Dm dD _ s := (if d then min Dm (s.1 + dD) else s.1, s.2 + 1)
  takeStepRK4 _ _ s := (s.1, s.2 + 1)
  maxDLess D s := decide (s.1 < D)
  normalizeKw := true
  scalarD := true
  cgCall := true
  D s := s.1
  eta s := 1 / (s.2 + 1)
  h s := 1 / (s.2 + 1)

/-- `C36_evolve` with three steps of the toy object, which ends in the expected state. -/
example : ∃ w', evolve toy ((3 : ℕ) * (1 / 10)) (1 / 10) .euler true 5 1 0 true true ⟨(1, 0), []⟩ = some w' ∧
    w'.s = (4, 3) ∧ 0 ≤ pyInt ((3 : ℕ) * (1 / 10 : ℝ) / (1 / 10)) := by
  rw [C36_evolve_exact 3 _ (by norm_num)]
  unfold evolve
  rw [if_neg (by norm_num), C36_evolve_exact 3 _ (by norm_num)]
  exact ⟨_, rfl, rfl, by norm_num⟩

/-- The toy object meets the hypotheses of the theorems about the other drivers. -/
example (a : ImArgs) (w : World (ℤ × ℕ) ℝ) : ∃ w' cnt tau dtau, optImTime toy a 1 7 w = some (w', cnt, tau, dtau) := by
  obtain ⟨⟨w', c, t, d⟩, e⟩ := Option.isSome_iff_exists.1 (C36_im_time_returns toy a rfl 1 7 w)
  exact ⟨w', c, t, d, e⟩

example (w : World (ℤ × ℕ) ℝ) : ∃ w' j, optGradDescent toy (1 / 100) 1 7 2 1 true 8 w = some (w', j) := by
  obtain ⟨⟨w', j⟩, e⟩ := Option.isSome_iff_exists.1
    (C36_grad_descent_returns toy rfl rfl (1 / 100) 1 7 2 1 (by norm_num) true 8 (by norm_num) (by norm_num) w)
  exact ⟨w', j, e⟩

end EvoMPS
