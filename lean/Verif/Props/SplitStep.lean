import Verif.SplitStepLemmas

/-!
# C35: the split-step integrator
-/

namespace EvoMPS

open Split

variable {σ : Type}

/-- Without failing operations, the one-site version returns. -/
theorem C35_returns (O : Obj σ) (hO : ∀ o s, O.act o s ≠ none) (dtau : ℂ) (k : ℕ) (dmrg sw : Bool) (Dmax : Option ℕ)
    (cb : Bool) (w : World σ) : ∃ w', evolveSplit O dtau k dmrg false sw Dmax cb w = some w' := by
  have h1 : ∀ n w, ∃ w', run O (.heffR n) w = some w' := fun n w => by
    obtain ⟨w', h⟩ := runs_returns hO [.heffR n] w
    exact ⟨w', by simpa [runs] using h⟩
  set a : Args := ⟨(splitTime dtau).2 / 2, dmrg, false, sw, Dmax⟩
  obtain ⟨v, hv⟩ := forEach_returns (fun n => run O (.heffR n)) (upTo O.N).reverse (fun n _ => h1 n) w
  have hs : ∀ i w, ∃ w', step O a cb i w = some w' := by
    intro i w
    obtain ⟨w1, e1⟩ := forEach_returns (rightIter O a) (upTo O.N)
      (fun n _ w => by
        obtain ⟨w', h⟩ := runs_returns hO (rightOps O.N a false n) w
        exact ⟨w', by rw [rightIter_eq]; simpa [useTwo, a] using h⟩) w
    obtain ⟨w2, e2⟩ := forEach_returns (leftIter O a) (upTo O.N).reverse
      (fun n _ w => by
        obtain ⟨w', h⟩ := runs_returns hO (leftOps a false n) w
        exact ⟨w', by rw [leftIter_eq]; simpa [useTwo, a] using h⟩) w1
    cases cb
    · exact ⟨w2, by simp [step, e1, e2]⟩
    · obtain ⟨w3, e3⟩ := runs_returns hO [.cb i] w2
      exact ⟨w3, by simpa [step, e1, e2, runs] using e3⟩
  obtain ⟨v', hv'⟩ := forEach_returns (step O a cb) (List.range k) (fun i _ => hs i) v
  exact ⟨v', by simp [evolveSplit, hv, a, ← hv']⟩

/-- The log lists what was done to the state. -/
theorem C35_faithful (O : Obj σ) (dtau : ℂ) (k : ℕ) (dmrg two sw : Bool) (Dmax : Option ℕ) (cb : Bool)
    (w w' : World σ) (h : evolveSplit O dtau k dmrg two sw Dmax cb w = some w') : Faithful O w w' := by
  simp only [evolveSplit, Option.bind_eq_some_iff] at h
  obtain ⟨v, hv, h⟩ := h
  refine (forEach_faithful O _ (fun n w w' h => Faithful.run h) _ _ _ hv).trans
    (forEach_faithful O _ (fun i w w' h => ?_) _ _ _ h)
  obtain ⟨w1, w2, h1, h2, h3⟩ := step_some h
  refine ((forEach_faithful O _ (fun n w w' h => ?_) _ _ _ h1).trans
    (forEach_faithful O _ (fun n w w' h => ?_) _ _ _ h2)).trans (runs_faithful h3)
  · obtain ⟨c, _, hc⟩ := rightIter_some h
    exact runs_faithful hc
  · obtain ⟨c, _, hc⟩ := leftIter_some h
    exact runs_faithful hc

/-- A step consists of a half sweep and its mirror image. -/
theorem split_schedule (O : Obj σ) (dtau : ℂ) (k : ℕ) (two sw : Bool) (hm : two = false ∨ sw = false) (Dmax : Option ℕ)
    (cb : Bool) (w w' : World σ) (half : List (Loc × ℝ))
    (hr : ∀ a : Args, a.dmrg = false → a.h = (splitTime dtau).2 / 2 →
      evolutions ((upTo O.N).flatMap (rightOps O.N a two)) = half)
    (hl : ∀ a : Args, a.dmrg = false → a.h = (splitTime dtau).2 / 2 →
      evolutions ((upTo O.N).reverse.flatMap (leftOps a two)) = half.reverse)
    (h : evolveSplit O dtau k false two sw Dmax cb w = some w') :
    evolutions w'.log = evolutions w.log ++ (List.replicate k (half ++ half.reverse)).flatten := by
  simp only [evolveSplit, Option.bind_eq_some_iff] at h
  obtain ⟨v, hv, h⟩ := h
  have e0 : evolutions v.log = evolutions w.log := by
    rw [forEach_log _ (fun n => [.heffR n]) _ _ _ hv fun n _ w w' h => (run_some.1 h).2, evolutions_append]
    have : evolutions ((upTo O.N).reverse.flatMap fun n => [Op.heffR n]) = [] := by
      rw [evolutions_flatMap]
      exact List.flatMap_eq_nil_iff.2 fun n _ => rfl
    rw [this, List.append_nil]
  rw [← e0]
  have key := forEach_inv (step O ⟨(splitTime dtau).2 / 2, false, two, sw, Dmax⟩ cb)
    (fun j u => evolutions u.log = evolutions v.log ++ (List.replicate j (half ++ half.reverse)).flatten)
    (List.range k) 0 v w' (by simp) h (fun i hi u u' hu hstep => by
      obtain ⟨w1, w2, h1, h2, h3⟩ := step_some hstep
      have l1 := forEach_log _ (rightOps O.N ⟨(splitTime dtau).2 / 2, false, two, sw, Dmax⟩ two) _ _ _ h1
        fun n _ w w' h => by
          obtain ⟨c, hc, hc'⟩ := rightIter_some h
          rw [useTwo_mode hm hc] at hc'
          exact runs_log hc'
      have l2 := forEach_log _ (leftOps ⟨(splitTime dtau).2 / 2, false, two, sw, Dmax⟩ two) _ _ _ h2
        fun n _ w w' h => by
          obtain ⟨c, hc, hc'⟩ := leftIter_some h
          rw [useTwo_mode hm hc] at hc'
          exact runs_log hc'
      have l3 : evolutions u'.log = evolutions w2.log := by
        rw [runs_log h3, evolutions_append]
        cases cb <;> simp [evolutions, evolution]
      rw [l3, l2, l1, evolutions_append, evolutions_append, hr _ rfl rfl, hl _ rfl rfl, hu, List.replicate_succ']
      simp [List.flatten_append])
  simpa using key

/-- The one-site version: `k` times the sweep site 1, bond 1, site 2, …, site `N` and its mirror image, each site
forward and each bond backward by half the duration. -/
theorem C35_schedule_one_site (O : Obj σ) (hN : 1 ≤ O.N) (dtau : ℂ) (k : ℕ) (sw : Bool) (Dmax : Option ℕ) (cb : Bool)
    (w w' : World σ) (h : evolveSplit O dtau k false false sw Dmax cb w = some w') :
    evolutions w'.log = evolutions w.log ++
      (List.replicate k (half1 O.N ((splitTime dtau).2 / 2) ++ (half1 O.N ((splitTime dtau).2 / 2)).reverse)).flatten :=
  split_schedule O dtau k false sw (.inl rfl) Dmax cb w w' _
    (fun a ha hh => by rw [right_half1 O.N a hN ha, hh]) (fun a ha hh => by rw [left_half1 O.N a hN ha, hh]) h

/-- The two-site version without changes to one-site moves. -/
theorem C35_schedule_two_site (O : Obj σ) (hN : 2 ≤ O.N) (dtau : ℂ) (k : ℕ) (Dmax : Option ℕ) (cb : Bool)
    (w w' : World σ) (h : evolveSplit O dtau k false true false Dmax cb w = some w') :
    evolutions w'.log = evolutions w.log ++
      (List.replicate k (half2 O.N ((splitTime dtau).2 / 2) ++ (half2 O.N ((splitTime dtau).2 / 2)).reverse)).flatten :=
  split_schedule O dtau k true false (.inr rfl) Dmax cb w w' _
    (fun a ha hh => by rw [right_half2 O.N a hN ha, hh]) (fun a ha hh => by rw [left_half2 O.N a hN ha, hh]) h

/-! ## Durations -/

/-- Real and imaginary steps: the factor of the operators times the duration is `-dtau`. -/
theorem C35_duration (dtau : ℂ) (h : dtau.re = 0 ∨ dtau.im = 0) :
    (splitTime dtau).1 * ((splitTime dtau).2 : ℂ) = -dtau := by
  unfold splitTime
  by_cases hi : dtau.im = 0
  · simp only [Complex.neg_im, hi, neg_zero, ne_eq, not_true_eq_false, if_false, Complex.neg_re]
    apply Complex.ext <;> simp [hi]
  · have hr : dtau.re = 0 := by tauto
    simp only [Complex.neg_im, ne_eq, neg_eq_zero, hi, not_false_eq_true, if_true]
    apply Complex.ext <;> simp [hr]

/-- For other steps the real part is lost. -/
theorem C35_duration_violated (dtau : ℂ) (hr : dtau.re ≠ 0) (hi : dtau.im ≠ 0) :
    (splitTime dtau).1 * ((splitTime dtau).2 : ℂ) ≠ -dtau := by
  unfold splitTime
  simp only [Complex.neg_im, ne_eq, neg_eq_zero, hi, not_false_eq_true, if_true]
  intro h
  have := congrArg Complex.re h
  simp at this
  exact hr (by linarith)

/-- Sum of the durations at a place in a list. -/
noncomputable def splitSum (l : List (Loc × ℝ)) (x : Loc) : ℝ := ((l.filter fun e => e.1 = x).map Prod.snd).sum

theorem splitSum_append (l m : List (Loc × ℝ)) (x : Loc) : splitSum (l ++ m) x = splitSum l x + splitSum m x := by
  simp [splitSum, List.filter_append]

theorem splitSum_reverse (l : List (Loc × ℝ)) (x : Loc) : splitSum l.reverse x = splitSum l x := by
  simp only [splitSum, List.filter_reverse, List.map_reverse, List.sum_reverse]

theorem splitSum_replicate (k : ℕ) (l : List (Loc × ℝ)) (x : Loc) :
    splitSum (List.replicate k l).flatten x = k * splitSum l x := by
  induction k with
  | zero => simp [splitSum]
  | succ k ih => rw [List.replicate_succ, List.flatten_cons, splitSum_append, ih]; push_cast; ring

theorem splitSum_half1_site (N : ℕ) (h : ℝ) (hN : 1 ≤ N) (n : ℕ) :
    splitSum (half1 N h) (.site n) = if 1 ≤ n ∧ n ≤ N then h else 0 := by
  induction N, hN using Nat.le_induction with
  | base =>
    by_cases hn : n = 1
    · simp [half1, splitSum, hn]
    · have : ¬ (1 ≤ n ∧ n ≤ 1) := by omega
      simp [half1, splitSum, this, Ne.symm hn]
  | succ N hN ih =>
    rw [half1_succ N h hN, splitSum_append, ih]
    by_cases hn : n = N + 1
    · simp [splitSum, hn]
    · have e : (1 ≤ n ∧ n ≤ N + 1) ↔ (1 ≤ n ∧ n ≤ N) := by omega
      simp [splitSum, e, Ne.symm hn]

theorem splitSum_half1_bond (N : ℕ) (h : ℝ) (hN : 1 ≤ N) (n : ℕ) :
    splitSum (half1 N h) (.bond n) = if 1 ≤ n ∧ n < N then -h else 0 := by
  induction N, hN using Nat.le_induction with
  | base =>
    have : ¬ (1 ≤ n ∧ n < 1) := by omega
    rw [if_neg this]
    simp [half1, splitSum]
  | succ N hN ih =>
    rw [half1_succ N h hN, splitSum_append, ih]
    by_cases hn : n = N
    · simp [splitSum, hn, hN]
    · have e : (1 ≤ n ∧ n < N + 1) ↔ (1 ≤ n ∧ n < N) := by omega
      rw [if_congr e rfl rfl]
      simp [splitSum, Ne.symm hn]

theorem splitSum_half1_pair (N : ℕ) (h : ℝ) (hN : 1 ≤ N) (n : ℕ) : splitSum (half1 N h) (.pair n) = 0 := by
  induction N, hN using Nat.le_induction with
  | base => simp [half1, splitSum]
  | succ N hN ih => rw [half1_succ N h hN, splitSum_append, ih]; simp [splitSum]

/-- After `k` steps of the one-site version every site has been evolved for `k` times the duration, every bond of
the chain for minus that, and nothing else. -/
theorem C35_totals (O : Obj σ) (hN : 1 ≤ O.N) (dtau : ℂ) (k : ℕ) (sw : Bool) (Dmax : Option ℕ) (cb : Bool)
    (w w' : World σ) (h : evolveSplit O dtau k false false sw Dmax cb w = some w') (n : ℕ) :
    total w'.log (.site n) = total w.log (.site n) + (if 1 ≤ n ∧ n ≤ O.N then k * (splitTime dtau).2 else 0) ∧
    total w'.log (.bond n) = total w.log (.bond n) + (if 1 ≤ n ∧ n < O.N then -(k * (splitTime dtau).2) else 0) ∧
    total w'.log (.pair n) = total w.log (.pair n) := by
  have hs := C35_schedule_one_site O hN dtau k sw Dmax cb w w' h
  have ht : ∀ x, total w'.log x = total w.log x + k * (2 * splitSum (half1 O.N ((splitTime dtau).2 / 2)) x) := by
    intro x
    change splitSum (evolutions w'.log) x = splitSum (evolutions w.log) x + _
    rw [hs, splitSum_append, splitSum_replicate, splitSum_append, splitSum_reverse]
    ring
  refine ⟨?_, ?_, ?_⟩
  · rw [ht, splitSum_half1_site _ _ hN]
    split_ifs <;> ring
  · rw [ht, splitSum_half1_bond _ _ hN]
    split_ifs <;> ring
  · rw [ht, splitSum_half1_pair _ _ hN]
    ring

/-- The sites are visited in the order `1, …, N, N, …, 1`, `k` times. -/
theorem C35_order (O : Obj σ) (hN : 1 ≤ O.N) (dtau : ℂ) (k : ℕ) (sw : Bool) (Dmax : Option ℕ) (cb : Bool)
    (w w' : World σ) (h : evolveSplit O dtau k false false sw Dmax cb w = some w') :
    let sites : List Op → List ℕ := fun ops => ops.filterMap fun o => match o with | .site n _ => some n | _ => none
    sites w'.log = sites w.log ++
      (List.replicate k (List.range' 1 O.N ++ (List.range' 1 O.N).reverse)).flatten := by
  intro sites
  let f : Loc × ℝ → Option ℕ := fun e => match e.1 with | .site n => some n | _ => none
  have hf : ∀ ops, sites ops = (evolutions ops).filterMap f := by
    intro ops
    simp only [sites, evolutions, List.filterMap_filterMap]
    congr 1
    funext o
    cases o <;> rfl
  have hh : ∀ (N : ℕ) (x : ℝ), 1 ≤ N → (half1 N x).filterMap f = List.range' 1 N := by
    intro N x hN
    induction N, hN using Nat.le_induction with
    | base => rfl
    | succ N hN ih =>
      rw [half1_succ N x hN, List.filterMap_append, ih, List.range'_1_concat, add_comm 1 N]
      rfl
  rw [hf, hf, C35_schedule_one_site O hN dtau k sw Dmax cb w w' h, List.filterMap_append]
  congr 1
  induction k generalizing w w' with
  | zero => rfl
  | succ k ih =>
    clear ih
    generalize k + 1 = j
    induction j with
    | zero => rfl
    | succ j ih =>
      simp only [List.replicate_succ, List.flatten_cons, List.filterMap_append, List.filterMap_reverse, hh _ _ hN] at ih ⊢
      rw [ih]

/-! ## Environments -/

/-- In every mode, every local operation finds the centre where it works, uses only environments that belong to the
present tensors and stays inside the chain; after the call the centre is back on site 1 and the environments are
ready for the next call. -/
theorem C35_environments (O : Obj σ) (hN : 1 ≤ O.N) (dtau : ℂ) (k : ℕ) (dmrg two sw : Bool) (Dmax : Option ℕ)
    (cb : Bool) (w w' : World σ) (h : evolveSplit O dtau k dmrg two sw Dmax cb w = some w') :
    ∃ ops e, w'.log = w.log ++ ops ∧ checks O.N ⟨.site 1, 0, O.N + 1⟩ ops = some e ∧
      e.centre = .site 1 ∧ e.right ≤ 2 := by
  simp only [evolveSplit, Option.bind_eq_some_iff] at h
  obtain ⟨v, hv, h⟩ := h
  have h0 : Sound O.N ⟨.site 1, 0, O.N + 1⟩ w v 1 := by
    have := forEach_inv (fun n => run O (.heffR n))
      (fun j u => ∃ ops, u.log = w.log ++ ops ∧
        checks O.N ⟨.site 1, 0, O.N + 1⟩ ops = some ⟨.site 1, 0, O.N + 1 - j⟩) (upTo O.N).reverse 0 w v
      ⟨[], by simp, rfl⟩ hv (fun i hi u u' hu hr => by
        have hi' : i < O.N := by simpa [upTo] using hi
        have hx : (upTo O.N).reverse[i] = O.N - i := by
          simp [upTo]; omega
        rw [hx] at hr
        obtain ⟨ops, ho, hc⟩ := hu
        refine ⟨ops ++ [.heffR (O.N - i)], by rw [(run_some.1 hr).2, ho, List.append_assoc], ?_⟩
        rw [checks_append, hc, Option.bind_some, checks_cons]
        have c1 : 1 ≤ O.N - i ∧ O.N - i ≤ O.N ∧ O.N + 1 - (0 + i) ≤ O.N - i + 1 := by omega
        simp only [check]
        rw [if_pos c1, Option.bind_some, checks_nil, min_eq_right (by omega),
          show O.N + 1 - (0 + i + 1) = O.N - i by omega])
    obtain ⟨ops, ho, hc⟩ := this
    refine ⟨ops, _, ho, hc, rfl, by simp, ?_⟩
    simp [upTo]
  have h1 := forEach_inv (step O ⟨(splitTime dtau).2 / 2, dmrg, two, sw, Dmax⟩ cb)
    (fun _ u => Sound O.N ⟨.site 1, 0, O.N + 1⟩ w u 1) (List.range k) 0 v w' h0 h (fun i hi u u' hu hs => by
      obtain ⟨w1, w2, e1, e2, e3⟩ := step_some hs
      have := sound_left hN (sound_right hN hu e1) e2
      refine this.runs e3 fun e he => ⟨e, ?_, he⟩
      cases cb
      · rfl
      · simp [checks_cons, checks_nil, check, he.1])
  obtain ⟨ops, e, ho, hc, hr⟩ := h1
  exact ⟨ops, e, ho, hc, hr.1, hr.2.2⟩

/-! ## Failures -/

/-- For a finite chain, two-site sweeps with a bound above 1 raise at the last site: the test for growth reads one
entry too many.  The first two hypotheses hold for every finite chain with at least two states on the last site. -/
theorem C35_two_site_finite_violated (O : Obj σ) (hN : 1 ≤ O.N) (hlen : O.lenD = O.N + 1)
    (hD : ∀ s, O.D s O.N = 1 ∧ 1 < O.D s (O.N - 1) * O.q O.N) (dtau : ℂ) (k : ℕ) (hk : 1 ≤ k) (dmrg sw : Bool)
    (Dmax : Option ℕ) (hm : Dmax ≠ some 0 ∧ Dmax ≠ some 1) (cb : Bool) (w : World σ) :
    evolveSplit O dtau k dmrg true sw Dmax cb w = none := by
  rw [← Option.not_isSome_iff_eq_none]
  intro hsome
  obtain ⟨w', h⟩ := Option.isSome_iff_exists.1 hsome
  simp only [evolveSplit, Option.bind_eq_some_iff] at h
  obtain ⟨v, _, h⟩ := h
  obtain ⟨k, rfl⟩ : ∃ j, k = j + 1 := ⟨k - 1, by omega⟩
  rw [List.range_succ_eq_map] at h
  simp only [forEach, Option.bind_eq_some_iff] at h
  obtain ⟨u, hu, _⟩ := h
  obtain ⟨w1, w2, e1, _, _⟩ := step_some hu
  obtain ⟨N, hN'⟩ : ∃ M, O.N = M + 1 := ⟨O.N - 1, by omega⟩
  have hlast : ∀ (xs : List ℕ) (w w' : World σ),
      forEach (rightIter O ⟨(splitTime dtau).2 / 2, dmrg, true, sw, Dmax⟩) (xs ++ [O.N]) w = some w' → False := by
    intro xs
    induction xs with
    | nil =>
      intro w w' h
      simp only [List.nil_append, forEach, Option.bind_eq_some_iff] at h
      obtain ⟨x, hx, _⟩ := h
      obtain ⟨c, hc, _⟩ := rightIter_some hx
      have : canIncreaseD O ⟨(splitTime dtau).2 / 2, dmrg, true, sw, Dmax⟩ O.N w.s = none := by
        unfold canIncreaseD
        cases Dmax with
        | none => cases pyD O w.s O.N <;> rfl
        | some m =>
          have hm' : 1 < m := by
            simp only [ne_eq, Option.some.injEq] at hm; omega
          have p1 : pyD O w.s O.N = some 1 := by
            unfold pyD
            rw [if_pos (by omega), if_pos (by omega)]
            simp [(hD w.s).1]
          have p2 : pyD O w.s ((O.N : ℤ) - 1) = some (O.D w.s (O.N - 1)) := by
            unfold pyD
            rw [if_pos (by omega), if_pos (by omega), show ((O.N : ℤ) - 1).toNat = O.N - 1 by omega]
          have p3 : pyD O w.s ((O.N : ℤ) + 1) = none := by
            unfold pyD
            rw [if_pos (by omega), if_neg (by omega)]
          simp only [p1, p2, p3, Option.bind_some, if_pos hm', if_pos (hD w.s).2, Option.bind_none]
      simp [useTwo, this] at hc
    | cons x xs ih =>
      intro w w' h
      simp only [List.cons_append, forEach, Option.bind_eq_some_iff] at h
      obtain ⟨y, _, hy⟩ := h
      exact ih y w' hy
  apply hlast (List.range' 1 N) v w1
  rw [show List.range' 1 N ++ [O.N] = upTo O.N by rw [upTo, hN', List.range'_1_concat, add_comm 1 N]]
  exact e1

/-- A chain of two sites between two halves whose middle bond can grow once, from 1 to 2, up to the bound. -/
def splitToy : Obj ℕ where
  N := 2
  lenD := 4
  q := fun _ => 2
  D := fun s n => if n = 1 then s else 2
  act := fun o s => match o with
    | .pair _ _ _ => some 2
    | _ => some s

/-- The change to one-site moves evolves the last site twice.  In a half sweep of either kind the durations add up
to half the step, so a step of 1 should give 1; here it gives 3/2. -/
theorem C35_switch_violated : ∃ w', evolveSplit splitToy (-1) 1 false true true (some 2) false ⟨1, []⟩ = some w' ∧
    net w'.log = 3 / 2 ∧ evolutions w'.log = [(.pair 1, 1 / 2), (.site 2, 1 / 2), (.site 2, 1 / 2), (.bond 1, -(1 / 2)),
      (.site 1, 1 / 2)] := by
  have hs : (splitTime (-1)).2 / 2 = 1 / 2 := by simp [splitTime]
  obtain ⟨w', h, h'⟩ : ∃ w', evolveSplit splitToy (-1) 1 false true true (some 2) false ⟨1, []⟩ = some w' ∧
      evolutions w'.log = [(.pair 1, (splitTime (-1)).2 / 2), (.site 2, (splitTime (-1)).2 / 2),
        (.site 2, (splitTime (-1)).2 / 2), (.bond 1, -((splitTime (-1)).2 / 2)), (.site 1, (splitTime (-1)).2 / 2)] :=
    ⟨_, rfl, rfl⟩
  rw [hs] at h'
  refine ⟨w', h, ?_, h'⟩
  rw [net, h']
  norm_num

/-- In the modes without that change a step adds up to the duration. -/
theorem C35_net (O : Obj σ) (dtau : ℂ) (k : ℕ) (two sw : Bool) (hm : two = false ∨ sw = false)
    (hN : (if two then 2 else 1) ≤ O.N) (Dmax : Option ℕ) (cb : Bool) (w w' : World σ)
    (h : evolveSplit O dtau k false two sw Dmax cb w = some w') :
    net w'.log = net w.log + k * (splitTime dtau).2 := by
  have hrep : ∀ (l : List (Loc × ℝ)) (j : ℕ),
      ((List.replicate j (l ++ l.reverse)).flatten.map Prod.snd).sum = j * (2 * (l.map Prod.snd).sum) := by
    intro l j
    induction j with
    | zero => simp
    | succ j ih =>
      rw [List.replicate_succ, List.flatten_cons, List.map_append, List.sum_append, ih, List.map_append, List.sum_append,
        List.map_reverse, List.sum_reverse]
      push_cast; ring
  cases two
  · have hN' : 1 ≤ O.N := by simpa using hN
    have h1 : ∀ (N : ℕ) (x : ℝ), 1 ≤ N → ((half1 N x).map Prod.snd).sum = x := by
      intro N x hN
      induction N, hN using Nat.le_induction with
      | base => simp [half1]
      | succ N hN ih => rw [half1_succ N x hN, List.map_append, List.sum_append, ih]; simp
    rw [net, C35_schedule_one_site O hN' dtau k sw Dmax cb w w' h, List.map_append, List.sum_append, hrep, h1 _ _ hN', net]
    ring
  · have hN' : 2 ≤ O.N := by simpa using hN
    have hsw : sw = false := by simpa using hm
    subst hsw
    have h1 : ∀ (N : ℕ) (x : ℝ), 2 ≤ N → ((half2 N x).map Prod.snd).sum = x := by
      intro N x hN
      induction N, hN using Nat.le_induction with
      | base => simp [half2]
      | succ N hN ih => rw [half2_succ N x hN, List.map_append, List.sum_append, ih]; simp
    rw [net, C35_schedule_two_site O hN' dtau k Dmax cb w w' h, List.map_append, List.sum_append, hrep, h1 _ _ hN', net]
    ring

/-- The method of the finite chain never returns, except as a ground state search. -/
theorem C35_take_step_split_violated (O : Obj σ) (hN : 1 ≤ O.N) (w : World σ) : takeStepSplit O false w = none := by
  obtain ⟨N, hN'⟩ : ∃ M, O.N = M + 1 := ⟨O.N - 1, by omega⟩
  simp [takeStepSplit, upTo, hN', List.range'_succ, forEach, genRight]

/-- As a ground state search it optimises the sites in the order `1, …, N, N, …, 1`. -/
theorem C35_take_step_split_search (O : Obj σ) (w w' : World σ) (h : takeStepSplit O true w = some w') :
    let sites : List Op → List ℕ := fun ops => ops.filterMap fun o => match o with | .optSite n => some n | _ => none
    sites w'.log = sites w.log ++ (List.range' 1 O.N ++ (List.range' 1 O.N).reverse) := by
  intro sites
  simp only [takeStepSplit, Option.bind_eq_some_iff] at h
  obtain ⟨v, h1, h2⟩ := h
  have hr : ∀ n w w', genRight O true n w = some w' →
      w'.log = w.log ++ (.optSite n :: .orthL n :: .heffL n :: if n < O.N then [.mulL (n + 1)] else []) := by
    intro n w w' h
    apply runs_log (O := O)
    rw [← h]
    unfold genRight
    by_cases hn : n < O.N <;> simp [runs, hn]
  have hl : ∀ n w w', genLeft O true n w = some w' →
      w'.log = w.log ++ (.optSite n :: .orthR n :: .heffR n :: if n > 1 then [.mulR (n - 1)] else []) := by
    intro n w w' h
    apply runs_log (O := O)
    rw [← h]
    unfold genLeft
    by_cases hn : n > 1 <;> simp [runs, hn]
  have key : ∀ (xs : List ℕ) (g : ℕ → List Op), (∀ n, sites (g n) = [n]) → sites (xs.flatMap g) = xs := by
    intro xs g hg
    induction xs with
    | nil => rfl
    | cons x xs ih =>
      have : sites (g x ++ xs.flatMap g) = sites (g x) ++ sites (xs.flatMap g) := List.filterMap_append
      rw [List.flatMap_cons, this, hg, ih]; rfl
  have happ : ∀ x y, sites (x ++ y) = sites x ++ sites y := fun x y => List.filterMap_append
  rw [forEach_log _ _ _ _ _ h2 (fun n _ => hl n), forEach_log _ _ _ _ _ h1 (fun n _ => hr n), happ, happ, key, key]
  · simp [upTo]
  · intro n
    simp only [sites]
    split_ifs <;> rfl
  · intro n
    simp only [sites]
    split_ifs <;> rfl

/-! ## The hypotheses can be met -/

/-- A chain of three sites with operations that count. -/
def splitCounter : Obj ℕ where
  N := 3
  lenD := 4
  q := fun _ => 2
  D := fun _ n => if n = 0 ∨ n = 3 then 1 else 2
  act := fun _ s => some (s + 1)

example : ∃ w', evolveSplit splitCounter (2 * Complex.I) 1 false false false none false ⟨0, []⟩ = some w' ∧
    total w'.log (.site 2) = -2 ∧ total w'.log (.bond 2) = 2 ∧ total w'.log (.bond 3) = 0 := by
  obtain ⟨w', h⟩ := C35_returns splitCounter (fun _ _ => by simp [splitCounter]) (2 * Complex.I) 1 false false none false ⟨0, []⟩
  have hN : 1 ≤ splitCounter.N := by decide
  have ht : (splitTime (2 * Complex.I)).2 = -2 := by simp [splitTime]
  refine ⟨w', h, ?_, ?_, ?_⟩
  · rw [(C35_totals splitCounter hN _ _ _ _ _ _ w' h 2).1, ht]
    simp [total, evolutions, splitCounter]
  · rw [(C35_totals splitCounter hN _ _ _ _ _ _ w' h 2).2.1, ht]
    simp [total, evolutions, splitCounter]
  · rw [(C35_totals splitCounter hN _ _ _ _ _ _ w' h 3).2.1, ht]
    simp [total, evolutions, splitCounter]

/-- For a finite chain the two-site version raises; with a bound of 1 it does not. -/
example : evolveSplit splitCounter 1 1 false true false (some 4) false ⟨0, []⟩ = none :=
  C35_two_site_finite_violated splitCounter (by decide) rfl (fun _ => by simp [splitCounter]) 1 1 le_rfl false false _ (by simp) _ _

example : (evolveSplit splitCounter 1 1 false true false (some 1) false ⟨0, []⟩).isSome = true := rfl

example : (takeStepSplit splitCounter true ⟨0, []⟩).isSome = true := rfl

end EvoMPS
