import Verif.SplitStepSpec
import Mathlib.Tactic

namespace EvoMPS.Split

variable {σ : Type}

theorem run_some {O : Obj σ} {o : Op} {w w' : World σ} :
    run O o w = some w' ↔ O.act o w.s = some w'.s ∧ w'.log = w.log ++ [o] := by
  unfold run
  rw [Option.map_eq_some_iff]
  constructor
  · rintro ⟨s, h, rfl⟩; exact ⟨h, rfl⟩
  · rintro ⟨h, h'⟩; exact ⟨w'.s, h, by rw [← h']⟩

theorem Faithful.refl (O : Obj σ) (w : World σ) : Faithful O w w := ⟨[], by simp, rfl⟩

theorem Faithful.trans {O : Obj σ} {a b c : World σ} (h : Faithful O a b) (h' : Faithful O b c) : Faithful O a c := by
  obtain ⟨x, hx, hx'⟩ := h
  obtain ⟨y, hy, hy'⟩ := h'
  exact ⟨x ++ y, by rw [hy, hx, List.append_assoc], by rw [List.foldl_append, hx', hy']⟩

theorem Faithful.run {O : Obj σ} {o : Op} {w w' : World σ} (h : run O o w = some w') : Faithful O w w' := by
  obtain ⟨h, h'⟩ := run_some.1 h
  exact ⟨[o], h', by simpa using h⟩

/-- A move whose operations are a fixed list. -/
def Does (O : Obj σ) (f : World σ → Option (World σ)) (ops : List Op) : Prop :=
  ∀ w w', f w = some w' → w'.log = w.log ++ ops

/-- A move with which a property of the log survives. -/
theorem forEach_inv {α : Type} (f : α → World σ → Option (World σ)) (P : ℕ → World σ → Prop) :
    ∀ (xs : List α) (k : ℕ) (w w' : World σ), P k w → forEach f xs w = some w' →
      (∀ i (hi : i < xs.length) w w', P (k + i) w → f xs[i] w = some w' → P (k + i + 1) w') → P (k + xs.length) w'
  | [], k, w, w', h0, h, _ => by
    simp only [forEach, Option.some.injEq] at h
    subst h; simpa using h0
  | x :: xs, k, w, w', h0, h, hs => by
    simp only [forEach, Option.bind_eq_some_iff] at h
    obtain ⟨v, hv, h⟩ := h
    have h1 := hs 0 (by simp) w v h0 hv
    have := forEach_inv f P xs (k + 1) v w' h1 h (fun i hi w w' hw hf => by
      have := hs (i + 1) (by simpa using hi) w w' (by rwa [show k + (i + 1) = k + 1 + i by ring])
        (by simpa using hf)
      rwa [show k + (i + 1) + 1 = k + 1 + i + 1 by ring] at this)
    rw [List.length_cons, show k + (xs.length + 1) = k + 1 + xs.length by ring]
    exact this

theorem forEach_log {α : Type} (f : α → World σ → Option (World σ)) (g : α → List Op) :
    ∀ (xs : List α) (w w' : World σ), forEach f xs w = some w' →
      (∀ x ∈ xs, ∀ w w', f x w = some w' → w'.log = w.log ++ g x) → w'.log = w.log ++ xs.flatMap g
  | [], w, w', h, _ => by
    simp only [forEach, Option.some.injEq] at h
    subst h; simp
  | x :: xs, w, w', h, hs => by
    simp only [forEach, Option.bind_eq_some_iff] at h
    obtain ⟨v, hv, h⟩ := h
    rw [forEach_log f g xs v w' h (fun y hy => hs y (by simp [hy])), hs x (by simp) w v hv, List.flatMap_cons,
      List.append_assoc]

theorem forEach_faithful {α : Type} (O : Obj σ) (f : α → World σ → Option (World σ))
    (hf : ∀ x w w', f x w = some w' → Faithful O w w') :
    ∀ (xs : List α) (w w' : World σ), forEach f xs w = some w' → Faithful O w w'
  | [], w, w', h => by
    simp only [forEach, Option.some.injEq] at h
    subst h; exact .refl O w
  | x :: xs, w, w', h => by
    simp only [forEach, Option.bind_eq_some_iff] at h
    obtain ⟨v, hv, h⟩ := h
    exact (hf x w v hv).trans (forEach_faithful O f hf xs v w' h)

theorem forEach_returns {α : Type} (f : α → World σ → Option (World σ)) (xs : List α)
    (hf : ∀ x ∈ xs, ∀ w, ∃ w', f x w = some w') : ∀ w, ∃ w', forEach f xs w = some w' := by
  induction xs with
  | nil => exact fun w => ⟨w, rfl⟩
  | cons x xs ih =>
    intro w
    obtain ⟨v, hv⟩ := hf x (by simp) w
    obtain ⟨u, hu⟩ := ih (fun y hy => hf y (by simp [hy])) v
    exact ⟨u, by simp [forEach, hv, hu]⟩

/-! ## The moves -/

theorem runs_append (O : Obj σ) (x y : List Op) (w : World σ) : runs O (x ++ y) w = (runs O x w).bind (runs O y) := by
  induction x generalizing w with
  | nil => rfl
  | cons o x ih =>
    simp only [List.cons_append, runs]
    rw [Option.bind_assoc]
    exact congrArg _ (funext ih)

theorem runs_log {O : Obj σ} : ∀ {ops : List Op} {w w' : World σ}, runs O ops w = some w' → w'.log = w.log ++ ops
  | [], w, w', h => by
    simp only [runs, Option.some.injEq] at h
    subst h; simp
  | o :: ops, w, w', h => by
    simp only [runs, Option.bind_eq_some_iff] at h
    obtain ⟨v, hv, h⟩ := h
    rw [runs_log h, (run_some.1 hv).2, List.append_assoc]; rfl

theorem runs_faithful {O : Obj σ} :
    ∀ {ops : List Op} {w w' : World σ}, runs O ops w = some w' → Faithful O w w'
  | [], w, w', h => by
    simp only [runs, Option.some.injEq] at h
    subst h; exact .refl O w
  | o :: ops, w, w', h => by
    simp only [runs, Option.bind_eq_some_iff] at h
    obtain ⟨v, hv, h⟩ := h
    exact (Faithful.run hv).trans (runs_faithful h)

theorem runs_returns {O : Obj σ} (hO : ∀ o s, O.act o s ≠ none) :
    ∀ (ops : List Op) (w : World σ), ∃ w', runs O ops w = some w'
  | [], w => ⟨w, rfl⟩
  | o :: ops, w => by
    obtain ⟨s, hs⟩ := Option.ne_none_iff_exists'.1 (hO o w.s)
    obtain ⟨w', hw'⟩ := runs_returns hO ops ⟨s, w.log ++ [o]⟩
    exact ⟨w', by simp [runs, run, hs, hw']⟩

def right1Ops (N : ℕ) (a : Args) (n : ℕ) : List Op :=
  (if a.dmrg then .optSite n else .site n a.h) ::
    if n < N then .orthL n :: .heffL n :: ((if a.dmrg then [] else [.bond n (-a.h)]) ++ [.mulL (n + 1)]) else []

def right2Ops (N : ℕ) (a : Args) (n : ℕ) : List Op :=
  if n = N then []
  else (if a.dmrg then .optPair n true else .pair n a.h true) :: .heffL n ::
    if n < N - 1 ∧ a.dmrg = false then [.site (n + 1) (-a.h)] else []

def left1Ops (a : Args) (n : ℕ) : List Op :=
  (if a.dmrg then .optSite n else .site n a.h) ::
    if n > 1 then .orthR n :: .heffR n :: ((if a.dmrg then [] else [.bond (n - 1) (-a.h)]) ++ [.mulR (n - 1)])
    else [.heffR n]

def left2Ops (a : Args) (n : ℕ) : List Op :=
  if n = 0 then []
  else (if a.dmrg then .optPair n false else .pair n a.h false) :: .heffR (n + 1) ::
    ((if n = 1 then [.heffR 1] else []) ++ if a.dmrg = false ∧ n > 1 then [.site n (-a.h)] else [])

theorem right1_eq (O : Obj σ) (a : Args) (n : ℕ) (w : World σ) : right1 O a n w = runs O (right1Ops O.N a n) w := by
  unfold right1 right1Ops
  by_cases hn : n < O.N <;> cases hd : a.dmrg <;> simp [hn, runs]

theorem right2_eq (O : Obj σ) (a : Args) (n : ℕ) (w : World σ) : right2 O a n w = runs O (right2Ops O.N a n) w := by
  unfold right2 right2Ops
  by_cases hn : n = O.N
  · simp [hn, runs]
  · by_cases h1 : n < O.N - 1 <;> cases hd : a.dmrg <;> simp [hn, h1, runs]

theorem left1_eq (O : Obj σ) (a : Args) (n : ℕ) (w : World σ) : left1 O a n w = runs O (left1Ops a n) w := by
  unfold left1 left1Ops
  by_cases hn : n > 1 <;> cases hd : a.dmrg <;> simp [hn, runs]

theorem left2_eq (O : Obj σ) (a : Args) (n : ℕ) (w : World σ) : left2 O a n w = runs O (left2Ops a n) w := by
  unfold left2 left2Ops
  by_cases hn : n = 0
  · simp [hn, runs]
  · by_cases h1 : n = 1
    · cases hd : a.dmrg <;> simp [h1, runs]
    · have h2 : n > 1 := by omega
      cases hd : a.dmrg <;> simp [hn, h1, h2, runs]

/-- The operations of an iteration to the right, given the choice of the move. -/
def rightOps (N : ℕ) (a : Args) (c : Bool) (n : ℕ) : List Op :=
  if c then right2Ops N a n ++ (if (n : ℤ) = N - 1 then right2Ops N a (n + 1) else []) else right1Ops N a n

def leftOps (a : Args) (c : Bool) (n : ℕ) : List Op :=
  if c then left2Ops a (n - 1) ++ (if n = 2 then left2Ops a (n - 2) else []) else left1Ops a n

theorem rightIter_eq (O : Obj σ) (a : Args) (n : ℕ) (w : World σ) :
    rightIter O a n w = (useTwo O a n w.s).bind fun c => runs O (rightOps O.N a c n) w := by
  unfold rightIter rightOps
  congr 1
  funext c
  cases c
  · simp [right1_eq]
  · simp only [if_true, right2_eq]
    rw [runs_append]
    congr 1
    funext v
    split_ifs <;> rfl

theorem leftIter_eq (O : Obj σ) (a : Args) (n : ℕ) (w : World σ) :
    leftIter O a n w = (useTwo O a (n - 1) w.s).bind fun c => runs O (leftOps a c n) w := by
  unfold leftIter leftOps
  congr 1
  funext c
  cases c
  · simp [left1_eq]
  · simp only [if_true, left2_eq]
    rw [runs_append]
    congr 1
    funext v
    split_ifs <;> rfl

/-- Every iteration performs one of the two lists of operations. -/
theorem rightIter_some {O : Obj σ} {a : Args} {n : ℕ} {w w' : World σ} (h : rightIter O a n w = some w') :
    ∃ c, useTwo O a n w.s = some c ∧ runs O (rightOps O.N a c n) w = some w' := by
  rw [rightIter_eq, Option.bind_eq_some_iff] at h
  exact h

theorem leftIter_some {O : Obj σ} {a : Args} {n : ℕ} {w w' : World σ} (h : leftIter O a n w = some w') :
    ∃ c, useTwo O a (n - 1) w.s = some c ∧ runs O (leftOps a c n) w = some w' := by
  rw [leftIter_eq, Option.bind_eq_some_iff] at h
  exact h

/-- The choice without and with two-site moves. -/
theorem useTwo_mode {O : Obj σ} {a : Args} (ha : a.twoSite = false ∨ a.switch = false) {n : ℕ} {s : σ} {c : Bool}
    (h : useTwo O a n s = some c) : c = a.twoSite := by
  unfold useTwo at h
  cases ht : a.twoSite
  · rw [ht] at h; simpa using h.symm
  · rw [ht] at h ha
    have hs : a.switch = false := by simpa using ha
    simp only [if_true, Option.map_eq_some_iff, hs] at h
    obtain ⟨_, _, rfl⟩ := h
    simp

theorem step_some {O : Obj σ} {a : Args} {b : Bool} {i : ℕ} {w w' : World σ} (h : step O a b i w = some w') :
    ∃ w1 w2, forEach (rightIter O a) (upTo O.N) w = some w1 ∧
      forEach (leftIter O a) (upTo O.N).reverse w1 = some w2 ∧
      runs O (if b then [.cb i] else []) w2 = some w' := by
  unfold step at h
  simp only [Option.bind_eq_some_iff] at h
  obtain ⟨w1, h1, w2, h2, h3⟩ := h
  refine ⟨w1, w2, h1, h2, ?_⟩
  cases b <;> simpa [runs] using h3

/-! ## The schedule -/

theorem evolutions_append (x y : List Op) : evolutions (x ++ y) = evolutions x ++ evolutions y :=
  List.filterMap_append

theorem evolutions_flatMap {α : Type} (xs : List α) (g : α → List Op) :
    evolutions (xs.flatMap g) = xs.flatMap fun x => evolutions (g x) := by
  induction xs with
  | nil => rfl
  | cons x xs ih => rw [List.flatMap_cons, evolutions_append, ih, List.flatMap_cons]

theorem flatMap_congr' {α β : Type} {f g : α → List β} {l : List α} (h : ∀ x ∈ l, f x = g x) :
    l.flatMap f = l.flatMap g := by
  induction l with
  | nil => rfl
  | cons x l ih =>
    rw [List.flatMap_cons, List.flatMap_cons, h x (by simp), ih fun y hy => h y (by simp [hy])]

theorem half1_succ (N : ℕ) (h : ℝ) (hN : 1 ≤ N) :
    half1 (N + 1) h = half1 N h ++ [(.bond N, -h), (.site (N + 1), h)] := by
  obtain ⟨N, rfl⟩ : ∃ M, N = M + 1 := ⟨N - 1, by omega⟩
  simp only [half1, Nat.add_sub_cancel]
  rw [List.range'_1_concat]
  simp [List.flatMap_append, add_comm]

theorem half2_succ (N : ℕ) (h : ℝ) (hN : 2 ≤ N) :
    half2 (N + 1) h = half2 N h ++ [(.site N, -h), (.pair N, h)] := by
  obtain ⟨N, rfl⟩ : ∃ M, N = M + 2 := ⟨N - 2, by omega⟩
  simp only [half2, Nat.add_sub_cancel, show N + 2 + 1 - 2 = N + 1 from rfl]
  rw [List.range'_1_concat]
  simp [List.flatMap_append]
  omega

theorem right_half1 (N : ℕ) (a : Args) (hN : 1 ≤ N) (hd : a.dmrg = false) :
    evolutions ((upTo N).flatMap (rightOps N a false)) = half1 N a.h := by
  obtain ⟨N, rfl⟩ : ∃ M, N = M + 1 := ⟨N - 1, by omega⟩
  rw [evolutions_flatMap, upTo, List.range'_1_concat, List.flatMap_append, half1]
  congr 1
  · apply flatMap_congr'
    intro n hn
    have : n < N + 1 := by have := List.mem_range'_1.1 hn; omega
    simp [rightOps, right1Ops, hd, this, evolutions, evolution, List.filterMap_cons]
  · simp [rightOps, right1Ops, hd, evolutions, evolution, add_comm]

theorem left_half1 (N : ℕ) (a : Args) (hN : 1 ≤ N) (hd : a.dmrg = false) :
    evolutions ((upTo N).reverse.flatMap (leftOps a false)) = (half1 N a.h).reverse := by
  induction N, hN using Nat.le_induction with
  | base => simp [upTo, leftOps, left1Ops, hd, evolutions, evolution, half1]
  | succ N hN ih =>
    rw [half1_succ N _ hN, List.reverse_append, ← ih, upTo, List.range'_1_concat, List.reverse_append,
      List.flatMap_append, evolutions_append]
    have h0 : 0 < N := by omega
    have this : 1 < N + 1 := by omega
    simp [leftOps, left1Ops, hd, evolutions, evolution, List.filterMap_cons, this, h0, upTo, add_comm]

theorem right_half2 (N : ℕ) (a : Args) (hN : 2 ≤ N) (hd : a.dmrg = false) :
    evolutions ((upTo N).flatMap (rightOps N a true)) = half2 N a.h := by
  obtain ⟨N, rfl⟩ : ∃ M, N = M + 2 := ⟨N - 2, by omega⟩
  rw [evolutions_flatMap, upTo, List.range'_1_concat, List.range'_1_concat, List.append_assoc, List.flatMap_append,
    half2]
  congr 1
  · apply flatMap_congr'
    intro n hn
    have h1 : n < N + 1 := by have := List.mem_range'_1.1 hn; omega
    have h2 : n ≠ N + 2 := by omega
    have h3 : ¬ (n : ℤ) = (N : ℤ) + 2 - 1 := by omega
    simp [rightOps, right2Ops, hd, h1, h2, h3, evolutions, evolution, List.filterMap_cons]
  · have h1 : 1 + N ≠ N + 2 := by omega
    have h2 : (1 : ℤ) + N = N + 2 - 1 := by ring
    have h3 : ¬ (1 + N < N + 1) := by omega
    have h4 : 1 + (N + 1) = N + 2 := by omega
    have h5 : 1 + N + 1 = N + 2 := by omega
    have h6 : ¬ (N : ℤ) + 2 = (N : ℤ) + 2 - 1 := by omega
    simp [rightOps, right2Ops, hd, h1, h2, h3, h4, h5, h6, evolutions, evolution, add_comm]

theorem left_half2 (N : ℕ) (a : Args) (hN : 2 ≤ N) (hd : a.dmrg = false) :
    evolutions ((upTo N).reverse.flatMap (leftOps a true)) = (half2 N a.h).reverse := by
  induction N, hN using Nat.le_induction with
  | base => simp [upTo, leftOps, left2Ops, hd, evolutions, evolution, half2, List.range']
  | succ N hN ih =>
    rw [half2_succ N _ hN, List.reverse_append, ← ih, upTo, List.range'_1_concat, List.reverse_append,
      List.flatMap_append, evolutions_append]
    have h1 : 1 + N - 1 = N := by omega
    have h2 : 1 + N ≠ 2 := by omega
    have h3 : N ≠ 0 := by omega
    have h4 : N ≠ 1 := by omega
    have h5 : 1 < N := by omega
    simp [leftOps, left2Ops, hd, evolutions, evolution, List.filterMap_cons, h1, h2, h3, h4, h5, upTo, add_comm]

/-! ## The environments -/

theorem checks_append (N : ℕ) (e : Env) (x y : List Op) :
    checks N e (x ++ y) = (checks N e x).bind fun e => checks N e y := by
  unfold checks
  rw [List.foldl_append]
  cases h : List.foldl (fun e o => e.bind fun e => check N e o) (some e) x with
  | some e' => rfl
  | none =>
    induction y with
    | nil => rfl
    | cons o y ih => simpa using ih

theorem checks_cons (N : ℕ) (e : Env) (o : Op) (os : List Op) :
    checks N e (o :: os) = (check N e o).bind fun e => checks N e os := by
  have := checks_append N e [o] os
  simpa [checks] using this

theorem checks_nil (N : ℕ) (e : Env) : checks N e [] = some e := rfl

/-- The environments are as needed for work on site `n`. -/
def Ready (e : Env) (n : ℕ) : Prop := e.centre = .site n ∧ n - 1 ≤ e.left ∧ e.right ≤ n + 1

theorem check_site {N : ℕ} {e : Env} {n : ℕ} (h : Ready e n) (h1 : 1 ≤ n) (hN : n ≤ N) (d : Bool) (x : ℝ) :
    check N e (if d then .optSite n else .site n x) = some ⟨.site n, n - 1, n + 1⟩ := by
  obtain ⟨hc, hl, hr⟩ := h
  cases d
  all_goals
    simp only [check, hc, hl, hr, h1, hN, true_and, and_self, if_true, Env.touch, Bool.false_eq_true, if_false]
    rw [min_eq_right hl, max_eq_right hr]

theorem check_pair {N : ℕ} {e : Env} {n : ℕ} (r : Bool) (hc : e.centre = .site (if r then n else n + 1))
    (h1 : 1 ≤ n) (hN : n + 1 ≤ N) (hl : n - 1 ≤ e.left) (hr : e.right ≤ n + 2) (d : Bool) (x : ℝ) :
    check N e (if d then .optPair n r else .pair n x r) =
      some ⟨.site (if r then n + 1 else n), n - 1, n + 2⟩ := by
  cases d
  all_goals
    simp only [check, hc, hl, hr, h1, hN, true_and, and_self, if_true, Env.touch, Bool.false_eq_true, if_false]
    congr 2 <;> omega

theorem right1_ready {N : ℕ} {a : Args} {e : Env} {n : ℕ} (h : Ready e n) (h1 : 1 ≤ n) (hN : n ≤ N) :
    ∃ e', checks N e (right1Ops N a n) = some e' ∧ Ready e' (min (n + 1) N) := by
  unfold right1Ops
  rw [checks_cons, check_site h h1 hN, Option.bind_some]
  by_cases hn : n < N
  · rw [if_pos hn, min_eq_left (by omega : n + 1 ≤ N)]
    have hm : min (n - 1) (n - 1) = n - 1 := min_self _
    cases hd : a.dmrg <;>
      simp only [checks_cons, checks_nil, check, Env.touch, h1, hN, true_and, and_self, if_true, if_false,
        Bool.false_eq_true, Option.bind_some, List.cons_append, List.nil_append, hm, max_self, le_refl,
        Nat.add_sub_cancel, le_add_iff_nonneg_left, zero_le, Nat.succ_le_of_lt hn, le_sup_right]
    all_goals exact ⟨_, rfl, rfl, by simp, by simp⟩
  · rw [if_neg hn, checks_nil]
    have : n = N := by omega
    subst this
    exact ⟨_, rfl, by simp [Ready]⟩

theorem right2_ready {N : ℕ} {a : Args} {e : Env} {n : ℕ} (h : Ready e n) (h1 : 1 ≤ n) (hN : n ≤ N) :
    ∃ e', checks N e (right2Ops N a n) = some e' ∧ Ready e' (min (n + 1) N) := by
  unfold right2Ops
  by_cases hn : n = N
  · rw [if_pos hn, checks_nil]
    exact ⟨e, rfl, by rwa [min_eq_right (by omega), ← hn]⟩
  · obtain ⟨hc, hl, hr⟩ := h
    have hn' : n + 1 ≤ N := by omega
    rw [if_neg hn, checks_cons, check_pair true (by simpa using hc) h1 hn' hl (by omega), Option.bind_some, checks_cons,
      min_eq_left hn']
    have hh : check N ⟨.site (if true then n + 1 else n), n - 1, n + 2⟩ (.heffL n) = some ⟨.site (n + 1), n, n + 2⟩ := by
      simp [check, h1, hN]
    rw [hh, Option.bind_some]
    split_ifs with hs
    · rw [checks_cons]
      have := check_site (N := N) (e := ⟨.site (n + 1), n, n + 2⟩) (n := n + 1) ⟨rfl, by simp, by simp⟩ (by omega) hn'
        false (-a.h)
      simp only [Bool.false_eq_true, if_false] at this
      rw [this, Option.bind_some, checks_nil]
      exact ⟨_, rfl, by simp [Ready]⟩
    · rw [checks_nil]
      exact ⟨_, rfl, by simp [Ready]⟩

theorem right_ready {N : ℕ} {a : Args} (c : Bool) {e : Env} {n : ℕ} (h : Ready e n) (h1 : 1 ≤ n) (hN : n ≤ N) :
    ∃ e', checks N e (rightOps N a c n) = some e' ∧ Ready e' (min (n + 1) N) := by
  unfold rightOps
  cases c
  · simpa using right1_ready h h1 hN
  · obtain ⟨e', he, hr⟩ := right2_ready (a := a) h h1 hN
    rw [if_pos rfl, checks_append, he, Option.bind_some]
    split_ifs with hn
    · have : n + 1 = N := by omega
      rw [right2Ops, if_pos this, checks_nil]
      exact ⟨e', rfl, hr⟩
    · exact ⟨e', rfl, hr⟩

theorem left1_ready {N : ℕ} {a : Args} {e : Env} {n : ℕ} (h : Ready e n) (h1 : 1 ≤ n) (hN : n ≤ N) :
    ∃ e', checks N e (left1Ops a n) = some e' ∧ Ready e' (max (n - 1) 1) := by
  unfold left1Ops
  rw [checks_cons, check_site h h1 hN, Option.bind_some]
  by_cases hn : n > 1
  · obtain ⟨m, rfl⟩ : ∃ m, n = m + 2 := ⟨n - 2, by omega⟩
    rw [if_pos hn, max_eq_left (by omega)]
    have h2 : m + 1 ≤ N := by omega
    cases hd : a.dmrg <;>
      simp [checks_cons, checks_nil, check, Env.touch, hN, h2, Ready]
  · have : n = 1 := by omega
    subst this
    rw [if_neg hn]
    simp [checks_cons, checks_nil, check, hN, Ready]

theorem left2_ready {N : ℕ} {a : Args} {e : Env} {n : ℕ} (h : Ready e n) (h1 : 1 ≤ n) (hN : n ≤ N) :
    ∃ e', checks N e (left2Ops a (n - 1)) = some e' ∧ Ready e' (max (n - 1) 1) := by
  unfold left2Ops
  by_cases hn : n = 1
  · subst hn
    exact ⟨e, rfl, by simpa using h⟩
  · obtain ⟨m, rfl⟩ : ∃ m, n = m + 2 := ⟨n - 2, by omega⟩
    obtain ⟨hc, hl, hr⟩ := h
    have h2 : m + 1 ≤ N := by omega
    rw [show m + 2 - 1 = m + 1 from rfl] at *
    rw [if_neg (by omega), checks_cons, check_pair false (by simpa using hc) (by omega) hN (by simp; omega) (by omega),
      Option.bind_some, checks_cons, max_eq_left (by omega)]
    have hh : check N ⟨.site (if false then m + 1 + 1 else m + 1), m + 1 - 1, m + 1 + 2⟩ (.heffR (m + 1 + 1)) =
        some ⟨.site (m + 1), m, m + 2⟩ := by
      simp [check, hN]
    rw [hh, Option.bind_some, checks_append]
    rcases Nat.eq_zero_or_pos m with rfl | hm
    · cases a.dmrg <;> simp [checks_cons, checks_nil, check, h2, Ready]
    · have hm1 : m + 1 ≠ 1 := by omega
      have hm2 : m + 1 > 1 := by omega
      rw [if_neg hm1, checks_nil, Option.bind_some]
      split_ifs with hs
      · rw [checks_cons]
        have := check_site (N := N) (e := ⟨.site (m + 1), m, m + 2⟩) (n := m + 1) ⟨rfl, by simp, by simp⟩ (by omega) h2
          false (-a.h)
        simp only [Bool.false_eq_true, if_false] at this
        rw [this, Option.bind_some, checks_nil]
        exact ⟨_, rfl, by simp [Ready]⟩
      · rw [checks_nil]
        exact ⟨_, rfl, by simp [Ready]⟩

theorem left_ready {N : ℕ} {a : Args} (c : Bool) {e : Env} {n : ℕ} (h : Ready e n) (h1 : 1 ≤ n) (hN : n ≤ N) :
    ∃ e', checks N e (leftOps a c n) = some e' ∧ Ready e' (max (n - 1) 1) := by
  unfold leftOps
  cases c
  · simpa using left1_ready h h1 hN
  · obtain ⟨e', he, hr⟩ := left2_ready (a := a) h h1 hN
    rw [if_pos rfl, checks_append, he, Option.bind_some]
    split_ifs with hn
    · subst hn
      exact ⟨e', rfl, hr⟩
    · exact ⟨e', rfl, hr⟩

/-- What has happened since `w0` was done with valid environments, which are now ready for site `n`. -/
def Sound (N : ℕ) (e0 : Env) (w0 w : World σ) (n : ℕ) : Prop :=
  ∃ ops e, w.log = w0.log ++ ops ∧ checks N e0 ops = some e ∧ Ready e n

theorem Sound.runs {N : ℕ} {e0 : Env} {w0 w w' : World σ} {n m : ℕ} {O : Obj σ} {ops : List Op}
    (h : Sound N e0 w0 w n) (hr : runs O ops w = some w')
    (hc : ∀ e, Ready e n → ∃ e', checks N e ops = some e' ∧ Ready e' m) : Sound N e0 w0 w' m := by
  obtain ⟨x, e, hx, he, hn⟩ := h
  obtain ⟨e', he', hm⟩ := hc e hn
  exact ⟨x ++ ops, e', by rw [runs_log hr, hx, List.append_assoc], by rw [checks_append, he, Option.bind_some, he'], hm⟩

theorem sound_right {O : Obj σ} {a : Args} {e0 : Env} {w0 w w' : World σ} (hN : 1 ≤ O.N) (h : Sound O.N e0 w0 w 1)
    (hr : forEach (rightIter O a) (upTo O.N) w = some w') : Sound O.N e0 w0 w' O.N := by
  have := forEach_inv (rightIter O a) (fun k w => Sound O.N e0 w0 w (min (k + 1) O.N)) (upTo O.N) 0 w w'
    (by rw [zero_add, min_eq_left hN]; exact h) hr (fun i hi v v' hv hf => by
      have hi' : i < O.N := by simpa [upTo] using hi
      have hx : (upTo O.N)[i] = i + 1 := by simp [upTo, add_comm]
      rw [hx] at hf
      obtain ⟨c, _, hc⟩ := rightIter_some hf
      refine hv.runs hc fun e he => ?_
      rw [zero_add, min_eq_left (by omega)] at he
      have := right_ready (a := a) c he (by omega) (by omega : i + 1 ≤ O.N)
      rwa [zero_add])
  simpa [upTo] using this

theorem sound_left {O : Obj σ} {a : Args} {e0 : Env} {w0 w w' : World σ} (hN : 1 ≤ O.N) (h : Sound O.N e0 w0 w O.N)
    (hr : forEach (leftIter O a) (upTo O.N).reverse w = some w') : Sound O.N e0 w0 w' 1 := by
  have := forEach_inv (leftIter O a) (fun k w => Sound O.N e0 w0 w (max (O.N - k) 1)) (upTo O.N).reverse 0 w w'
    (by rw [Nat.sub_zero, max_eq_left hN]; exact h) hr (fun i hi v v' hv hf => by
      have hi' : i < O.N := by simpa [upTo] using hi
      have hx : (upTo O.N).reverse[i] = O.N - i := by
        simp [upTo]; omega
      rw [hx] at hf
      obtain ⟨c, _, hc⟩ := leftIter_some hf
      refine hv.runs hc fun e he => ?_
      rw [zero_add, max_eq_left (by omega)] at he
      have := left_ready (a := a) c he (by omega) (by omega : O.N - i ≤ O.N)
      rwa [zero_add, show O.N - (i + 1) = O.N - i - 1 by omega])
  simpa [upTo] using this

end EvoMPS.Split
