import Verif.GoLoop
import Mathlib.Logic.Function.Iterate
import Mathlib.Tactic.Ring
import Mathlib.Tactic.Linarith

/-!
# C101: the integration loop for a finite part between uniform chains
-/

namespace EvoMPS

open Go

variable {σ : Type*}

/-- One step and the update after it. -/
def stepUpdate (P : Sys σ) (s : σ) : σ := P.update (P.step s)

theorem body_sim (P : Sys σ) (a : Args) (hg : a.autogrow = false) (i : ℕ) (S : St σ) :
    (body P a i S).1.sim = (if a.start < i then stepUpdate P S.sim else P.update S.sim) ∧
      (body P a i S).2 = (decide (a.start < i) && P.reached (P.step S.sim)) := by
  unfold body stepUpdate
  by_cases h : a.start < i <;> by_cases h2 : i % a.opEvery = 0 <;> simp [hg, h, h2]

theorem loop_sim (P : Sys σ) (a : Args) (hg : a.autogrow = false) (n : ℕ) : ∀ (j : ℕ) (S : St σ), a.start < j →
    ∃ m ≤ n, (loop P a (List.range' j n) S).sim = (stepUpdate P)^[m] S.sim ∧
      (m < n → ∃ k, m = k + 1 ∧ P.reached (P.step ((stepUpdate P)^[k] S.sim)) = true) ∧
      ∀ k, k + 1 < m → P.reached (P.step ((stepUpdate P)^[k] S.sim)) = false := by
  induction n with
  | zero => exact fun j S _ => ⟨0, le_rfl, rfl, fun h => absurd h (lt_irrefl _), fun k hk => by omega⟩
  | succ n ih =>
    intro j S hj
    obtain ⟨e1, e2⟩ := body_sim P a hg j S
    rw [if_pos hj] at e1
    simp only [hj, decide_true, Bool.true_and] at e2
    rw [List.range'_succ, loop]
    by_cases hr : P.reached (P.step S.sim) = true
    · rw [e2, if_pos hr]
      exact ⟨1, by omega, e1, fun _ => ⟨0, rfl, hr⟩, fun k hk => by omega⟩
    · rw [e2, if_neg hr]
      obtain ⟨m, hm, h1, h2, h3⟩ := ih (j + 1) (body P a j S).1 (by omega)
      rw [e1] at h1 h2 h3
      refine ⟨m + 1, by omega, ?_, fun h => ?_, fun k hk => ?_⟩
      · rw [h1, Function.iterate_succ_apply]
      · obtain ⟨k, hk, hk'⟩ := h2 (by omega)
        exact ⟨k + 1, by omega, by rw [Function.iterate_succ_apply]; exact hk'⟩
      · rcases k with _ | k
        · simpa using hr
        · rw [Function.iterate_succ_apply]
          exact h3 k (by omega)

/-- **C101** (steps).  Without growing, `go(sim, tau, steps, counter_start=c)` updates the state and then takes up to `steps - c` steps with an update
after each of them; it takes fewer only if the tolerance is reached, and stops at the first step where it is. -/
theorem C101_steps (P : Sys σ) (a : Args) (hg : a.autogrow = false) (hc : a.start ≤ a.steps) (s : σ) :
    ∃ m ≤ a.steps - a.start, (go P a s).sim = (stepUpdate P)^[m] (P.update s) ∧
      (m < a.steps - a.start → ∃ k, m = k + 1 ∧ P.reached (P.step ((stepUpdate P)^[k] (P.update s))) = true) ∧
      ∀ k, k + 1 < m → P.reached (P.step ((stepUpdate P)^[k] (P.update s))) = false := by
  obtain ⟨e1, e2⟩ := body_sim P a hg a.start ⟨s, [], [], none⟩
  rw [if_neg (lt_irrefl _)] at e1
  simp only [lt_irrefl, decide_false, Bool.false_and] at e2
  obtain ⟨m, hm, h1, h2, h3⟩ := loop_sim P a hg (a.steps - a.start) (a.start + 1) (body P a a.start ⟨s, [], [], none⟩).1 (by omega)
  rw [e1] at h1 h2 h3
  refine ⟨m, hm, ?_, h2, h3⟩
  unfold go
  rw [Nat.sub_add_comm hc, List.range'_succ, loop, e2]
  exact h1

/-- **C101** (continuation).  A run that is continued with `counter_start` set to the number of steps made takes the same steps as one
run, if a second update does nothing. -/
theorem C101_continue (P : Sys σ) (hu : ∀ s, P.update (P.update s) = P.update s) (hr : ∀ s, P.reached s = false) (a b : Args)
    (ha : a.autogrow = false) (hb : b.autogrow = false) (hab : b.start = a.steps) (h1 : a.start ≤ a.steps) (h2 : b.start ≤ b.steps) (s : σ) :
    (go P b (go P a s).sim).sim = (go P { a with steps := b.steps } s).sim := by
  have hm : ∀ (c : Args) (s : σ), c.autogrow = false → c.start ≤ c.steps →
      (go P c s).sim = (stepUpdate P)^[c.steps - c.start] (P.update s) := by
    intro c s hg hc
    obtain ⟨m, hm, e1, e2, -⟩ := C101_steps P c hg hc s
    rcases hm.lt_or_eq with h | h
    · obtain ⟨k, -, hk⟩ := e2 h
      rw [hr] at hk
      exact absurd hk (by simp)
    · rw [e1, h]
  have hfix : ∀ n s, P.update ((stepUpdate P)^[n] (P.update s)) = (stepUpdate P)^[n] (P.update s) := by
    intro n s
    rcases n with _ | n
    · exact hu s
    · rw [Function.iterate_succ_apply']
      exact hu _
  rw [hm b _ hb h2, hm a s ha h1, hm { a with steps := b.steps } s ha (by simp only; omega), hfix, ← Function.iterate_add_apply]
  congr 2
  simp only
  omega

theorem loop_invariant (P : Sys σ) (a : Args) (p : St σ → Prop) (hb : ∀ i S, p S → p (body P a i S).1) :
    ∀ (l : List ℕ) (S : St σ), p S → p (loop P a l S)
  | [], _, h => h
  | i :: is, S, h => by
    rw [loop]
    split
    · exact hb i S h
    · exact loop_invariant P a p hb is _ (hb i S h)

/-- **C101** (rows), partial: if growing adds `amount` sites, then at the end all rows have the length of a row measured then, so that the columns belong
to the same sites.  Missing are blocks with more than one site, see `C101_block_violated`. -/
theorem C101_rows_partial (P : Sys σ) (a : Args) (w : σ → ℕ) (hrow : ∀ s, (P.row s).length = w s) (hstep : ∀ s, w (P.step s) = w s)
    (hupd : ∀ s, w (P.update s) = w s) (hL : ∀ s, w (P.growL s) = w s + a.amount) (hR : ∀ s, w (P.growR s) = w s + a.amount) (s : σ) :
    ∀ r ∈ (go P a s).data, r.length = w (go P a s).sim := by
  refine loop_invariant P a (fun S => ∀ r ∈ S.data, r.length = w S.sim) ?_ _ _ (by simp)
  intro i S h
  have hp : ∀ m k (d : List (List ℝ)), (∀ r ∈ d, r.length = k) → (∀ r ∈ padL m d, r.length = k + m) ∧ ∀ r ∈ padR m d, r.length = k + m := by
    intro m k d hd
    constructor <;> intro r hr <;> simp only [padL, padR, List.mem_map] at hr <;> obtain ⟨t, ht, rfl⟩ := hr <;>
      simp [hd t ht, Nat.add_comm]
  have hst : ∀ b : Bool, w (if b then P.step S.sim else S.sim) = w S.sim := by
    intro b
    cases b <;> simp [hstep]
  generalize hs : (if decide (a.start < i) = true then P.step S.sim else S.sim) = t
  have ht : w t = w S.sim := hs ▸ hst _
  unfold body
  simp only [hs]
  generalize (decide (a.start < i) && a.autogrow && P.wantL t) = bl
  generalize (decide (a.start < i) && a.autogrow && P.wantR t) = br
  have key : ∀ r ∈ (if br = true then padR a.amount (if bl = true then padL a.amount S.data else S.data)
      else if bl = true then padL a.amount S.data else S.data),
      r.length = w (P.update (if br = true then P.growR (if bl = true then P.growL t else t) else if bl = true then P.growL t else t)) := by
    rw [hupd]
    cases bl <;> cases br <;> simp only [if_true, Bool.false_eq_true, if_false]
    · rw [ht]; exact h
    · rw [hR, ht]; exact (hp _ _ _ h).2
    · rw [hL, ht]; exact (hp _ _ _ h).1
    · rw [hR, hL, ht]; exact (hp _ _ _ (hp _ _ _ h).1).2
  split
  · intro r hr
    simp only [List.mem_append, List.mem_singleton] at hr
    rcases hr with hr | rfl
    · exact key r hr
    · exact hrow _
  · exact key

/-- **C101** (file), partial: the file has the rows that are returned, if the state does not grow or if it is measured at each step.  Missing is the
general case, see `C101_file_violated`. -/
theorem C101_file_partial (P : Sys σ) (a : Args) (h : a.autogrow = false ∨ a.opEvery = 1) (s : σ) : (go P a s).file = (go P a s).data := by
  refine loop_invariant P a (fun S => S.file = S.data) ?_ _ _ rfl
  intro i S hS
  unfold body
  rcases h with h | h
  · simp only [h, Bool.and_false, Bool.false_and, Bool.false_eq_true, if_false, Bool.or_self]
    split
    · simp only [hS]
    · exact hS
  · simp only [h, Nat.mod_one, if_true]
    generalize (decide (a.start < i) && a.autogrow && P.wantL _) = bl
    generalize (decide (a.start < i) && a.autogrow && P.wantR _) = br
    cases bl <;> cases br <;> simp [hS]

/-- **C101, violated** (file).  If the state grows to the left at a step at which nothing is measured, the file keeps the old row, without the zeros that are put
in front of the returned one: its columns belong to other sites than those of the rows that follow. -/
theorem C101_file_violated (P : Sys σ) (m every save : ℕ) (he : 2 ≤ every) (s : σ) (hl : P.wantL (P.step (P.update s)) = true)
    (hr : P.wantR (P.step (P.update s)) = false) :
    (go P ⟨0, 1, every, save, m, true⟩ s).file = [P.row (P.update s)] ∧
      (go P ⟨0, 1, every, save, m, true⟩ s).data = [List.replicate m 0 ++ P.row (P.update s)] := by
  have h1 : 1 % every ≠ 0 := by rw [Nat.mod_eq_of_lt (by omega)]; omega
  have e : List.range' 0 (1 + 1 - 0) = [0, 1] := rfl
  simp [go, e, loop, body, hl, hr, h1, padL]

/-- **C101, violated** (blocks).  `grow_left(m)` adds `m` blocks of `L` sites each (C49).  For `L > 1` the rows of before and after are of different
lengths. -/
theorem C101_block_violated (P : Sys σ) (m save L : ℕ) (hm : 0 < m) (hL : 1 < L) (w : σ → ℕ) (hrow : ∀ s, (P.row s).length = w s)
    (hstep : ∀ s, w (P.step s) = w s) (hupd : ∀ s, w (P.update s) = w s) (hgrow : ∀ s, w (P.growL s) = w s + m * L) (s : σ)
    (hl : P.wantL (P.step (P.update s)) = true) (hr : P.wantR (P.step (P.update s)) = false) :
    ∃ r r', (go P ⟨0, 1, 1, save, m, true⟩ s).data = [r, r'] ∧ r.length ≠ r'.length := by
  have e : List.range' 0 (1 + 1 - 0) = [0, 1] := rfl
  refine ⟨List.replicate m 0 ++ P.row (P.update s), P.row (P.update (P.growL (P.step (P.update s)))), ?_, ?_⟩
  · simp [go, e, loop, body, hl, hr, padL]
  · simp only [List.length_append, List.length_replicate, hrow, hupd, hgrow, hstep]
    have : m * 1 < m * L := Nat.mul_lt_mul_of_pos_left hL hm
    omega

/-- The loop without a tolerance. -/
theorem loop_append (P : Sys σ) (a : Args) (hr : ∀ s, P.reached s = false) : ∀ (l l' : List ℕ) (S : St σ),
    loop P a (l ++ l') S = loop P a l' (loop P a l S)
  | [], _, _ => rfl
  | i :: is, l', S => by
    have : (body P a i S).2 = false := by
      unfold body
      simp only [hr, Bool.and_false]
      split <;> rfl
    rw [List.cons_append, loop, loop, this]
    exact loop_append P a hr is l' _

/-- **C101, violated** (saved state).  Unless `save_every` divides `steps`, the state saved at the end is not the one after the last step but the one before. -/
theorem C101_saved_violated (P : Sys σ) (hr : ∀ s, P.reached s = false) (a : Args) (hg : a.autogrow = false) (hc : a.start < a.steps)
    (hs : a.steps % a.saveEvery ≠ 0) (s : σ) :
    ∃ t, (go P a s).saved = some t ∧ (go P a s).sim = P.update (P.step t) := by
  obtain ⟨n, hn⟩ : ∃ n, a.steps = a.start + n + 1 := ⟨a.steps - a.start - 1, by omega⟩
  have hl : List.range' a.start (a.steps + 1 - a.start) = List.range' a.start n ++ [a.start + n] ++ [a.start + n + 1] := by
    rw [show a.steps + 1 - a.start = n + 1 + 1 by omega, List.range'_1_concat, List.range'_1_concat]
    rfl
  unfold go
  rw [hl, loop_append P a hr, loop_append P a hr]
  set S0 := loop P a (List.range' a.start n) ⟨s, [], [], none⟩
  have h1 : ∀ i S, loop P a [i] S = (body P a i S).1 := fun i S => by
    rw [loop]
    split <;> rfl
  rw [h1, h1]
  have hsv : (body P a (a.start + n) S0).1.saved = some (body P a (a.start + n) S0).1.sim := by
    unfold body
    simp only [show a.start + n + 1 = a.steps by omega, or_true, if_true]
    split <;> rfl
  set S1 := (body P a (a.start + n) S0).1
  refine ⟨S1.sim, ?_, ?_⟩
  · rw [← hsv, ← hn]
    unfold body
    simp only [hs, false_or, show ¬ (a.steps + 1 = a.steps) by omega, if_false]
    split <;> rfl
  · rw [(body_sim P a hg _ S1).1, if_pos (by omega)]
    rfl

/-! ### The hypotheses can be met -/

/-- A state with `n` sites and time `t`, which grows at the first step. -/
def demoGo (m : ℕ) : Sys (ℕ × ℕ) where
  step s := (s.1, s.2 + 1)
  update s := s
  growL s := (s.1 + m, s.2)
  growR s := (s.1 + m, s.2)
  wantL s := s.2 == 1
  wantR _ := false
  row s := List.replicate (s.1 + 20) (s.2 : ℝ)
  reached _ := false

example : (∀ s, ((demoGo 2).row s).length = s.1 + 20) ∧ ((demoGo 2).wantL ((demoGo 2).step ((demoGo 2).update (4, 0))) = true) ∧
    (∀ r ∈ (go (demoGo 2) ⟨0, 7, 5, 10, 2, true⟩ (4, 0)).data, r.length = (go (demoGo 2) ⟨0, 7, 5, 10, 2, true⟩ (4, 0)).sim.1 + 20) ∧
    (go (demoGo 2) ⟨0, 1, 5, 10, 2, true⟩ (4, 0)).file = [List.replicate 24 0] ∧
    (∃ r r', (go (demoGo 6) ⟨0, 1, 1, 10, 2, true⟩ (4, 0)).data = [r, r'] ∧ r.length ≠ r'.length) ∧
    (∃ t, (go (demoGo 2) ⟨0, 7, 5, 10, 2, false⟩ (4, 0)).saved = some t) ∧
    (go (demoGo 2) ⟨3, 7, 5, 10, 2, false⟩ (go (demoGo 2) ⟨0, 3, 5, 10, 2, false⟩ (4, 0)).sim).sim
      = (go (demoGo 2) ⟨0, 7, 5, 10, 2, false⟩ (4, 0)).sim := by
  refine ⟨fun s => by simp [demoGo], rfl, ?_, ?_, ?_, ?_, ?_⟩
  · exact C101_rows_partial (demoGo 2) ⟨0, 7, 5, 10, 2, true⟩ (fun s => s.1 + 20) (fun s => by simp [demoGo]) (fun _ => rfl) (fun _ => rfl)
      (fun s => by simp only [demoGo]) (fun s => by simp only [demoGo]) (4, 0)
  · rw [(C101_file_violated (demoGo 2) 2 5 10 (by omega) (4, 0) rfl rfl).1]
    simp [demoGo]
  · exact C101_block_violated (demoGo 6) 2 10 3 (by omega) (by omega) (fun s => s.1 + 20) (fun s => by simp [demoGo]) (fun _ => rfl) (fun _ => rfl)
      (fun s => by simp only [demoGo]) (4, 0) rfl rfl
  · obtain ⟨t, ht, -⟩ := C101_saved_violated (demoGo 2) (fun _ => rfl) ⟨0, 7, 5, 10, 2, false⟩ rfl (by simp) (by simp) (4, 0)
    exact ⟨t, ht⟩
  · exact C101_continue (demoGo 2) (fun _ => rfl) (fun _ => rfl) ⟨0, 3, 5, 10, 2, false⟩ ⟨3, 7, 5, 10, 2, false⟩ rfl rfl rfl (by simp) (by simp) (4, 0)

end EvoMPS
