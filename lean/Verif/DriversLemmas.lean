import Verif.DriversSpec
import Mathlib.Tactic.Ring
import Mathlib.Tactic.Linarith

/-!
# Lemmas about the driver loops
-/

namespace EvoMPS.Dyn

variable {σ β : Type}

theorem replay_snoc (S : Sys σ β) (l : List (Call σ β)) (c : Call σ β) (s : σ) :
    replay S (l ++ [c]) s = effect S c (replay S l s) := by
  simp [replay, List.foldl_append]

theorem replay_append (S : Sys σ β) (l l' : List (Call σ β)) (s : σ) :
    replay S (l ++ l') s = replay S l' (replay S l s) := by
  simp [replay, List.foldl_append]

theorem foldl_fst {τ ρ : Type} (f : σ → τ → σ) (g : σ × ρ → τ → ρ) (l : List τ) (p : σ × ρ) :
    (l.foldl (fun p c => (f p.1 c, g p c)) p).1 = l.foldl f p.1 := by
  induction l generalizing p with
  | nil => rfl
  | cons c l ih => simp only [List.foldl_cons]; rw [ih]

theorem direction_snoc (S : Sys σ β) (l : List (Call σ β)) (c : Call σ β) (s : σ) :
    direction S (l ++ [c]) s =
      match c with
      | .calcB => some ((S.calcB (replay S l s)).1, none)
      | .calcBCG b g d h t r =>
        some ((S.calcBCG b g d h t r (replay S l s)).1.1, some (S.calcBCG b g d h t r (replay S l s)).1.2.2.2)
      | .cb _ _ _ => direction S l s
      | _ => none := by
  unfold direction
  rw [List.foldl_append]
  simp only [List.foldl_cons, List.foldl_nil]
  cases c <;> simp only [foldl_fst (fun s c => effect S c s)] <;> rfl

theorem allCalls_nil (Q : List (Call σ β) → Call σ β → Prop) : AllCalls Q [] := by
  intro pre c post h
  simp at h

theorem AllCalls.snoc {Q : List (Call σ β) → Call σ β → Prop} {l : List (Call σ β)} {c : Call σ β}
    (h : AllCalls Q l) (hc : Q l c) : AllCalls Q (l ++ [c]) := by
  intro pre d post e
  rcases List.eq_nil_or_concat post with rfl | ⟨post', x, rfl⟩
  · have e' := List.append_inj' e rfl
    obtain ⟨rfl, e2⟩ := e'
    simp at e2
    subst e2
    exact hc
  · have e1 : l ++ [c] = (pre ++ d :: post') ++ [x] := by simpa using e
    obtain ⟨rfl, -⟩ := List.append_inj' e1 rfl
    exact h pre d post' rfl

/-- The calls made since the log was `L` and the object `s0`. -/
def Inv (S : Sys σ β) (Q : List (Call σ β) → Call σ β → Prop) (L : List (Call σ β)) (s0 : σ)
    (new : List (Call σ β)) (w : World σ β) : Prop :=
  w.log = L ++ new ∧ w.s = replay S new s0 ∧ AllCalls Q new

section
variable {S : Sys σ β} {Q : List (Call σ β) → Call σ β → Prop} {L : List (Call σ β)} {s0 : σ}
  {new : List (Call σ β)} {w : World σ β}

theorem inv_nil (S : Sys σ β) (Q) (w : World σ β) : Inv S Q w.log w.s [] w :=
  ⟨by simp, rfl, allCalls_nil Q⟩

theorem Inv.snoc (h : Inv S Q L s0 new w) {c : Call σ β} (hc : Q new c) {w' : World σ β}
    (e : w' = ⟨effect S c w.s, w.log ++ [c]⟩) : Inv S Q L s0 (new ++ [c]) w' := by
  obtain ⟨h1, h2, h3⟩ := h
  subst e
  exact ⟨by simp [h1], by rw [replay_snoc, ← h2], h3.snoc hc⟩

/-- The callback as a list of calls. -/
def cbList (has : Bool) (i : ℤ) (kw : ℝ) (s : σ) : List (Call σ β) := if has then [.cb i kw s] else []

theorem Inv.cb (h : Inv S Q L s0 new w) (has : Bool) (i : ℤ) (kw : ℝ) (hc : Q new (.cb i kw w.s)) :
    Inv S Q L s0 (new ++ cbList has i kw w.s) (w.cb has i kw) := by
  cases has
  · simpa [cbList, World.cb] using h
  · exact h.snoc hc rfl
end

@[simp] theorem stepTimes_append (l l' : List (Call σ β)) : stepTimes (l ++ l') = stepTimes l ++ stepTimes l' := by
  simp [stepTimes]
@[simp] theorem cbIdx_append (l l' : List (Call σ β)) : cbIdx (l ++ l') = cbIdx l ++ cbIdx l' := by simp [cbIdx]
@[simp] theorem expansions_append (l l' : List (Call σ β)) :
    expansions (l ++ l') = expansions l ++ expansions l' := by simp [expansions]
@[simp] theorem rk4Count_append (l l' : List (Call σ β)) : rk4Count (l ++ l') = rk4Count l + rk4Count l' := by
  simp [rk4Count]
@[simp] theorem stepTimes_nil : stepTimes ([] : List (Call σ β)) = [] := rfl
@[simp] theorem stepTimes_update (r n a : Bool) (l : List (Call σ β)) :
    stepTimes (.update r n a :: l) = stepTimes l := rfl
@[simp] theorem stepTimes_calcB (l : List (Call σ β)) :
    stepTimes (.calcB :: l) = stepTimes l := rfl
@[simp] theorem stepTimes_calcBCG (b g : Option β) (d h t : ℝ) (r : Bool) (l : List (Call σ β)) :
    stepTimes (.calcBCG b g d h t r :: l) = stepTimes l := rfl
@[simp] theorem stepTimes_cb (i : ℤ) (kw : ℝ) (s : σ) (l : List (Call σ β)) :
    stepTimes (.cb i kw s :: l) = stepTimes l := rfl
@[simp] theorem stepTimes_euler (z : ℂ) (B : β) (d : Bool) (x y : ℤ) (v : ℝ) (l : List (Call σ β)) :
    stepTimes (.euler z B d x y v :: l) = z :: stepTimes l := rfl
@[simp] theorem stepTimes_rk4 (z : ℂ) (B : Option β) (l : List (Call σ β)) :
    stepTimes (.rk4 z B :: l) = z :: stepTimes l := rfl
@[simp] theorem cbIdx_nil : cbIdx ([] : List (Call σ β)) = [] := rfl
@[simp] theorem cbIdx_update (r n a : Bool) (l : List (Call σ β)) :
    cbIdx (.update r n a :: l) = cbIdx l := rfl
@[simp] theorem cbIdx_calcB (l : List (Call σ β)) :
    cbIdx (.calcB :: l) = cbIdx l := rfl
@[simp] theorem cbIdx_calcBCG (b g : Option β) (d h t : ℝ) (r : Bool) (l : List (Call σ β)) :
    cbIdx (.calcBCG b g d h t r :: l) = cbIdx l := rfl
@[simp] theorem cbIdx_cb (i : ℤ) (kw : ℝ) (s : σ) (l : List (Call σ β)) :
    cbIdx (.cb i kw s :: l) = i :: cbIdx l := rfl
@[simp] theorem cbIdx_euler (z : ℂ) (B : β) (d : Bool) (x y : ℤ) (v : ℝ) (l : List (Call σ β)) :
    cbIdx (.euler z B d x y v :: l) = cbIdx l := rfl
@[simp] theorem cbIdx_rk4 (z : ℂ) (B : Option β) (l : List (Call σ β)) :
    cbIdx (.rk4 z B :: l) = cbIdx l := rfl
@[simp] theorem expansions_nil : expansions ([] : List (Call σ β)) = [] := rfl
@[simp] theorem expansions_update (r n a : Bool) (l : List (Call σ β)) :
    expansions (.update r n a :: l) = expansions l := rfl
@[simp] theorem expansions_calcB (l : List (Call σ β)) :
    expansions (.calcB :: l) = expansions l := rfl
@[simp] theorem expansions_calcBCG (b g : Option β) (d h t : ℝ) (r : Bool) (l : List (Call σ β)) :
    expansions (.calcBCG b g d h t r :: l) = expansions l := rfl
@[simp] theorem expansions_cb (i : ℤ) (kw : ℝ) (s : σ) (l : List (Call σ β)) :
    expansions (.cb i kw s :: l) = expansions l := rfl
@[simp] theorem expansions_euler (z : ℂ) (B : β) (d : Bool) (x y : ℤ) (v : ℝ) (l : List (Call σ β)) :
    expansions (.euler z B d x y v :: l) = d :: expansions l := rfl
@[simp] theorem expansions_rk4 (z : ℂ) (B : Option β) (l : List (Call σ β)) :
    expansions (.rk4 z B :: l) = expansions l := rfl
@[simp] theorem rk4Count_nil : rk4Count ([] : List (Call σ β)) = 0 := rfl
@[simp] theorem rk4Count_update (r n a : Bool) (l : List (Call σ β)) :
    rk4Count (.update r n a :: l) = rk4Count l := rfl
@[simp] theorem rk4Count_calcB (l : List (Call σ β)) :
    rk4Count (.calcB :: l) = rk4Count l := rfl
@[simp] theorem rk4Count_calcBCG (b g : Option β) (d h t : ℝ) (r : Bool) (l : List (Call σ β)) :
    rk4Count (.calcBCG b g d h t r :: l) = rk4Count l := rfl
@[simp] theorem rk4Count_cb (i : ℤ) (kw : ℝ) (s : σ) (l : List (Call σ β)) :
    rk4Count (.cb i kw s :: l) = rk4Count l := rfl
@[simp] theorem rk4Count_euler (z : ℂ) (B : β) (d : Bool) (x y : ℤ) (v : ℝ) (l : List (Call σ β)) :
    rk4Count (.euler z B d x y v :: l) = rk4Count l := rfl
@[simp] theorem rk4Count_rk4 (z : ℂ) (B : Option β) (l : List (Call σ β)) :
    rk4Count (.rk4 z B :: l) = rk4Count l + 1 := rfl
@[simp] theorem stepTimes_cbList (has : Bool) (i : ℤ) (kw : ℝ) (s : σ) :
    stepTimes (cbList has i kw s : List (Call σ β)) = [] := by cases has <;> rfl
@[simp] theorem expansions_cbList (has : Bool) (i : ℤ) (kw : ℝ) (s : σ) :
    expansions (cbList has i kw s : List (Call σ β)) = [] := by cases has <;> rfl
@[simp] theorem rk4Count_cbList (has : Bool) (i : ℤ) (kw : ℝ) (s : σ) :
    rk4Count (cbList has i kw s : List (Call σ β)) = 0 := by cases has <;> rfl
theorem cbIdx_cbList (has : Bool) (i : ℤ) (kw : ℝ) (s : σ) :
    cbIdx (cbList has i kw s : List (Call σ β)) = if has = true then [i] else [] := by cases has <;> rfl
theorem direction_cbList (S : Sys σ β) (l : List (Call σ β)) (has : Bool) (i : ℤ) (kw : ℝ) (s s0 : σ) :
    direction S (l ++ cbList has i kw s) s0 = direction S l s0 := by
  cases has
  · simp [cbList]
  · simp only [cbList, if_true]; rw [direction_snoc]
theorem replay_cbList (S : Sys σ β) (l : List (Call σ β)) (has : Bool) (i : ℤ) (kw : ℝ) (s s0 : σ) :
    replay S (l ++ cbList has i kw s) s0 = replay S l s0 := by
  cases has
  · simp [cbList]
  · simp only [cbList, if_true]; rw [replay_snoc]; rfl

/-! ## `evolve` -/

section
variable {S : Sys σ β} {L : List (Call σ β)} {s0 : σ}

/-- The numbers of steps after `i` iterations. -/
def EvolveCount (dt : ℝ) (integ : Integ) (i : ℕ) (new : List (Call σ β)) : Prop :=
  (stepTimes new).sum = i * (dt * Complex.I) ∧ (integ = .euler → stepTimes new = List.replicate i (dt * Complex.I)) ∧
    (integ = .rk4 → rk4Count new = i)

theorem evolveBefore_inv {dt : ℝ} {integ : Integ} {dynexp : Bool} {Dmax dDmax : ℤ} {new : List (Call σ β)}
    {w : World σ β} (hasCb at' : Bool) (i : ℕ)
    (h : Inv S (EvolveCall S dt integ dynexp Dmax dDmax s0) L s0 new w) (hs : EvolveCount dt integ i new) :
    ∃ new', Inv S (EvolveCall S dt integ dynexp Dmax dDmax s0) L s0 new' (evolveBefore S hasCb at' i w) ∧
      EvolveCount dt integ i new' ∧
      direction S new' s0 = some ((S.calcB (S.update true true at' w.s)).1, none) ∧
      cbIdx new' = cbIdx new ++ if hasCb = true then [(i : ℤ)] else [] := by
  have h1 := h.snoc (c := .update true true at') trivial (w' := w.update S true true at') rfl
  have h2 := h1.snoc (c := .calcB) trivial (w' := (w.update S true true at').calcB S) rfl
  have hd : direction S (new ++ [.update true true at'] ++ [.calcB]) s0 =
      some ((S.calcB (S.update true true at' w.s)).1, none) := by
    rw [direction_snoc]
    simp only
    rw [replay_snoc, ← h.2.1]
    rfl
  refine ⟨_, h2.cb hasCb i 0 ⟨h2.2.1, ?_, _, hd⟩, ?_, ?_, ?_⟩
  · simpa using hs.1
  · refine ⟨?_, fun e => ?_, fun e => ?_⟩
    · simpa using hs.1
    · simpa using hs.2.1 e
    · simpa using hs.2.2 e
  · rw [direction_cbList, hd]
  · rw [cbIdx_append, cbIdx_cbList]
    simp

theorem evolveStep_inv {dt : ℝ} {integ : Integ} {dynexp : Bool} {Dmax dDmax : ℤ} {new : List (Call σ β)}
    {w w' : World σ β} {svTol : ℝ} {at' : Bool} {i : ℕ} {B : β} (hi : integ ≠ .other)
    (h : Inv S (EvolveCall S dt integ dynexp Dmax dDmax s0) L s0 new w) (hs : EvolveCount dt integ i new)
    (hd : direction S new s0 = some (B, none))
    (e : evolveStep S dt integ dynexp Dmax dDmax svTol at' B w = some w') :
    ∃ new', Inv S (EvolveCall S dt integ dynexp Dmax dDmax s0) L s0 new' w' ∧ EvolveCount dt integ (i + 1) new' ∧
      cbIdx new' = cbIdx new := by
  cases integ with
  | other => exact absurd rfl hi
  | euler =>
    simp only [evolveStep, Option.some.injEq] at e
    refine ⟨_, h.snoc (c := .euler (dt * Complex.I) B (dynexp && S.maxDLess Dmax w.s) Dmax dDmax svTol)
      ⟨hd, by rw [← h.2.1], rfl, rfl, fun _ => rfl, by simp⟩ e.symm, ⟨?_, fun _ => ?_, by simp⟩, by simp⟩
    · simp [hs.1]; ring
    · rw [stepTimes_append, hs.2.1 rfl, List.replicate_succ']; rfl
  | rk4 =>
    unfold evolveStep at e
    simp only at e
    split_ifs at e with hc hn
    · simp only [Option.some.injEq] at e
      have h1 := h.snoc (c := .euler ((dt : ℂ) ^ (5 / 2 : ℂ) * Complex.I) B dynexp Dmax dDmax svTol)
        ⟨hd, by rw [← h.2.1, hc]; simpa using (Bool.and_eq_true_iff.1 hc).1, rfl, rfl, by simp,
          fun _ => (Bool.and_eq_true_iff.1 hc).1⟩ rfl
      have h2 := h1.snoc (c := .update at' at' at') trivial rfl
      have h3 := h2.snoc (c := .rk4 ((dt - (dt : ℂ) ^ (5 / 2 : ℂ)) * Complex.I) none) ⟨rfl, by simp⟩ e.symm
      refine ⟨_, h3, ⟨?_, by simp, fun _ => ?_⟩, by simp⟩
      · simp only [stepTimes_append, List.sum_append, hs.1]
        simp; ring
      · simp only [rk4Count_append, hs.2.2 rfl]; rfl
    · simp only [Option.some.injEq] at e
      refine ⟨_, h.snoc (c := .rk4 (dt * Complex.I) (some B)) ⟨rfl, fun B' hB => ?_⟩ e.symm,
        ⟨?_, by simp, fun _ => ?_⟩, by simp⟩
      · cases hB; exact hd
      · simp only [stepTimes_append, List.sum_append, hs.1]
        simp; ring
      · simp only [rk4Count_append, hs.2.2 rfl]; rfl

theorem evolveLoop_inv {dt : ℝ} {integ : Integ} {dynexp : Bool} {Dmax dDmax : ℤ} {svTol : ℝ} {hasCb at' : Bool}
    (hi : integ ≠ .other) (m i : ℕ) {new : List (Call σ β)} {w w' : World σ β}
    (h : Inv S (EvolveCall S dt integ dynexp Dmax dDmax s0) L s0 new w) (hs : EvolveCount dt integ i new)
    (hc : cbIdx new = if hasCb = true then (List.range i).map (fun k : ℕ => (k : ℤ)) else [])
    (e : evolveLoop S dt integ dynexp Dmax dDmax svTol hasCb at' m i w = some w') :
    ∃ new', Inv S (EvolveCall S dt integ dynexp Dmax dDmax s0) L s0 new' w' ∧ EvolveCount dt integ (i + m) new' ∧
      (cbIdx new' = if hasCb = true then (List.range (i + m + 1)).map (fun k : ℕ => (k : ℤ)) else []) ∧
      ∃ B, direction S new' s0 = some (B, none) := by
  induction m generalizing i new w with
  | zero =>
    simp only [evolveLoop, Option.some.injEq] at e
    subst e
    obtain ⟨new', h1, h2, h3, h4⟩ := evolveBefore_inv hasCb at' i h hs
    refine ⟨new', h1, h2, ?_, _, h3⟩
    rw [h4, hc]
    cases hasCb <;> simp [List.range_succ]
  | succ m ih =>
    simp only [evolveLoop] at e
    obtain ⟨new1, h1, h2, h3, h4⟩ := evolveBefore_inv hasCb at' i h hs
    obtain ⟨w1, e1, e2⟩ := Option.bind_eq_some_iff.1 e
    obtain ⟨new2, g1, g2, g3⟩ := evolveStep_inv hi h1 h2 h3 e1
    have hc2 : cbIdx new2 = if hasCb = true then (List.range (i + 1)).map (fun k : ℕ => (k : ℤ)) else [] := by
      rw [g3, h4, hc]
      cases hasCb <;> simp [List.range_succ]
    have := ih (i + 1) g1 g2 hc2 e2
    rwa [show i + 1 + m = i + (m + 1) by omega] at this

theorem evolveLoop_isSome {dt : ℝ} {integ : Integ} {dynexp : Bool} {Dmax dDmax : ℤ} {svTol : ℝ} {hasCb at' : Bool}
    (h : S.normalizeKw = true ∨ integ ≠ .rk4 ∨ dynexp = false) (m i : ℕ) (w : World σ β) :
    (evolveLoop S dt integ dynexp Dmax dDmax svTol hasCb at' m i w).isSome := by
  induction m generalizing i w with
  | zero => rfl
  | succ m ih =>
    simp only [evolveLoop]
    have : ∀ B w, ∃ w', evolveStep S dt integ dynexp Dmax dDmax svTol at' B w = some w' := by
      intro B w
      unfold evolveStep
      rcases h with h | h | h
      · cases integ <;> simp only [h] <;> first | exact ⟨_, rfl⟩ | (split_ifs <;> exact ⟨_, rfl⟩)
      · cases integ <;> first | exact ⟨_, rfl⟩ | exact absurd rfl h
      · subst h
        cases integ <;> simp
    obtain ⟨w', e⟩ := this (S.calcB (S.update true true at' w.s)).1 (evolveBefore S hasCb at' i w)
    rw [e]
    exact ih _ _

theorem evolveLoop_other {dt : ℝ} {dynexp : Bool} {Dmax dDmax : ℤ} {svTol : ℝ} {hasCb at' : Bool}
    (m i : ℕ) {w w' : World σ β} (e : evolveLoop S dt .other dynexp Dmax dDmax svTol hasCb at' m i w = some w') :
    stepTimes w'.log = stepTimes w.log := by
  have hb : ∀ (i : ℕ) (w : World σ β), stepTimes (evolveBefore S hasCb at' i w).log = stepTimes w.log := by
    intro i w
    cases hasCb <;> simp [evolveBefore, World.cb, World.update, World.calcB]
  induction m generalizing i w with
  | zero =>
    simp only [evolveLoop, Option.some.injEq] at e
    rw [← e, hb]
  | succ m ih =>
    simp only [evolveLoop, evolveStep, Option.bind_some] at e
    rw [ih _ e, hb]
end

/-! ## Automatic step size -/

theorem autostep_range (dtau base eta dh dhPred : ℝ) (hb : 0 < base) (h1 : base / 100 ≤ dtau) (h2 : dtau ≤ 2 * base) :
    base / 100 ≤ (autostep dtau base eta dh dhPred).1 ∧ (autostep dtau base eta dh dhPred).1 ≤ 2 * base := by
  unfold autostep
  simp only
  generalize (if |dh| < 5 / 10 ^ 13 then 0 else dhPred / dh) = fac
  have hd : 0 < dtau := by linarith
  split_ifs with c1 c2 c3 c4 c5 c6
  · exact ⟨le_max_of_le_right (by linarith), max_le (by linarith) (by linarith)⟩
  · exact ⟨le_min (by linarith) (by linarith), min_le_of_right_le (by linarith)⟩
  · exact ⟨h1, h2⟩
  · constructor <;> linarith
  · have hf : 0 ≤ fac := not_lt.1 c4
    rw [abs_of_nonneg hf] at c5
    refine ⟨le_max_of_le_right (by linarith), max_le ?_ (by linarith)⟩
    nlinarith
  · have := Real.sqrt_nonneg (2 - fac)
    exact ⟨le_min (by nlinarith) (by linarith), min_le_of_right_le (by linarith)⟩
  · exact ⟨h1, h2⟩

/-! ## `opt_im_time` -/

/-- The waiting counter as a function of the expansions made, latest first. -/
def waiting (W : ℤ) : List Bool → ℤ
  | [] => 0
  | true :: _ => W
  | false :: ex => max (waiting W ex - 1) 0

theorem waiting_nonneg (W : ℤ) (hW : 0 ≤ W) (ex : List Bool) : 0 ≤ waiting W ex := by
  cases ex with
  | nil => exact le_refl _
  | cons b ex => cases b <;> simp [waiting, hW]

theorem waiting_le (W : ℤ) (ex : List Bool) (n : ℤ) (hn : 0 ≤ n) :
    waiting W ex ≤ n ↔ ∀ k : ℕ, (k : ℤ) + n < W → ex[k]? ≠ some true := by
  induction ex generalizing n with
  | nil => simp [waiting, hn]
  | cons b ex ih =>
    cases b
    · simp only [waiting]
      rw [max_le_iff, sub_le_iff_le_add, ih (n + 1) (by omega)]
      constructor
      · rintro ⟨h, -⟩ k hk
        cases k with
        | zero => simp
        | succ k => simpa using h k (by push_cast at hk; omega)
      · intro h
        refine ⟨fun k hk => ?_, hn⟩
        simpa using h (k + 1) (by push_cast; omega)
    · simp only [waiting]
      constructor
      · intro h k hk
        omega
      · intro h
        by_contra hlt
        exact h 0 (by push_cast; omega) (by simp)

theorem waiting_zero (W : ℤ) (hW : 0 ≤ W) (ex : List Bool) :
    waiting W ex = 0 ↔ ∀ k : ℕ, (k : ℤ) < W → ex[k]? ≠ some true := by
  have h := waiting_le W ex 0 (le_refl _)
  simp only [add_zero] at h
  rw [← h]
  exact ⟨fun e => e.le, fun e => le_antisymm e (waiting_nonneg W hW ex)⟩

section
variable {S : Sys σ β} {a : ImArgs} {L : List (Call σ β)} {s0 : σ}

theorem imBefore_inv {new : List (Call σ β)} {st : ImState σ β} (i : ℕ)
    (h : Inv S (ImCall S a s0) L s0 new st.w) (hn : (stepTimes new).length = i)
    (ht : (stepTimes new).sum = (st.tau : ℂ)) :
    ∃ new', Inv S (ImCall S a s0) L s0 new' (imBefore S a i st) ∧ stepTimes new' = stepTimes new ∧
      expansions new' = expansions new ∧
      direction S new' s0 = some ((S.calcB (S.update true true a.autoTrunc st.w.s)).1, none) ∧
      cbIdx new' = cbIdx new ++ if a.hasCb = true then [a.j + (i : ℤ)] else [] := by
  have h1 := h.snoc (c := .update true true a.autoTrunc) ⟨rfl, rfl, rfl⟩
    (w' := st.w.update S true true a.autoTrunc) rfl
  have h2 := h1.snoc (c := .calcB) trivial (w' := (st.w.update S true true a.autoTrunc).calcB S) rfl
  have hd : direction S (new ++ [.update true true a.autoTrunc] ++ [.calcB]) s0 =
      some ((S.calcB (S.update true true a.autoTrunc st.w.s)).1, none) := by
    rw [direction_snoc]
    simp only
    rw [replay_snoc, ← h.2.1]
    rfl
  have hst : stepTimes (new ++ [.update true true a.autoTrunc] ++ [.calcB]) = stepTimes new := by simp
  refine ⟨_, h2.cb a.hasCb (a.j + i) st.tau ⟨h2.2.1, ?_, ?_, _, hd⟩, ?_, ?_, ?_, ?_⟩
  · rw [hst, hn]
  · rw [hst, ht]
  · rw [stepTimes_append, hst, stepTimes_cbList, List.append_nil]
  · rw [expansions_append, expansions_cbList]
    simp
  · rw [direction_cbList, hd]
  · rw [cbIdx_append, cbIdx_cbList]
    simp

theorem imLoop_inv (hW : 0 ≤ a.expandWait) (m i : ℕ) {new : List (Call σ β)} {st : ImState σ β} {i' : ℕ}
    {st' : ImState σ β} (h : Inv S (ImCall S a s0) L s0 new st.w) (hn : (stepTimes new).length = i)
    (ht : (stepTimes new).sum = (st.tau : ℂ))
    (hw : st.wait = waiting a.expandWait (expansions new).reverse)
    (hc : cbIdx new = if a.hasCb = true then (List.range i).map (fun k : ℕ => a.j + (k : ℤ)) else [])
    (e : imLoop S a m i st = some (i', st')) :
    ∃ new', Inv S (ImCall S a s0) L s0 new' st'.w ∧ (stepTimes new').length = i' ∧
      (stepTimes new').sum = (st'.tau : ℂ) ∧
      (cbIdx new' = if a.hasCb = true then (List.range (i' + 1)).map (fun k : ℕ => a.j + (k : ℤ)) else []) ∧
      i' ≤ i + m ∧ (i' < i + m → Stop S a (expansions new') st'.w.s) := by
  induction m generalizing i new st with
  | zero =>
    simp only [imLoop, Option.some.injEq, Prod.mk.injEq] at e
    obtain ⟨rfl, rfl⟩ := e
    obtain ⟨new', h1, h2, h3, h4, h5⟩ := imBefore_inv i h hn ht
    refine ⟨new', h1, by rw [h2, hn], by rw [h2, ht], ?_, le_refl _, fun hlt => absurd hlt (lt_irrefl _)⟩
    rw [h5, hc]
    cases a.hasCb <;> simp [List.range_succ]
  | succ m ih =>
    obtain ⟨new', h1, h2, h3, h4, h5⟩ := imBefore_inv i h hn ht
    have hc1 : cbIdx new' = if a.hasCb = true then (List.range (i + 1)).map (fun k : ℕ => a.j + (k : ℤ)) else [] := by
      rw [h5, hc]
      cases a.hasCb <;> simp [List.range_succ]
    have hstop : Stop S a (expansions new') (imBefore S a i st).s ↔ imDone S a st.wait (imBefore S a i st).s := by
      unfold Stop imDone
      rw [h3, hw, waiting_zero _ hW]
    simp only [imLoop] at e
    split_ifs at e with hsc hdone
    · simp only [Option.some.injEq, Prod.mk.injEq] at e
      obtain ⟨rfl, rfl⟩ := e
      exact ⟨new', h1, by rw [h2, hn], by rw [h2, ht], hc1, by omega, fun _ => hstop.2 hdone⟩
    · have hwz : st.wait = 0 ↔ ∀ k : ℕ, (k : ℤ) < a.expandWait → (expansions new').reverse[k]? ≠ some true := by
        rw [h3, hw, waiting_zero _ hW]
      set B := (S.calcB (S.update true true a.autoTrunc st.w.s)).1 with hB
      set w := imBefore S a i st with hwdef
      set dyn : Bool := @decide (S.D w.s < a.expandTo ∧ S.eta w.s < a.expandTol ∧ st.wait = 0) (Classical.dec _)
        with hdyn
      obtain ⟨p, hp⟩ : ∃ p : ℝ × ℝ, p = if a.autoDtau = true then
          autostep st.dtau a.base (S.eta w.s) (st.h - S.h w.s) st.dhPred else (st.dtau, st.dhPred) := ⟨_, rfl⟩
      have hdyn' : dyn = true ↔ S.D (replay S new' s0) < a.expandTo ∧ S.eta (replay S new' s0) < a.expandTol ∧
          ∀ k : ℕ, (k : ℤ) < a.expandWait → (expansions new').reverse[k]? ≠ some true := by
        rw [hdyn, @decide_eq_true_iff _ (Classical.dec _), hwz, ← h1.2.1]
      have hafter : imAfter S a B st w = ⟨w.euler S p.1 B dyn a.expandTo a.expandStep (1 / 10 ^ 14), p.1,
          st.tau + p.1, S.h w.s, p.2, if dyn = true then a.expandWait else max (st.wait - 1) 0⟩ := by
        rw [hp]; rfl
      rw [hafter] at e
      have g1 := h1.snoc (c := .euler (p.1 : ℂ) B dyn a.expandTo a.expandStep (1 / 10 ^ 14))
        ⟨h4, rfl, rfl, by rw [← h1.2.1]; exact fun hs => hdone (hstop.1 hs), hdyn'⟩
        (w' := w.euler S p.1 B dyn a.expandTo a.expandStep (1 / 10 ^ 14)) rfl
      have := ih (i + 1) (new := new' ++ [.euler (p.1 : ℂ) B dyn a.expandTo a.expandStep (1 / 10 ^ 14)])
        (st := ⟨w.euler S p.1 B dyn a.expandTo a.expandStep (1 / 10 ^ 14), p.1,
          st.tau + p.1, S.h w.s, p.2, if dyn = true then a.expandWait else max (st.wait - 1) 0⟩) g1
        (by rw [stepTimes_append, h2, List.length_append, hn]; rfl)
        (by rw [stepTimes_append, h2, List.sum_append, ht]; simp)
        (by
          rw [expansions_append, h3, List.reverse_append]
          show _ = waiting a.expandWait ([dyn] ++ (expansions new).reverse)
          cases hd : dyn
          · simp only [Bool.false_eq_true, if_false, List.singleton_append, waiting, hw]
          · simp [waiting])
        (by rw [cbIdx_append, hc1]; simp) e
      rwa [show i + 1 + m = i + (m + 1) by omega] at this

/-- The step sizes of a run with automatic adjustment. -/
theorem imLoop_range (hb : 0 < a.base) (m i : ℕ) {st : ImState σ β} {i' : ℕ} {st' : ImState σ β}
    (hr : a.base / 100 ≤ st.dtau ∧ st.dtau ≤ 2 * a.base) {new : List (Call σ β)}
    (hl : st.w.log = L ++ new)
    (hn : ∀ z ∈ stepTimes new, ∃ x : ℝ, z = x ∧ a.base / 100 ≤ x ∧ x ≤ 2 * a.base)
    (e : imLoop S a m i st = some (i', st')) :
    (a.base / 100 ≤ st'.dtau ∧ st'.dtau ≤ 2 * a.base) ∧ ∃ new', st'.w.log = L ++ new' ∧
      ∀ z ∈ stepTimes new', ∃ x : ℝ, z = x ∧ a.base / 100 ≤ x ∧ x ≤ 2 * a.base := by
  have hbef : ∀ (i : ℕ) (st : ImState σ β), ∃ c, (imBefore S a i st).log = st.w.log ++ c ∧ stepTimes c = [] := by
    intro i st
    refine ⟨[.update true true a.autoTrunc] ++ [.calcB] ++
      cbList a.hasCb (a.j + i) st.tau (S.calcB (S.update true true a.autoTrunc st.w.s)).2, ?_, ?_⟩
    · unfold imBefore World.cb cbList
      cases a.hasCb <;> simp [World.update, World.calcB]
    · simp
  induction m generalizing i new st with
  | zero =>
    simp only [imLoop, Option.some.injEq, Prod.mk.injEq] at e
    obtain ⟨rfl, rfl⟩ := e
    obtain ⟨c, h1, h2⟩ := hbef i st
    refine ⟨hr, new ++ c, ?_, ?_⟩
    · show (imBefore S a i st).log = _
      rw [h1, hl, List.append_assoc]
    · rw [stepTimes_append, h2, List.append_nil]; exact hn
  | succ m ih =>
    obtain ⟨c, h1, h2⟩ := hbef i st
    simp only [imLoop] at e
    split_ifs at e with hsc hdone
    · simp only [Option.some.injEq, Prod.mk.injEq] at e
      obtain ⟨rfl, rfl⟩ := e
      refine ⟨hr, new ++ c, ?_, ?_⟩
      · show (imBefore S a i st).log = _
        rw [h1, hl, List.append_assoc]
      · rw [stepTimes_append, h2, List.append_nil]; exact hn
    · have hr' : a.base / 100 ≤ (imAfter S a (S.calcB (S.update true true a.autoTrunc st.w.s)).1 st
          (imBefore S a i st)).dtau ∧ (imAfter S a (S.calcB (S.update true true a.autoTrunc st.w.s)).1 st
          (imBefore S a i st)).dtau ≤ 2 * a.base := by
        unfold imAfter
        simp only
        by_cases hat : a.autoDtau = true
        · simp only [hat, if_true]
          exact autostep_range _ _ _ _ _ hb hr.1 hr.2
        · simp only [hat]
          exact hr
      refine ih (i + 1) hr' (new := new ++ c ++ [.euler
        ((imAfter S a (S.calcB (S.update true true a.autoTrunc st.w.s)).1 st (imBefore S a i st)).dtau : ℂ)
        (S.calcB (S.update true true a.autoTrunc st.w.s)).1
        (@decide (S.D (imBefore S a i st).s < a.expandTo ∧ S.eta (imBefore S a i st).s < a.expandTol ∧ st.wait = 0)
          (Classical.dec _)) a.expandTo a.expandStep (1 / 10 ^ 14)]) ?_ ?_ e
      · show (imBefore S a i st).log ++ _ = _
        rw [h1, hl]
        simp only [List.append_assoc]
        rfl
      · intro z hz
        rw [stepTimes_append, stepTimes_append, h2, List.append_nil, List.mem_append] at hz
        rcases hz with hz | hz
        · exact hn z hz
        · have : z = ((imAfter S a (S.calcB (S.update true true a.autoTrunc st.w.s)).1 st
              (imBefore S a i st)).dtau : ℂ) := by simpa using hz
          exact ⟨_, this, hr'⟩

theorem imLoop_isSome (h : S.scalarD = true) (m i : ℕ) (st : ImState σ β) : (imLoop S a m i st).isSome := by
  induction m generalizing i st with
  | zero => rfl
  | succ m ih =>
    simp only [imLoop, h, if_true]
    split_ifs
    · rfl
    · exact ih _ _
end

theorem optImTime_run {S : Sys σ β} {a : ImArgs} (hW : 0 ≤ a.expandWait) {dtau0 : ℝ} {maxItr : ℤ} {w w' : World σ β}
    {cnt : ℤ} {tau dtau : ℝ} (e : optImTime S a dtau0 maxItr w = some (w', cnt, tau, dtau)) :
    ∃ new, w'.log = w.log ++ new ∧ ImRun S a maxItr w.s new w'.s cnt tau := by
  unfold optImTime at e
  split_ifs at e with h0
  · obtain ⟨⟨i', st'⟩, e1, e2⟩ := Option.map_eq_some_iff.1 e
    simp only [Prod.mk.injEq] at e2
    obtain ⟨rfl, rfl, rfl, rfl⟩ := e2
    obtain ⟨new, h1, h2, h3, h4, h5, h6⟩ := imLoop_inv hW maxItr.toNat 0
      (st := ⟨w, dtau0, 0, 0, 0, 0⟩) (inv_nil S (ImCall S a w.s) w) rfl (by simp)
      (by simp [waiting]) (by simp) e1
    have hcnt : ((i' : ℤ) + 1).toNat = i' + 1 := by omega
    refine ⟨new, h1.1, ⟨h1.2.1, h1.2.2, by rw [hcnt]; exact h4, by rw [hcnt]; omega, h3, ?_, ?_, fun _ hlt => h6 ?_⟩⟩
    · rw [max_eq_left (by omega)]; omega
    · rw [if_pos h0]; omega
    · omega
  · simp only [Option.some.injEq, Prod.mk.injEq] at e
    obtain ⟨rfl, rfl, rfl, rfl⟩ := e
    refine ⟨[], by simp, ⟨rfl, allCalls_nil _, by simp, by simp, by simp, by simp, ?_,
      fun h => absurd h h0⟩⟩
    rw [if_neg h0]

/-! ## `opt_conj_grad` -/

section
variable {S : Sys σ β} {a : CgArgs} {L : List (Call σ β)} {s0 : σ} {maxItr : ℤ}

theorem cgLoop_inv (m i : ℕ) (hm : (i : ℤ) + m = maxItr) {new : List (Call σ β)} {st : CgState σ β} {i' : ℕ}
    {st' : CgState σ β} (h : Inv S (CgCall S a maxItr s0) L s0 new st.w) (hn : (stepTimes new).length = i)
    (hc : cbIdx new = if a.hasCb = true then (List.range i).map (fun k : ℕ => a.j + (k : ℤ)) else [])
    (e : cgLoop S a m i st = some (i', st')) :
    ∃ new', Inv S (CgCall S a maxItr s0) L s0 new' st'.w ∧ (stepTimes new').length = i' ∧
      (cbIdx new' = if a.hasCb = true then (List.range (i' + 1)).map (fun k : ℕ => a.j + (k : ℤ)) else []) ∧
      i' ≤ i + m ∧ (i' < i + m → S.eta st'.w.s < a.tol) := by
  induction m generalizing i new st with
  | zero =>
    simp only [cgLoop, Option.some.injEq, Prod.mk.injEq] at e
    obtain ⟨rfl, rfl⟩ := e
    have hi : ((stepTimes new).length : ℤ) = maxItr := by rw [hn]; simpa using hm
    have h1 := h.snoc (c := .update true true false) ⟨by simp [hi], rfl, rfl⟩
      (w' := st.w.update S true true false) rfl
    have hst : ∀ c : Call σ β, stepTimes [c] = [] → stepTimes (new ++ [c]) = stepTimes new := by
      intro c hc; rw [stepTimes_append, hc, List.append_nil]
    have h2 := h1.snoc (c := .calcB) (by show (_ : ℤ) = _; rw [hst _ rfl, hi])
      (w' := (st.w.update S true true false).calcB S) rfl
    have hst2 : stepTimes (new ++ [.update true true false] ++ [.calcB]) = stepTimes new := by simp
    refine ⟨_, h2.cb a.hasCb (a.j + i) st.h ⟨h2.2.1, by rw [hst2, hn], ?_⟩, ?_, ?_, le_refl _,
      fun hlt => absurd hlt (lt_irrefl _)⟩
    · rw [hst2, if_pos hi, direction_snoc]
      exact ⟨_, rfl⟩
    · rw [stepTimes_append, hst2, stepTimes_cbList, List.append_nil, hn]
    · rw [cbIdx_append, cbIdx_cbList]
      have : cbIdx (new ++ [.update true true false] ++ [.calcB]) = cbIdx new := by simp
      rw [this, hc]
      cases a.hasCb <;> simp [List.range_succ]
  | succ m ih =>
    simp only [cgLoop] at e
    have hi : ((stepTimes new).length : ℤ) < maxItr := by rw [hn]; push_cast at hm; omega
    set rs : Bool := decide (i % a.resetEvery = 0) with hrs
    have hrs' : rs = true ↔ a.resetEvery ∣ (stepTimes new).length := by
      rw [hrs, hn, decide_eq_true_iff, Nat.dvd_iff_mod_eq_zero]
    have h1 := h.snoc (c := .update rs true false)
      ⟨by rw [hrs']; exact ⟨Or.inl, fun h => h.resolve_right hi.ne⟩, rfl, rfl⟩
      (w' := st.w.update S rs true false) rfl
    have hst1 : stepTimes (new ++ [.update rs true false]) = stepTimes new := by simp
    have h2 := h1.snoc (c := .calcBCG st.bCG st.bGrad st.dot st.h a.hInit rs)
      ⟨by rw [hst1]; exact hi, rfl, by rw [hst1]; exact hrs'⟩ rfl
    set l2 : List (Call σ β) := new ++ [.update rs true false] ++ [.calcBCG st.bCG st.bGrad st.dot st.h a.hInit rs]
      with hl2
    have hst2 : stepTimes l2 = stepTimes new := by simp [hl2]
    have hd : direction S l2 s0 = some ((cgBefore S a i st).1, some (cgBefore S a i st).2.h) := by
      rw [hl2, direction_snoc]
      simp only
      rw [← h1.2.1]
      rfl
    have h3 := h2.cb a.hasCb (a.j + i) (cgBefore S a i st).2.h
      ⟨h2.2.1, by rw [hst2, hn], by rw [hst2, if_neg hi.ne]; exact ⟨_, hd⟩⟩
    obtain ⟨l3, hl3⟩ : ∃ l3, l3 = l2 ++ cbList a.hasCb (a.j + i) (cgBefore S a i st).2.h
      (S.calcBCG st.bCG st.bGrad st.dot st.h a.hInit rs (S.update rs true false st.w.s)).2 := ⟨_, rfl⟩
    have h4 : Inv S (CgCall S a maxItr s0) L s0 l3 (cgBefore S a i st).2.w := by rw [hl3]; exact h3
    have hd3 : direction S l3 s0 = some ((cgBefore S a i st).1, some (cgBefore S a i st).2.h) := by
      rw [hl3, direction_cbList, hd]
    have hst3 : stepTimes l3 = stepTimes new := by rw [hl3, stepTimes_append, hst2, stepTimes_cbList, List.append_nil]
    have hc3 : cbIdx l3 = if a.hasCb = true then (List.range (i + 1)).map (fun k : ℕ => a.j + (k : ℤ)) else [] := by
      rw [hl3, cbIdx_append, cbIdx_cbList]
      have : cbIdx l2 = cbIdx new := by simp [hl2]
      rw [this, hc]
      cases a.hasCb <;> simp [List.range_succ]
    split_ifs at e with hcg heta
    · simp only [Option.some.injEq, Prod.mk.injEq] at e
      obtain ⟨rfl, rfl⟩ := e
      exact ⟨l3, h4, by rw [hst3, hn], hc3, by omega, fun _ => heta⟩
    · have g1 := h4.snoc (c := .euler ((cgBefore S a i st).2.h : ℂ) (cgBefore S a i st).1 false 0 0 (1 / 10 ^ 14))
        ⟨⟨_, hd3, rfl⟩, rfl, by rw [← h4.2.1]; exact heta⟩
        (w' := (cgAfter S a i (cgBefore S a i st).1 (cgBefore S a i st).2).w) rfl
      have := ih (i + 1) (by push_cast at hm ⊢; omega) g1
        (by rw [stepTimes_append, hst3, List.length_append, hn]; rfl)
        (by rw [cbIdx_append, hc3]; simp) e
      rwa [show i + 1 + m = i + (m + 1) by omega] at this

theorem cgLoop_isSome (h : S.cgCall = true) (m i : ℕ) (st : CgState σ β) : (cgLoop S a m i st).isSome := by
  induction m generalizing i st with
  | zero => rfl
  | succ m ih =>
    simp only [cgLoop, h, if_true]
    split_ifs
    · rfl
    · exact ih _ _
end

theorem optConjGrad_run {S : Sys σ β} {a : CgArgs} {h0prev : Option ℝ} {maxItr : ℤ} {w w' : World σ β} {cnt : ℤ}
    {h0 : ℝ} (e : optConjGrad S a h0prev maxItr w = some (w', cnt, h0)) :
    ∃ new, w'.log = w.log ++ new ∧ CgRun S a maxItr w.s new w'.s cnt := by
  unfold optConjGrad at e
  simp only at e
  split_ifs at e with hm hr
  · obtain ⟨⟨i', st'⟩, e1, e2⟩ := Option.map_eq_some_iff.1 e
    simp only [Prod.mk.injEq] at e2
    obtain ⟨rfl, rfl, rfl⟩ := e2
    obtain ⟨new, h1, h2, h3, h4, h5⟩ := cgLoop_inv (S := S) (a := a) (L := w.log) (s0 := w.s) (maxItr := maxItr)
      maxItr.toNat 0 (by push_cast; omega) (new := []) (inv_nil S (CgCall S a maxItr w.s) w) rfl
      (by simp) e1
    have hcnt : ((i' : ℤ) + 1).toNat = i' + 1 := by omega
    refine ⟨new, h1.1, ⟨h1.2.1, h1.2.2, by rw [hcnt]; exact h3, by rw [hcnt]; omega, ?_, ?_, fun _ hlt => h5 ?_⟩⟩
    · rw [max_eq_left (by omega)]; omega
    · rw [if_pos hm]; omega
    · omega
  · simp only [Option.some.injEq, Prod.mk.injEq] at e
    obtain ⟨rfl, rfl, rfl⟩ := e
    refine ⟨[], by simp, ⟨rfl, allCalls_nil _, by simp, by simp, by simp, ?_,
      fun h => absurd h hm⟩⟩
    rw [if_neg hm]

end EvoMPS.Dyn
