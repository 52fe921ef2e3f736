import Mathlib.Tactic.Linarith
import Mathlib.Tactic.Ring
import Mathlib.Tactic.NormNum
import Mathlib.Tactic.Positivity
import Verif.UniformSearch

/-!
# Lemmas about the line search of the uniform chain
-/

namespace EvoMPS.USearch

variable {σ M α β : Type}

/-! ### Specification -/

/-- Where an entry of the lists after the first comes from: a step backwards repeats the first entry, any other one is what the evaluation of the
trial point gave. -/
def Justified (ev : Eval σ M) (r0 r : Rec M) : Prop :=
  (r.tau < 0 ∧ r = { r0 with tau := r.tau, w := false }) ∨
  (0 ≤ r.tau ∧ ∃ S K T, ev S r.tau K = .ok T ∧ r.h = T.h ∧ r.g = T.g ∧ r.lL = T.lL ∧ r.rL = T.rL ∧ r.K0 = T.K0 ∧
    r.w = wolfe r0 T.g T.h r.tau false)

/-- The lists of a search started at `r0`. -/
def Inv (ev : Eval σ M) (r0 : Rec M) (X : Search σ M) : Prop :=
  ∃ rest, X.hist = r0 :: rest ∧ ∀ r ∈ rest, Justified ev r0 r

/-- The stored point with step `t` is known and satisfies the Wolfe conditions. -/
def Sat (r0 : Rec M) (X : Search σ M) (t : ℝ) : Prop :=
  ∃ i r, index X.hist t = some i ∧ X.hist[i]? = some r ∧ r.tau = t ∧ wolfe r0 r.g r.h t false = true

theorem index_some {hist : List (Rec M)} {t : ℝ} {i : ℕ} (h : index hist t = some i) : ∃ r, hist[i]? = some r ∧ r.tau = t := by
  classical
  unfold index at h
  obtain ⟨hi, hp, -⟩ := List.findIdx?_eq_some_iff_getElem.1 h
  exact ⟨hist[i], by simp [hi], by simpa using hp⟩

theorem index_none {hist : List (Rec M)} {t : ℝ} (h : index hist t = none) : ∀ r ∈ hist, r.tau ≠ t := by
  classical
  unfold index at h
  intro r hr
  simpa using List.findIdx?_eq_none_iff.1 h r hr

theorem index_isSome {hist : List (Rec M)} {t : ℝ} (h : ∃ r ∈ hist, r.tau = t) : ∃ i, index hist t = some i := by
  cases e : index hist t with
  | some i => exact ⟨i, rfl⟩
  | none => obtain ⟨r, hr, ht⟩ := h; exact absurd ht (index_none e r hr)

theorem index_append {hist : List (Rec M)} {t : ℝ} (h : index hist t = none) (r : Rec M) (hr : r.tau = t) :
    index (hist ++ [r]) t = some hist.length := by
  classical
  unfold index at h ⊢
  rw [List.findIdx?_append, h]
  simp [hr]

/-- A property of a function of the object: it keeps `I` and the flag, and is left early only in a search, at a satisfying point. -/
def Good (ev : Eval σ M) (r0 : Rec M) (b : Bool) (p : Prog σ M α) : Prop :=
  ∀ X Y a, Inv ev r0 X → X.inSearch = b → p X = .ok (Y, a) →
    Inv ev r0 Y ∧ Y.inSearch = b ∧ ∀ t, a = .inr t → b = true ∧ Sat r0 Y t

variable {ev : Eval σ M} {r0 : Rec M} {b : Bool}

theorem good_ret (a : α) : Good ev r0 b (Prog.ret a) := by
  intro X Y c hX hb h
  cases h
  exact ⟨hX, hb, fun t ht => nomatch ht⟩

theorem good_error (e : Raised) : Good ev r0 b (fun _ => .error e : Prog σ M α) := fun _ _ _ _ _ h => nomatch h

theorem good_bind {p : Prog σ M α} {k : α → Prog σ M β} (hp : Good ev r0 b p) (hk : ∀ a, Good ev r0 b (k a)) :
    Good ev r0 b (Prog.bind p k) := by
  intro X Y c hX hb h
  unfold Prog.bind at h
  split at h
  · cases h
  · rename_i Z t hz
    obtain ⟨h1, h2, h3⟩ := hp X Z _ hX hb hz
    cases h
    refine ⟨h1, h2, fun s hs => ?_⟩
    cases hs
    exact h3 _ rfl
  · rename_i Z a hz
    obtain ⟨h1, h2, -⟩ := hp X Z _ hX hb hz
    exact hk a Z Y c h1 h2 h

theorem inv_append {X : Search σ M} (hX : Inv ev r0 X) {r : Rec M} (hr : Justified ev r0 r) (S : σ) (c : Bool) :
    Inv ev r0 ⟨S, X.hist ++ [r], c⟩ := by
  obtain ⟨rest, e, h⟩ := hX
  refine ⟨rest ++ [r], by simp [e], fun x hx => ?_⟩
  rcases List.mem_append.1 hx with hx | hx
  · exact h x hx
  · obtain rfl := List.mem_singleton.1 hx
    exact hr

/-- What `f` does. -/
theorem f_cases (tau : ℝ) {X : Search σ M} (hX : Inv ev r0 X) {Y : Search σ M} {a : ℝ ⊕ ℝ} (h : f ev tau X = .ok (Y, a)) :
    (tau < 0 ∧ Y = { X with hist := X.hist ++ [{ r0 with tau := tau, w := false }] } ∧ a = .inl (tau ^ 2 + r0.g.re)) ∨
    (0 ≤ tau ∧ ∃ i r, index X.hist tau = some i ∧ X.hist[i]? = some r ∧ Y = X ∧ a = .inl r.g.re) ∨
    (0 ≤ tau ∧ index X.hist tau = none ∧ ∃ K T, ev X.S tau K = .ok T ∧
      Y = { X with S := T.S, hist := X.hist ++ [⟨tau, T.h, T.g, T.lL, T.rL, T.K0, wolfe r0 T.g T.h tau false⟩] } ∧
      (a = .inl T.g.re ∨ (a = .inr tau ∧ X.inSearch = true ∧ wolfe r0 T.g T.h tau false = true))) := by
  classical
  obtain ⟨rest, e, -⟩ := hX
  unfold f at h
  rw [e] at h
  simp only [] at h
  split at h
  · rename_i ht
    cases h
    exact .inl ⟨ht, by simp [e], rfl⟩
  · rename_i ht
    split at h
    · rename_i i hi
      obtain ⟨r, hr, -⟩ := index_some hi
      cases h
      exact .inr (.inl ⟨not_lt.1 ht, i, r, by rw [e]; exact hi, by rw [e]; exact hr, rfl, by rw [hr]; rfl⟩)
    · rename_i hi
      split at h
      · cases h
      · rename_i T hT
        refine .inr (.inr ⟨not_lt.1 ht, by rw [e]; exact hi, _, T, hT, ?_⟩)
        split at h
        · rename_i hw
          cases h
          rw [Bool.and_eq_true] at hw
          exact ⟨by simp [e], .inr ⟨rfl, hw.2, hw.1⟩⟩
        · cases h
          exact ⟨by simp [e], .inl rfl⟩

theorem good_f (tau : ℝ) : Good ev r0 b (f ev tau) := by
  intro X Y a hX hb h
  rcases f_cases tau hX h with ⟨ht, rfl, rfl⟩ | ⟨ht, i, r, -, -, rfl, rfl⟩ | ⟨ht, hi, K, T, hT, rfl, ha⟩
  · exact ⟨inv_append hX (.inl ⟨ht, rfl⟩) _ _, hb, fun t h => nomatch h⟩
  · exact ⟨hX, hb, fun t h => nomatch h⟩
  · refine ⟨inv_append hX (.inr ⟨ht, X.S, K, T, hT, rfl, rfl, rfl, rfl, rfl, rfl⟩) _ _, hb, fun t h => ?_⟩
    rcases ha with ha | ⟨ha, hs, hw⟩
    · rw [ha] at h; cases h
    · rw [ha] at h
      cases h
      exact ⟨hb.symm.trans hs, X.hist.length, ⟨tau, T.h, T.g, T.lL, T.rL, T.K0, wolfe r0 T.g T.h tau false⟩, index_append hi _ rfl, by simp,
        rfl, hw⟩

/-- After `f(tau)` the point is stored. -/
theorem f_stored (tau : ℝ) {X Y : Search σ M} {a : ℝ ⊕ ℝ} (hX : Inv ev r0 X) (h : f ev tau X = .ok (Y, a)) :
    (∃ r ∈ Y.hist, r.tau = tau) ∧ ∀ r ∈ X.hist, r ∈ Y.hist := by
  rcases f_cases tau hX h with ⟨ht, rfl, rfl⟩ | ⟨ht, i, r, hi, -, rfl, rfl⟩ | ⟨ht, hi, K, T, hT, rfl, ha⟩
  · exact ⟨⟨_, List.mem_append_right _ (List.mem_singleton_self _), rfl⟩, fun r hr => List.mem_append_left _ hr⟩
  · obtain ⟨r, hr, ht⟩ := index_some hi
    exact ⟨⟨r, List.mem_of_getElem? hr, ht⟩, fun r hr => hr⟩
  · exact ⟨⟨_, List.mem_append_right _ (List.mem_singleton_self _), rfl⟩, fun r hr => List.mem_append_left _ hr⟩

theorem inv_clear {X : Search σ M} (hX : Inv ev r0 X) : Inv ev r0 (clearHist X) := by
  obtain ⟨rest, e, -⟩ := hX
  exact ⟨[], by simp [clearHist, e], by simp⟩

theorem good_extrapLoop (ex : Extrap) (dtau g0 : ℝ) (n : ℕ) : ∀ tp t1 g1, Good ev r0 b (extrapLoop ev ex dtau g0 n tp t1 g1) := by
  induction n with
  | zero => intro tp t1 g1; exact good_ret _
  | succ n ih =>
    intro tp t1 g1 X Y a hX hb h
    unfold extrapLoop at h
    split at h
    · split at h
      · cases h
      · exact good_bind (good_f _) (fun g2 => ih _ _ _) X Y a hX hb h
    · cases h
      exact ⟨hX, hb, fun t h => nomatch h⟩

theorem good_bracketExtrap (ex : Extrap) (dtau : ℝ) : Good ev r0 b (bracketExtrap ev ex dtau) :=
  good_bind (good_f _) fun _ => good_extrapLoop _ _ _ _ _ _ _

theorem good_bracketLoop (ex : Extrap) (tau : ℝ) (n : ℕ) : ∀ i, Good ev r0 b (bracketLoop ev ex tau n i) := by
  induction n with
  | zero => intro i; exact good_ret _
  | succ n ih =>
    intro i
    unfold bracketLoop
    refine good_bind (good_bracketExtrap _ _) fun c => ?_
    cases c with
    | some c => exact good_ret _
    | none => exact fun X Y a hX hb h => ih (i + 1) (clearHist X) Y a (inv_clear hX) hb h

theorem good_run (F : Finder) : Good ev r0 b (F.run ev) := by
  induction F with
  | ret t => exact good_ret _
  | valueError => exact good_ret _
  | runtimeError => exact good_error _
  | ask t next ih => exact good_bind (good_f _) ih

theorem negC_false {g : ℂ} : negC g = false ↔ ¬(g.re < 0 ∨ (g.re = 0 ∧ g.im < 0)) := by
  unfold negC; simp

/-- The end of the loop of `sane_first_step`. -/
theorem saneLoop_spec (n : ℕ) : ∀ (tau h : ℝ) (g : ℂ) (ind : Option ℕ) (X Y : Search σ M) (a : Option ℕ ⊕ ℝ),
    Inv ev r0 X → X.inSearch = false → saneLoop ev r0.h n tau h g ind X = .ok (Y, a) →
      Inv ev r0 Y ∧ Y.inSearch = false ∧
      ((a = .inl ind ∧ Y = X ∧ (n = 0 ∨ ¬(negC g = true ∧ h - r0.h > 1 / 10 ^ 13))) ∨
       ∃ (j : ℕ) (i : ℕ) (r : Rec M), j < n ∧ a = .inl (some i) ∧ index Y.hist (tau / 2 ^ j) = some i ∧ Y.hist[i]? = some r ∧
        r.tau = tau / 2 ^ j ∧
        (j + 1 = n ∨ ¬(negC r.g = true ∧ r.h - r0.h > 1 / 10 ^ 13)) ∧ Y.hist.length ≤ 2 ∧ (negC g = true ∧ h - r0.h > 1 / 10 ^ 13) ∧
        ∀ k < j, ∃ r', (r' = r0 ∨ Justified ev r0 r') ∧ r'.tau = tau / 2 ^ k ∧ negC r'.g = true ∧ r'.h - r0.h > 1 / 10 ^ 13) := by
  induction n with
  | zero =>
    intro tau h g ind X Y a hX hb e
    cases e
    exact ⟨hX, hb, .inl ⟨rfl, rfl, .inl rfl⟩⟩
  | succ n ih =>
    intro tau h g ind X Y a hX hb e
    unfold saneLoop at e
    split at e
    · rename_i hc
      unfold Prog.bind at e
      have hc1 := inv_clear hX
      split at e
      · cases e
      · rename_i Z t hz
        obtain ⟨-, -, h3⟩ := good_f (b := false) tau (clearHist X) Z _ hc1 hb hz
        exact absurd (h3 t rfl).1 (by simp)
      · rename_i Z g1 hz
        obtain ⟨i1, i2, -⟩ := good_f (b := false) tau (clearHist X) Z _ hc1 hb hz
        have hlen : Z.hist.length ≤ 2 := by
          have l1 : (clearHist X).hist.length ≤ 1 := by simp [clearHist]
          rcases f_cases tau hc1 hz with ⟨-, rfl, -⟩ | ⟨-, -, -, -, -, rfl, -⟩ | ⟨-, -, -, -, -, rfl, -⟩
          · simp only [List.length_append, List.length_singleton]; omega
          · omega
          · simp only [List.length_append, List.length_singleton]; omega
        simp only [] at e
        split at e
        · cases e
        · rename_i i hi
          split at e
          · cases e
          · rename_i r hr
            obtain ⟨r', hr', ht⟩ := index_some hi
            rw [hr] at hr'
            obtain rfl := Option.some.inj hr'
            have hj : r = r0 ∨ Justified ev r0 r := by
              obtain ⟨rest, e1, e2⟩ := i1
              have := List.mem_of_getElem? hr
              rw [e1] at this
              rcases List.mem_cons.1 this with h | h
              · exact .inl h
              · exact .inr (e2 r h)
            obtain ⟨j1, j2, j3⟩ := ih _ _ _ _ Z Y a i1 i2 e
            refine ⟨j1, j2, .inr ?_⟩
            rcases j3 with ⟨rfl, rfl, h3⟩ | ⟨j, i', r', hj', rfl, q1, q2, q3, q4, q5, q6, q7⟩
            · refine ⟨0, i, r, by omega, rfl, by simpa using hi, hr, by simpa using ht, ?_, hlen, hc, fun k hk => absurd hk (by omega)⟩
              rcases h3 with h3 | h3
              · exact .inl (by omega)
              · exact .inr h3
            · have hp : ∀ k : ℕ, tau * (1 / 2) / 2 ^ k = tau / 2 ^ (k + 1) := fun k => by
                rw [pow_succ, div_mul_eq_div_div]; ring
              rw [hp] at q1 q3
              refine ⟨j + 1, i', r', by omega, rfl, q1, q2, q3, ?_, q5, hc, fun k hk => ?_⟩
              · rcases q4 with q4 | q4
                · exact .inl (by omega)
                · exact .inr q4
              · cases k with
                | zero => exact ⟨r, hj, by simpa using ht, q6⟩
                | succ k =>
                  obtain ⟨s, s1, s2, s3⟩ := q7 k (by omega)
                  exact ⟨s, s1, by rw [s2, hp], s3⟩
    · rename_i hc
      cases e
      exact ⟨hX, hb, .inl ⟨rfl, rfl, .inr hc⟩⟩

/-- What `sane_first_step` returns. -/
theorem saneFirstStep_spec {X Y : Search σ M} {tau : ℝ} {a : ℕ ⊕ ℝ} (hX : Inv ev r0 X) (hb : X.inSearch = false)
    (h : saneFirstStep ev tau X = .ok (Y, a)) :
    Inv ev r0 Y ∧ Y.inSearch = false ∧ ∃ (j : ℕ) (i : ℕ) (r : Rec M), j < 10 ∧ a = .inl i ∧ index Y.hist (tau / 2 ^ j) = some i ∧
      Y.hist[i]? = some r ∧ r.tau = tau / 2 ^ j ∧ (j = 9 ∨ ¬(negC r.g = true ∧ r.h - r0.h > 1 / 10 ^ 13)) ∧ Y.hist.length ≤ 2 ∧
        ∀ k < j, ∃ r', (r' = r0 ∨ Justified ev r0 r') ∧ r'.tau = tau / 2 ^ k ∧ negC r'.g = true ∧ r'.h - r0.h > 1 / 10 ^ 13 := by
  obtain ⟨rest, e, -⟩ := id hX
  unfold saneFirstStep at h
  rw [e] at h
  simp only [] at h
  unfold Prog.bind at h
  split at h
  · cases h
  · rename_i Z t hz
    obtain ⟨-, -, h3⟩ := saneLoop_spec 10 _ _ _ _ X Z _ hX hb hz
    rcases h3 with ⟨h3, -⟩ | ⟨_, _, _, _, h3, -⟩ <;> cases h3
  · rename_i Z t hz
    obtain ⟨h1, h2, h3⟩ := saneLoop_spec 10 _ _ _ _ X Z _ hX hb hz
    rcases h3 with ⟨h3, rfl, h4⟩ | ⟨j, i, r, hj, h3, q1, q2, q3, q4, q5, q6, q7⟩
    · exfalso
      rcases h4 with h4 | h4
      · omega
      · apply h4
        refine ⟨by simp [negC], ?_⟩
        rw [add_sub_cancel_right]
        norm_num
    · cases h3
      cases h
      exact ⟨h1, h2, j, i, r, hj, rfl, q1, q2, q3, q4.imp (fun h => by omega) id, q5, q7⟩

theorem finish_spec {X Y : Search σ M} {t : ℝ} {x : Found} (h : finish X t = .ok (Y, x)) :
    Y = { X with inSearch := false } ∧ x.tau = t ∧ index X.hist t = some x.ind ∧ ∃ r, X.hist[x.ind]? = some r ∧ r.tau = t ∧ x.h = r.h := by
  unfold finish at h
  split at h
  · cases h
  · rename_i i hi
    obtain ⟨r, hr, ht⟩ := index_some hi
    rw [hr] at h
    cases h
    exact ⟨rfl, rfl, hi, r, hr, ht, rfl⟩

theorem finish_ok {X : Search σ M} {t : ℝ} (h : ∃ r ∈ X.hist, r.tau = t) : ∃ p, finish X t = .ok p := by
  obtain ⟨i, hi⟩ := index_isSome h
  obtain ⟨r, hr, ht⟩ := index_some hi
  unfold finish
  rw [hi]
  simp only [hr]
  exact ⟨_, rfl⟩

/-- The point `t` is an answer of the root finder for some values of the function. -/
inductive Finder.Answer : Finder → ℝ → Prop
  | ret (t : ℝ) : Answer (.ret t) t
  | ask {t s : ℝ} {next : ℝ → Finder} (g : ℝ) (h : Answer (next g) s) : Answer (.ask t next) s

theorem run_answer (F : Finder) : ∀ {X Y : Search σ M} {t : ℝ}, F.run ev X = .ok (Y, .inl (some t)) → F.Answer t := by
  induction F with
  | ret s => intro X Y t h; cases h; exact .ret _
  | valueError => intro X Y t h; cases h
  | runtimeError => intro X Y t h; cases h
  | ask s next ih =>
    intro X Y t h
    unfold Finder.run Prog.bind at h
    split at h
    · cases h
    · cases h
    · exact .ask _ (ih _ h)

/-- How a search ends. -/
inductive Outcome (ev : Eval σ M) (finder : ℝ → ℝ → Finder) (r0 : Rec M) (Y : Search σ M) (x : Found) : Prop
  /-- without success -/
  | fail (h : x = ⟨0, r0.h, 0⟩)
  /-- at a stored point with the Wolfe conditions -/
  | wolfe (r : Rec M) (hi : Y.hist[x.ind]? = some r) (ht : r.tau = x.tau) (hh : r.h = x.h)
      (hw : wolfe r0 r.g r.h r.tau false = true)
  /-- at a stored point that the root finder returned -/
  | root (r : Rec M) (hi : Y.hist[x.ind]? = some r) (ht : r.tau = x.tau) (hh : r.h = x.h)
      (a b : ℝ) (hf : (finder a b).Answer x.tau)

theorem brentq_spec (ex : Extrap) (finder : ℝ → ℝ → Finder) (tauInit : ℝ) {X Y : Search σ M} {x : Found} (hX : Inv ev r0 X)
    (h : brentq ev ex finder tauInit X = .ok (Y, x)) : Inv ev r0 Y ∧ Outcome ev finder r0 Y x := by
  have fin : ∀ {Z : Search σ M} {t : ℝ}, Inv ev r0 Z → Sat r0 Z t → finish Z t = .ok (Y, x) → Inv ev r0 Y ∧ Outcome ev finder r0 Y x := by
    intro Z t hZ ⟨i, r, hi, hr, ht, hw⟩ hf
    obtain ⟨rfl, rfl, h3, r', h4, h5, h6⟩ := finish_spec hf
    rw [h3] at hi
    obtain rfl := Option.some.inj hi
    rw [h4] at hr
    obtain rfl := Option.some.inj hr
    exact ⟨hZ, .wolfe r' h4 h5 h6.symm (by rw [h5]; exact hw)⟩
  have fl : ∀ {Z : Search σ M}, Inv ev r0 Z → (Z.hist.head?.map Rec.h).getD 0 = r0.h := by
    rintro Z ⟨rest, e, -⟩
    simp [e]
  unfold brentq at h
  split at h
  · cases h
  · cases h
  · rename_i Z i hz
    obtain ⟨z1, z2, j, i', r, hj, hi', q1, q2, q3, -⟩ :=
      saneFirstStep_spec (X := { X with inSearch := false }) (r0 := r0) hX rfl hz
    cases hi'
    obtain ⟨rest, e, -⟩ := id z1
    rw [q2] at h
    split at h
    · rename_i r0' rest' r' e1 e2
      rw [e] at e1
      cases e1
      cases e2
      split at h
      · rename_i hw
        refine fin z1 ⟨i, r, by rw [q3]; exact q1, q2, rfl, hw⟩ h
      · simp only [] at h
        have gb : Good ev r0 true (if posC r.g = true then Prog.ret (some (0, r.tau)) else bracketLoop ev ex r.tau 3 0) := by
          split
          · exact good_ret _
          · exact good_bracketLoop _ _ _ _
        split at h
        · cases h
        · rename_i W t hw
          obtain ⟨w1, w2, w3⟩ := gb { Z with inSearch := true } W _ z1 rfl hw
          exact fin w1 (w3 t rfl).2 h
        · rename_i W hw
          obtain ⟨w1, w2, -⟩ := gb { Z with inSearch := true } W _ z1 rfl hw
          cases h
          exact ⟨w1, .fail (by rw [fl w1])⟩
        · rename_i W c hw
          obtain ⟨w1, w2, -⟩ := gb { Z with inSearch := true } W _ z1 rfl hw
          split at h
          · cases h
          · rename_i U t hu
            obtain ⟨u1, u2, u3⟩ := good_run (b := true) (finder c.1 c.2) W U _ w1 w2 hu
            exact fin u1 (u3 t rfl).2 h
          · rename_i U hu
            obtain ⟨u1, u2, -⟩ := good_run (b := true) (finder c.1 c.2) W U _ w1 w2 hu
            cases h
            exact ⟨u1, .fail (by rw [fl u1])⟩
          · rename_i U t hu
            obtain ⟨u1, u2, -⟩ := good_run (b := true) (finder c.1 c.2) W U _ w1 w2 hu
            obtain ⟨rfl, rfl, h3, r', h4, h5, h6⟩ := finish_spec h
            exact ⟨u1, .root r' h4 h5 h6.symm c.1 c.2 (run_answer _ hu)⟩
    · cases h

/-! ### Which exceptions are possible -/

/-- A root finder that converges and returns a point at which it has asked for the value; `asked` are the earlier ones. -/
def Finder.Sound : Finder → (ℝ → Prop) → Prop
  | .ret t, asked => asked t
  | .valueError, _ => True
  | .runtimeError, _ => False
  | .ask t next, asked => ∀ g, (next g).Sound fun s => asked s ∨ s = t

/-- No exception other than the two that `calc_B_CG` catches, from states with `r0`. -/
def Clean (ev : Eval σ M) (r0 : Rec M) (p : Prog σ M α) : Prop := ∀ X, Inv ev r0 X → p X ≠ .error .other

theorem clean_bind {p : Prog σ M α} {k : α → Prog σ M β} (hp : Clean ev r0 p) (hg : ∀ b, Good ev r0 b p) (hk : ∀ a, Clean ev r0 (k a)) :
    Clean ev r0 (Prog.bind p k) := by
  intro X hX h
  unfold Prog.bind at h
  split at h
  · rename_i e he
    cases h
    exact hp X hX he
  · cases h
  · rename_i Z a hz
    exact hk a Z (hg _ X Z _ hX rfl hz).1 h

theorem clean_f (hev : ∀ S t K, ev S t K ≠ .error .other) (tau : ℝ) : Clean ev r0 (f ev tau) := by
  classical
  intro X hX h
  obtain ⟨rest, e, -⟩ := hX
  unfold f at h
  rw [e] at h
  simp only [] at h
  split at h
  · cases h
  · split at h
    · cases h
    · split at h
      · rename_i x hx
        cases h
        exact hev _ _ _ hx
      · split at h <;> cases h

theorem clean_extrapLoop (hev : ∀ S t K, ev S t K ≠ .error .other) {ex : Extrap} (hex : ∀ l, ex l ≠ none) (dtau g0 : ℝ) (n : ℕ) :
    ∀ tp t1 g1, Clean ev r0 (extrapLoop ev ex dtau g0 n tp t1 g1) := by
  induction n with
  | zero => intro tp t1 g1 X _ h; cases h
  | succ n ih =>
    intro tp t1 g1 X hX h
    unfold extrapLoop at h
    split at h
    · split at h
      · rename_i hn
        unfold nextTau at hn
        simp only [Option.map_eq_none_iff] at hn
        split at hn
        · rw [Option.map_eq_none_iff] at hn
          exact hex _ hn
        · cases hn
      · exact clean_bind (clean_f hev _) (fun _ => good_f _) (fun g2 => ih _ _ _) X hX h
    · cases h

theorem clean_bracketLoop (hev : ∀ S t K, ev S t K ≠ .error .other) {ex : Extrap} (hex : ∀ l, ex l ≠ none) (tau : ℝ) (n : ℕ) :
    ∀ i, Clean ev r0 (bracketLoop ev ex tau n i) := by
  induction n with
  | zero => intro i X _ h; cases h
  | succ n ih =>
    intro i
    unfold bracketLoop
    refine clean_bind (clean_bind (clean_f hev _) (fun _ => good_f _) fun _ => clean_extrapLoop hev hex _ _ _ _ _ _)
      (fun _ => good_bracketExtrap _ _) fun c => ?_
    cases c with
    | some c => intro X _ h; cases h
    | none => exact fun X hX h => ih (i + 1) (clearHist X) (inv_clear hX) h

theorem run_clean (hev : ∀ S t K, ev S t K ≠ .error .other) (F : Finder) : ∀ (asked : ℝ → Prop) (X : Search σ M), Inv ev r0 X →
    F.Sound asked → (∀ t, asked t → ∃ r ∈ X.hist, r.tau = t) →
    F.run ev X ≠ .error .other ∧ ∀ Y t, F.run ev X = .ok (Y, .inl (some t)) → ∃ r ∈ Y.hist, r.tau = t := by
  induction F with
  | ret s =>
    intro asked X hX hF ha
    refine ⟨(fun h => by cases h), fun Y t h => ?_⟩
    cases h
    exact ha _ hF
  | valueError => intro asked X hX hF ha; exact ⟨(fun h => by cases h), fun Y t h => by cases h⟩
  | runtimeError => intro asked X hX hF ha; exact absurd hF (by simp [Finder.Sound])
  | ask s next ih =>
    intro asked X hX hF ha
    unfold Finder.run Prog.bind
    cases hz : f ev s X with
    | error e =>
      refine ⟨fun h => ?_, fun Y t h => by cases h⟩
      cases h
      exact clean_f hev s X hX hz
    | ok p =>
      obtain ⟨Z, c⟩ := p
      cases c with
      | inr t => exact ⟨(fun h => by cases h), fun Y t h => by cases h⟩
      | inl g =>
        obtain ⟨⟨r, hr, hs⟩, hsub⟩ := f_stored s hX hz
        refine ih g _ Z (good_f (b := X.inSearch) s X Z _ hX rfl hz).1 (hF g) ?_
        rintro t (ht | rfl)
        · obtain ⟨r', h1, h2⟩ := ha t ht
          exact ⟨r', hsub r' h1, h2⟩
        · exact ⟨r, hr, hs⟩

theorem clean_saneLoop (hev : ∀ S t K, ev S t K ≠ .error .other) (h0 : ℝ) (n : ℕ) : ∀ tau h g ind,
    Clean ev r0 (saneLoop ev h0 n tau h g ind) := by
  induction n with
  | zero => intro tau h g ind X _ h; cases h
  | succ n ih =>
    intro tau h g ind X hX e
    unfold saneLoop at e
    split at e
    · unfold Prog.bind at e
      split at e
      · rename_i x hx
        cases e
        exact clean_f hev _ _ (inv_clear hX) hx
      · cases e
      · rename_i Z g1 hz
        obtain ⟨i, hi⟩ := index_isSome (f_stored _ (inv_clear hX) hz).1
        obtain ⟨r, hr, -⟩ := index_some hi
        simp only [hi, hr] at e
        exact ih _ _ _ _ Z (good_f (b := X.inSearch) _ (clearHist X) Z _ (inv_clear hX) rfl hz).1 e
    · cases e

theorem brentq_clean (hev : ∀ S t K, ev S t K ≠ .error .other) {ex : Extrap} (hex : ∀ l, ex l ≠ none) {finder : ℝ → ℝ → Finder}
    (hfi : ∀ a b, (finder a b).Sound fun _ => False) (tauInit : ℝ) {X : Search σ M} (hX : Inv ev r0 X) :
    brentq ev ex finder tauInit X ≠ .error .other := by
  have fin : ∀ {Z : Search σ M} {t : ℝ}, (∃ r ∈ Z.hist, r.tau = t) → finish Z t ≠ .error .other := by
    intro Z t h e
    obtain ⟨p, hp⟩ := finish_ok h
    rw [hp] at e
    cases e
  have sat : ∀ {Z : Search σ M} {t : ℝ}, Sat r0 Z t → ∃ r ∈ Z.hist, r.tau = t := fun ⟨i, r, _, hr, ht, _⟩ =>
    ⟨r, List.mem_of_getElem? hr, ht⟩
  intro h
  have hX' : Inv ev r0 { X with inSearch := false } := hX
  unfold brentq at h
  split at h
  · rename_i e he
    cases h
    obtain ⟨rest, e, -⟩ := id hX'
    unfold saneFirstStep at he
    split at he
    · rename_i hn
      rw [e] at hn
      cases hn
    rename_i r1 rest' e'
    obtain rfl : r0 = r1 := by
      rw [e] at e'
      exact (List.cons.inj e').1
    unfold Prog.bind at he
    split at he
    · rename_i x hx
      cases he
      exact clean_saneLoop hev _ _ _ _ _ _ _ hX' hx
    · cases he
    · rename_i Z a hz
      obtain ⟨-, -, h3⟩ := saneLoop_spec 10 _ _ _ _ _ Z _ hX' rfl hz
      rcases h3 with ⟨h3, rfl, h4⟩ | ⟨j, i, r, hj, h3, -⟩
      · rcases h4 with h4 | h4
        · omega
        · apply h4
          refine ⟨by simp [negC], ?_⟩
          rw [add_sub_cancel_right]
          norm_num
      · cases h3
        cases he
  · rename_i Z t hz
    obtain ⟨-, -, _, _, _, _, h3, -⟩ := saneFirstStep_spec (X := { X with inSearch := false }) (r0 := r0) hX' rfl hz
    cases h3
  · rename_i Z i hz
    obtain ⟨z1, z2, j, i', r, hj, hi', q1, q2, q3, -⟩ :=
      saneFirstStep_spec (X := { X with inSearch := false }) (r0 := r0) hX' rfl hz
    cases hi'
    obtain ⟨rest, e, -⟩ := id z1
    rw [q2] at h
    split at h
    · rename_i r0' rest' r' e1 e2
      rw [e] at e1
      cases e1
      cases e2
      split at h
      · exact fin ⟨r, List.mem_of_getElem? q2, rfl⟩ h
      · simp only [] at h
        have gb : Good ev r0 true (if posC r.g = true then Prog.ret (some (0, r.tau)) else bracketLoop ev ex r.tau 3 0) := by
          split
          · exact good_ret _
          · exact good_bracketLoop _ _ _ _
        have cb : Clean ev r0 (if posC r.g = true then Prog.ret (some (0, r.tau)) else bracketLoop ev ex r.tau 3 0) := by
          split
          · intro X _ h; cases h
          · exact clean_bracketLoop hev hex _ _ _
        split at h
        · rename_i e he
          cases h
          exact cb _ (show Inv ev r0 { Z with inSearch := true } from z1) he
        · rename_i W t hw
          obtain ⟨w1, w2, w3⟩ := gb { Z with inSearch := true } W _ z1 rfl hw
          exact fin (sat (w3 t rfl).2) h
        · cases h
        · rename_i W c hw
          obtain ⟨w1, w2, -⟩ := gb { Z with inSearch := true } W _ z1 rfl hw
          obtain ⟨rc, ra⟩ := run_clean hev (finder c.1 c.2) _ W w1 (hfi _ _) (fun t ht => ht.elim)
          split at h
          · rename_i e he
            cases h
            exact rc he
          · rename_i U t hu
            obtain ⟨u1, u2, u3⟩ := good_run (b := true) (finder c.1 c.2) W U _ w1 w2 hu
            exact fin (sat (u3 t rfl).2) h
          · cases h
          · rename_i U t hu
            exact fin (ra U t hu) h
    · rename_i hno
      exact hno _ _ _ e rfl

/-! ### No steps backwards -/

/-- A root finder that asks only for values in the bracket. -/
def Finder.Within (a b : ℝ) : Finder → Prop
  | .ret _ => True
  | .valueError => True
  | .runtimeError => True
  | .ask t next => a ≤ t ∧ t ≤ b ∧ ∀ g, (next g).Within a b

/-- All steps known are forwards. -/
def Fwd (X : Search σ M) : Prop := ∀ r ∈ X.hist, 0 ≤ r.tau

/-- All steps stay forwards, and a result has the property `P`. -/
def Keeps (ev : Eval σ M) (r0 : Rec M) (p : Prog σ M α) (P : α → Prop) : Prop :=
  ∀ X Y a, Inv ev r0 X → Fwd X → p X = .ok (Y, a) → Inv ev r0 Y ∧ Fwd Y ∧ ∀ c, a = .inl c → P c

theorem keeps_ret {P : α → Prop} (a : α) (h : P a) : Keeps ev r0 (Prog.ret a) P := by
  intro X Y c hX hf e
  cases e
  exact ⟨hX, hf, fun c hc => by cases hc; exact h⟩

theorem keeps_bind {p : Prog σ M α} {k : α → Prog σ M β} {P : α → Prop} {Q : β → Prop} (hp : Keeps ev r0 p P)
    (hk : ∀ a, P a → Keeps ev r0 (k a) Q) : Keeps ev r0 (Prog.bind p k) Q := by
  intro X Y c hX hf h
  unfold Prog.bind at h
  split at h
  · cases h
  · rename_i Z t hz
    obtain ⟨h1, h2, -⟩ := hp X Z _ hX hf hz
    cases h
    exact ⟨h1, h2, fun c hc => nomatch hc⟩
  · rename_i Z a hz
    obtain ⟨h1, h2, h3⟩ := hp X Z _ hX hf hz
    exact hk a (h3 a rfl) Z Y c h1 h2 h

theorem keeps_f {tau : ℝ} (ht : 0 ≤ tau) : Keeps ev r0 (f ev tau) fun _ => True := by
  intro X Y a hX hf h
  refine ⟨(good_f (b := X.inSearch) tau X Y a hX rfl h).1, ?_, fun _ _ => trivial⟩
  rcases f_cases tau hX h with ⟨h1, -⟩ | ⟨-, _, _, -, -, rfl, -⟩ | ⟨-, -, K, T, -, rfl, -⟩
  · linarith
  · exact hf
  · intro r hr
    rcases List.mem_append.1 hr with hr | hr
    · exact hf r hr
    · rw [List.mem_singleton.1 hr]; exact ht

theorem nextTau_pos {ex : Extrap} {dtau t1 g1 t2 : ℝ} {hist : List (Rec M)} (h1 : 0 < t1) (h : nextTau ex dtau t1 g1 hist = some t2) :
    0 < t2 := by
  unfold nextTau at h
  simp only [Option.map_eq_some_iff] at h
  obtain ⟨u, hu, h⟩ := h
  have hpos : 0 < u := by
    split at hu
    · rw [Option.map_eq_some_iff] at hu
      obtain ⟨z, -, hz⟩ := hu
      have hv : 0 < (if 0 < z then z else t1) := by
        split
        · assumption
        · exact h1
      rw [← hz]
      generalize (if 0 < z then z else t1) = v at hv
      split
      · exact lt_min (by linarith) hv
      · exact hv
    · cases hu; exact h1
  rw [← h]
  split <;> linarith

theorem keeps_extrapLoop (ex : Extrap) (dtau g0 : ℝ) (n : ℕ) : ∀ tp t1 g1, 0 < tp → 0 < t1 →
    Keeps ev r0 (extrapLoop ev ex dtau g0 n tp t1 g1) fun o => ∀ c, o = some c → 0 ≤ c.1 ∧ c.1 ≤ c.2 := by
  induction n with
  | zero => intro tp t1 g1 _ _; exact keeps_ret _ (fun c hc => nomatch hc)
  | succ n ih =>
    intro tp t1 g1 htp ht1 X Y a hX hf h
    unfold extrapLoop at h
    split at h
    · split at h
      · cases h
      · rename_i t2 ht2
        have hp := nextTau_pos ht1 ht2
        exact keeps_bind (keeps_f hp.le) (fun g2 _ => ih t1 t2 g2 ht1 hp) X Y a hX hf h
    · cases h
      refine ⟨hX, hf, fun c hc c' hc' => ?_⟩
      cases hc
      cases hc'
      exact ⟨(lt_min htp ht1).le, min_le_max⟩

theorem fwd_clear {X : Search σ M} (h : Fwd X) : Fwd (clearHist X) := fun r hr => h r (List.mem_of_mem_take hr)

theorem keeps_bracketLoop (ex : Extrap) {tau : ℝ} (ht : 0 < tau) (n : ℕ) : ∀ i,
    Keeps ev r0 (bracketLoop ev ex tau n i) fun o => ∀ c, o = some c → 0 ≤ c.1 ∧ c.1 ≤ c.2 := by
  induction n with
  | zero => intro i; exact keeps_ret _ (fun c hc => nomatch hc)
  | succ n ih =>
    intro i
    unfold bracketLoop
    have hd : 0 < tau / ((i : ℝ) + 1) := by positivity
    refine keeps_bind (keeps_bind (keeps_f hd.le) fun g _ => keeps_extrapLoop ex _ _ _ _ _ _ hd hd) fun c hc => ?_
    cases c with
    | some c => exact keeps_ret _ hc
    | none => exact fun X Y a hX hf h => ih (i + 1) (clearHist X) Y a (inv_clear hX) (fwd_clear hf) h

theorem keeps_run {a b : ℝ} (ha : 0 ≤ a) (F : Finder) (hF : F.Within a b) : Keeps ev r0 (F.run ev) fun _ => True := by
  induction F with
  | ret t => exact keeps_ret _ trivial
  | valueError => exact keeps_ret _ trivial
  | runtimeError => intro X Y c _ _ h; cases h
  | ask t next ih => exact keeps_bind (keeps_f (ha.trans hF.1)) fun g _ => ih g (hF.2.2 g)

theorem keeps_saneLoop (h0 : ℝ) (n : ℕ) : ∀ (tau h : ℝ) (g : ℂ) (ind : Option ℕ), 0 ≤ tau →
    Keeps ev r0 (saneLoop ev h0 n tau h g ind) fun _ => True := by
  induction n with
  | zero => intro tau h g ind _; exact keeps_ret _ trivial
  | succ n ih =>
    intro tau h g ind ht X Y a hX hf e
    unfold saneLoop at e
    split at e
    · refine keeps_bind (P := fun _ => True) (keeps_f ht) (fun x _ => ?_) (clearHist X) Y a (inv_clear hX) (fwd_clear hf) e
      intro Z Y a hZ hf' e
      simp only [] at e
      split at e
      · cases e
      · split at e
        · cases e
        · exact ih _ _ _ _ (by linarith) Z Y a hZ hf' e
    · cases e
      exact ⟨hX, hf, fun _ _ => trivial⟩

/-- A search that starts forwards only steps forwards. -/
theorem brentq_fwd (ex : Extrap) {finder : ℝ → ℝ → Finder} (hfi : ∀ a b, a ≤ b → (finder a b).Within a b) {tauInit : ℝ} (ht : 0 < tauInit)
    {X Y : Search σ M} {x : Found} (hX : Inv ev r0 X) (hf : Fwd X) (h : brentq ev ex finder tauInit X = .ok (Y, x)) : 0 ≤ x.tau := by
  have fin : ∀ {Z : Search σ M} {t : ℝ}, Fwd Z → finish Z t = .ok (Y, x) → 0 ≤ x.tau := by
    intro Z t hZ hh
    obtain ⟨rfl, rfl, -, r, h4, h5, -⟩ := finish_spec hh
    rw [← h5]
    exact hZ r (List.mem_of_getElem? h4)
  unfold brentq at h
  split at h
  · cases h
  · cases h
  · rename_i Z i hz
    obtain ⟨z1, z2, j, i', r, hj, hi', q1, q2, q3, -⟩ :=
      saneFirstStep_spec (X := { X with inSearch := false }) (r0 := r0) hX rfl hz
    cases hi'
    have hZ : Fwd Z := by
      unfold saneFirstStep at hz
      split at hz
      · cases hz
      · refine (keeps_bind (P := fun _ => True) (Q := fun _ => True) (keeps_saneLoop _ 10 _ _ _ _ ht.le) (fun c _ => ?_)
          { X with inSearch := false } Z _ hX hf hz).2.1
        intro U W a hU hUf e
        simp only [] at e
        split at e
        · cases e
        · cases e
          exact ⟨hU, hUf, fun _ _ => trivial⟩
    have hr : 0 < r.tau := by rw [q3]; positivity
    obtain ⟨rest, e, -⟩ := id z1
    rw [q2] at h
    split at h
    · rename_i r0' rest' r' e1 e2
      rw [e] at e1
      cases e1
      cases e2
      split at h
      · exact fin hZ h
      · simp only [] at h
        have kb : Keeps ev r0 (if posC r.g = true then Prog.ret (some (0, r.tau)) else bracketLoop ev ex r.tau 3 0)
            fun o => ∀ c, o = some c → 0 ≤ c.1 ∧ c.1 ≤ c.2 := by
          split
          · exact keeps_ret _ (fun c hc => by cases hc; exact ⟨le_refl _, hr.le⟩)
          · exact keeps_bracketLoop ex hr 3 0
        split at h
        · cases h
        · rename_i W t hw
          exact fin (kb { Z with inSearch := true } W _ z1 hZ hw).2.1 h
        · cases h
          exact le_refl _
        · rename_i W c hw
          obtain ⟨w1, w2, w3⟩ := kb { Z with inSearch := true } W _ z1 hZ hw
          have kr := keeps_run (ev := ev) (r0 := r0) (w3 _ rfl c rfl).1 (finder c.1 c.2) (hfi _ _ (w3 _ rfl c rfl).2)
          split at h
          · cases h
          · rename_i U t hu
            exact fin (kr W U _ w1 w2 hu).2.1 h
          · cases h
            exact le_refl _
          · rename_i U t hu
            exact fin (kr W U _ w1 w2 hu).2.1 h
    · cases h

end EvoMPS.USearch
