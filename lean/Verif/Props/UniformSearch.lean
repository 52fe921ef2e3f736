import Mathlib.Analysis.Calculus.Deriv.Pow
import Mathlib.Analysis.Calculus.Deriv.Add
import Mathlib.Analysis.Calculus.Deriv.Mul
import Verif.UniformSearchLemmas

/-!
# C78: the line search and the conjugate gradients of the uniform chain
-/

namespace EvoMPS

open USearch

variable {σ M V : Type}

/-- **C78**, what a search reports.  The first entry of the lists is the starting point, and the step, the energy and the index returned belong to
one entry of the lists, which comes from an evaluation of that step (or repeats the starting point). -/
theorem C78_result (ev : Eval σ M) (ex : Extrap) (finder : ℝ → ℝ → Finder) (tauInit : ℝ) (X Y : Search σ M) (x : Found) (r0 : Rec M)
    (hX : X.hist = [r0]) (h0 : r0.tau = 0) (h : brentq ev ex finder tauInit X = .ok (Y, x)) :
    Y.hist[0]? = some r0 ∧ ∃ r, Y.hist[x.ind]? = some r ∧ r.tau = x.tau ∧ r.h = x.h ∧
      (r = r0 ∨ (x.tau < 0 ∧ r.h = r0.h) ∨
        (0 ≤ x.tau ∧ ∃ S K T, ev S x.tau K = .ok T ∧ r.h = T.h ∧ r.g = T.g ∧ r.lL = T.lL ∧ r.rL = T.rL ∧ r.K0 = T.K0)) := by
  obtain ⟨⟨rest, e, hj⟩, ho⟩ := brentq_spec ex finder tauInit (r0 := r0) ⟨[], hX, by simp⟩ h
  refine ⟨by simp [e], ?_⟩
  have fin : ∀ r, Y.hist[x.ind]? = some r → r.tau = x.tau → (r = r0 ∨ (x.tau < 0 ∧ r.h = r0.h) ∨
        (0 ≤ x.tau ∧ ∃ S K T, ev S x.tau K = .ok T ∧ r.h = T.h ∧ r.g = T.g ∧ r.lL = T.lL ∧ r.rL = T.rL ∧ r.K0 = T.K0)) := by
    intro r hr ht
    have hm := List.mem_of_getElem? hr
    rw [e] at hm
    rcases List.mem_cons.1 hm with hm | hm
    · exact .inl hm
    · rcases hj r hm with ⟨h1, h2⟩ | ⟨h1, S, K, T, h2, h3, h4, h5, h6, h7, -⟩
      · exact .inr (.inl ⟨ht ▸ h1, by rw [h2]⟩)
      · exact .inr (.inr ⟨ht ▸ h1, S, K, T, ht ▸ h2, h3, h4, h5, h6, h7⟩)
  cases ho with
  | fail hf =>
    subst hf
    exact ⟨r0, by simp [e], h0, rfl, .inl rfl⟩
  | wolfe r hi ht hh hw => exact ⟨r, hi, ht, hh, fin r hi ht⟩
  | root r hi ht hh a b hf => exact ⟨r, hi, ht, hh, fin r hi ht⟩

/-- **C78**, the energy reported.  If the evaluation of a trial point gives the energy `e t` of the step `t` whatever the starting values of the
iterations, the search reports the energy of the step it returns; for a step backwards it reports the energy of the start. -/
theorem C78_energy (ev : Eval σ M) (ex : Extrap) (finder : ℝ → ℝ → Finder) (tauInit : ℝ) (X Y : Search σ M) (x : Found) (r0 : Rec M)
    (hX : X.hist = [r0]) (h0 : r0.tau = 0) (e : ℝ → ℝ) (he0 : r0.h = e 0) (he : ∀ S t K T, ev S t K = .ok T → T.h = e t)
    (h : brentq ev ex finder tauInit X = .ok (Y, x)) : x.h = e (max x.tau 0) := by
  obtain ⟨-, r, -, ht, hh, hr⟩ := C78_result ev ex finder tauInit X Y x r0 hX h0 h
  rw [← hh]
  rcases hr with rfl | ⟨h1, h2⟩ | ⟨h1, S, K, T, h2, h3, -⟩
  · rw [← ht, h0, max_self, he0]
  · rw [h2, max_eq_right h1.le, he0]
  · rw [h3, he S _ K T h2, max_eq_left h1]

/-- **C78**, no steps backwards: if the root finder stays in its bracket, a search that is given a positive step returns a step that is not
negative. -/
theorem C78_forward (ev : Eval σ M) (ex : Extrap) (finder : ℝ → ℝ → Finder) (hfi : ∀ a b, a ≤ b → (finder a b).Within a b) (tauInit : ℝ)
    (ht : 0 < tauInit) (X Y : Search σ M) (x : Found) (r0 : Rec M) (hX : X.hist = [r0]) (h0 : r0.tau = 0)
    (h : brentq ev ex finder tauInit X = .ok (Y, x)) : 0 ≤ x.tau :=
  brentq_fwd ex hfi ht (r0 := r0) ⟨[], hX, by simp⟩ (fun r hr => by rw [hX, List.mem_singleton] at hr; rw [hr, h0]) h

/-- **C78**, when a search stops: without success (step 0), or at a point with the two Wolfe conditions (sufficient decrease of the energy, and
the slope no steeper than a tenth of that at the start), or at a point which the root finder returned. -/
theorem C78_wolfe (ev : Eval σ M) (ex : Extrap) (finder : ℝ → ℝ → Finder) (tauInit : ℝ) (X Y : Search σ M) (x : Found) (r0 : Rec M)
    (hX : X.hist = [r0]) (h : brentq ev ex finder tauInit X = .ok (Y, x)) :
    (x.tau = 0 ∧ x.h = r0.h ∧ x.ind = 0) ∨
    (∃ r, Y.hist[x.ind]? = some r ∧ r.tau = x.tau ∧ x.h ≤ r0.h + 1 / 10000 * x.tau * r0.g.re ∧ 1 / 10 * r0.g.re ≤ r.g.re) ∨
    ∃ a b, (finder a b).Answer x.tau := by
  obtain ⟨-, ho⟩ := brentq_spec ex finder tauInit (r0 := r0) ⟨[], hX, by simp⟩ h
  cases ho with
  | fail hf => subst hf; exact .inl ⟨rfl, rfl, rfl⟩
  | wolfe r hi ht hh hw =>
    refine .inr (.inl ⟨r, hi, ht, ?_⟩)
    unfold wolfe at hw
    simp only [Bool.and_eq_true, decide_eq_true_eq, Bool.false_eq_true, if_false] at hw
    rw [← hh, ← ht]
    exact hw
  | root r hi ht hh a b hf => exact .inr (.inr ⟨a, b, hf⟩)

/-- **C78**, the first step of a search: the given step, halved at most nine times.  Unless it was halved nine times, at the point reached the
slope is not negative or the energy is not above that of the start; every longer step tried had a negative slope and a higher energy. -/
theorem C78_first_step (ev : Eval σ M) (tau : ℝ) (X Y : Search σ M) (i : ℕ) (r0 : Rec M) (hX : X.hist = [r0]) (hb : X.inSearch = false)
    (e : ℝ → ℝ) (d : ℝ → ℂ) (h0 : r0.tau = 0) (he0 : r0.h = e 0) (hd0 : r0.g = d 0)
    (he : ∀ S t K T, ev S t K = .ok T → T.h = e t ∧ T.g = d t) (htau : 0 ≤ tau)
    (h : saneFirstStep ev tau X = .ok (Y, .inl i)) :
    ∃ (j : ℕ) (r : Rec M), j ≤ 9 ∧ Y.hist[i]? = some r ∧ r.tau = tau / 2 ^ j ∧ Y.hist.length ≤ 2 ∧
      (j = 9 ∨ 0 ≤ (d (tau / 2 ^ j)).re ∨ e (tau / 2 ^ j) - e 0 ≤ 1 / 10 ^ 13) ∧
      ∀ k < j, (d (tau / 2 ^ k)).re ≤ 0 ∧ 1 / 10 ^ 13 < e (tau / 2 ^ k) - e 0 := by
  obtain ⟨z1, z2, j, i', r, hj, hi', q1, q2, q3, q4, q5, q6⟩ := saneFirstStep_spec (r0 := r0) ⟨[], hX, by simp⟩ hb h
  cases hi'
  have val : ∀ r', (r' = r0 ∨ Justified ev r0 r') → 0 ≤ r'.tau → r'.h = e r'.tau ∧ r'.g = d r'.tau := by
    rintro r' (rfl | ⟨h1, h2⟩ | ⟨h1, S, K, T, h2, h3, h4, -⟩) hp
    · rw [h0]; exact ⟨he0, hd0⟩
    · linarith
    · rw [h3, h4]; exact he S _ K T h2
  have hmem : r = r0 ∨ Justified ev r0 r := by
    obtain ⟨rest, e1, e2⟩ := z1
    have := List.mem_of_getElem? q2
    rw [e1] at this
    rcases List.mem_cons.1 this with h | h
    · exact .inl h
    · exact .inr (e2 r h)
  refine ⟨j, r, by omega, q2, q3, q5, ?_, fun k hk => ?_⟩
  · rcases q4 with q4 | q4
    · exact .inl q4
    · right
      obtain ⟨v1, v2⟩ := val r hmem (by rw [q3]; positivity)
      rw [q3] at v1 v2
      rw [not_and_or] at q4
      rcases q4 with q4 | q4
      · left
        rw [Bool.not_eq_true, negC_false, v2] at q4
        exact not_lt.1 fun hh => q4 (.inl hh)
      · right
        rw [v1, he0] at q4
        exact not_lt.1 q4
  · obtain ⟨r', h1, h2, h3, h4⟩ := q6 k hk
    obtain ⟨v1, v2⟩ := val r' h1 (by rw [h2]; positivity)
    rw [h2] at v1 v2
    rw [v1, he0] at h4
    refine ⟨?_, h4⟩
    rw [← v2]
    unfold negC at h3
    rw [decide_eq_true_eq] at h3
    rcases h3 with h3 | h3
    · exact h3.le
    · exact h3.1.le

theorem nearest_spec (tau : ℝ) (rest : List (Rec M)) : ∀ r0 : Rec M, nearest r0 rest tau ∈ r0 :: rest ∧
    ∀ r ∈ r0 :: rest, |(nearest r0 rest tau).tau - tau| ≤ |r.tau - tau| := by
  classical
  induction rest with
  | nil => intro r0; simp [nearest]
  | cons s rest ih =>
    intro r0
    have e : nearest r0 (s :: rest) tau = nearest (if |s.tau - tau| < |r0.tau - tau| then s else r0) rest tau := by
      simp [nearest]
    rw [e]
    obtain ⟨h1, h2⟩ := ih (if |s.tau - tau| < |r0.tau - tau| then s else r0)
    have h3 := h2 _ List.mem_cons_self
    constructor
    · rcases List.mem_cons.1 h1 with h | h
      · rw [h]; split <;> simp
      · simp [h]
    · intro r hr
      rcases List.mem_cons.1 hr with rfl | hr
      · refine h3.trans ?_
        split
        · exact le_of_lt ‹_›
        · exact le_refl _
      · rcases List.mem_cons.1 hr with rfl | hr
        · refine h3.trans ?_
          split
          · exact le_refl _
          · exact not_lt.1 ‹_›
        · exact h2 r (List.mem_cons_of_mem _ hr)

/-- **C78**, a new point: the iteration for the trial state starts from the `K` of a nearest point known, the results are stored at the end of the
lists, and the Wolfe conditions end the search if and only if they hold and it has begun.  A point known is not evaluated again. -/
theorem C78_nearest (ev : Eval σ M) (tau : ℝ) (ht : 0 ≤ tau) (X : Search σ M) (r0 : Rec M) (rest : List (Rec M)) (hX : X.hist = r0 :: rest) :
    (∀ r ∈ X.hist, r.tau = tau → ∃ r' ∈ X.hist, r'.tau = tau ∧ f ev tau X = .ok (X, .inl r'.g.re)) ∧
    ((∀ r ∈ X.hist, r.tau ≠ tau) → ∃ r ∈ X.hist, (∀ r' ∈ X.hist, |r.tau - tau| ≤ |r'.tau - tau|) ∧
      ∀ T, ev X.S tau r.K0 = .ok T → ∃ Y w, Y.hist = X.hist ++ [⟨tau, T.h, T.g, T.lL, T.rL, T.K0, w⟩] ∧ Y.S = T.S ∧
        (w = true ↔ T.h ≤ r0.h + 1 / 10000 * tau * r0.g.re ∧ 1 / 10 * r0.g.re ≤ T.g.re) ∧
        f ev tau X = .ok (Y, if w = true ∧ X.inSearch = true then .inr tau else .inl T.g.re)) := by
  classical
  constructor
  · intro r hr hrt
    obtain ⟨i, hi⟩ := index_isSome ⟨r, hr, hrt⟩
    obtain ⟨r', hr', ht'⟩ := index_some hi
    refine ⟨r', List.mem_of_getElem? hr', ht', ?_⟩
    unfold f
    rw [hX] at hi hr' ⊢
    simp only [if_neg (not_lt.2 ht), hi, hr', Option.getD_some]
  · intro hne
    obtain ⟨n1, n2⟩ := nearest_spec tau rest r0
    rw [← hX] at n1 n2
    refine ⟨_, n1, n2, fun T hT => ?_⟩
    have hi : index X.hist tau = none := by
      cases e : index X.hist tau with
      | none => rfl
      | some i =>
        obtain ⟨r, hr, hh⟩ := index_some e
        exact absurd hh (hne r (List.mem_of_getElem? hr))
    refine ⟨⟨T.S, X.hist ++ [⟨tau, T.h, T.g, T.lL, T.rL, T.K0, wolfe r0 T.g T.h tau false⟩], X.inSearch⟩,
      wolfe r0 T.g T.h tau false, rfl, rfl, ?_, ?_⟩
    · unfold wolfe
      simp
    · unfold f
      rw [hX] at hi ⊢
      simp only [if_neg (not_lt.2 ht), hi, hT]
      cases wolfe r0 T.g T.h tau false <;> cases X.inSearch <;> simp

/-- **C78**, exceptions: if the root finder converges and returns a point it has visited, and the fits succeed, a search raises nothing but what the
evaluation of the trial states raises; in particular the exception for the Wolfe conditions does not leave it. -/
theorem C78_exceptions (ev : Eval σ M) (hev : ∀ S t K, ev S t K ≠ .error .other) (ex : Extrap) (hex : ∀ l, ex l ≠ none)
    (finder : ℝ → ℝ → Finder) (hfi : ∀ a b, (finder a b).Sound fun _ => False) (tauInit : ℝ) (X : Search σ M) (r0 : Rec M)
    (hX : X.hist = [r0]) :
    (∃ Y x, brentq ev ex finder tauInit X = .ok (Y, x)) ∨ brentq ev ex finder tauInit X = .error .caught := by
  have h := brentq_clean hev hex hfi tauInit (r0 := r0) (X := X) ⟨[], hX, by simp⟩
  cases e : brentq ev ex finder tauInit X with
  | ok p => exact .inl ⟨p.1, p.2, rfl⟩
  | error r =>
    cases r with
    | caught => exact .inr rfl
    | other => exact absurd e h

/-- **C78**, the search direction of `calc_B_CG`: the gradient after a reset; else the gradient plus `β` times the last direction, in the gauge of the
current state, with `β` of Polak and Ribière or of Fletcher and Reeves, not below zero; and the gradient again if `β` is above 100. -/
theorem C78_direction [AddCommGroup V] [Module ℝ V] (o : Ops σ M V) (S : σ) (BG BCG0 BG0 B0 : V) (n n0 : ℝ) (usePR : Bool) (z : ℂ)
    (hz : o.overlap S BG BG0 = .ok z) (hB : o.toGF S BCG0 = .ok B0) (β : ℝ)
    (hβ : β = max 0 (if usePR then (n - z.re) / n0 else n / n0)) :
    direction o S BG n BCG0 BG0 n0 true usePR = .ok BG ∧
    (β ≤ 100 → direction o S BG n BCG0 BG0 n0 false usePR = .ok (BG + β • B0)) ∧
    (100 < β → direction o S BG n BCG0 BG0 n0 false usePR = .ok BG) := by
  have key : (((n : ℂ) - z) / (n0 : ℂ)).re = (n - z.re) / n0 := by
    rw [Complex.div_ofReal_re]; simp
  refine ⟨by simp [direction], fun h => ?_, fun h => ?_⟩ <;> subst hβ <;> cases usePR <;>
    simp only [if_true, Bool.false_eq_true, if_false] at h <;>
    simp only [direction, hz, hB, key, Bool.false_eq_true, if_false, if_true]
  · rw [if_neg (not_lt.2 h)]
  · rw [if_neg (not_lt.2 h)]
  · rw [if_pos h]
  · rw [if_pos h]

theorem trySearch_some {ev : Eval σ M} {ex : Extrap} {finder : ℝ → ℝ → Finder} {t : ℝ} {ls : Search σ M} {p : Search σ M × Found}
    (h : trySearch ev ex finder t ls = .ok (some p)) : brentq ev ex finder t ls = .ok p := by
  unfold trySearch at h
  split at h
  · cases h
  · cases h
  · rename_i r hr; rw [hr]; cases h; rfl

theorem settle_spec {o : Ops σ M V} {S S' : σ} {BCG BG : V} {norm tauInit : ℝ} {r : Option (Search σ M × Found)} {c : CG V}
    (h : settle o S BCG BG norm tauInit r = .ok (S', c)) :
    c.BCG = BCG ∧ c.BG = BG ∧ c.norm = norm ∧
      ((c.tau = tauInit ∧ S' = S ∧ ∀ Y x, r = some (Y, x) → x.tau ≤ 0) ∨
       ∃ Y x e, r = some (Y, x) ∧ Y.hist[x.ind]? = some e ∧ 0 < x.tau ∧ c.tau = x.tau ∧ S' = o.setStart S e.lL e.rL e.K0) := by
  unfold settle at h
  split at h
  · cases h
    exact ⟨rfl, rfl, rfl, .inl ⟨rfl, rfl, fun _ _ h => nomatch h⟩⟩
  · rename_i ls x
    split at h
    · rename_i hx
      split at h
      · cases h
      · rename_i e he
        cases h
        exact ⟨rfl, rfl, rfl, .inr ⟨ls, x, e, rfl, he, hx, rfl, rfl⟩⟩
    · rename_i hx
      cases h
      refine ⟨rfl, rfl, rfl, .inl ⟨rfl, rfl, fun Y y hy => ?_⟩⟩
      cases hy
      exact not_lt.1 hx

theorem restart_spec {o : Ops σ M V} {S S1 : σ} {BG : V} {ls : Search σ M} {ev : Eval σ M} (h : restart o S = .ok (S1, BG, ls, ev)) :
    ∃ S2, o.search S2 BG BG = .ok (S1, ls, ev) := by
  unfold restart at h
  split at h
  · cases h
  · split at h
    · cases h
    · split at h
      · cases h
      · rename_i h3
        cases h
        exact ⟨_, h3⟩

/-- **C78**, the step of `calc_B_CG`.  The step returned is positive, and the norm that of the gradient at the start.  The step is the base step
along the gradient; or it is the result of a search along the direction returned, the starting values for the next update being those of
the point found: then either the energy of that point exceeds that of the start by no more than the tolerance, along a direction along which
the energy does not grow at first, or this is the second search, which is along the gradient. -/
theorem C78_step [AddCommGroup V] [Module ℝ V] (o : Ops σ M V) (ex : Extrap) (finder : ℝ → ℝ → Finder) (S S' : σ) (BCG0 BG0 : V)
    (n0 tau0 tauInit : ℝ) (reset usePR : Bool) (c : CG V) (hpos : 0 < tauInit)
    (hfi : ∀ a b, a ≤ b → (finder a b).Within a b)
    (hs : ∀ S B G S2 ls ev, o.search S B G = .ok (S2, ls, ev) → ∃ r0, ls.hist = [r0] ∧ r0.tau = 0)
    (h : calcBCG o ex finder S BCG0 BG0 n0 tau0 tauInit reset usePR = .ok (S', c)) :
    0 < c.tau ∧ (∃ S1 G eta, o.calcB S = .ok (S1, G, eta) ∧ c.norm = eta ^ 2) ∧
    ((c.tau = tauInit ∧ c.BCG = c.BG) ∨
      ∃ S1 S2 ls ev t Y x r r0, o.search S1 c.BCG c.BG = .ok (S2, ls, ev) ∧ ls.hist = [r0] ∧ brentq ev ex finder t ls = .ok (Y, x) ∧
        Y.hist[x.ind]? = some r ∧ c.tau = x.tau ∧ S' = o.setStart S2 r.lL r.rL r.K0 ∧
        ((t = tauInit ∧ c.BCG = c.BG) ∨
         (t = max tau0 (tauInit / 2) ∧ x.h - r0.h ≤ max (o.rtol * 10) (1 / 10 ^ 14) ∧
          (c.BCG = c.BG ∨ (r0.g.re ≤ 0 ∧ direction o S1 c.BG c.norm BCG0 BG0 n0 reset usePR = .ok c.BCG))))) := by
  unfold calcBCG at h
  split at h
  · cases h
  rename_i S1 BG eta hB
  simp only [] at h
  split at h
  · cases h
  rename_i BCG hdir
  split at h
  · cases h
  rename_i S2 ls ev hls
  split at h
  · cases h
  rename_i S3 BCG3 BG3 ls3 ev3 hfirst
  have first : ∃ S4, o.search S4 BCG3 BG3 = .ok (S3, ls3, ev3) ∧ (BCG3 = BG3 ∨
      (((ls3.hist.head?.map Rec.g).getD 0).re ≤ 0 ∧ direction o S4 BG3 (eta ^ 2) BCG0 BG0 n0 reset usePR = .ok BCG3)) := by
    split at hfirst
    · split at hfirst
      · cases hfirst
      · rename_i hr
        cases hfirst
        obtain ⟨S5, h5⟩ := restart_spec hr
        exact ⟨S5, h5, .inl rfl⟩
    · rename_i hg
      cases hfirst
      exact ⟨S1, hls, .inr ⟨not_lt.1 hg, hdir⟩⟩
  obtain ⟨S4, hS4, hgood⟩ := first
  split at h
  · cases h
  rename_i r hr
  split at h
  · split at h
    · cases h
    rename_i S5 G5 ls5 ev5 h5
    obtain ⟨S6, h6⟩ := restart_spec h5
    split at h
    · cases h
    rename_i r' hr'
    obtain ⟨c1, c2, c3, c4⟩ := settle_spec h
    rcases c4 with ⟨c4, -, -⟩ | ⟨Y, x, e, rfl, he, hx, hc, hS⟩
    · exact ⟨c4 ▸ hpos, ⟨S1, BG, eta, hB, c3⟩, .inl ⟨c4, c1.trans c2.symm⟩⟩
    · obtain ⟨r0, hr0, -⟩ := hs _ _ _ _ _ _ h6
      exact ⟨hc ▸ hx, ⟨S1, BG, eta, hB, c3⟩, .inr ⟨S6, S5, ls5, ev5, tauInit, Y, x, e, r0, by rw [c1, c2]; exact h6, hr0, trySearch_some hr', he,
        hc, hS, .inl ⟨rfl, c1.trans c2.symm⟩⟩⟩
  · rename_i hretry
    obtain ⟨c1, c2, c3, c4⟩ := settle_spec h
    rcases r with - | ⟨Y, x⟩
    · simp [retry] at hretry
    simp only [retry, decide_eq_true_eq, not_or, gt_iff_lt, not_lt] at hretry
    obtain ⟨r0, hr0, hr00⟩ := hs _ _ _ _ _ _ hS4
    have hbq := trySearch_some hr
    obtain ⟨hY0, -⟩ := C78_result _ _ _ _ _ _ _ _ hr0 hr00 hbq
    have hh0 : (Y.hist.head?.map Rec.h).getD 0 = r0.h := by
      rw [List.head?_eq_getElem?, hY0]; rfl
    rw [hh0] at hretry
    have ht : max tau0 (tauInit * (1 / 2)) = max tau0 (tauInit / 2) := by rw [mul_one_div]
    rcases c4 with ⟨c4, -, c5⟩ | ⟨Y', x', e, hrx, he, hx, hc, hS⟩
    · have hneg := c5 Y x rfl
      have hfw := brentq_fwd ex hfi (lt_max_of_lt_right (by linarith)) (r0 := r0) ⟨[], hr0, by simp⟩
        (fun r hr => by rw [hr0, List.mem_singleton] at hr; rw [hr, hr00]) hbq
      exact absurd (le_antisymm hneg hfw) hretry.1
    · cases hrx
      refine ⟨hc ▸ hx, ⟨S1, BG, eta, hB, c3⟩, .inr ⟨S4, S3, ls3, ev3, _, Y, x, e, r0, by rw [c1, c2]; exact hS4, hr0, hbq, he, hc, hS,
        .inr ⟨ht, hretry.2, ?_⟩⟩⟩
      rw [c1, c2, c3]
      rcases hgood with hg | ⟨hg, hd⟩
      · exact .inl hg
      · refine .inr ⟨?_, hd⟩
        simpa [hr0] using hg

/-- **C78**, violated: `bracket_step` calls a method that does not exist, and raises whenever the slope at the given step is not zero. -/
theorem C78_bracket_violated (ev : Eval σ M) (dtau : ℝ) (X Y : Search σ M) (g : ℝ) (h : f ev dtau X = .ok (Y, .inl g)) (hg : g ≠ 0) :
    bracketStep ev dtau X = .error .other := by
  unfold bracketStep Prog.bind
  rw [h]
  simp only []
  rw [if_pos (mul_self_pos.2 hg)]

/-! ### A search along a polynomial -/

namespace USearch

/-- An energy with a minimum, a maximum at `1/2` and a second minimum. -/
noncomputable def demoE (t : ℝ) : ℝ := 25 * t ^ 4 - 98 / 3 * t ^ 3 + 13 * t ^ 2 - t

/-- Its derivative. -/
noncomputable def demoD (t : ℝ) : ℝ := 100 * t ^ 3 - 98 * t ^ 2 + 26 * t - 1

/-- The exact evaluation. -/
noncomputable def demoEv : Eval Unit Unit := fun _ t _ => .ok ⟨(), demoE t, demoD t, (), (), ()⟩

/-- The starting point of the search. -/
noncomputable def demoStart : Rec Unit := ⟨0, 0, -1, (), (), (), false⟩

/-- A point of the search. -/
noncomputable def demoRec (t : ℝ) : Rec Unit := ⟨t, demoE t, demoD t, (), (), (), false⟩

/-- A root finder that asks for both ends and the middle, and returns the middle. -/
noncomputable def demoFinder (a b : ℝ) : Finder := .ask a fun _ => .ask b fun _ => .ask ((a + b) / 2) fun _ => .ret ((a + b) / 2)

/-- A root finder that does not converge. -/
noncomputable def demoStuck (a b : ℝ) : Finder := .ask a fun _ => .ask b fun _ => .runtimeError

theorem demo_wolfe_one : wolfe demoStart (demoD 1) (demoE 1) 1 false = false := by
  simp [wolfe, demoStart, demoE]; norm_num

theorem demo_wolfe_half : wolfe demoStart (demoD (1 / 2)) (demoE (1 / 2)) (1 / 2) false = false := by
  simp [wolfe, demoStart, demoE]; norm_num

theorem demo_f_one (b : Bool) : f demoEv 1 ⟨(), [demoStart], b⟩ = .ok (⟨(), [demoStart, demoRec 1], b⟩, .inl (demoD 1)) := by
  unfold f
  simp only [if_neg (show ¬(1 : ℝ) < 0 by norm_num)]
  have hi : index [demoStart] 1 = none := by simp [index, demoStart]
  rw [hi]
  simp [demoEv, demo_wolfe_one, demoRec]

theorem demo_f_zero (b : Bool) (l : List (Rec Unit)) : f demoEv 0 ⟨(), demoStart :: l, b⟩ = .ok (⟨(), demoStart :: l, b⟩, .inl (-1)) := by
  unfold f
  simp only [if_neg (show ¬(0 : ℝ) < 0 by norm_num)]
  have hi : index (demoStart :: l) 0 = some 0 := by simp [index, demoStart, List.findIdx?_cons]
  rw [hi]
  simp [demoStart]

theorem demo_f_stored (b : Bool) :
    f demoEv 1 ⟨(), [demoStart, demoRec 1], b⟩ = .ok (⟨(), [demoStart, demoRec 1], b⟩, .inl (demoD 1)) := by
  unfold f
  simp only [if_neg (show ¬(1 : ℝ) < 0 by norm_num)]
  have hi : index [demoStart, demoRec 1] 1 = some 1 := by simp [index, demoStart, demoRec, List.findIdx?_cons]
  rw [hi]
  simp [demoRec]

theorem demo_f_half (b : Bool) : f demoEv (1 / 2) ⟨(), [demoStart, demoRec 1], b⟩
    = .ok (⟨(), [demoStart, demoRec 1, demoRec (1 / 2)], b⟩, .inl (demoD (1 / 2))) := by
  unfold f
  simp only [if_neg (show ¬(1 / 2 : ℝ) < 0 by norm_num)]
  have hi : index [demoStart, demoRec 1] (1 / 2) = none := by
    simp only [index, demoStart, demoRec]
    rw [List.findIdx?_eq_none_iff]
    simp
  rw [hi]
  simp only [demoEv, demo_wolfe_half, Bool.false_and, demoRec]
  simp

theorem demo_sane (b : Bool) : saneFirstStep demoEv 1 ⟨(), [demoStart], b⟩ = .ok (⟨(), [demoStart, demoRec 1], b⟩, .inl 1) := by
  have hi : index [demoStart, demoRec 1] 1 = some 1 := by simp [index, demoStart, demoRec, List.findIdx?_cons]
  have hc : clearHist (⟨(), [demoStart], b⟩ : Search Unit Unit) = ⟨(), [demoStart], b⟩ := rfl
  have hn : negC ((demoD 1 : ℝ) : ℂ) = false := by simp [negC, demoD]; norm_num
  unfold saneFirstStep
  simp only []
  unfold Prog.bind saneLoop
  rw [if_pos ⟨by simp [negC], by rw [add_sub_cancel_right]; norm_num⟩]
  unfold Prog.bind
  rw [hc, demo_f_one]
  simp only [hi]
  unfold saneLoop
  simp [demoRec, hn]

/-- The search ends at the maximum. -/
theorem demo_brentq (ex : Extrap) (b : Bool) : brentq demoEv ex demoFinder 1 ⟨(), [demoStart], b⟩
    = .ok (⟨(), [demoStart, demoRec 1, demoRec (1 / 2)], false⟩, ⟨1 / 2, demoE (1 / 2), 2⟩) := by
  have hp : posC ((demoD 1 : ℝ) : ℂ) = true := by simp [posC, demoD]; norm_num
  have hi : index [demoStart, demoRec 1, demoRec (1 / 2)] (1 / 2) = some 2 := by
    simp [index, demoStart, demoRec, List.findIdx?_cons]
  unfold brentq
  simp only [demo_sane]
  simp only [List.getElem?_cons_succ, List.getElem?_cons_zero]
  rw [show wolfe demoStart (demoRec 1).g (demoRec 1).h (demoRec 1).tau false = false from demo_wolfe_one]
  simp only [Bool.false_eq_true, if_false]
  rw [show posC (demoRec 1).g = true from hp]
  simp only [if_true, Prog.ret, demoFinder, Finder.run, Prog.bind, demo_f_zero, show (demoRec 1).tau = 1 from rfl, demo_f_stored,
    show ((0 : ℝ) + 1) / 2 = 1 / 2 by norm_num, demo_f_half]
  unfold finish
  rw [hi]
  rfl

/-- `calc_B_CG` with this search, whatever the direction. -/
noncomputable def demoOps : Ops Unit Unit ℝ where
  calcB _ := .ok ((), 1, 1)
  overlap _ a b := .ok (a * b : ℝ)
  toGF _ b := .ok b
  update _ := .ok ()
  search _ _ _ := .ok ((), ⟨(), [demoStart], false⟩, demoEv)
  setStart _ _ _ _ := ()
  rtol := 0

end USearch

/-- **C78**, violated: although every energy is exact, `calc_B_CG` can return a step to a state of higher energy: the result of the second search is
taken whatever its energy.  Here the slope is that of the energy, and the root found is a maximum. -/
theorem C78_increase_violated (ex : Extrap) :
    ∃ c, calcBCG demoOps ex demoFinder () 0 0 1 1 1 true true = .ok ((), c) ∧ c.tau = 1 / 2 ∧ demoE 0 < demoE c.tau ∧
      (∀ t, HasDerivAt demoE (demoD t) t) ∧ (∀ a b, (demoFinder a b).Sound fun _ => False) ∧
      ∀ a b, a ≤ b → (demoFinder a b).Within a b := by
  refine ⟨⟨1, 1, 1, 1 / 2⟩, ?_, rfl, by simp [demoE]; norm_num, fun t => ?_, fun a b g g' g'' => .inr rfl,
    fun a b h => ⟨le_refl _, h, fun _ => ⟨h, le_refl _, fun _ => ⟨by linarith, by linarith, fun _ => trivial⟩⟩⟩⟩
  · have hr : restart demoOps () = .ok ((), 1, ⟨(), [demoStart], false⟩, demoEv) := rfl
    have hm : max (1 : ℝ) (1 * (1 / 2)) = 1 := by norm_num
    unfold calcBCG
    simp only [demoOps, direction, if_true]
    rw [if_neg (by simp [demoStart])]
    simp only [hm]
    unfold trySearch
    simp only [demo_brentq]
    have hy : retry 0 (some ((⟨(), [demoStart, demoRec 1, demoRec (1 / 2)], false⟩ : Search Unit Unit),
        (⟨1 / 2, demoE (1 / 2), 2⟩ : Found))) = true := by
      simp only [retry, decide_eq_true_eq]
      right
      simp [demoStart, demoE]
      norm_num
    simp only [hy, if_true]
    simp only [restart, demo_brentq]
    simp [settle, demoRec]
  · have h := ((((hasDerivAt_pow 4 t).const_mul 25).sub ((hasDerivAt_pow 3 t).const_mul (98 / 3))).add
      ((hasDerivAt_pow 2 t).const_mul 13)).sub (hasDerivAt_id t)
    have e : demoD t = 25 * (((4 : ℕ) : ℝ) * t ^ (4 - 1)) - 98 / 3 * (((3 : ℕ) : ℝ) * t ^ (3 - 1)) + 13 * (((2 : ℕ) : ℝ) * t ^ (2 - 1)) - 1 := by
      simp only [demoD]; norm_num; ring
    rw [e]
    exact h

/-- **C78**, violated: a root finder that does not converge within its 20 iterations raises an exception that neither the search nor `calc_B_CG`
catches. -/
theorem C78_converge_violated (ex : Extrap) :
    brentq demoEv ex demoStuck 1 ⟨(), [demoStart], false⟩ = .error .other ∧
      calcBCG demoOps ex demoStuck () 0 0 1 1 1 true true = .error .other := by
  have hp : posC ((demoD 1 : ℝ) : ℂ) = true := by simp [posC, demoD]; norm_num
  have hb : brentq demoEv ex demoStuck 1 ⟨(), [demoStart], false⟩ = .error .other := by
    unfold brentq
    simp only [demo_sane]
    simp only [List.getElem?_cons_succ, List.getElem?_cons_zero]
    rw [show wolfe demoStart (demoRec 1).g (demoRec 1).h (demoRec 1).tau false = false from demo_wolfe_one]
    simp only [Bool.false_eq_true, if_false]
    rw [show posC (demoRec 1).g = true from hp]
    simp only [if_true, Prog.ret, demoStuck, Finder.run, Prog.bind, demo_f_zero, show (demoRec 1).tau = 1 from rfl, demo_f_stored]
  refine ⟨hb, ?_⟩
  have hm : max (1 : ℝ) (1 * (1 / 2)) = 1 := by norm_num
  unfold calcBCG
  simp only [demoOps, direction, if_true]
  rw [if_neg (by simp [demoStart])]
  simp only [hm]
  unfold trySearch
  simp only [hb]

/-! ### The hypotheses can be met -/

/-- `C78_result`, `C78_energy`, `C78_wolfe`, `C78_forward` on the polynomial: the energy reported is that of the step. -/
example (ex : Extrap) : ∃ Y x, brentq demoEv ex demoFinder 1 ⟨(), [demoStart], false⟩ = .ok (Y, x) ∧ x.h = demoE (max x.tau 0) ∧ 0 ≤ x.tau := by
  refine ⟨_, _, demo_brentq ex false, ?_, ?_⟩
  · exact C78_energy demoEv ex demoFinder 1 _ _ _ demoStart rfl rfl demoE (by simp [demoStart, demoE])
      (fun S t K T h => by cases h; rfl) (demo_brentq ex false)
  · exact C78_forward demoEv ex demoFinder (C78_increase_violated ex).choose_spec.2.2.2.2.2 1 one_pos _ _ _ demoStart rfl rfl
      (demo_brentq ex false)

/-- `C78_first_step` on the polynomial. -/
example (b : Bool) (hb : b = false) : ∃ Y i, saneFirstStep demoEv 1 ⟨(), [demoStart], b⟩ = .ok (Y, .inl i) ∧
    ∃ (j : ℕ) (r : Rec Unit), j ≤ 9 ∧ Y.hist[i]? = some r ∧ r.tau = 1 / 2 ^ j := by
  refine ⟨_, _, demo_sane b, ?_⟩
  obtain ⟨j, r, h1, h2, h3, -⟩ := C78_first_step demoEv 1 _ _ _ demoStart rfl hb demoE (fun t => demoD t) rfl (by simp [demoStart, demoE])
    (by simp [demoStart, demoD]) (fun S t K T h => by cases h; exact ⟨rfl, rfl⟩) zero_le_one (demo_sane b)
  exact ⟨j, r, h1, h2, h3⟩

/-- `C78_exceptions` and `C78_step` on the polynomial. -/
example : (∃ Y x, brentq demoEv (fun _ => some 1) demoFinder 1 ⟨(), [demoStart], false⟩ = .ok (Y, x)) ∨
    brentq demoEv (fun _ => some 1) demoFinder 1 ⟨(), [demoStart], false⟩ = .error .caught :=
  C78_exceptions demoEv (fun _ _ _ h => by cases h) _ (fun _ h => by cases h) demoFinder
    (C78_increase_violated fun _ => none).choose_spec.2.2.2.2.1 1 _ demoStart rfl

example (ex : Extrap) : ∃ c, calcBCG demoOps ex demoFinder () 0 0 1 1 1 true true = .ok ((), c) ∧ 0 < c.tau := by
  obtain ⟨c, h, -, -, -, -, hf⟩ := C78_increase_violated ex
  refine ⟨c, h, (C78_step demoOps ex demoFinder () () 0 0 1 1 1 true true c one_pos hf ?_ h).1⟩
  intro S B G S2 ls ev hs
  cases hs
  exact ⟨demoStart, rfl, rfl⟩

/-- `C78_direction` with numbers as vectors: `β = 3`. -/
example : direction demoOps () (2 : ℝ) 4 5 (1 / 2) 1 false true = .ok (2 + (3 : ℝ) • 5) :=
  (C78_direction demoOps () 2 5 (1 / 2) 5 4 1 true 1 (by simp [demoOps]) rfl 3 (by norm_num)).2.1 (by norm_num)

/-- `C78_bracket_violated` on the polynomial. -/
example : bracketStep demoEv 1 ⟨(), [demoStart], false⟩ = .error .other :=
  C78_bracket_violated demoEv 1 _ _ _ (demo_f_one false) (by simp [demoD]; norm_num)

end EvoMPS
