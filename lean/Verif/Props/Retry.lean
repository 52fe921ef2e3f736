import Verif.Retry
import Mathlib.Tactic

/-!
# C50: repeated attempts

`FirstSuccess f m i r` says that attempt `i` of at most `m` is the first that succeeds, with result `r`.
-/

namespace EvoMPS

open Retry

variable {ρ : Type}

/-- Attempt `i < m` gives `r` and all earlier ones fail. -/
def FirstSuccess (f : ℕ → Option ρ) (m i : ℕ) (r : ρ) : Prop := i < m ∧ f i = some r ∧ ∀ j < i, f j = none

/-- The attempts of `_calc_lr_ARPACK`: one more eigenvalue and five more vectors each time, and a random start
vector from the second attempt on. -/
noncomputable def arpackAttempt (symmetric : Bool) (ev : ρ → ℂ) (solve : ℕ → ℕ → ℕ → Bool → Option ρ) (nev ncv i : ℕ) :
    Option ρ :=
  accept symmetric ev (solve i (nev + i) (ncv + 5 * i) (i == 0))

/-- The attempts of `_calc_E_largest_eigenvalues`. -/
def largestAttempt (solve : ℕ → ℕ → ℕ → Bool → Option ρ) (nev ncv : ℕ) (v0 : Bool) (i : ℕ) : Option ρ :=
  solve i (nev + i) (if i = 0 then ncv else (nev + i) * 3) v0

theorem exists_first_or_none (f : ℕ → Option ρ) (m : ℕ) : (∃ i r, FirstSuccess f m i r) ∨ ∀ i < m, f i = none := by
  classical
  by_cases h : ∃ i, i < m ∧ f i ≠ none
  · left
    obtain ⟨h1, h2⟩ := Nat.find_spec h
    obtain ⟨r, hr⟩ := Option.ne_none_iff_exists'.1 h2
    refine ⟨Nat.find h, r, h1, hr, fun j hj => ?_⟩
    have := Nat.find_min h hj
    push Not at this
    exact this (by omega)
  · right
    push Not at h
    exact h

theorem arpackLoop_first (symmetric : Bool) (ev : ρ → ℂ) (solve : ℕ → ℕ → ℕ → Bool → Option ρ) (nev ncv : ℕ) (r : ρ) :
    ∀ (j m i : ℕ) (S : St ρ), S.nev = nev + i → S.ncv = ncv + 5 * i → S.v0 = (i == 0) → j < m →
      arpackAttempt symmetric ev solve nev ncv (i + j) = some r →
      (∀ k < j, arpackAttempt symmetric ev solve nev ncv (i + k) = none) →
      ∃ v, arpackLoop symmetric ev solve m i S = ⟨some (i + j), some r, nev + (i + j), ncv + 5 * (i + j), v⟩
  | 0, m + 1, i, S, h1, h2, h3, _, h, _ => by
    unfold arpackAttempt at h
    rw [Nat.add_zero] at h
    simp only [arpackLoop]
    rw [h1, h2, h3, h]
    exact ⟨_, rfl⟩
  | j + 1, m + 1, i, S, h1, h2, h3, hj, h, hk => by
    have h0 := hk 0 (by omega)
    unfold arpackAttempt at h0
    rw [Nat.add_zero] at h0
    simp only [arpackLoop]
    rw [h1, h2, h3, h0]
    obtain ⟨v, hv⟩ := arpackLoop_first symmetric ev solve nev ncv r j m (i + 1)
      ⟨some i, S.res, nev + i + 1, ncv + 5 * i + 5, false⟩ (by ring) (by ring) (by simp) (by omega)
      (by rwa [show i + 1 + j = i + (j + 1) by ring])
      (fun k hk' => by rw [show i + 1 + k = i + (k + 1) by ring]; exact hk (k + 1) (by omega))
    exact ⟨v, by rw [hv, show i + 1 + j = i + (j + 1) by ring]⟩

theorem arpackLoop_none (symmetric : Bool) (ev : ρ → ℂ) (solve : ℕ → ℕ → ℕ → Bool → Option ρ) (nev ncv : ℕ) :
    ∀ (m i : ℕ) (S : St ρ), S.nev = nev + i → S.ncv = ncv + 5 * i → S.v0 = (i == 0) →
      (∀ k < m + 1, arpackAttempt symmetric ev solve nev ncv (i + k) = none) →
      (arpackLoop symmetric ev solve (m + 1) i S).i = some (i + m)
  | 0, i, S, h1, h2, h3, hk => by
    have h0 := hk 0 (by omega)
    unfold arpackAttempt at h0
    rw [Nat.add_zero] at h0
    simp only [arpackLoop]
    rw [h1, h2, h3, h0]
    rfl
  | m + 1, i, S, h1, h2, h3, hk => by
    have h0 := hk 0 (by omega)
    unfold arpackAttempt at h0
    rw [Nat.add_zero] at h0
    rw [arpackLoop, h1, h2, h3, h0]
    simp only
    rw [arpackLoop_none symmetric ev solve nev ncv m (i + 1)
      ⟨some i, S.res, nev + i + 1, ncv + 5 * i + 5, false⟩ (by ring) (by ring) (by simp)
      (fun k hk' => by rw [show i + 1 + k = i + (k + 1) by ring]; exact hk (k + 1) (by omega))]
    rw [show i + 1 + m = i + (m + 1) by ring]

/-- The leading eigenvector is returned if and only if an attempt before the last allowed one succeeds, with the
result of the first such attempt. -/
theorem C50_arpack_partial (symmetric : Bool) (ev : ρ → ℂ) (solve : ℕ → ℕ → ℕ → Bool → Option ρ) (nev ncv m : ℕ)
    (r : ρ) (a b : ℕ) :
    calcLrArpack symmetric ev solve nev (some ncv) m = .ok (r, a, b) ↔
      ∃ i, FirstSuccess (arpackAttempt symmetric ev solve nev ncv) (m - 1) i r ∧ a = nev + i ∧ b = ncv + 5 * i := by
  rcases exists_first_or_none (arpackAttempt symmetric ev solve nev ncv) m with ⟨i, r', h1, h2, h3⟩ | h
  · obtain ⟨v, hv⟩ := arpackLoop_first symmetric ev solve nev ncv r' i m 0 ⟨none, none, nev, ncv, true⟩ rfl rfl rfl h1
      (by simpa using h2) (by simpa using h3)
    simp only [zero_add] at hv
    simp only [calcLrArpack, Option.getD_some, hv]
    by_cases hi : (i : ℤ) = m - 1
    · rw [if_pos hi]
      simp only [reduceCtorEq, false_iff, not_exists, not_and]
      rintro j ⟨hj, hj', _⟩
      rw [h3 j (by omega)] at hj'
      cases hj'
    · rw [if_neg hi]
      simp only [Outcome.ok.injEq, Prod.mk.injEq]
      constructor
      · rintro ⟨rfl, rfl, rfl⟩
        exact ⟨i, ⟨by omega, h2, h3⟩, rfl, rfl⟩
      · rintro ⟨j, ⟨hj, hj', hj''⟩, rfl, rfl⟩
        have : i = j := by
          rcases Nat.lt_trichotomy i j with h | h | h
          · rw [hj'' i h] at h2; cases h2
          · exact h
          · rw [h3 j h] at hj'; cases hj'
        subst this
        rw [h2, Option.some.injEq] at hj'
        exact ⟨hj', rfl, rfl⟩
  · have hr : ¬ ∃ i, FirstSuccess (arpackAttempt symmetric ev solve nev ncv) (m - 1) i r ∧ a = nev + i ∧
        b = ncv + 5 * i := by
      rintro ⟨i, ⟨hi, hi', _⟩, _⟩
      rw [h i (by omega)] at hi'
      cases hi'
    refine iff_of_false ?_ hr
    cases m with
    | zero => simp [calcLrArpack, arpackLoop]
    | succ m =>
      have := arpackLoop_none symmetric ev solve nev ncv m 0 ⟨none, none, nev, ncv, true⟩ rfl rfl rfl
        (by simpa using h)
      simp [calcLrArpack, this]

/-- What the leading eigenvector must satisfy: a result returned comes from one of the calls of the solver before the
last allowed one, its eigenvalue is at least `1E-12` in modulus, and it is real if both tensors are the same objects;
all earlier calls raised, or gave an eigenvalue that fails one of these tests. -/
theorem C50_arpack_accepted_partial (symmetric : Bool) (ev : ρ → ℂ) (solve : ℕ → ℕ → ℕ → Bool → Option ρ)
    (nev ncv m : ℕ) (r : ρ) (a b : ℕ) :
    calcLrArpack symmetric ev solve nev (some ncv) m = .ok (r, a, b) ↔
      ∃ i, i < m - 1 ∧ a = nev + i ∧ b = ncv + 5 * i ∧ solve i (nev + i) (ncv + 5 * i) (i == 0) = some r ∧
        1 / 10 ^ 12 ≤ ‖ev r‖ ∧ (symmetric = true → (ev r).im = 0) ∧
        ∀ j < i, ∀ r', solve j (nev + j) (ncv + 5 * j) (j == 0) = some r' →
          ‖ev r'‖ < 1 / 10 ^ 12 ∨ (symmetric = true ∧ (ev r').im ≠ 0) := by
  have key : ∀ (x : Option ρ) (r : ρ), accept symmetric ev x = some r ↔
      x = some r ∧ 1 / 10 ^ 12 ≤ ‖ev r‖ ∧ (symmetric = true → (ev r).im = 0) := by
    intro x r
    cases x with
    | none => simp [accept]
    | some y =>
      simp only [accept, Option.bind_some, Option.some.injEq]
      constructor
      · intro h
        split_ifs at h with h1 h2
        rw [Option.some.injEq] at h
        subst h
        push Not at h1 h2
        exact ⟨rfl, h1, h2⟩
      · rintro ⟨rfl, h1, h2⟩
        rw [if_neg (not_lt.2 h1), if_neg (by push Not; exact h2)]
  have key' : ∀ x : Option ρ, accept symmetric ev x = none ↔
      ∀ r', x = some r' → ‖ev r'‖ < 1 / 10 ^ 12 ∨ (symmetric = true ∧ (ev r').im ≠ 0) := by
    intro x
    constructor
    · rintro h r' rfl
      by_contra hc
      push Not at hc
      have := (key (some r') r').2 ⟨rfl, hc.1, hc.2⟩
      rw [h] at this
      cases this
    · intro h
      cases hx : accept symmetric ev x with
      | none => rfl
      | some r =>
        obtain ⟨h1, h2, h3⟩ := (key x r).1 hx
        rcases h r h1 with h4 | h4
        · exact absurd h2 (not_le.2 h4)
        · exact absurd (h3 h4.1) h4.2
  rw [C50_arpack_partial]
  constructor
  · rintro ⟨i, ⟨h1, h2, h3⟩, rfl, rfl⟩
    obtain ⟨h4, h5, h6⟩ := (key _ r).1 h2
    exact ⟨i, h1, rfl, rfl, h4, h5, h6, fun j hj => (key' _).1 (h3 j hj)⟩
  · rintro ⟨i, h1, rfl, rfl, h4, h5, h6, h7⟩
    exact ⟨i, ⟨h1, (key _ r).2 ⟨h4, h5, h6⟩, fun j hj => (key' _).2 (h7 j hj)⟩, rfl, rfl⟩

/-- If no attempt succeeds, failure is reported. -/
theorem C50_arpack_failure (symmetric : Bool) (ev : ρ → ℂ) (solve : ℕ → ℕ → ℕ → Bool → Option ρ) (nev ncv m : ℕ)
    (hm : 1 ≤ m) (h : ∀ i < m, arpackAttempt symmetric ev solve nev ncv i = none) :
    calcLrArpack symmetric ev solve nev (some ncv) m = .noConvergence := by
  obtain ⟨m, rfl⟩ : ∃ k, m = k + 1 := ⟨m - 1, by omega⟩
  have := arpackLoop_none symmetric ev solve nev ncv m 0 ⟨none, none, nev, ncv, true⟩ rfl rfl rfl (by simpa using h)
  simp [calcLrArpack, this]

/-- Failure is also reported if the last allowed attempt is the first that succeeds; with a single attempt, always. -/
theorem C50_arpack_violated (symmetric : Bool) (ev : ρ → ℂ) (solve : ℕ → ℕ → ℕ → Bool → Option ρ) (nev ncv m : ℕ)
    (hm : 1 ≤ m) (r : ρ) (h : FirstSuccess (arpackAttempt symmetric ev solve nev ncv) m (m - 1) r) :
    calcLrArpack symmetric ev solve nev (some ncv) m = .noConvergence := by
  obtain ⟨h1, h2, h3⟩ := h
  obtain ⟨v, hv⟩ := arpackLoop_first symmetric ev solve nev ncv r (m - 1) m 0 ⟨none, none, nev, ncv, true⟩ rfl rfl rfl h1
    (by simpa using h2) (by simpa using h3)
  simp only [zero_add] at hv
  have hc : ((m - 1 : ℕ) : ℤ) = m - 1 := by omega
  simp only [calcLrArpack, Option.getD_some, hv]
  rw [if_pos hc]

/-! ## Several eigenvalues -/

theorem largestLoop_first (solve : ℕ → ℕ → ℕ → Bool → Option ρ) (nev ncv : ℕ) (v0 : Bool) (r : ρ) :
    ∀ (j m i : ℕ) (S : St ρ), S.nev = nev + i → S.ncv = (if i = 0 then ncv else (nev + i) * 3) → S.v0 = v0 → j < m →
      largestAttempt solve nev ncv v0 (i + j) = some r →
      (∀ k < j, largestAttempt solve nev ncv v0 (i + k) = none) →
      (largestLoop solve m i S).i = some (i + j) ∧ (largestLoop solve m i S).res = some r
  | 0, m + 1, i, S, h1, h2, h3, _, h, _ => by
    unfold largestAttempt at h
    rw [Nat.add_zero] at h
    simp only [largestLoop]
    rw [h1, h2, h3, h]
    exact ⟨rfl, rfl⟩
  | j + 1, m + 1, i, S, h1, h2, h3, hj, h, hk => by
    have h0 := hk 0 (by omega)
    unfold largestAttempt at h0
    rw [Nat.add_zero] at h0
    simp only [largestLoop]
    rw [h1, h2, h3, h0]
    have := largestLoop_first solve nev ncv v0 r j m (i + 1)
      ⟨some i, S.res, nev + i + 1, (nev + i + 1) * 3, v0⟩ (by ring) (by simp [Nat.add_assoc]) rfl (by omega)
      (by rwa [show i + 1 + j = i + (j + 1) by ring])
      (fun k hk' => by rw [show i + 1 + k = i + (k + 1) by ring]; exact hk (k + 1) (by omega))
    rwa [show i + 1 + j = i + (j + 1) by ring] at this

theorem largestLoop_none (solve : ℕ → ℕ → ℕ → Bool → Option ρ) (nev ncv : ℕ) (v0 : Bool) :
    ∀ (m i : ℕ) (S : St ρ), S.nev = nev + i → S.ncv = (if i = 0 then ncv else (nev + i) * 3) → S.v0 = v0 →
      (∀ k < m + 1, largestAttempt solve nev ncv v0 (i + k) = none) →
      (largestLoop solve (m + 1) i S).i = some (i + m)
  | 0, i, S, h1, h2, h3, hk => by
    have h0 := hk 0 (by omega)
    unfold largestAttempt at h0
    rw [Nat.add_zero] at h0
    simp only [largestLoop]
    rw [h1, h2, h3, h0]
    rfl
  | m + 1, i, S, h1, h2, h3, hk => by
    have h0 := hk 0 (by omega)
    unfold largestAttempt at h0
    rw [Nat.add_zero] at h0
    rw [largestLoop, h1, h2, h3, h0]
    simp only
    rw [largestLoop_none solve nev ncv v0 m (i + 1)
      ⟨some i, S.res, nev + i + 1, (nev + i + 1) * 3, v0⟩ (by ring) (by simp [Nat.add_assoc]) rfl
      (fun k hk' => by rw [show i + 1 + k = i + (k + 1) by ring]; exact hk (k + 1) (by omega))]
    rw [show i + 1 + m = i + (m + 1) by ring]

/-- Eigenvalues found iteratively are returned if and only if an attempt before the last allowed one succeeds, with
the result of the first such attempt. -/
theorem C50_largest_partial (dense : ρ) (small fd fs : Bool) (hs : ((small || fd) && !fs) = false)
    (solve : ℕ → ℕ → ℕ → Bool → Option ρ) (nev ncv : ℕ) (v0 : Bool) (m : ℕ) (r : ρ) :
    calcLargest dense small fd fs solve nev ncv v0 m = .ok r ↔
      ∃ i, FirstSuccess (largestAttempt solve nev ncv v0) (m - 1) i r := by
  simp only [calcLargest, hs, Bool.false_eq_true, if_false]
  rcases exists_first_or_none (largestAttempt solve nev ncv v0) m with ⟨i, r', h1, h2, h3⟩ | h
  · obtain ⟨e1, e2⟩ := largestLoop_first solve nev ncv v0 r' i m 0 ⟨none, none, nev, ncv, v0⟩ rfl rfl rfl h1
      (by simpa using h2) (by simpa using h3)
    simp only [zero_add] at e1
    simp only [e1, e2]
    by_cases hi : (i : ℤ) = m - 1
    · rw [if_pos hi]
      simp only [reduceCtorEq, false_iff, not_exists]
      rintro j ⟨hj, hj', _⟩
      rw [h3 j (by omega)] at hj'
      cases hj'
    · rw [if_neg hi]
      simp only [Outcome.ok.injEq]
      constructor
      · rintro rfl
        exact ⟨i, by omega, h2, h3⟩
      · rintro ⟨j, hj, hj', hj''⟩
        have : i = j := by
          rcases Nat.lt_trichotomy i j with h | h | h
          · rw [hj'' i h] at h2; cases h2
          · exact h
          · rw [h3 j h] at hj'; cases hj'
        subst this
        rwa [h2, Option.some.injEq] at hj'
  · have hr : ¬ ∃ i, FirstSuccess (largestAttempt solve nev ncv v0) (m - 1) i r := by
      rintro ⟨i, hi, hi', _⟩
      rw [h i (by omega)] at hi'
      cases hi'
    refine iff_of_false ?_ hr
    cases m with
    | zero => simp [largestLoop]
    | succ m =>
      have := largestLoop_none solve nev ncv v0 m 0 ⟨none, none, nev, ncv, v0⟩ rfl rfl rfl (by simpa using h)
      simp [this]

/-- Small matrices are treated densely, without attempts. -/
theorem C50_largest_dense (dense : ρ) (small fd fs : Bool) (hs : ((small || fd) && !fs) = true)
    (solve : ℕ → ℕ → ℕ → Bool → Option ρ) (nev ncv : ℕ) (v0 : Bool) (m : ℕ) :
    calcLargest dense small fd fs solve nev ncv v0 m = .ok dense := by
  simp [calcLargest, hs]

/-- If no attempt succeeds, failure is reported. -/
theorem C50_largest_failure (dense : ρ) (small fd fs : Bool) (hs : ((small || fd) && !fs) = false)
    (solve : ℕ → ℕ → ℕ → Bool → Option ρ) (nev ncv : ℕ) (v0 : Bool) (m : ℕ) (hm : 1 ≤ m)
    (h : ∀ i < m, largestAttempt solve nev ncv v0 i = none) :
    calcLargest dense small fd fs solve nev ncv v0 m = .noConvergence := by
  obtain ⟨m, rfl⟩ : ∃ k, m = k + 1 := ⟨m - 1, by omega⟩
  have := largestLoop_none solve nev ncv v0 m 0 ⟨none, none, nev, ncv, v0⟩ rfl rfl rfl (by simpa using h)
  simp [calcLargest, hs, this]

/-- Failure is also reported if the last allowed attempt is the first that succeeds. -/
theorem C50_largest_violated (dense : ρ) (small fd fs : Bool) (hs : ((small || fd) && !fs) = false)
    (solve : ℕ → ℕ → ℕ → Bool → Option ρ) (nev ncv : ℕ) (v0 : Bool) (m : ℕ) (hm : 1 ≤ m) (r : ρ)
    (h : FirstSuccess (largestAttempt solve nev ncv v0) m (m - 1) r) :
    calcLargest dense small fd fs solve nev ncv v0 m = .noConvergence := by
  obtain ⟨h1, h2, h3⟩ := h
  obtain ⟨e1, e2⟩ := largestLoop_first solve nev ncv v0 r (m - 1) m 0 ⟨none, none, nev, ncv, v0⟩ rfl rfl rfl h1
    (by simpa using h2) (by simpa using h3)
  have hc : ((m - 1 : ℕ) : ℤ) = m - 1 := by omega
  simp only [calcLargest, hs, Bool.false_eq_true, if_false, e1, zero_add]
  rw [if_pos hc]

/-! ## Excitations -/

/-- Which attempts the excitation routines make depends on the outcomes: the arguments of attempt `i`. -/
def exciteArgs (solve : ℕ → ℕ → ℕ → Bool → Option ρ) (nev ncv : ℕ) : ℕ → ℕ × Bool
  | 0 => (ncv, true)
  | i + 1 =>
    let a := exciteArgs solve nev ncv i
    match solve i nev a.1 a.2 with
    | some _ => a
    | none => (max 20 (nev * (3 + i)), false)

/-- Attempt `i` of the excitation routines. -/
def exciteAttempt (solve : ℕ → ℕ → ℕ → Bool → Option ρ) (nev ncv i : ℕ) : Option ρ :=
  solve i nev (exciteArgs solve nev ncv i).1 (exciteArgs solve nev ncv i).2

theorem exciteLoop_run (M : ℕ) (solve : ℕ → ℕ → ℕ → Bool → Option ρ) (nev ncv : ℕ) :
    ∀ (m i : ℕ) (S : St ρ), S.nev = nev → S.ncv = (exciteArgs solve nev ncv i).1 →
      S.v0 = (exciteArgs solve nev ncv i).2 → i + (m + 1) = M →
      (exciteLoop M solve (m + 1) i S).bind St.res = exciteAttempt solve nev ncv (i + m)
  | 0, i, S, h1, h2, h3, hM => by
    rw [Nat.add_zero]
    have hc : (i : ℤ) = M - 1 := by omega
    simp only [exciteLoop, exciteAttempt]
    rw [h1, h2, h3]
    cases solve i nev (exciteArgs solve nev ncv i).1 (exciteArgs solve nev ncv i).2 with
    | none => simp [hc]
    | some r => rfl
  | m + 1, i, S, h1, h2, h3, hM => by
    have hc : ¬ (i : ℤ) = M - 1 := by omega
    rw [exciteLoop, h1, h2, h3]
    cases hs : solve i nev (exciteArgs solve nev ncv i).1 (exciteArgs solve nev ncv i).2 with
    | none =>
      simp only [if_neg hc]
      rw [exciteLoop_run M solve nev ncv m (i + 1) _ rfl (by simp [exciteArgs, hs]) (by simp [exciteArgs, hs])
        (by omega), show i + 1 + m = i + (m + 1) by ring]
    | some r =>
      simp only
      rw [exciteLoop_run M solve nev ncv m (i + 1) _ rfl (by simp [exciteArgs, hs]) (by simp [exciteArgs, hs])
        (by omega), show i + 1 + m = i + (m + 1) by ring]

/-- The excitation routines make all attempts; they return if and only if the last one succeeds, with its result. -/
theorem C50_excite_partial (solve : ℕ → ℕ → ℕ → Bool → Option ρ) (nev ncv m : ℕ) (hm : 1 ≤ m) (r : ρ) :
    exciteTop solve nev (some ncv) m = .ok r ↔ exciteAttempt solve nev ncv (m - 1) = some r := by
  obtain ⟨m, rfl⟩ : ∃ k, m = k + 1 := ⟨m - 1, by omega⟩
  have := exciteLoop_run (m + 1) solve nev ncv m 0 ⟨none, none, nev, ncv, true⟩ rfl rfl rfl (by omega)
  rw [zero_add] at this
  simp only [Nat.add_sub_cancel, ← this, exciteTop, Option.getD_some]
  cases exciteLoop (m + 1) solve (m + 1) 0 ⟨none, none, nev, ncv, true⟩ with
  | none => simp
  | some S =>
    simp only [Option.bind_some]
    cases S.res <;> simp

/-- Failure is reported although an attempt succeeded. -/
theorem C50_excite_violated : ∃ (solve : ℕ → ℕ → ℕ → Bool → Option ℕ),
    exciteAttempt solve 6 20 0 = some 7 ∧ exciteAttempt solve 6 20 1 = some 7 ∧
      exciteTop solve 6 (some 20) 3 = .noConvergence :=
  ⟨fun i _ _ _ => if i < 2 then some 7 else none, rfl, rfl, rfl⟩

/-! ## Power iteration -/

theorem powerLoop_run {V : Type} (step : V → V) (test : V → V → Bool) :
    ∀ (m i : ℕ) (t x : V),
      (∃ j < m, test (step^[j + 1] t) (step^[j] t) = true ∧
        (∀ k < j, test (step^[k + 1] t) (step^[k] t) = false) ∧
        powerLoop step test m i t x = (step^[j + 1] t, true, some (i + j))) ∨
      ((∀ k < m, test (step^[k + 1] t) (step^[k] t) = false) ∧
        powerLoop step test m i t x =
          (if m = 0 then x else step^[m - 1] t, false, if i + m = 0 then none else some (i + m - 1)))
  | 0, i, t, x => by
    right
    exact ⟨fun k hk => absurd hk (by omega), by simp [powerLoop]⟩
  | m + 1, i, t, x => by
    by_cases h : test (step t) t = true
    · left
      exact ⟨0, by omega, h, fun k hk => absurd hk (by omega), by simp [powerLoop, h]⟩
    · rcases powerLoop_run step test m (i + 1) (step t) t with ⟨j, hj, h1, h2, h3⟩ | ⟨h1, h2⟩
      · left
        refine ⟨j + 1, by omega, h1, fun k hk => ?_, ?_⟩
        · cases k with
          | zero => simpa using h
          | succ k => exact h2 k (by omega)
        · simp only [powerLoop, h, Bool.false_eq_true, if_false]
          rw [h3, show i + 1 + j = i + (j + 1) by ring]
          rfl
      · right
        refine ⟨fun k hk => ?_, ?_⟩
        · cases k with
          | zero => simpa using h
          | succ k => exact h1 k (by omega)
        · simp only [powerLoop, h, Bool.false_eq_true, if_false]
          rw [h2]
          have e1 : i + 1 + m ≠ 0 := by omega
          have e2 : i + (m + 1) ≠ 0 := by omega
          rw [if_neg e1, if_neg e2, show i + 1 + m - 1 = i + (m + 1) - 1 by omega]
          cases m with
          | zero => simp
          | succ m => simp

/-- The power iteration reports convergence if and only if the test succeeds before the last allowed iteration; then
it returns the iterate that passed.  (When the test succeeds in the last iteration, that iterate is returned but
reported as not converged.) -/
theorem C50_power_partial {V : Type} (step : V → V) (test : V → V → Bool) (m : ℕ) (hm : 1 ≤ m) (x : V) :
    ∃ y b i, calcLrPower step test m x = some (y, b, i) ∧
      (b = true ↔ ∃ j, j + 1 < m ∧ test (step^[j + 1] x) (step^[j] x) = true) ∧
      (b = true → y = step^[i + 1] x ∧ test y (step^[i] x) = true) := by
  rcases powerLoop_run step test m 0 x x with ⟨j, hj, h1, h2, h3⟩ | ⟨h1, h2⟩
  · refine ⟨_, _, _, by simp only [calcLrPower, h3, Option.map_some]; rfl, ?_, ?_⟩
    · simp only [zero_add, decide_eq_true_eq]
      constructor
      · intro h
        exact ⟨j, by omega, h1⟩
      · rintro ⟨k, hk, hk'⟩
        have : ¬ k < j := fun hkj => by rw [h2 k hkj] at hk'; cases hk'
        omega
    · intro _
      rw [zero_add]
      exact ⟨rfl, h1⟩
  · have h0 : ¬ 0 + m = 0 := by omega
    rw [if_neg h0] at h2
    refine ⟨_, _, _, by simp only [calcLrPower, h2, Option.map_some]; rfl, ?_, ?_⟩
    · simp only [decide_eq_true_eq]
      constructor
      · intro h
        omega
      · rintro ⟨k, hk, hk'⟩
        rw [h1 k (by omega)] at hk'
        cases hk'
    · intro h
      simp only [decide_eq_true_eq] at h
      omega

/-- With a single iteration allowed, convergence is never reported. -/
theorem C50_power_violated {V : Type} (step : V → V) (test : V → V → Bool) (x : V) (h : test (step x) x = true) :
    calcLrPower step test 1 x = some (step x, false, 0) := by
  simp [calcLrPower, powerLoop, h]

/-! ## The hypotheses can be met -/

/-- A solver that succeeds in the third attempt. -/
noncomputable def thirdTime : ℕ → ℕ → ℕ → Bool → Option ℂ := fun i _ _ _ => if i = 2 then some 1 else none

example : calcLrArpack true id thirdTime 1 (some 20) 4 = .ok (1, 3, 30) :=
  (C50_arpack_partial true id thirdTime 1 20 4 1 3 30).2
    ⟨2, ⟨by omega, by norm_num [arpackAttempt, thirdTime, accept], fun j hj => by
      have : j ≠ 2 := by omega
      simp [arpackAttempt, thirdTime, accept, this]⟩, rfl, rfl⟩

example : calcLrArpack true id thirdTime 1 (some 20) 3 = .noConvergence :=
  C50_arpack_violated true id thirdTime 1 20 3 (by omega) 1
    ⟨by omega, by norm_num [arpackAttempt, thirdTime, accept], fun j hj => by
      have : j ≠ 2 := by omega
      simp [arpackAttempt, thirdTime, accept, this]⟩

example : calcLargest 0 false false false thirdTime 2 0 true 3 = .noConvergence :=
  C50_largest_violated 0 false false false rfl thirdTime 2 0 true 3 (by omega) 1
    ⟨by omega, rfl, fun j hj => by
      have : j ≠ 2 := by omega
      simp [largestAttempt, thirdTime, this]⟩

end EvoMPS
