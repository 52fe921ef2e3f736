import Verif.GenCG
import Mathlib.Tactic.Linarith
import Mathlib.Tactic.NormNum
import Mathlib.Algebra.Order.Ring.Pow

/-!
# C102: the conjugate-gradient step of a finite chain
-/

namespace EvoMPS

open GenCG

variable {V : Type*} [AddCommMonoid V] [Module ℝ V]

/-- The tangent vector `g + β p` of a chain of `N` sites, with no entry where `g` has none. -/
def cgSum (N : ℕ) (g p : ℕ → Option V) (β : ℝ) (n : ℕ) : Option V :=
  if 1 ≤ n ∧ n ≤ N then (g n).bind fun b => (p n).map fun c => b + β • c else none

theorem combine_spec (g p : ℕ → Option V) (β : ℝ) : ∀ N : ℕ, (∀ n, 1 ≤ n → n ≤ N → (g n).isSome → (p n).isSome) →
    combine g p β N = some (cgSum N g p β)
  | 0, _ => by
    unfold combine
    congr 1
    funext n
    unfold cgSum
    rw [if_neg (by omega)]
  | N + 1, h => by
    have ih := combine_spec g p β N fun n h1 h2 => h n h1 (by omega)
    have hN := h (N + 1) (by omega) le_rfl
    unfold combine
    rw [ih]
    rcases eg : g (N + 1) with _ | b
    · simp only []
      congr 1
      funext n
      unfold cgSum
      by_cases hn : n = N + 1
      · subst hn
        rw [if_neg (by omega), if_pos (by omega), eg]
        rfl
      · by_cases h1 : 1 ≤ n ∧ n ≤ N
        · rw [if_pos h1, if_pos (by omega)]
        · rw [if_neg h1, if_neg (by omega)]
    · rcases ep : p (N + 1) with _ | c
      · rw [eg, ep] at hN
        simp at hN
      · simp only []
        congr 1
        funext n
        unfold cgSum
        by_cases hn : n = N + 1
        · subst hn
          rw [if_pos rfl, if_pos (by omega), eg, ep]
          rfl
        · rw [if_neg hn]
          by_cases h1 : 1 ≤ n ∧ n ≤ N
          · rw [if_pos h1, if_pos (by omega)]
          · rw [if_neg h1, if_neg (by omega)]

theorem combine_none (g p : ℕ → Option V) (β : ℝ) (n : ℕ) (hg : (g n).isSome) (hp : p n = none) :
    ∀ N : ℕ, 1 ≤ n → n ≤ N → combine g p β N = none
  | 0, h1, h2 => by omega
  | N + 1, h1, h2 => by
    unfold combine
    by_cases hn : n = N + 1
    · subst hn
      rcases combine g p β N with _ | f
      · rfl
      · rcases eg : g (N + 1) with _ | b
        · rw [eg] at hg
          simp at hg
        · rw [hp]
    · rw [combine_none g p β n hg hp N h1 (by omega)]

/-- **C102** (the direction).  The vector returned is the gradient, or, only without a reset, the sum of the gradient and of the
previous direction times the quotient of the squared norms. -/
theorem C102_direction (O : Obj V) (prev : ℕ → Option V) (eta0 dtau thr : ℝ) (reset : Bool) (R : Result V)
    (h : calcBCG O prev eta0 dtau reset thr = some R)
    (hp : ∀ n, 1 ≤ n → n ≤ O.N → (O.grad n).isSome → (prev n).isSome) (h0 : eta0 ≠ 0) :
    R.grad = O.grad ∧ R.eta = O.eta ∧ (R.dir = O.grad ∨
      (reset = false ∧ ∃ β : ℝ, β * eta0 ^ 2 = O.eta ^ 2 ∧ R.dir = cgSum O.N O.grad prev β)) := by
  unfold calcBCG direction at h
  cases reset with
  | true =>
    simp only [if_true] at h
    split_ifs at h <;> simp only [Option.some.injEq] at h <;> subst h <;> exact ⟨rfl, rfl, Or.inl rfl⟩
  | false =>
    rw [if_neg (by simp), combine_spec _ _ _ _ hp] at h
    have hb : max 0 (O.eta ^ 2 / eta0 ^ 2) * eta0 ^ 2 = O.eta ^ 2 := by
      rw [max_eq_right (by positivity)]
      exact div_mul_cancel₀ _ (pow_ne_zero 2 h0)
    simp only [] at h
    split_ifs at h <;> simp only [Option.some.injEq] at h <;> subst h
    · exact ⟨rfl, rfl, Or.inl rfl⟩
    · exact ⟨rfl, rfl, Or.inl rfl⟩
    · exact ⟨rfl, rfl, Or.inl rfl⟩
    · exact ⟨rfl, rfl, Or.inr ⟨rfl, _, hb, rfl⟩⟩

/-- **C102** (which direction).  If the line search along the combined vector finds a step that is not zero and does not raise the
energy, that vector and that step are returned. -/
theorem C102_kept (O : Obj V) (prev : ℕ → Option V) (eta0 dtau thr : ℝ)
    (hp : ∀ n, 1 ≤ n → n ≤ O.N → (O.grad n).isSome → (prev n).isSome) (h0 : eta0 ≠ 0) (ht : thr ≤ O.eta)
    (hs : (O.search (cgSum O.N O.grad prev (O.eta ^ 2 / eta0 ^ 2)) dtau false).1 ≠ 0)
    (hh : (O.search (cgSum O.N O.grad prev (O.eta ^ 2 / eta0 ^ 2)) dtau false).2 ≤ O.energy) :
    calcBCG O prev eta0 dtau false thr = some
      ⟨cgSum O.N O.grad prev (O.eta ^ 2 / eta0 ^ 2), O.grad, O.eta,
        (O.search (cgSum O.N O.grad prev (O.eta ^ 2 / eta0 ^ 2)) dtau false).1⟩ := by
  have hb : max 0 (O.eta ^ 2 / eta0 ^ 2) = O.eta ^ 2 / eta0 ^ 2 := max_eq_right (by positivity)
  have hl : decide (O.eta < thr) = false := by simpa using ht
  unfold calcBCG direction
  rw [if_neg (by simp), combine_spec _ _ _ _ hp, hb]
  simp only [hl]
  rw [if_neg hs, if_neg (by intro h; linarith [h.2])]

/-- **C102** (a reset).  With `reset` the previous direction and its norm have no influence. -/
theorem C102_reset (O : Obj V) (prev prev' : ℕ → Option V) (eta0 eta0' dtau thr : ℝ) :
    calcBCG O prev eta0 dtau true thr = calcBCG O prev' eta0' dtau true thr ∧
      ∃ R, calcBCG O prev eta0 dtau true thr = some R ∧ R.dir = O.grad := by
  refine ⟨by simp only [calcBCG, direction, if_true], ?_⟩
  unfold calcBCG direction
  simp only [if_true]
  split_ifs <;> exact ⟨_, rfl, rfl⟩

/-- **C102** (the energy).  Let `E B τ` be the energy after a step of length `τ` along `B`, with `E B 0` the present energy.  If
the norm of the gradient is not below the threshold and the line search reports the energy at the step it returns, then the step
returned with the vector returned does not raise the energy.

What is missing: below the threshold the energy is not looked at, see `C102_low_violated`. -/
theorem C102_energy_partial (O : Obj V) (E : (ℕ → Option V) → ℝ → ℝ) (hE0 : ∀ B, E B 0 = O.energy)
    (hE : ∀ B d, (O.search B d false).2 = E B (O.search B d false).1)
    (prev : ℕ → Option V) (eta0 dtau thr : ℝ) (reset : Bool) (ht : thr ≤ O.eta) (R : Result V)
    (h : calcBCG O prev eta0 dtau reset thr = some R) : E R.dir R.tau ≤ O.energy := by
  have hl : decide (O.eta < thr) = false := by simpa using ht
  unfold calcBCG at h
  rcases ed : direction O prev eta0 reset with _ | d
  · rw [ed] at h
    cases h
  · rw [ed] at h
    simp only [hl] at h
    split_ifs at h with h1 h2 h3 <;> simp only [Option.some.injEq] at h <;> subst h <;> simp only []
    · rw [h1, hE0]
    · rw [hE0]
    · rw [← hE]
      exact not_lt.mp h3
    · rw [← hE]
      exact not_lt.mp fun hc => h2 ⟨trivial, hc⟩

/-- **C102** (missing entries).  The call raises if and only if there is no reset and the previous direction has no entry at a site
where the gradient has one, as after a change of the bond dimensions. -/
theorem C102_raises (O : Obj V) (prev : ℕ → Option V) (eta0 dtau thr : ℝ) (reset : Bool) :
    calcBCG O prev eta0 dtau reset thr = none ↔
      reset = false ∧ ∃ n, 1 ≤ n ∧ n ≤ O.N ∧ (O.grad n).isSome ∧ prev n = none := by
  constructor
  · intro h
    cases reset with
    | true =>
      obtain ⟨R, hR, _⟩ := (C102_reset O prev prev eta0 eta0 dtau thr).2
      rw [hR] at h
      cases h
    | false =>
      refine ⟨rfl, ?_⟩
      by_contra hc
      have hp : ∀ n, 1 ≤ n → n ≤ O.N → (O.grad n).isSome → (prev n).isSome := by
        intro n h1 h2 h3
        by_contra h4
        exact hc ⟨n, h1, h2, h3, by simpa using h4⟩
      unfold calcBCG direction at h
      rw [if_neg (by simp), combine_spec _ _ _ _ hp] at h
      simp only [] at h
      split_ifs at h
  · rintro ⟨rfl, n, h1, h2, h3, h4⟩
    unfold calcBCG direction
    rw [if_neg (by simp), combine_none _ _ _ n h3 h4 _ h1 h2]

/-- A chain with one site and one real parameter, with the energy `x²` at `x = 1` and the gradient `2 x`, and a line search that
returns the length `t`. -/
noncomputable def cgExample (t : ℝ) : Obj ℝ where
  N := 1
  grad := fun n => if n = 1 then some 2 else none
  eta := 2
  energy := 1
  search := fun B _ _ => (t, (1 - t * ((B 1).getD 0)) ^ 2)

/-- **C102**, not for a small gradient: the step may raise the energy if the norm of the gradient is below the threshold. -/
theorem C102_low_violated : ∃ (O : Obj ℝ) (E : (ℕ → Option ℝ) → ℝ → ℝ), (∀ B, E B 0 = O.energy) ∧
    (∀ B d b, (O.search B d b).2 = E B (O.search B d b).1) ∧
    ∃ R, calcBCG O (fun _ => none) 1 1 true 3 = some R ∧ O.energy < E R.dir R.tau := by
  refine ⟨cgExample 2, fun B t => (1 - t * ((B 1).getD 0)) ^ 2, fun B => by simp [cgExample], fun B d b => rfl,
    ⟨fun n => if n = 1 then some 2 else none, fun n => if n = 1 then some 2 else none, 2, 2⟩, ?_, ?_⟩
  · simp only [calcBCG, direction, cgExample, if_true]
    rw [if_neg (by norm_num), if_neg (by rintro ⟨h, -⟩; norm_num at h)]
  · norm_num [cgExample]

/-- The hypotheses of `C102_direction`, `C102_kept` and `C102_energy_partial` are met: a chain with one parameter, not reset. -/
example : (∀ n, 1 ≤ n → n ≤ (cgExample (1 / 4)).N → ((cgExample (1 / 4)).grad n).isSome →
      ((fun _ => some (1 : ℝ) : ℕ → Option ℝ) n).isSome) ∧ (2 : ℝ) ≠ 0 ∧ (1 : ℝ) ≤ (cgExample (1 / 4)).eta ∧
    ((cgExample (1 / 4)).search (cgSum 1 (cgExample (1 / 4)).grad (fun _ => some 1) (2 ^ 2 / 2 ^ 2)) 1 false).1 ≠ 0 ∧
    ((cgExample (1 / 4)).search (cgSum 1 (cgExample (1 / 4)).grad (fun _ => some 1) (2 ^ 2 / 2 ^ 2)) 1 false).2
      ≤ (cgExample (1 / 4)).energy ∧
    ∃ E : (ℕ → Option ℝ) → ℝ → ℝ, (∀ B, E B 0 = (cgExample (1 / 4)).energy) ∧
      ∀ B d, ((cgExample (1 / 4)).search B d false).2 = E B ((cgExample (1 / 4)).search B d false).1 := by
  refine ⟨fun _ _ _ _ => rfl, two_ne_zero, by norm_num [cgExample], by norm_num [cgExample], ?_,
    fun B t => (1 - t * ((B 1).getD 0)) ^ 2, fun B => by simp [cgExample], fun B d => rfl⟩
  norm_num [cgExample, cgSum]

end EvoMPS
