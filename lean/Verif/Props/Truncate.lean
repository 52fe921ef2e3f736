import Verif.TruncateLemmas
import Mathlib.Tactic.IntervalCases
import Mathlib.Tactic.FinCases
import Mathlib.Tactic.NormNum
import Mathlib.Analysis.Complex.Basic

/-!
# Properties C20 (automatic truncation) and C21 (truncation)
-/

set_option linter.unusedSectionVars false

namespace EvoMPS

open Matrix

section
variable {N : ℕ} {q D : ℕ → ℕ}

/-- C20, right canonical form: if the left environments are diagonal with ascending non-negative
entries and all entries within the tolerance vanish exactly, then the new bond dimensions are the
numbers of non-vanishing entries, `False` is returned exactly when these are the old dimensions,
and otherwise no amplitude changes. -/
theorem C20_right (A : Tensors ℂ q D) (l r : Envs ℂ D) (hu : UpToDate N A l r) (h0 : D 0 = 1)
    (hN : D N = 1) (hne : braket (psi (N := N) A h0 hN) (psi A h0 hN) ≠ 0)
    (hdiag : ∀ n ≤ N, ∃ d : Fin (D n) → ℝ, Monotone d ∧ (∀ i, 0 ≤ d i) ∧
      l n = diagonal fun i => (d i : ℂ))
    (tol : ℝ) (htol : 0 ≤ tol) (hsep : ∀ n ≤ N, ∀ i, ‖l n i i‖ ≤ tol → l n i i = 0) :
    (∀ n ≤ N, autoDims N tol l n
      = (Finset.univ.filter fun i : Fin (D n) => l n i i ≠ 0).card) ∧
    ∃ res, autoTruncate N A l tol = some res ∧ (res = none ↔ ∀ n ≤ N, autoDims N tol l n = D n) ∧
      ∀ A', res = some A' → ∃ (h0' : autoDims N tol l 0 = 1) (hN' : autoDims N tol l N = 1),
        ∀ s : Cfg q N, psi A' h0' hN' s = psi A h0 hN s := by
  have hl0 : l 0 ≠ 0 := by
    rw [hu.l_zero]; intro h
    have := congrFun (congrFun h ⟨0, by omega⟩) ⟨0, by omega⟩
    rw [one_apply_eq] at this
    exact one_ne_zero this
  have hcard := autoDims_card htol hsep h0 hl0 hdiag
  have hpos : ∀ n ≤ N, 0 < autoDims N tol l n := by
    intro n hn
    obtain ⟨d, _, _, hd⟩ := hdiag n hn
    rw [hcard n hn]
    refine card_pos_of_ne hd fun hz => hne ?_
    rw [← hu.norm_eq h0 hN n hn, hz, adot_eq_trace, conjTranspose_zero, zero_mul, trace_zero]
  have hle : ∀ n ≤ N, autoDims N tol l n ≤ D n := fun n hn => by
    rw [hcard n hn]
    exact (Finset.card_le_univ _).trans (by simp)
  refine ⟨hcard, ?_⟩
  by_cases hsame : ∀ n ≤ N, autoDims N tol l n = D n
  · refine ⟨none, ?_, ⟨fun _ => hsame, fun _ => rfl⟩, by simp⟩
    rw [autoTruncate, if_neg (by rw [sameDims_iff.mpr hsame]; simp)]
  · have hex : ∃ n ≤ N, autoDims N tol l n ≠ D n := by push Not at hsame; exact hsame
    obtain ⟨A', hA', hent⟩ := truncate_spec A (autoDims N tol l) hpos hle hex
    refine ⟨some A', ?_, by simp [hsame], ?_⟩
    · rw [autoTruncate, if_pos (by
        rw [← Bool.not_eq_true]; exact fun h => hsame (sameDims_iff.mp h)), hA']
      rfl
    · rintro _ ⟨⟩
      have h0' : autoDims N tol l 0 = 1 := by
        have := hpos 0 (Nat.zero_le _); have := hle 0 (Nat.zero_le _); omega
      have hN' : autoDims N tol l N = 1 := by
        have := hpos N le_rfl; have := hle N le_rfl; omega
      exact ⟨h0', hN', fun s => cut_left A A' l hu.l_succ hdiag hcard hent h0 hN h0' hN' s⟩

/-- C20, left canonical form: the same with the right environments. -/
theorem C20_left (A : Tensors ℂ q D) (l r : Envs ℂ D) (hu : UpToDate N A l r) (h0 : D 0 = 1)
    (hN : D N = 1) (hne : braket (psi (N := N) A h0 hN) (psi A h0 hN) ≠ 0)
    (hdiag : ∀ n ≤ N, ∃ d : Fin (D n) → ℝ, Monotone d ∧ (∀ i, 0 ≤ d i) ∧
      r n = diagonal fun i => (d i : ℂ))
    (tol : ℝ) (htol : 0 ≤ tol) (hsep : ∀ n ≤ N, ∀ i, ‖r n i i‖ ≤ tol → r n i i = 0) :
    (∀ n ≤ N, autoDims N tol r n
      = (Finset.univ.filter fun i : Fin (D n) => r n i i ≠ 0).card) ∧
    ∃ res, autoTruncate N A r tol = some res ∧ (res = none ↔ ∀ n ≤ N, autoDims N tol r n = D n) ∧
      ∀ A', res = some A' → ∃ (h0' : autoDims N tol r 0 = 1) (hN' : autoDims N tol r N = 1),
        ∀ s : Cfg q N, psi A' h0' hN' s = psi A h0 hN s := by
  have hr : ∀ n ≤ N, r n ≠ 0 := by
    intro n hn hz
    apply hne
    rw [← hu.norm_eq h0 hN n hn, hz, adot_eq_trace, mul_zero, trace_zero]
  have hcard := autoDims_card htol hsep h0 (hr 0 (Nat.zero_le _)) hdiag
  have hpos : ∀ n ≤ N, 0 < autoDims N tol r n := by
    intro n hn
    obtain ⟨d, _, _, hd⟩ := hdiag n hn
    rw [hcard n hn]
    exact card_pos_of_ne hd (hr n hn)
  have hle : ∀ n ≤ N, autoDims N tol r n ≤ D n := fun n hn => by
    rw [hcard n hn]
    exact (Finset.card_le_univ _).trans (by simp)
  refine ⟨hcard, ?_⟩
  by_cases hsame : ∀ n ≤ N, autoDims N tol r n = D n
  · refine ⟨none, ?_, ⟨fun _ => hsame, fun _ => rfl⟩, by simp⟩
    rw [autoTruncate, if_neg (by rw [sameDims_iff.mpr hsame]; simp)]
  · have hex : ∃ n ≤ N, autoDims N tol r n ≠ D n := by push Not at hsame; exact hsame
    obtain ⟨A', hA', hent⟩ := truncate_spec A (autoDims N tol r) hpos hle hex
    refine ⟨some A', ?_, by simp [hsame], ?_⟩
    · rw [autoTruncate, if_pos (by
        rw [← Bool.not_eq_true]; exact fun h => hsame (sameDims_iff.mp h)), hA']
      rfl
    · rintro _ ⟨⟩
      have h0' : autoDims N tol r 0 = 1 := by
        have := hpos 0 (Nat.zero_le _); have := hle 0 (Nat.zero_le _); omega
      have hN' : autoDims N tol r N = 1 := by
        have := hpos N le_rfl; have := hle N le_rfl; omega
      exact ⟨h0', hN', fun s => cut_right A A' r hu.r_pred hdiag hcard hent h0 hN h0' hN' s⟩

end

section
variable {R : Type*} [CommRing R] {N : ℕ} {q D : ℕ → ℕ}

/-- C21: positive dimensions of which none is larger and at least one is smaller are accepted, and
the new tensors are the bottom-right blocks of the old ones.  Missing: `new_D` equal to the current
dimensions, see `C21_same_violated`. -/
theorem C21_truncate_partial (A : Tensors R q D) (newD : ℕ → ℕ) (h1 : ∀ n ≤ N, 0 < newD n)
    (hle : ∀ n ≤ N, newD n ≤ D n) (hne : ∃ n ≤ N, newD n ≠ D n) :
    ∃ A', truncate N A newD = some A' ∧ ∀ n < N, ∀ s (i : Fin (newD n)) (j : Fin (newD (n + 1)))
      (i' : Fin (D n)) (j' : Fin (D (n + 1))), i'.val = D n - newD n + i.val →
      j'.val = D (n + 1) - newD (n + 1) + j.val → A' n s i j = A n s i' j' :=
  truncate_spec A newD h1 hle hne

/-- C21: a larger dimension is rejected. -/
theorem C21_larger_rejected (A : Tensors R q D) (newD : ℕ → ℕ) (h : ∃ n ≤ N, D n < newD n) :
    truncate N A newD = none := by
  rw [truncate, if_pos]
  rw [← Bool.not_eq_true]
  intro h'
  obtain ⟨n, hn, hlt⟩ := h
  exact absurd (leDims_iff.mp h' n hn) (by omega)

/-- C21 fails for the current dimensions, which are in the accepted range: the call raises. -/
theorem C21_same_violated (A : Tensors R q D) (newD : ℕ → ℕ) (h : ∀ n ≤ N, newD n = D n) :
    truncate N A newD = none := by
  rw [truncate]
  split_ifs with h1 h2
  · rfl
  · rfl
  · exact absurd (sameDims_iff.mpr h) h2

/-- C21: reducing an inner bond of dimension two or more to zero raises. -/
theorem C21_zero_raises (A : Tensors R q D) (newD : ℕ → ℕ) {n : ℕ} (hn : n < N)
    (h : newD (n + 1) = 0) (hD : 1 < D (n + 1)) : truncate N A newD = none := by
  refine truncate_none_of_assign A newD hn (assignTen_none _ ?_ ?_)
  · rw [h, sliceLen, if_pos rfl]; omega
  · rw [h, sliceLen, if_pos rfl]; omega

end

/-- The hypotheses of `C21_truncate_partial` hold for bond dimensions `1, 3, 1` reduced to
`1, 2, 1`. -/
example : (∀ n ≤ 2, 0 < (fun n => if n = 1 then 2 else 1 : ℕ → ℕ) n) ∧
    (∀ n ≤ 2, (fun n => if n = 1 then 2 else 1 : ℕ → ℕ) n
      ≤ (fun n => if n = 1 then 3 else 1 : ℕ → ℕ) n) ∧
    ∃ n ≤ 2, (fun n => if n = 1 then 2 else 1 : ℕ → ℕ) n
      ≠ (fun n => if n = 1 then 3 else 1 : ℕ → ℕ) n :=
  ⟨fun n _ => by dsimp only; split_ifs <;> simp, fun n _ => by dsimp only; split_ifs <;> simp,
    1, by norm_num, by simp⟩

namespace Ex20

/-- Bond dimensions `1, 2, 1`. -/
def D : ℕ → ℕ
  | 1 => 2
  | _ => 1

/-- A state of two sites of dimension one whose bond has one redundant index: the first tensor is
`(0, 1)`, the second `(0, 1)ᵀ`. -/
def A : Tensors ℂ (fun _ => 1) D
  | 0 => fun _ => (!![0, 1] : Matrix (Fin 1) (Fin 2) ℂ)
  | 1 => fun _ => (!![0; 1] : Matrix (Fin 2) (Fin 1) ℂ)
  | _ => 0

def l : Envs ℂ D
  | 1 => (!![0, 0; 0, 1] : Matrix (Fin 2) (Fin 2) ℂ)
  | _ => 1

theorem e1 : (!![0, 0; 0, 1] : Matrix (Fin 2) (Fin 2) ℂ)
    = ∑ _s : Fin 1, (!![0, 1] : Matrix (Fin 1) (Fin 2) ℂ)ᴴ *
      (1 : Matrix (Fin 1) (Fin 1) ℂ) * (!![0, 1] : Matrix (Fin 1) (Fin 2) ℂ) := by
  rw [Finset.univ_unique, Finset.sum_singleton, Matrix.mul_one]
  ext i j
  fin_cases i <;> fin_cases j <;> simp [mul_apply]

theorem e2 : (1 : Matrix (Fin 1) (Fin 1) ℂ) = ∑ _s : Fin 1,
    (!![0; 1] : Matrix (Fin 2) (Fin 1) ℂ)ᴴ * (!![0, 0; 0, 1] : Matrix (Fin 2) (Fin 2) ℂ) *
      (!![0; 1] : Matrix (Fin 2) (Fin 1) ℂ) := by
  rw [Finset.univ_unique, Finset.sum_singleton]
  ext i j
  fin_cases i; fin_cases j
  simp [mul_apply]

theorem e3 : (1 : Matrix (Fin 1) (Fin 1) ℂ) = ∑ _s : Fin 1,
    (!![0, 1] : Matrix (Fin 1) (Fin 2) ℂ) * (!![0, 0; 0, 1] : Matrix (Fin 2) (Fin 2) ℂ) *
      (!![0, 1] : Matrix (Fin 1) (Fin 2) ℂ)ᴴ := by
  rw [Finset.univ_unique, Finset.sum_singleton]
  ext i j
  fin_cases i; fin_cases j
  simp [mul_apply]

theorem e4 : (!![0, 0; 0, 1] : Matrix (Fin 2) (Fin 2) ℂ)
    = ∑ _s : Fin 1, (!![0; 1] : Matrix (Fin 2) (Fin 1) ℂ) *
      (1 : Matrix (Fin 1) (Fin 1) ℂ) *
      (!![0; 1] : Matrix (Fin 2) (Fin 1) ℂ)ᴴ := by
  rw [Finset.univ_unique, Finset.sum_singleton, Matrix.mul_one]
  ext i j
  fin_cases i <;> fin_cases j <;> simp [mul_apply]

theorem upToDate : UpToDate 2 A l l := by
  refine ⟨rfl, ?_, rfl, ?_⟩
  · intro n hn
    interval_cases n
    · exact e1
    · exact e2
  · intro n hn
    interval_cases n
    · exact e3
    · exact e4

theorem asc : Monotone (![0, 1] : Fin 2 → ℝ) ∧ (∀ i, 0 ≤ (![0, 1] : Fin 2 → ℝ) i) ∧
    !![0, 0; 0, 1] = diagonal fun i => (((![0, 1] : Fin 2 → ℝ) i : ℝ) : ℂ) := by
  refine ⟨?_, ?_, ?_⟩
  · intro i j hij
    fin_cases i <;> fin_cases j <;> simp at hij ⊢
  · intro i; fin_cases i <;> simp
  · ext i j
    fin_cases i <;> fin_cases j <;> simp [diagonal]

theorem asc1 : Monotone (fun _ : Fin 1 => (1 : ℝ)) ∧ (∀ _ : Fin 1, (0 : ℝ) ≤ 1) ∧
    (1 : Matrix (Fin 1) (Fin 1) ℂ) = diagonal fun _ => (((1 : ℝ)) : ℂ) :=
  ⟨fun _ _ _ => le_rfl, fun _ => zero_le_one, by simp⟩

theorem diag : ∀ n ≤ 2, ∃ d : Fin (D n) → ℝ, Monotone d ∧ (∀ i, 0 ≤ d i) ∧
    l n = diagonal fun i => (d i : ℂ) := by
  intro n hn
  interval_cases n
  · exact ⟨fun _ => 1, asc1⟩
  · exact ⟨(![0, 1] : Fin 2 → ℝ), asc⟩
  · exact ⟨fun _ => 1, asc1⟩

theorem sep : ∀ n ≤ 2, ∀ i, ‖l n i i‖ ≤ 1 / 2 → l n i i = 0 := by
  have h1 : ¬ ‖(1 : ℂ)‖ ≤ 1 / 2 := by
    have : ‖(1 : ℂ)‖ = 1 := by simp
    rw [this]; norm_num
  intro n hn
  interval_cases n
  · change ∀ i : Fin 1, ‖(1 : Matrix (Fin 1) (Fin 1) ℂ) i i‖ ≤ 1 / 2 → _
    intro i h; rw [one_apply_eq] at h; exact absurd h h1
  · change ∀ i : Fin 2, ‖!![(0 : ℂ), 0; 0, 1] i i‖ ≤ 1 / 2 → !![(0 : ℂ), 0; 0, 1] i i = 0
    intro i h
    fin_cases i
    · rfl
    · exact absurd h h1
  · change ∀ i : Fin 1, ‖(1 : Matrix (Fin 1) (Fin 1) ℂ) i i‖ ≤ 1 / 2 → _
    intro i h; rw [one_apply_eq] at h; exact absurd h h1

/-- The hypotheses of `C20_right` and `C20_left` hold for this state with tolerance 1/2; the norm
is not zero and one entry of `l` vanishes. -/
example : UpToDate 2 A l l ∧
    (∀ n ≤ 2, ∃ d : Fin (D n) → ℝ, Monotone d ∧ (∀ i, 0 ≤ d i) ∧
      l n = diagonal fun i => (d i : ℂ)) ∧
    (∀ n ≤ 2, ∀ i, ‖l n i i‖ ≤ 1 / 2 → l n i i = 0) ∧
    braket (psi (N := 2) A rfl rfl) (psi A rfl rfl) ≠ 0 ∧ l 1 (0 : Fin 2) (0 : Fin 2) = 0 := by
  refine ⟨upToDate, diag, sep, ?_, rfl⟩
  rw [← upToDate.norm_eq rfl rfl 0 (by norm_num), upToDate.l_zero, adot_eq_trace,
      conjTranspose_one, Matrix.one_mul, trace_one]
  simp [D]

end Ex20

end EvoMPS
