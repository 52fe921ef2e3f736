import Verif.InitStateLemmas
import Verif.BondDimLemmas
import Verif.CanonLeftLemmas
import Mathlib.Tactic.IntervalCases
import Mathlib.Tactic.NormNum

/-!
# Property C24: the initial state

`initState N q D = none` means that the constructor raises an `IndexError`.
-/

set_option linter.unusedSectionVars false

namespace EvoMPS

open Matrix

variable {N : ℕ} {q D : ℕ → ℕ}

/-- C24: `initialize_state` succeeds exactly when every bond is at most its neighbour times the
dimension of the site in between. -/
theorem C24_succeeds_iff (hq : ∀ n < N, 0 < q n) (hD : ∀ n ≤ N, 0 < D n) :
    (∃ A, initState N q D = some A) ↔
      ∀ n < N, D (n + 1) ≤ q n * D n ∧ D n ≤ q n * D (n + 1) := by
  constructor
  · rintro ⟨A, hA⟩ n hn
    exact (initSite_isSome (hq n hn) (hD n hn.le) (hD (n + 1) hn)).mp
      ⟨_, initState_spec hA n hn⟩
  · intro h
    exact (foldl_update_option (fun n => initSite (q n) (D n) (D (n + 1))) N 0).2 fun n hn =>
      (initSite_isSome (hq n hn) (hD n hn.le) (hD (n + 1) hn)).mpr (h n hn)

/-- C24: the initial state has full rank: at every bond both environments are diagonal with
strictly positive entries. -/
theorem C24_full_rank (hq : ∀ n < N, 0 < q n) (hD : ∀ n ≤ N, 0 < D n) {A : Tensors ℂ q D}
    (hA : initState N q D = some A) {l r : Envs ℂ D} (hu : UpToDate N A l r) :
    ∀ n ≤ N, (∃ d : Fin (D n) → ℝ, (∀ i, 0 < d i) ∧ l n = diagonal fun i => (d i : ℂ)) ∧
      ∃ d : Fin (D n) → ℝ, (∀ i, 0 < d i) ∧ r n = diagonal fun i => (d i : ℂ) := by
  have hone : ∀ m, PosDiag (1 : Matrix (Fin m) (Fin m) ℂ) := fun m =>
    ⟨fun _ => 1, fun _ => one_pos, by simp⟩
  have hs := fun n hn => initSite_posDiag (hq n hn) (hD n hn.le) (hD (n + 1) hn)
    (initState_spec hA n hn)
  have hl : ∀ n ≤ N, PosDiag (l n) := by
    intro n
    induction n with
    | zero => intro _; rw [hu.l_zero]; exact hone _
    | succ n ih =>
      intro hn
      rw [hu.l_succ n hn]
      exact (hs n hn).1 _ (ih (by omega))
  have hr : ∀ k ≤ N, PosDiag (r (N - k)) := by
    intro k
    induction k with
    | zero => intro _; rw [Nat.sub_zero, hu.r_last]; exact hone _
    | succ k ih =>
      intro hk
      have e : N - k = N - (k + 1) + 1 := by omega
      have := ih (by omega)
      rw [hu.r_pred (N - (k + 1)) (by omega)]
      rw [e] at this
      exact (hs _ (by omega)).2 _ this
  intro n hn
  refine ⟨hl n hn, ?_⟩
  have := hr (N - n) (by omega)
  rwa [show N - (N - n) = n by omega] at this

/-- C24, the norm: it is 1 if every site at which the bond dimension decreases has a left bond
that is the full product space of the site and the right bond.  Missing: other decreasing bond
dimensions, for which it is false (`C24_norm_violated`). -/
theorem C24_norm_partial (hq : ∀ n < N, 0 < q n) (hD : ∀ n ≤ N, 0 < D n) {A : Tensors ℂ q D}
    (hA : initState N q D = some A) (h0 : D 0 = 1) (hN : D N = 1)
    (h : ∀ n < N, D n ≤ D (n + 1) ∨ D n = q n * D (n + 1)) :
    braket (psi (N := N) A h0 hN) (psi A h0 hN) = 1 :=
  braket_of_left_orth (fun n hn => initSite_orth (hq n hn) (hD n hn.le) (hD (n + 1) hn)
    (initState_spec hA n hn) (h n hn)) h0 hN

/-- C24: the constructor can fail.  The bond dimensions `1, 1, 4, 2, 1` of a chain of four sites of
dimension 2 pass the correction, but the initial state cannot be written. -/
theorem C24_raises_violated : ∃ (N : ℕ) (q D : ℕ → ℕ), (∀ n < N, 0 < q n) ∧ (∀ n ≤ N, 0 < D n) ∧
    initState N q (correctBondDim N q D) = none := by
  refine ⟨4, fun _ => 2, fun n => if n = 2 then 4 else if n = 3 then 2 else 1, by simp,
    fun n _ => by dsimp only; split_ifs <;> simp, ?_⟩
  have hpos : ∀ n ≤ 4, 0 < correctBondDim 4 (fun _ => 2)
      (fun n => if n = 2 then 4 else if n = 3 then 2 else 1) n := by
    intro n hn
    rw [correctBondDim_eq (by simp) _ _ hn]
    split_ifs <;> simp
  have := (C24_succeeds_iff (N := 4) (q := fun _ => 2) (by simp) hpos).not.mpr (by
    intro h
    have := (h 1 (by norm_num)).1
    rw [correctBondDim_eq (by simp) _ _ (by norm_num),
      correctBondDim_eq (by simp) _ _ (by norm_num)] at this
    simp at this)
  rw [← Option.not_isSome_iff_eq_none, Option.isSome_iff_exists]
  exact this

/-- The norm of a two-site state whose first tensor is left-orthonormal. -/
theorem two_site_norm (A : Tensors ℂ q D) (h0 : D 0 = 1) (h2 : D 2 = 1)
    (h : ∑ s, (A 0 s)ᴴ * A 0 s = 1) : braket (psi (N := 2) A h0 h2) (psi A h0 h2)
      = (∑ s, (A 1 s)ᴴ * A 1 s) (⟨0, by omega⟩ : Fin (D 2)) (⟨0, by omega⟩ : Fin (D 2)) := by
  have hl : LOk 2 A (mixL A A (1 : Matrix (Fin (D 0)) (Fin (D 0)) ℂ)) := ⟨rfl, fun _ _ => rfl⟩
  have e1 := hl.l_succ 0 (by norm_num)
  rw [hl.l_zero] at e1
  simp only [Matrix.mul_one] at e1
  rw [← hl.last_entry h0 h2]
  have e2 := hl.l_succ 1 (by norm_num)
  rw [show mixL A A (1 : Matrix (Fin (D 0)) (Fin (D 0)) ℂ) 1 = 1 from e1.trans h] at e2
  simp only [Matrix.mul_one] at e2
  exact congrFun (congrFun e2 _) _

/-- C24: the norm need not be 1.  Two sites of dimension 3 with a bond of dimension 2, which the
correction leaves alone, get a state with squared norm 2/3. -/
theorem C24_norm_violated : ∃ (N : ℕ) (q D : ℕ → ℕ) (A : Tensors ℂ q D) (h0 : D 0 = 1)
    (hN : D N = 1), (∀ n < N, 0 < q n) ∧ (∀ n ≤ N, 0 < D n) ∧
      (∀ n ≤ N, correctBondDim N q D n = D n) ∧ initState N q D = some A ∧
      braket (psi (N := N) A h0 hN) (psi A h0 hN) = 2 / 3 := by
  have hq : ∀ n < 2, 0 < (fun _ => 3 : ℕ → ℕ) n := by simp
  have hD : ∀ n ≤ 2, 0 < (fun n => if n = 1 then 2 else 1 : ℕ → ℕ) n := by
    intro n _; dsimp only; split_ifs <;> simp
  obtain ⟨A, hA⟩ := (C24_succeeds_iff hq hD).mpr (by
    intro n hn
    interval_cases n <;> simp)
  refine ⟨2, fun _ => 3, fun n => if n = 1 then 2 else 1, A, rfl, rfl, hq, hD, ?_, hA, ?_⟩
  · intro n hn
    rw [correctBondDim_eq hq _ _ hn]
    interval_cases n <;> simp
  · have o0 := initSite_orth (by norm_num) (by norm_num) (by norm_num)
      (initState_spec hA 0 (by norm_num)) (Or.inl (by simp))
    have e1 : initSite 3 2 1 = some (A 1) := initState_spec hA 1 (by norm_num)
    rw [initSite_dec (by norm_num) (by norm_num), if_pos (by norm_num)] at e1
    have e1' : (decTen 3 2 1 (initF 3) : Ten ℂ 3 2 1) = A 1 := Option.some.inj e1
    have key : ∀ t : Ten ℂ 3 2 1, decTen 3 2 1 (initF 3) = t →
        (∑ s, (t s)ᴴ * t s) 0 0 = 2 / 3 := by
      rintro t rfl
      have e := initF_mul 3
      rw [mul_comm] at e
      simp only [Fin.sum_univ_three, Matrix.add_apply, Matrix.mul_apply,
        Fin.sum_univ_two, conjTranspose_apply, decTen, of_apply]
      simp
      have e' : (starRingEnd ℂ) (initF 3) * initF 3 = 1 / 3 := by
        rw [← Complex.star_def, e]; push_cast; rfl
      rw [e']; norm_num
    exact (two_site_norm A rfl rfl o0).trans (key _ e1')

/-- The hypotheses hold for a chain of three sites of dimension 2 with bond dimensions
`1, 2, 2, 1`; the state has norm 1. -/
example : let D : ℕ → ℕ := fun n => if n = 1 ∨ n = 2 then 2 else 1
    (∀ n ≤ 3, 0 < D n) ∧ (∃ A, initState 3 (fun _ => 2) D = some A) ∧
      ∀ n < 3, D n ≤ D (n + 1) ∨ D n = 2 * D (n + 1) := by
  have hD : ∀ n ≤ 3, 0 < (fun n => if n = 1 ∨ n = 2 then 2 else 1 : ℕ → ℕ) n := by
    intro n _; dsimp only; split_ifs <;> simp
  refine ⟨hD, (C24_succeeds_iff (by simp) hD).mpr ?_, ?_⟩ <;>
  · intro n hn
    interval_cases n <;> simp

end EvoMPS
