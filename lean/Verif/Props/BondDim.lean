import Verif.BondDimLemmas

/-!
# Bond dimensions of open chains (C22, C23)

The statements only use products of site dimensions: `∏ i ∈ range n, q i` is the dimension of the
Hilbert space of the `n` sites left of bond `n`, `∏ i ∈ Ico n N, q i` that of the sites to its
right.
-/

namespace EvoMPS

open Finset

variable {N : ℕ} {q : ℕ → ℕ}

/-- C22: every inner bond becomes the smallest of the requested dimension and the dimensions of
the two half chains, the ends become 1. -/
theorem C22_corrected_dims (hq : ∀ n < N, 0 < q n) (D : ℕ → ℕ) :
    correctBondDim N q D 0 = 1 ∧ correctBondDim N q D N = 1 ∧
      ∀ n, 0 < n → n < N → correctBondDim N q D n
        = min (D n) (min (∏ i ∈ range n, q i) (∏ i ∈ Ico n N, q i)) := by
  refine ⟨?_, ?_, fun n h0 hn => ?_⟩
  · rw [correctBondDim_eq hq _ _ (Nat.zero_le _), if_pos (Or.inl rfl)]
  · rw [correctBondDim_eq hq _ _ le_rfl, if_pos (Or.inr rfl)]
  · rw [correctBondDim_eq hq _ _ hn.le, if_neg (by omega)]

/-- C22: no positive bond dimension is increased. -/
theorem C22_never_increases (hq : ∀ n < N, 0 < q n) (D : ℕ → ℕ) (hD : ∀ n ≤ N, 0 < D n) :
    ∀ n ≤ N, correctBondDim N q D n ≤ D n ∧ 0 < correctBondDim N q D n := by
  intro n hn
  have p1 : 0 < ∏ i ∈ range n, q i := by
    rw [Finset.range_eq_Ico]; exact prod_pos_Ico hq 0 n hn
  have p2 : 0 < ∏ i ∈ Ico n N, q i := prod_pos_Ico hq n N le_rfl
  have := hD n hn
  rw [correctBondDim_eq hq _ _ hn]
  split_ifs with h <;> omega

/-- C22: correcting twice is the same as correcting once. -/
theorem C22_idempotent (hq : ∀ n < N, 0 < q n) (D : ℕ → ℕ) :
    ∀ n ≤ N, correctBondDim N q (correctBondDim N q D) n = correctBondDim N q D n := by
  intro n hn
  rw [correctBondDim_eq hq _ _ hn, correctBondDim_eq hq _ _ hn]
  split_ifs <;> omega

/-- C22, the part of the claim about full-rank states that does hold: if the requested dimensions
already satisfy the neighbour conditions, so do the corrected ones.  Missing: the code does not
establish the conditions itself, see `C22_neighbour_violated`. -/
theorem C22_neighbour_partial (hq : ∀ n < N, 0 < q n) (D : ℕ → ℕ)
    (h : ∀ n < N, D (n + 1) ≤ D n * q n ∧ D n ≤ q n * D (n + 1)) (h1 : ∀ n ≤ N, 0 < D n) :
    ∀ n < N, correctBondDim N q D (n + 1) ≤ correctBondDim N q D n * q n ∧
      correctBondDim N q D n ≤ q n * correctBondDim N q D (n + 1) := by
  intro n hn
  have hqn := hq n hn
  have := h n hn
  have e1 : ∏ i ∈ range (n + 1), q i = (∏ i ∈ range n, q i) * q n := prod_range_succ _ _
  have e2 : ∏ i ∈ Ico n N, q i = q n * ∏ i ∈ Ico (n + 1) N, q i :=
    Finset.prod_eq_prod_Ico_succ_bot hn _
  have p0 : ∏ i ∈ range 0, q i = 1 := by simp
  have pN : ∏ i ∈ Ico N N, q i = 1 := by simp
  have key : ∀ n ≤ N, correctBondDim N q D n
      = min (D n) (min (∏ i ∈ range n, q i) (∏ i ∈ Ico n N, q i)) := by
    intro n hn
    have p1 : 0 < ∏ i ∈ range n, q i := by
      rw [Finset.range_eq_Ico]; exact prod_pos_Ico hq 0 n hn
    have p2 : 0 < ∏ i ∈ Ico n N, q i := prod_pos_Ico hq n N le_rfl
    have hd := h1 n hn
    rw [correctBondDim_eq hq _ _ hn]
    split_ifs with hc
    · rcases hc with rfl | rfl
      · rw [p0]; omega
      · rw [pN]; omega
    · rfl
  have g1 : ∏ i ∈ Ico (n + 1) N, q i ≤ (∏ i ∈ Ico n N, q i) * q n := by
    rw [e2]; nlinarith [Nat.le_mul_of_pos_left (∏ i ∈ Ico (n + 1) N, q i) (Nat.mul_pos hqn hqn)]
  have g2 : ∏ i ∈ range n, q i ≤ q n * ∏ i ∈ range (n + 1), q i := by
    rw [e1]; nlinarith [Nat.le_mul_of_pos_left (∏ i ∈ range n, q i) (Nat.mul_pos hqn hqn)]
  rw [key n hn.le, key (n + 1) hn]
  constructor
  · rw [min_mul_of_nonneg _ _ (Nat.zero_le _), min_mul_of_nonneg _ _ (Nat.zero_le _), ← e1]
    omega
  · rw [mul_min_of_nonneg _ _ (Nat.zero_le _), mul_min_of_nonneg _ _ (Nat.zero_le _), ← e2]
    omega

/-- C22: the claim that the corrected dimensions admit a full-rank state fails.  Four sites of
dimension two with requested dimensions `1, 1, 4, 2, 1` are left alone, although bond 2 can carry
at most two states. -/
theorem C22_neighbour_violated : ∃ (N : ℕ) (q D : ℕ → ℕ), (∀ n < N, 0 < q n) ∧
    (∀ n ≤ N, 0 < D n) ∧ ∃ n < N,
      ¬ correctBondDim N q D (n + 1) ≤ correctBondDim N q D n * q n :=
  ⟨4, fun _ => 2, fun n => if n = 2 then 4 else if n = 3 then 2 else 1, by simp,
    fun n _ => by dsimp only; split_ifs <;> simp, 1, by norm_num, by
    rw [correctBondDim_eq (by simp) _ _ (by norm_num), correctBondDim_eq (by simp) _ _ (by norm_num)]
    simp⟩

/-- The hypotheses of the theorems above hold for 3 sites of dimension 2, 3, 2 with bonds of
dimension 5, and the correction does something. -/
example : let q : ℕ → ℕ := fun n => if n = 1 then 3 else 2
    (∀ n < 3, 0 < q n) ∧ (∀ n ≤ 3, 0 < (fun _ => 5 : ℕ → ℕ) n) ∧
      (List.range 4).map (correctBondDim 3 q fun _ => 5) = [1, 2, 2, 1] := by
  refine ⟨fun n _ => ?_, by simp, by decide⟩
  dsimp only; split_ifs <;> simp

/-- The neighbour conditions of `C22_neighbour_partial` hold for constant bond dimensions. -/
example : ∀ n < 3, (fun _ => 5 : ℕ → ℕ) (n + 1) ≤ (fun _ => 5 : ℕ → ℕ) n * 2 ∧
    (fun _ => 5 : ℕ → ℕ) n ≤ 2 * (fun _ => 5 : ℕ → ℕ) (n + 1) := by simp

/-- C23: `maxD_is_less_than(Dmax)` is true exactly when some inner bond is smaller than the largest
dimension it could have in a chain limited to `Dmax` and to the half-chain dimensions. -/
theorem C23_max_dim (hN : 0 < N) (hq : ∀ n < N, 0 < q n) (D : ℕ → ℕ) (h0 : D 0 = 1)
    (h1 : D N = 1) (Dmax : ℕ) :
    maxDIsLessThan N q D Dmax = true ↔ ∃ n, 0 < n ∧ n < N ∧
      D n < min Dmax (min (∏ i ∈ range n, q i) (∏ i ∈ Ico n N, q i)) := by
  rw [maxDIsLessThan]
  obtain ⟨a0, a1, a2⟩ := maxDForward_spec
    (fun n => if n = 0 then D 0 else if n < N then Dmax else D N) Dmax hq (by simp [h0])
    (fun n h h' => by simp [h', h.ne']) hN
  obtain ⟨b0, b1, b2⟩ := maxDBackward_spec _ Dmax hq (a2.trans (by simp [h1, hN.ne'])) a1 hN
  simp only [List.any_eq_true, List.mem_range, decide_eq_true_eq]
  constructor
  · rintro ⟨n, hn, h⟩
    rcases Nat.eq_zero_or_pos n with rfl | hpos
    · rw [b0, a0, h0] at h; omega
    · rcases Nat.lt_or_ge n N with hlt | hge
      · exact ⟨n, hpos, hlt, by rwa [b1 n hpos hlt] at h⟩
      · obtain rfl : n = N := by omega
        rw [b2, h1] at h; omega
  · rintro ⟨n, hpos, hlt, h⟩
    exact ⟨n, by omega, by rwa [b1 n hpos hlt]⟩

/-- The hypotheses hold for three sites of dimension two, and both answers occur. -/
example : let D : ℕ → ℕ := fun n => if n = 1 then 2 else 1
    D 0 = 1 ∧ D 3 = 1 ∧ maxDIsLessThan 3 (fun _ => 2) D 2 = true ∧
      maxDIsLessThan 3 (fun _ => 2) D 1 = false := by decide

end EvoMPS
