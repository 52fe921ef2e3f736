import Verif.ExciteWindow
import Mathlib.Topology.Instances.Matrix

/-!
# Excitations: limits and the sum over the positions (helper lemmas)
-/

set_option linter.unusedSectionVars false

namespace EvoMPS

open Matrix Filter Topology

namespace Exc

variable {q D : ℕ}

theorem continuous_mapR (P Q : Ten ℂ q D D) : Continuous (mapR P Q) := by
  unfold mapR
  fun_prop

theorem continuous_mapL (P Q : Ten ℂ q D D) : Continuous (mapL P Q) := by
  unfold mapL
  fun_prop

theorem continuous_close (A : Ten ℂ q D D) (l : Matrix (Fin D) (Fin D) ℂ) (B' : Ten ℂ q D D) : Continuous (close A l B') := by
  unfold close
  have := continuous_mapR A B'
  fun_prop

/-- The last few terms of a null sequence. -/
theorem tail_zero {g : ℕ → ℂ} (hg : Tendsto g atTop (𝓝 0)) (i : ℕ) :
    Tendsto (fun N => ∑ j ∈ Finset.range N, g j - ∑ j ∈ Finset.range (N - i), g j) atTop (𝓝 0) := by
  have h : ∀ N, i ≤ N → ∑ j ∈ Finset.range N, g j - ∑ j ∈ Finset.range (N - i), g j
      = ∑ t ∈ Finset.range i, g (N - i + t) := by
    intro N hN
    have e : N = (N - i) + i := by omega
    conv_lhs => rw [e]
    rw [Finset.sum_range_add]
    simp
  have h0 : Tendsto (fun N => ∑ t ∈ Finset.range i, g (N - i + t)) atTop (𝓝 (∑ _t ∈ Finset.range i, (0 : ℂ))) := by
    refine tendsto_finsetSum _ fun t _ => hg.comp ?_
    exact tendsto_atTop_mono (fun N => (by omega : N - i ≤ N - i + t)) (tendsto_sub_atTop_nat i)
  rw [Finset.sum_const_zero] at h0
  refine h0.congr' ?_
  filter_upwards [eventually_ge_atTop i] with N hN
  exact (h N hN).symm

/-- A sum of finitely many terms that start late. -/
theorem late_sum (g : ℕ → ℂ) (i N : ℕ) :
    ∑ k ∈ Finset.range N, (if i ≤ k then g (k - i) else 0) = ∑ j ∈ Finset.range (N - i), g j := by
  rcases le_or_gt i N with h | h
  · have e : N = i + (N - i) := by omega
    conv_lhs => rw [e]
    rw [Finset.sum_range_add, Finset.sum_eq_zero, zero_add]
    · refine Finset.sum_congr rfl fun j _ => ?_
      rw [if_pos (by omega), show i + j - i = j by omega]
    · intro k hk
      have := Finset.mem_range.1 hk
      rw [if_neg (by omega)]
  · rw [show N - i = 0 by omega, Finset.range_zero, Finset.sum_empty, Finset.sum_eq_zero]
    intro k hk
    have := Finset.mem_range.1 hk
    rw [if_neg (by omega)]

/-- A sum of finitely many terms that end early. -/
theorem early_sum (g : ℕ → ℂ) {i N : ℕ} (h : i ≤ N) :
    ∑ k ∈ Finset.range N, (if k < i then g k else 0) = ∑ j ∈ Finset.range i, g j := by
  rw [show N = i + (N - i) by omega, Finset.sum_range_add]
  rw [Finset.sum_eq_zero (s := Finset.range (N - i)), add_zero]
  · refine Finset.sum_congr rfl fun j hj => ?_
    rw [if_pos (Finset.mem_range.1 hj)]
  · intro k _
    rw [if_neg (by omega)]

theorem sum_Icc_int (g : ℤ → ℂ) (M N : ℕ) :
    ∑ k ∈ Finset.Icc (-M : ℤ) N, g k
      = ∑ k ∈ Finset.range N, g ((k : ℤ) + 1) + g 0 + ∑ k ∈ Finset.range M, g (-((k : ℤ) + 1)) := by
  induction N with
  | zero =>
    induction M with
    | zero => simp
    | succ M ih =>
      rw [Finset.sum_range_succ, ← add_assoc, ← ih]
      have : Finset.Icc (-((M + 1 : ℕ) : ℤ)) ((0 : ℕ) : ℤ) = insert (-((M : ℤ) + 1)) (Finset.Icc (-(M : ℤ)) ((0 : ℕ) : ℤ)) := by
        ext x
        simp only [Finset.mem_insert, Finset.mem_Icc]
        push_cast
        omega
      rw [this, Finset.sum_insert (by simp), add_comm]
  | succ N ih =>
    rw [Finset.sum_range_succ]
    have : Finset.Icc (-(M : ℤ)) ((N + 1 : ℕ) : ℤ) = insert ((N : ℤ) + 1) (Finset.Icc (-(M : ℤ)) (N : ℤ)) := by
      ext x
      simp only [Finset.mem_insert, Finset.mem_Icc]
      push_cast
      omega
    rw [this, Finset.sum_insert (by simp), ih]
    ring

section
variable (A A' : Ten ℂ q D D) (l r : Matrix (Fin D) (Fin D) ℂ) (B' B : Ten ℂ q D D) {m0 : ℕ}
  (O : (Fin (m0 + 1) → Fin q) → (Fin (m0 + 1) → Fin q) → ℂ) (K KL : Matrix (Fin D) (Fin D) ℂ)

/-- The element with the tensor of the ket `k ≥ 1` sites behind. -/
noncomputable def hpos (k : ℕ) : ℂ :=
  (∑ t ∈ Finset.range (m0 + 1), if k + t ≤ m0 then both A A' l r B' B O t k else 0)
      + (close A l B' ((mapR A A')^[k - 1] (mapR B A' K))
        + ∑ i ∈ Finset.range (m0 + 1), if i < k then close A l B' ((mapR A A')^[k - 1 - i] (loc A A' r B O i)) else 0)

/-- Both tensors at the same site. -/
noncomputable def hzero : ℂ :=
  (KL * mapR B B' r).trace + (∑ t ∈ Finset.range (m0 + 1), both A A' l r B' B O t 0) + (l * mapR B B' K).trace

/-- The element with the tensor of the ket `k ≥ 1` sites in front. -/
noncomputable def hneg (k : ℕ) : ℂ :=
  (∑ t ∈ Finset.range (m0 + 1), if k ≤ t then both A A' l r B' B O t (-k)
        else ((mapL A' A)^[k - t - 1] (mapL B A l) * behind A A' r B' O t).trace)
      + ((mapL A' A)^[k - 1] (mapL B A l) * mapR A' B' K).trace

/-- The matrix element with the tensor of the ket at site `k`. -/
noncomputable def hval (k : ℤ) : ℂ :=
  if 0 < k then hpos A A' l r B' B O K k.toNat else if k = 0 then hzero A A' l r B' B O K KL
    else hneg A A' l r B' B O K (-k).toNat

/-- The sum over all positions. -/
noncomputable def total (z : ℂ) (Mh ypi : Matrix (Fin D) (Fin D) ℂ) : ℂ :=
  ((∑ t ∈ Finset.range (m0 + 1), ∑ k ∈ Finset.range (m0 - t), z ^ (k + 1) * both A A' l r B' B O t ((k : ℤ) + 1))
    + close A l B' ypi)
  + hzero A A' l r B' B O K KL
  + ((∑ t ∈ Finset.range (m0 + 1), ((∑ k ∈ Finset.range t, z⁻¹ ^ (k + 1) * both A A' l r B' B O t (-((k : ℤ) + 1)))
      + z⁻¹ ^ (t + 1) * (Mh * behind A A' r B' O t).trace))
    + z⁻¹ * (Mh * mapR A' B' K).trace)

/-- The right-hand side of the sum over the positions behind the tensor of the bra. -/
noncomputable def rhsR (z : ℂ) : Matrix (Fin D) (Fin D) ℂ :=
  z • mapR B A' K + ∑ i ∈ Finset.range (m0 + 1), z ^ (i + 1) • loc A A' r B O i

/-- A finite part of that sum. -/
noncomputable def partSum (z : ℂ) (x : Matrix (Fin D) (Fin D) ℂ) (N : ℕ) : ℂ :=
  ∑ j ∈ Finset.range N, z ^ j * close A l B' ((mapR A A')^[j] x)

variable {A A' l r B' B O K KL}

theorem tendsto_sub_prod (c : ℕ) :
    Tendsto (fun ab : ℕ × ℕ => ab.1 - c) atTop atTop ∧ Tendsto (fun ab : ℕ × ℕ => ab.2 - c) atTop atTop := by
  rw [← prod_atTop_atTop_eq]
  exact ⟨(tendsto_sub_atTop_nat c).comp tendsto_fst, (tendsto_sub_atTop_nat c).comp tendsto_snd⟩

theorem hval_limit (hl : lᴴ = l) (hA : mapL A A l = l) (hA' : mapR A' A' r = r) (hB : mapR B A' r = 0)
    (hB' : mapR A' B' r = 0) (hK : Tendsto (Ksum A' r O) atTop (𝓝 K)) (hKL : Tendsto (KLsum A l O) atTop (𝓝 KL)) (k : ℤ) :
    Tendsto (fun ab : ℕ × ℕ => wallHam A A' l r O B' B k ab.1 ab.2) atTop (𝓝 (hval A A' l r B' B O K KL k)) := by
  have ev : ∀ c : ℕ, ∀ᶠ ab : ℕ × ℕ in atTop, c ≤ ab.1 ∧ c ≤ ab.2 := by
    intro c
    filter_upwards [eventually_ge_atTop ((c, c) : ℕ × ℕ)] with ab hab
    exact hab
  rcases lt_trichotomy k 0 with hk | hk | hk
  · obtain ⟨n, rfl⟩ : ∃ n : ℕ, k = -n := ⟨(-k).toNat, by omega⟩
    have hn : 1 ≤ n := by omega
    rw [hval, if_neg (by omega), if_neg (by omega), show (-(-(n : ℤ))).toNat = n by omega, hneg]
    have key : Tendsto (fun ab : ℕ × ℕ =>
        (∑ t ∈ Finset.range (m0 + 1), if n ≤ t then both A A' l r B' B O t (-n)
          else ((mapL A' A)^[n - t - 1] (mapL B A l) * behind A A' r B' O t).trace)
        + ((mapL A' A)^[n - 1] (mapL B A l) * mapR A' B' (Ksum A' r O (ab.2 - m0))).trace) atTop
        (𝓝 ((∑ t ∈ Finset.range (m0 + 1), if n ≤ t then both A A' l r B' B O t (-n)
          else ((mapL A' A)^[n - t - 1] (mapL B A l) * behind A A' r B' O t).trace)
        + ((mapL A' A)^[n - 1] (mapL B A l) * mapR A' B' K).trace)) := by
      refine tendsto_const_nhds.add ?_
      have hc : Continuous fun x => ((mapL A' A)^[n - 1] (mapL B A l) * mapR A' B' x).trace := by
        have := continuous_mapR A' B'
        fun_prop
      exact (hc.tendsto K).comp (hK.comp (tendsto_sub_prod m0).2)
    refine key.congr' ?_
    filter_upwards [ev (m0 + n)] with ab hab
    obtain ⟨a, b⟩ := ab
    dsimp only at hab ⊢
    obtain ⟨a', rfl⟩ := Nat.exists_eq_add_of_le (show m0 ≤ a by omega)
    obtain ⟨b', rfl⟩ := Nat.exists_eq_add_of_le (show m0 ≤ b by omega)
    rw [win_neg hl hA hA' hB' n a' b' hn (by omega), Nat.add_sub_cancel_left]
  · subst hk
    rw [hval, if_neg (lt_irrefl _), if_pos rfl, hzero]
    have key : Tendsto (fun ab : ℕ × ℕ => (KLsum A l O (ab.1 - m0) * mapR B B' r).trace
        + (∑ t ∈ Finset.range (m0 + 1), both A A' l r B' B O t 0) + (l * mapR B B' (Ksum A' r O (ab.2 - m0))).trace) atTop
        (𝓝 ((KL * mapR B B' r).trace + (∑ t ∈ Finset.range (m0 + 1), both A A' l r B' B O t 0)
          + (l * mapR B B' K).trace)) := by
      refine Tendsto.add (Tendsto.add ?_ tendsto_const_nhds) ?_
      · have hc : Continuous fun x : Matrix (Fin D) (Fin D) ℂ => (x * mapR B B' r).trace := by fun_prop
        exact (hc.tendsto KL).comp (hKL.comp (tendsto_sub_prod m0).1)
      · have hc : Continuous fun x => (l * mapR B B' x).trace := by
          have := continuous_mapR B B'
          fun_prop
        exact (hc.tendsto K).comp (hK.comp (tendsto_sub_prod m0).2)
    refine key.congr' ?_
    filter_upwards [ev m0] with ab hab
    obtain ⟨a, b⟩ := ab
    dsimp only at hab ⊢
    obtain ⟨a', rfl⟩ := Nat.exists_eq_add_of_le (show m0 ≤ a by omega)
    obtain ⟨b', rfl⟩ := Nat.exists_eq_add_of_le (show m0 ≤ b by omega)
    rw [win_zero hl hA hA', Nat.add_sub_cancel_left, Nat.add_sub_cancel_left]
  · obtain ⟨n, rfl⟩ : ∃ n : ℕ, k = n := ⟨k.toNat, by omega⟩
    have hn : 1 ≤ n := by omega
    rw [hval, if_pos hk, show (n : ℤ).toNat = n by omega, hpos]
    have key : Tendsto (fun ab : ℕ × ℕ =>
        (∑ t ∈ Finset.range (m0 + 1), if n + t ≤ m0 then both A A' l r B' B O t n else 0)
          + (close A l B' ((mapR A A')^[n - 1] (mapR B A' (Ksum A' r O (ab.2 - (m0 + n)))))
            + ∑ i ∈ Finset.range (m0 + 1), if i < n then close A l B' ((mapR A A')^[n - 1 - i] (loc A A' r B O i)) else 0))
        atTop (𝓝 ((∑ t ∈ Finset.range (m0 + 1), if n + t ≤ m0 then both A A' l r B' B O t n else 0)
          + (close A l B' ((mapR A A')^[n - 1] (mapR B A' K))
            + ∑ i ∈ Finset.range (m0 + 1), if i < n then close A l B' ((mapR A A')^[n - 1 - i] (loc A A' r B O i)) else 0))) := by
      refine tendsto_const_nhds.add (Tendsto.add ?_ tendsto_const_nhds)
      have hc : Continuous fun x => close A l B' ((mapR A A')^[n - 1] (mapR B A' x)) :=
        (continuous_close A l B').comp (((continuous_mapR A A').iterate (n - 1)).comp (continuous_mapR B A'))
      exact (hc.tendsto K).comp (hK.comp (tendsto_sub_prod (m0 + n)).2)
    refine key.congr' ?_
    filter_upwards [ev (m0 + n)] with ab hab
    obtain ⟨a, b⟩ := ab
    dsimp only at hab ⊢
    obtain ⟨a', rfl⟩ := Nat.exists_eq_add_of_le (show m0 ≤ a by omega)
    obtain ⟨b', rfl⟩ := Nat.exists_eq_add_of_le (show m0 ≤ b by omega)
    rw [win_pos hl hA hA' hB n a' b' hn (by omega), show m0 + b' - (m0 + n) = b' - n by omega]

theorem partSum_add (z : ℂ) (x y) (N : ℕ) :
    partSum A A' l B' z (x + y) N = partSum A A' l B' z x N + partSum A A' l B' z y N := by
  simp only [partSum, iter_add (mapR_add A A'), close_add, mul_add, Finset.sum_add_distrib]

theorem partSum_smul (z c : ℂ) (x) (N : ℕ) : partSum A A' l B' z (c • x) N = c * partSum A A' l B' z x N := by
  simp only [partSum, iter_smul (mapR_smul A A'), close_smul, Finset.mul_sum]
  exact Finset.sum_congr rfl fun j _ => by ring

theorem partSum_sum {ι : Type*} (z : ℂ) (s : Finset ι) (f : ι → Matrix (Fin D) (Fin D) ℂ) (N : ℕ) :
    partSum A A' l B' z (∑ i ∈ s, f i) N = ∑ i ∈ s, partSum A A' l B' z (f i) N := by
  simp only [partSum, iter_mapR_sum, close_sum, Finset.mul_sum]
  exact Finset.sum_comm

/-- The positions behind the tensor of the bra. -/
theorem sum_pos {z : ℂ} (hz : ‖z‖ = 1) (hf : ∀ x, Tendsto (fun j => close A l B' ((mapR A A')^[j] x)) atTop (𝓝 0))
    {ypi : Matrix (Fin D) (Fin D) ℂ}
    (hy : Tendsto (partSum A A' l B' z (rhsR A A' r B O K z)) atTop (𝓝 (close A l B' ypi))) :
    Tendsto (fun N => ∑ k ∈ Finset.range N, z ^ (k + 1) * hpos A A' l r B' B O K (k + 1)) atTop
      (𝓝 ((∑ t ∈ Finset.range (m0 + 1), ∑ k ∈ Finset.range (m0 - t), z ^ (k + 1) * both A A' l r B' B O t ((k : ℤ) + 1))
        + close A l B' ypi)) := by
  have hg : ∀ x, Tendsto (fun j => z ^ j * close A l B' ((mapR A A')^[j] x)) atTop (𝓝 0) := by
    intro x
    have := hf x
    rw [tendsto_zero_iff_norm_tendsto_zero] at this ⊢
    simpa [norm_mul, norm_pow, hz] using this
  have hsplit : ∀ N, m0 ≤ N → ∑ k ∈ Finset.range N, z ^ (k + 1) * hpos A A' l r B' B O K (k + 1)
      = (∑ t ∈ Finset.range (m0 + 1), ∑ k ∈ Finset.range (m0 - t), z ^ (k + 1) * both A A' l r B' B O t ((k : ℤ) + 1))
        + (partSum A A' l B' z (rhsR A A' r B O K z) N
          - ∑ i ∈ Finset.range (m0 + 1), z ^ (i + 1) * (partSum A A' l B' z (loc A A' r B O i) N
            - partSum A A' l B' z (loc A A' r B O i) (N - i))) := by
    intro N hN
    simp only [hpos, mul_add, Finset.sum_add_distrib]
    congr 1
    · simp only [Finset.mul_sum]
      rw [Finset.sum_comm]
      refine Finset.sum_congr rfl fun t ht => ?_
      have ht := Finset.mem_range.1 ht
      rw [← early_sum (fun k => z ^ (k + 1) * both A A' l r B' B O t ((k : ℤ) + 1)) (show m0 - t ≤ N by omega)]
      refine Finset.sum_congr rfl fun k _ => ?_
      split_ifs with h1 h2 h2
      · push_cast; rfl
      · omega
      · omega
      · rw [mul_zero]
    · rw [rhsR, partSum_add, partSum_smul, partSum_sum]
      simp only [partSum_smul, mul_sub, Finset.sum_sub_distrib]
      rw [add_sub_assoc, sub_sub_cancel]
      congr 1
      · rw [partSum, Finset.mul_sum]
        refine Finset.sum_congr rfl fun k _ => ?_
        rw [Nat.add_sub_cancel, pow_succ]
        ring
      · simp only [Finset.mul_sum]
        rw [Finset.sum_comm]
        refine Finset.sum_congr rfl fun i _ => ?_
        rw [partSum, ← late_sum, Finset.mul_sum]
        refine Finset.sum_congr rfl fun k _ => ?_
        rw [Nat.add_sub_cancel]
        split_ifs with h1 h2 h2
        · rw [← mul_assoc, ← pow_add, show i + 1 + (k - i) = k + 1 by omega]
        · omega
        · omega
        · rw [mul_zero, mul_zero]
  have hlim : Tendsto (fun N => (∑ t ∈ Finset.range (m0 + 1), ∑ k ∈ Finset.range (m0 - t),
        z ^ (k + 1) * both A A' l r B' B O t ((k : ℤ) + 1))
        + (partSum A A' l B' z (rhsR A A' r B O K z) N
          - ∑ i ∈ Finset.range (m0 + 1), z ^ (i + 1) * (partSum A A' l B' z (loc A A' r B O i) N
            - partSum A A' l B' z (loc A A' r B O i) (N - i)))) atTop
      (𝓝 ((∑ t ∈ Finset.range (m0 + 1), ∑ k ∈ Finset.range (m0 - t), z ^ (k + 1) * both A A' l r B' B O t ((k : ℤ) + 1))
        + (close A l B' ypi - ∑ i ∈ Finset.range (m0 + 1), z ^ (i + 1) * 0))) :=
    tendsto_const_nhds.add (hy.sub (tendsto_finsetSum _ fun i _ => (tail_zero (hg _) i).const_mul _))
  simp only [mul_zero, Finset.sum_const_zero, sub_zero] at hlim
  refine hlim.congr' ?_
  filter_upwards [eventually_ge_atTop m0] with N hN
  exact (hsplit N hN).symm

/-- The positions in front of the tensor of the bra. -/
theorem sum_neg {w : ℂ} {Mh : Matrix (Fin D) (Fin D) ℂ}
    (hM : Tendsto (fun N => ∑ j ∈ Finset.range N, w ^ j • (mapL A' A)^[j] (mapL B A l)) atTop (𝓝 Mh)) :
    Tendsto (fun N => ∑ k ∈ Finset.range N, w ^ (k + 1) * hneg A A' l r B' B O K (k + 1)) atTop
      (𝓝 ((∑ t ∈ Finset.range (m0 + 1), ((∑ k ∈ Finset.range t, w ^ (k + 1) * both A A' l r B' B O t (-((k : ℤ) + 1)))
          + w ^ (t + 1) * (Mh * behind A A' r B' O t).trace))
        + w * (Mh * mapR A' B' K).trace)) := by
  have hsplit : ∀ N, m0 ≤ N → ∑ k ∈ Finset.range N, w ^ (k + 1) * hneg A A' l r B' B O K (k + 1)
      = (∑ t ∈ Finset.range (m0 + 1), ((∑ k ∈ Finset.range t, w ^ (k + 1) * both A A' l r B' B O t (-((k : ℤ) + 1)))
          + w ^ (t + 1) * ((∑ j ∈ Finset.range (N - t), w ^ j • (mapL A' A)^[j] (mapL B A l)) * behind A A' r B' O t).trace))
        + w * ((∑ j ∈ Finset.range N, w ^ j • (mapL A' A)^[j] (mapL B A l)) * mapR A' B' K).trace := by
    intro N hN
    simp only [hneg, mul_add, Finset.sum_add_distrib (s := Finset.range N)]
    congr 1
    · simp only [Finset.mul_sum (s := Finset.range (m0 + 1))]
      rw [Finset.sum_comm]
      refine Finset.sum_congr rfl fun t ht => ?_
      have ht := Finset.mem_range.1 ht
      rw [Matrix.sum_mul, Matrix.trace_sum, Finset.mul_sum]
      rw [← early_sum (fun k => w ^ (k + 1) * both A A' l r B' B O t (-((k : ℤ) + 1))) (show t ≤ N by omega),
        ← late_sum (fun j => w ^ (t + 1) * ((w ^ j • (mapL A' A)^[j] (mapL B A l)) * behind A A' r B' O t).trace),
        ← Finset.sum_add_distrib]
      refine Finset.sum_congr rfl fun k _ => ?_
      split_ifs with h1 h2 h3 h2 h3 h3
      · omega
      · rw [add_zero]; push_cast; rfl
      · omega
      · omega
      · omega
      · omega
      · rw [zero_add, Matrix.smul_mul, Matrix.trace_smul, smul_eq_mul, ← mul_assoc, ← pow_add,
          show t + 1 + (k - t) = k + 1 by omega, show k + 1 - t - 1 = k - t by omega]
      · omega
    · rw [Matrix.sum_mul, Matrix.trace_sum, Finset.mul_sum]
      refine Finset.sum_congr rfl fun k _ => ?_
      rw [Matrix.smul_mul, Matrix.trace_smul, smul_eq_mul, Nat.add_sub_cancel, pow_succ]
      ring
  have hc : ∀ y : Matrix (Fin D) (Fin D) ℂ, Continuous fun x : Matrix (Fin D) (Fin D) ℂ => (x * y).trace := by
    intro y
    fun_prop
  have hlim : Tendsto (fun N => (∑ t ∈ Finset.range (m0 + 1),
        ((∑ k ∈ Finset.range t, w ^ (k + 1) * both A A' l r B' B O t (-((k : ℤ) + 1)))
          + w ^ (t + 1) * ((∑ j ∈ Finset.range (N - t), w ^ j • (mapL A' A)^[j] (mapL B A l)) * behind A A' r B' O t).trace))
        + w * ((∑ j ∈ Finset.range N, w ^ j • (mapL A' A)^[j] (mapL B A l)) * mapR A' B' K).trace) atTop
      (𝓝 ((∑ t ∈ Finset.range (m0 + 1), ((∑ k ∈ Finset.range t, w ^ (k + 1) * both A A' l r B' B O t (-((k : ℤ) + 1)))
          + w ^ (t + 1) * (Mh * behind A A' r B' O t).trace))
        + w * (Mh * mapR A' B' K).trace)) := by
    refine Tendsto.add (tendsto_finsetSum _ fun t _ => tendsto_const_nhds.add (Tendsto.const_mul _ ?_))
      (Tendsto.const_mul _ ?_)
    · exact ((hc _).tendsto Mh).comp (hM.comp (tendsto_sub_atTop_nat t))
    · exact ((hc _).tendsto Mh).comp hM
  refine hlim.congr' ?_
  filter_upwards [eventually_ge_atTop m0] with N hN
  exact (hsplit N hN).symm

/-- The effective Hamiltonian, summed up. -/
theorem excite_elem (hl : lᴴ = l) (hA : mapL A A l = l) (hA' : mapR A' A' r = r) (hB : mapR B A' r = 0)
    (hB' : mapR A' B' r = 0) (hK : Tendsto (Ksum A' r O) atTop (𝓝 K)) (hKL : Tendsto (KLsum A l O) atTop (𝓝 KL)) (p : ℝ)
    {z : ℂ} (hz : z = Complex.exp (Complex.I * p))
    (hf : ∀ x, Tendsto (fun j => close A l B' ((mapR A A')^[j] x)) atTop (𝓝 0))
    {Mh ypi : Matrix (Fin D) (Fin D) ℂ}
    (hy : Tendsto (partSum A A' l B' z (rhsR A A' r B O K z)) atTop (𝓝 (close A l B' ypi)))
    (hM : Tendsto (fun N => ∑ j ∈ Finset.range N, z⁻¹ ^ j • (mapL A' A)^[j] (mapL B A l)) atTop (𝓝 Mh)) :
    IsExciteElem A A' l r O p B' B (total A A' l r B' B O K KL z Mh ypi) := by
  refine ⟨hval A A' l r B' B O K KL, hval_limit hl hA hA' hB hB' hK hKL, ?_⟩
  have hn : ‖z‖ = 1 := by
    rw [hz, mul_comm]
    exact Complex.norm_exp_ofReal_mul_I p
  have e : ∀ m : ℕ × ℕ, ∑ k ∈ Finset.Icc (-m.1 : ℤ) m.2, Complex.exp (Complex.I * p * k) * hval A A' l r B' B O K KL k
      = (∑ k ∈ Finset.range m.2, z ^ (k + 1) * hpos A A' l r B' B O K (k + 1)) + hzero A A' l r B' B O K KL
        + ∑ k ∈ Finset.range m.1, z⁻¹ ^ (k + 1) * hneg A A' l r B' B O K (k + 1) := by
    intro m
    rw [sum_Icc_int]
    congr 1
    · congr 1
      · refine Finset.sum_congr rfl fun k _ => ?_
        rw [hval, if_pos (by omega), show ((k : ℤ) + 1).toNat = k + 1 by omega, hz, ← Complex.exp_nat_mul]
        push_cast
        ring_nf
      · rw [hval, if_neg (lt_irrefl _), if_pos rfl]
        simp
    · refine Finset.sum_congr rfl fun k _ => ?_
      rw [hval, if_neg (by omega), if_neg (by omega), show (-(-((k : ℤ) + 1))).toNat = k + 1 by omega, hz,
        ← Complex.exp_neg, ← Complex.exp_nat_mul]
      push_cast
      ring_nf
  simp only [e]
  rw [← prod_atTop_atTop_eq]
  exact (((sum_pos hn hf hy).comp tendsto_snd).add tendsto_const_nhds).add ((sum_neg hM).comp tendsto_fst)

end

end Exc

end EvoMPS
