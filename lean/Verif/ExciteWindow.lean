import Verif.ExciteCore

/-!
# Excitations: matrix elements in a finite window (helper lemmas)
-/

set_option linter.unusedSectionVars false

namespace EvoMPS

open Matrix

namespace Exc

variable {q D : ℕ}

theorem wall_lt {A A' B : Ten ℂ q D D} {k j : ℤ} (h : j < k) : wall A A' k B j = A := by rw [wall, if_pos h]

theorem wall_at {A A' B : Ten ℂ q D D} {k j : ℤ} (h : j = k) : wall A A' k B j = B := by
  rw [wall, if_neg (by omega), if_pos h]

theorem wall_gt {A A' B : Ten ℂ q D D} {k j : ℤ} (h : k < j) : wall A A' k B j = A' := by
  rw [wall, if_neg (by omega), if_neg (by omega)]

section
variable (A A' : Ten ℂ q D D) (l r : Matrix (Fin D) (Fin D) ℂ) (B' B : Ten ℂ q D D) {m : ℕ}
  (O : (Fin m → Fin q) → (Fin m → Fin q) → ℂ)

/-- All terms on `N` sites behind a site, in the state behind the wall. -/
def Ksum (N : ℕ) : Matrix (Fin D) (Fin D) ℂ :=
  ∑ i ∈ Finset.range N, (mapR A' A')^[i] (ZO (fun _ => A') (fun _ => A') 0 m O r)

/-- The left version of a term. -/
def leftOp (w : Matrix (Fin D) (Fin D) ℂ) : Matrix (Fin D) (Fin D) ℂ :=
  ∑ s, ∑ t, O s t • ((lineProd (fun _ => A) 0 m s)ᴴ * w * lineProd (fun _ => A) 0 m t)

/-- All terms on `N` sites in front of a site. -/
def KLsum (N : ℕ) : Matrix (Fin D) (Fin D) ℂ := ∑ i ∈ Finset.range N, (mapL A A)^[i] (leftOp A O l)

/-- A term whose `i`-th site has the tensor `B` in the ket; the bra has none. -/
def loc (i : ℤ) : Matrix (Fin D) (Fin D) ℂ := ZO (wall A A' i B) (fun _ => A') 0 m O r

/-- A term that starts `t` sites in front of the tensor of the bra, with the tensor of the ket further left. -/
def behind (t : ℕ) : Matrix (Fin D) (Fin D) ℂ := ZO (fun _ => A') (wall A A' 0 B') (-t) m O r

/-- A term that starts `t` sites in front of the tensor of the bra, with the tensor of the ket at site `k`. -/
def both (t : ℕ) (k : ℤ) : ℂ := (l * ZO (wall A A' k B) (wall A A' 0 B') (-t) m O r).trace

/-- Closing the chain to the left, the tensor of the ket is further right. -/
def close (z : Matrix (Fin D) (Fin D) ℂ) : ℂ := (l * mapR A B' z).trace

variable {A A' l r B' B} {O}

theorem close_add (x y) : close A l B' (x + y) = close A l B' x + close A l B' y := by
  rw [close, mapR_add, Matrix.mul_add, Matrix.trace_add]; rfl

theorem close_smul (c : ℂ) (x) : close A l B' (c • x) = c * close A l B' x := by
  rw [close, mapR_smul, Matrix.mul_smul, Matrix.trace_smul]; rfl

theorem close_sum {ι : Type*} (s : Finset ι) (f : ι → Matrix (Fin D) (Fin D) ℂ) :
    close A l B' (∑ i ∈ s, f i) = ∑ i ∈ s, close A l B' (f i) := by
  rw [close, mapR_sum, Matrix.mul_sum, Matrix.trace_sum]; rfl

theorem trace_leftOp (w x : Matrix (Fin D) (Fin D) ℂ) (c : ℤ) :
    (w * ZO (fun _ => A) (fun _ => A) c m O x).trace = (leftOp A O w * x).trace := by
  simp only [ZO, lineOp, leftOp, Matrix.mul_sum, Matrix.sum_mul, Matrix.trace_sum, Matrix.mul_smul, Matrix.smul_mul,
    Matrix.trace_smul]
  refine Finset.sum_congr rfl fun s _ => Finset.sum_congr rfl fun t _ => ?_
  rw [← Matrix.mul_assoc, Matrix.trace_mul_comm]
  simp only [Matrix.mul_assoc]

theorem iter_L (hA : mapL A A l = l) (n : ℕ) : (mapL A A)^[n] l = l := Function.iterate_fixed hA n

theorem left_pure (hA : mapL A A l = l) {a j : ℕ} {k : ℤ} (h0 : -(a : ℤ) + j ≤ 0) (hk : -(a : ℤ) + j ≤ k) (z) :
    (l * ZT (wall A A' k B) (wall A A' 0 B') (-a) j z).trace = (l * z).trace := by
  rw [trace_ZT (P := A) (Q := A) (fun i hi => ⟨wall_lt (by omega), wall_lt (by omega)⟩), iter_L hA]

theorem right_one (hA' : mapR A' A' r = r) {c k : ℤ} (h0 : 0 < c) (hk : k < c) (n : ℕ) :
    ZT (wall A A' k B) (wall A A' 0 B') c n r = r := by
  rw [ZT_const (P := A') (Q := A') (fun i hi => ⟨wall_gt (by omega), wall_gt (by omega)⟩)]
  exact Function.iterate_fixed hA' n

theorem right_zero_pos (hA' : mapR A' A' r = r) (hB : mapR B A' r = 0) {c k : ℤ} (h0 : 0 < k) (hc : c ≤ k) {n : ℕ}
    (hn : k < c + n) : ZT (wall A A' k B) (wall A A' 0 B') c n r = 0 := by
  obtain ⟨d, rfl⟩ : ∃ d : ℕ, k = c + d := ⟨(k - c).toNat, by omega⟩
  obtain ⟨e, rfl⟩ : ∃ e, n = d + (1 + e) := ⟨n - d - 1, by omega⟩
  rw [ZT_add, ZT_one_add, right_one hA' (by omega) (by omega), wall_at rfl, wall_gt h0, hB, ZT_zero_right]

theorem right_zero_neg (hA' : mapR A' A' r = r) (hB' : mapR A' B' r = 0) {c k : ℤ} (h0 : k < 0) (hc : c ≤ 0) {n : ℕ}
    (hn : 0 < c + n) : ZT (wall A A' k B) (wall A A' 0 B') c n r = 0 := by
  obtain ⟨d, hd⟩ : ∃ d : ℕ, 0 = c + d := ⟨(0 - c).toNat, by omega⟩
  obtain ⟨e, rfl⟩ : ∃ e, n = d + (1 + e) := ⟨n - d - 1, by omega⟩
  rw [ZT_add, ZT_one_add, ← hd, right_one hA' (by omega) (by omega), wall_at rfl, wall_gt h0, hB', ZT_zero_right]

/-- The sum over the positions of the term. -/
theorem wallHam_split (hl : lᴴ = l) {m0 : ℕ} {O : (Fin (m0 + 1) → Fin q) → (Fin (m0 + 1) → Fin q) → ℂ} (k : ℤ) (a b : ℕ) :
    wallHam A A' l r O B' B k (m0 + a) (m0 + b) =
      (∑ j ∈ Finset.range a, (l * ZT (wall A A' k B) (wall A A' 0 B') (-(m0 + a : ℕ)) j
        (ZO (wall A A' k B) (wall A A' 0 B') (-(m0 + a : ℕ) + j) (m0 + 1) O
          (ZT (wall A A' k B) (wall A A' 0 B') (-a + j + 1) (m0 + a + b - j) r))).trace)
      + (∑ t ∈ Finset.range (m0 + 1), (l * ZT (wall A A' k B) (wall A A' 0 B') (-(m0 + a : ℕ)) (m0 + a - t)
        (ZO (wall A A' k B) (wall A A' 0 B') (-t) (m0 + 1) O
          (ZT (wall A A' k B) (wall A A' 0 B') (-t + m0 + 1) (b + t) r))).trace)
      + ∑ j ∈ Finset.range b, (l * ZT (wall A A' k B) (wall A A' 0 B') (-(m0 + a : ℕ)) (m0 + a + 1 + j)
        (ZO (wall A A' k B) (wall A A' 0 B') (1 + j) (m0 + 1) O
          (ZT (wall A A' k B) (wall A A' 0 B') (1 + j + m0 + 1) (b - 1 - j) r))).trace := by
  rw [wallHam, windowHam, show m0 + a + 1 + (m0 + b) + 1 - (m0 + 1) = a + (m0 + 1) + b by omega, Finset.sum_range_add,
    Finset.sum_range_add]
  congr 1
  · congr 1
    · refine Finset.sum_congr rfl fun j hj => ?_
      have hj := Finset.mem_range.1 hj
      rw [elem_eq hl, show (-((m0 + a : ℕ) : ℤ) + j + (m0 + 1 : ℕ)) = -a + j + 1 by push_cast; ring,
        show m0 + a + 1 + (m0 + b) - (m0 + 1) - j = m0 + a + b - j by omega]
    · rw [← Finset.sum_range_reflect]
      refine Finset.sum_congr rfl fun t ht => ?_
      have ht := Finset.mem_range.1 ht
      rw [elem_eq hl, show (a + (m0 + 1 - 1 - t)) = m0 + a - t by omega,
        show (-((m0 + a : ℕ) : ℤ) + (m0 + a - t : ℕ)) = -t by push_cast [show t ≤ m0 + a by omega]; ring,
        show (-(t : ℤ) + (m0 + 1 : ℕ)) = -t + m0 + 1 by push_cast; ring,
        show m0 + a + 1 + (m0 + b) - (m0 + 1) - (m0 + a - t) = b + t by omega]
  · refine Finset.sum_congr rfl fun j hj => ?_
    have hj := Finset.mem_range.1 hj
    rw [elem_eq hl, show a + (m0 + 1) + j = m0 + a + 1 + j by omega,
      show (-((m0 + a : ℕ) : ℤ) + (m0 + a + 1 + j : ℕ)) = 1 + j by push_cast; ring,
      show (1 + (j : ℤ) + (m0 + 1 : ℕ)) = 1 + j + m0 + 1 by push_cast; ring,
      show m0 + a + 1 + (m0 + b) - (m0 + 1) - (m0 + a + 1 + j) = b - 1 - j by omega]

variable {m0 : ℕ} {O : (Fin (m0 + 1) → Fin q) → (Fin (m0 + 1) → Fin q) → ℂ}

theorem Ksum_map (P Q : Ten ℂ q D D) (N : ℕ) : mapR P Q (Ksum A' r O N)
    = ∑ i ∈ Finset.range N, mapR P Q ((mapR A' A')^[i] (ZO (fun _ => A') (fun _ => A') 0 (m0 + 1) O r)) := by
  rw [Ksum, mapR_sum]

theorem iter_mapR_sum {ι : Type*} (P Q : Ten ℂ q D D) (n : ℕ) (s : Finset ι) (f : ι → Matrix (Fin D) (Fin D) ℂ) :
    (mapR P Q)^[n] (∑ i ∈ s, f i) = ∑ i ∈ s, (mapR P Q)^[n] (f i) :=
  iter_sum (mapR_add P Q) (mapR_zero P Q) n s f

/-- The tensor of the ket is `k ≥ 1` sites behind that of the bra. -/
theorem win_pos (hl : lᴴ = l) (hA : mapL A A l = l) (hA' : mapR A' A' r = r) (hB : mapR B A' r = 0) (k a b : ℕ)
    (hk : 1 ≤ k) (hkb : k ≤ b) :
    wallHam A A' l r O B' B k (m0 + a) (m0 + b) =
      (∑ t ∈ Finset.range (m0 + 1), if k + t ≤ m0 then both A A' l r B' B O t k else 0)
      + (close A l B' ((mapR A A')^[k - 1] (mapR B A' (Ksum A' r O (b - k))))
        + ∑ i ∈ Finset.range (m0 + 1), if i < k then close A l B' ((mapR A A')^[k - 1 - i] (loc A A' r B O i)) else 0) := by
  rw [wallHam_split hl, Finset.sum_eq_zero (s := Finset.range a), zero_add]
  · congr 1
    · refine Finset.sum_congr rfl fun t ht => ?_
      have ht := Finset.mem_range.1 ht
      split_ifs with h
      · rw [right_one hA' (by omega) (by omega), left_pure hA (by omega) (by omega)]
        rfl
      · rw [right_zero_pos hA' hB (by omega) (by omega) (by omega), ZO_zero_right, ZT_zero_right, Matrix.mul_zero,
          Matrix.trace_zero]
    · -- terms behind the tensor of the bra
      have key : ∀ (j : ℕ) (z : Matrix (Fin D) (Fin D) ℂ), j < k →
          (l * ZT (wall A A' k B) (wall A A' 0 B') (-(m0 + a : ℕ)) (m0 + a + 1 + j) z).trace
            = close A l B' ((mapR A A')^[j] z) := by
        intro j z hj
        rw [show m0 + a + 1 + j = (m0 + a) + (1 + j) by omega, ZT_add, left_pure hA (by omega) (by omega),
          show (-((m0 + a : ℕ) : ℤ) + (m0 + a : ℕ)) = 0 by ring, ZT_one_add, wall_lt (by omega), wall_at rfl,
          ZT_const (P := A) (Q := A') (fun i hi => ⟨wall_lt (by omega), wall_gt (by omega)⟩)]
        rfl
      rw [show b = k + (b - k) by omega, Finset.sum_range_add, add_comm]
      congr 1
      · rw [show k + (b - k) - k = b - k by omega, Ksum_map, iter_mapR_sum, close_sum]
        refine Finset.sum_congr rfl fun j hj => ?_
        have hj := Finset.mem_range.1 hj
        rw [right_one hA' (by omega) (by omega), show m0 + a + 1 + (k + j) = m0 + a + 1 + (k - 1) + (1 + j) by omega, ZT_add,
          key (k - 1) _ (by omega), show (-((m0 + a : ℕ) : ℤ) + (m0 + a + 1 + (k - 1) : ℕ)) = k by
            push_cast [hk]; ring, ZT_one_add, wall_at rfl, wall_gt (by omega),
          ZT_const (P := A') (Q := A') (fun i hi => ⟨wall_gt (by omega), wall_gt (by omega)⟩),
          ZO_congr (X' := fun _ => A') (Y' := fun _ => A') (c' := 0) (fun i hi => ⟨wall_gt (by push_cast; omega),
            wall_gt (by push_cast; omega)⟩)]
      · rw [← Finset.sum_range_reflect, ← Finset.sum_filter]
        rw [← Finset.sum_filter_add_sum_filter_not (Finset.range k) (fun i => i < m0 + 1), Finset.sum_eq_zero
          (s := Finset.filter (fun i => ¬ i < m0 + 1) (Finset.range k)), add_zero]
        · refine Finset.sum_congr ?_ fun i hi => ?_
          · ext i
            simp only [Finset.mem_filter, Finset.mem_range]
            exact and_comm
          · have hi := Finset.mem_filter.1 hi
            have hi1 := Finset.mem_range.1 hi.1
            have e0 : ZO (wall A A' k B) (wall A A' 0 B') (1 + ((k - 1 - i : ℕ) : ℤ)) (m0 + 1) O r = loc A A' r B O i := by
              refine ZO_congr (fun i' hi' => ⟨?_, wall_gt (by omega)⟩) O r
              rw [wall, wall]
              have e1 : (1 + ((k - 1 - i : ℕ) : ℤ) + i' < k) = (0 + (i' : ℤ) < i) := propext (by omega)
              have e2 : (1 + ((k - 1 - i : ℕ) : ℤ) + i' = k) = (0 + (i' : ℤ) = i) := propext (by omega)
              simp only [e1, e2]
            rw [right_one hA' (by omega) (by omega), key _ _ (by omega), e0]
        · intro i hi
          have hi := Finset.mem_filter.1 hi
          have hi1 := Finset.mem_range.1 hi.1
          rw [right_zero_pos hA' hB (by omega) (by omega) (by omega), ZO_zero_right, ZT_zero_right, Matrix.mul_zero,
            Matrix.trace_zero]
  · intro j hj
    have hj := Finset.mem_range.1 hj
    rw [right_zero_pos hA' hB (by omega) (by omega) (by omega), ZO_zero_right, ZT_zero_right, Matrix.mul_zero,
      Matrix.trace_zero]

/-- Both tensors at the same site. -/
theorem win_zero (hl : lᴴ = l) (hA : mapL A A l = l) (hA' : mapR A' A' r = r) (a b : ℕ) :
    wallHam A A' l r O B' B 0 (m0 + a) (m0 + b) =
      (KLsum A l O a * mapR B B' r).trace
      + (∑ t ∈ Finset.range (m0 + 1), both A A' l r B' B O t 0)
      + (l * mapR B B' (Ksum A' r O b)).trace := by
  rw [wallHam_split hl]
  congr 1
  · congr 1
    · rw [KLsum, Matrix.sum_mul, Matrix.trace_sum, ← Finset.sum_range_reflect]
      refine Finset.sum_congr rfl fun j hj => ?_
      have hj := Finset.mem_range.1 hj
      rw [left_pure hA (by omega) (by omega), ZO_congr (X' := fun _ => A) (Y' := fun _ => A) (c' := 0) (fun i hi =>
        ⟨wall_lt (by omega), wall_lt (by omega)⟩), trace_leftOp,
        show m0 + a + b - (a - 1 - j) = j + (1 + (m0 + b)) by omega, ZT_add,
        trace_ZT (P := A) (Q := A) (fun i hi => ⟨wall_lt (by omega), wall_lt (by omega)⟩),
        show (-(a : ℤ) + (a - 1 - j : ℕ) + 1 + j) = 0 by omega, ZT_one_add, wall_at rfl, wall_at rfl,
        right_one hA' (by omega) (by omega)]
    · refine Finset.sum_congr rfl fun t ht => ?_
      have ht := Finset.mem_range.1 ht
      rw [right_one hA' (by omega) (by omega), left_pure hA (by omega) (by omega)]
      rfl
  · rw [Ksum_map, Matrix.mul_sum, Matrix.trace_sum]
    refine Finset.sum_congr rfl fun j hj => ?_
    have hj := Finset.mem_range.1 hj
    rw [right_one hA' (by omega) (by omega), show m0 + a + 1 + j = (m0 + a) + (1 + j) by omega, ZT_add,
      left_pure hA (by omega) (by omega),
      show (-((m0 + a : ℕ) : ℤ) + (m0 + a : ℕ)) = 0 by ring, ZT_one_add, wall_at rfl, wall_at rfl,
      ZT_const (P := A') (Q := A') (fun i hi => ⟨wall_gt (by omega), wall_gt (by omega)⟩),
      ZO_congr (X' := fun _ => A') (Y' := fun _ => A') (c' := 0) (fun i hi => ⟨wall_gt (by omega), wall_gt (by omega)⟩)]

/-- The tensor of the ket is `k ≥ 1` sites in front of that of the bra. -/
theorem win_neg (hl : lᴴ = l) (hA : mapL A A l = l) (hA' : mapR A' A' r = r) (hB' : mapR A' B' r = 0) (k a b : ℕ)
    (hk : 1 ≤ k) (hka : k ≤ a) :
    wallHam A A' l r O B' B (-k) (m0 + a) (m0 + b) =
      (∑ t ∈ Finset.range (m0 + 1), if k ≤ t then both A A' l r B' B O t (-k)
        else ((mapL A' A)^[k - t - 1] (mapL B A l) * behind A A' r B' O t).trace)
      + ((mapL A' A)^[k - 1] (mapL B A l) * mapR A' B' (Ksum A' r O b)).trace := by
  have key : ∀ (j : ℕ) (z : Matrix (Fin D) (Fin D) ℂ), m0 + a - k < j → j ≤ m0 + a →
      (l * ZT (wall A A' (-k) B) (wall A A' 0 B') (-(m0 + a : ℕ)) j z).trace
        = ((mapL A' A)^[j - (m0 + a - k) - 1] (mapL B A l) * z).trace := by
    intro j z hj hj'
    rw [show j = (m0 + a - k) + (1 + (j - (m0 + a - k) - 1)) by omega, ZT_add, left_pure hA (by omega) (by omega),
      ZT_one_add, wall_at (by omega), wall_lt (by omega), trace_map,
      trace_ZT (P := A') (Q := A) (fun i hi => ⟨wall_gt (by omega), wall_lt (by omega)⟩)]
    congr 4
    omega
  rw [wallHam_split hl, Finset.sum_eq_zero (s := Finset.range a), zero_add]
  · congr 1
    · refine Finset.sum_congr rfl fun t ht => ?_
      have ht := Finset.mem_range.1 ht
      rw [right_one hA' (by omega) (by omega)]
      split_ifs with h
      · rw [left_pure hA (by omega) (by omega)]
        rfl
      · rw [key _ _ (by omega) (by omega), show m0 + a - t - (m0 + a - k) - 1 = k - t - 1 by omega, behind,
          ZO_congr (X' := fun _ => A') (Y' := wall A A' 0 B') (c' := -t) (fun i hi => ⟨wall_gt (by omega), rfl⟩)]
    · rw [Ksum_map, Matrix.mul_sum, Matrix.trace_sum]
      refine Finset.sum_congr rfl fun j hj => ?_
      have hj := Finset.mem_range.1 hj
      rw [right_one hA' (by omega) (by omega), show m0 + a + 1 + j = (m0 + a) + (1 + j) by omega, ZT_add,
        key _ _ (by omega) (by omega), show m0 + a - (m0 + a - k) - 1 = k - 1 by omega,
        show (-((m0 + a : ℕ) : ℤ) + (m0 + a : ℕ)) = 0 by ring, ZT_one_add, wall_gt (by omega), wall_at rfl,
        ZT_const (P := A') (Q := A') (fun i hi => ⟨wall_gt (by omega), wall_gt (by omega)⟩),
        ZO_congr (X' := fun _ => A') (Y' := fun _ => A') (c' := 0) (fun i hi => ⟨wall_gt (by omega), wall_gt (by omega)⟩)]
  · intro j hj
    have hj := Finset.mem_range.1 hj
    rw [right_zero_neg hA' hB' (by omega) (by omega) (by omega), ZO_zero_right, ZT_zero_right, Matrix.mul_zero,
      Matrix.trace_zero]

end

end Exc

end EvoMPS
