import Verif.ChunksLemmas
import Mathlib.Tactic.IntervalCases

/-!
# C41: the parallel maps do not depend on the number of threads or the schedule

`HoldsMat` and `HoldsTen` say that memory contains an array in C order.
-/

namespace EvoMPS

open Matrix

variable {R : Type*} [CommRing R] [StarRing R]

/-- The memory contains the matrix `M`, row after row, from position `off`. -/
def HoldsMat {a b : ℕ} (buf : Buf R) (off : ℕ) (M : Matrix (Fin a) (Fin b) R) : Prop :=
  ∀ i j, buf (off + (i.val * b + j.val)) = M i j

/-- The memory contains the tensor `A`. -/
def HoldsTen {d a b : ℕ} (buf : Buf R) (A : Ten R d a b) : Prop := ∀ s, HoldsMat buf (s.val * (a * b)) (A s)

/-- The memory contains the matrix object `x`: nothing for an identity, the diagonal of a diagonal matrix. -/
def HoldsX {a a2 : ℕ} (k : XKind) (buf : Buf R) (x : Matrix (Fin a) (Fin a2) R) : Prop :=
  match k with
  | .eye => a = a2 ∧ ∀ i j, x i j = if i.val = j.val then 1 else 0
  | .diag => a = a2 ∧ ∀ i j, x i j = if i.val = j.val then buf i.val else 0
  | .dense => HoldsMat buf 0 x

/-! ## Helpers -/

section
variable {d a b a2 b2 : ℕ} {x A1 A2 : Buf R} {T1 : Ten R d a b} {T2 : Ten R d a2 b2}

theorem tmpL_eq {k : XKind} {X : Matrix (Fin a) (Fin a2) R} (hx : HoldsX k x X) (h1 : HoldsTen A1 T1) (s : Fin d)
    (j : Fin b) (l : Fin a2) : tmpL a b a2 x A1 k s j l = ((T1 s)ᴴ * X) j l := by
  rw [Matrix.mul_apply]
  cases k with
  | eye =>
    obtain ⟨rfl, hx⟩ := hx
    rw [Finset.sum_eq_single l, hx, if_pos rfl, mul_one, conjTranspose_apply, ← h1 s l j]
    · rfl
    · intro i _ hi
      rw [hx, if_neg (fun h => hi (Fin.ext h)), mul_zero]
    · simp
  | diag =>
    obtain ⟨rfl, hx⟩ := hx
    rw [Finset.sum_eq_single l, hx, if_pos rfl, conjTranspose_apply, ← h1 s l j]
    · rfl
    · intro i _ hi
      rw [hx, if_neg (fun h => hi (Fin.ext h)), mul_zero]
    · simp
  | dense =>
    simp only [tmpL]
    rw [Finset.sum_range]
    refine Finset.sum_congr rfl fun i _ => ?_
    have := hx i l
    rw [Nat.zero_add] at this
    rw [conjTranspose_apply, ← h1 s i j, ← this]

omit [StarRing R] in
theorem tmpR_eq {k : XKind} {X : Matrix (Fin b) (Fin b2) R} (hx : HoldsX k x X) (h1 : HoldsTen A1 T1) (s : Fin d)
    (j : Fin a) (l : Fin b2) : tmpR a b b2 x A1 k s j l = (T1 s * X) j l := by
  rw [Matrix.mul_apply]
  cases k with
  | eye =>
    obtain ⟨rfl, hx⟩ := hx
    rw [Finset.sum_eq_single l, hx, if_pos rfl, mul_one, ← h1 s j l]
    · rfl
    · intro i _ hi
      rw [hx, if_neg (fun h => hi (Fin.ext h)), mul_zero]
    · simp
  | diag =>
    obtain ⟨rfl, hx⟩ := hx
    rw [Finset.sum_eq_single l, hx, if_pos rfl, ← h1 s j l]
    · rfl
    · intro i _ hi
      rw [hx, if_neg (fun h => hi (Fin.ext h)), mul_zero]
    · simp
  | dense =>
    simp only [tmpR]
    rw [Finset.sum_range]
    refine Finset.sum_congr rfl fun i _ => ?_
    have := hx i l
    rw [Nat.zero_add] at this
    rw [← h1 s j i, ← this]

omit [StarRing R] in
theorem HoldsX.square {k : XKind} {X : Matrix (Fin a) (Fin a2) R} (hx : HoldsX k x X) (hk : k ≠ .dense) : a = a2 := by
  cases k with
  | eye => exact hx.1
  | diag => exact hx.1
  | dense => exact absurd rfl hk

end

/-! ## C41 -/

/-- **C41** (chunks).  For every number of threads (OpenMP has at least one) and every dimension, the slices of the
chunks put together are the whole index range, each index once and in order. -/
theorem C41_chunks (threads d : ℕ) (ht : 0 < threads) (hd : 0 < d) :
    (List.range (numChunks threads d)).flatMap (chunk threads d) = List.range d :=
  chunks_all threads d (Nat.lt_min.mpr ⟨ht, hd⟩)

/-- **C41** (`eps_l_noop`).  Whatever the number of threads and the interleaving of their operations, the result is
`∑ s, A1[s]^H x A2[s]`; it only depends on the memory that belongs to the arrays, and nothing else is written. -/
theorem C41_eps_l {d a b a2 b2 : ℕ} (k : XKind) (x A1 A2 : Buf R) (X : Matrix (Fin a) (Fin a2) R)
    (T1 : Ten R d a b) (T2 : Ten R d a2 b2) (hx : HoldsX k x X) (h1 : HoldsTen A1 T1) (h2 : HoldsTen A2 T2)
    (hd : 0 < d) (threads : ℕ) (ht : 0 < threads) (sched : List ℕ)
    (hs : Complete sched (stepL k a b a2 b2 x A1 A2) (b * a2) (b * b2) d threads) (ndout : Buf R) :
    ∃ out, epsLC k d a b a2 b2 x A1 A2 threads sched ndout = some out ∧
      HoldsMat out 0 (∑ s, (T1 s)ᴴ * X * T2 s) ∧ ∀ p, b * b2 ≤ p → out p = ndout p := by
  obtain ⟨out, ho, hp⟩ := epsNoop_spec (kernelL a b a2 b2 x A1 A2 k fun h => hx.square h) d threads hd ht sched hs ndout
  refine ⟨out, ho, fun i j => ?_, fun p h => by rw [hp, if_neg (by omega)]⟩
  rw [Nat.zero_add, hp, if_pos (pos_lt i.2 j.2), Finset.sum_range, Matrix.sum_apply]
  refine Finset.sum_congr rfl fun s _ => ?_
  rw [valL, (divmod j.2).1, (divmod j.2).2, Finset.sum_range, Matrix.mul_apply]
  refine Finset.sum_congr rfl fun l _ => ?_
  rw [tmpL_eq hx h1 s i l, h2 s l j]

/-- **C41** (`eps_r_noop`).  The same for `∑ s, A1[s] x A2[s]^H`. -/
theorem C41_eps_r {d a b a2 b2 : ℕ} (k : XKind) (x A1 A2 : Buf R) (X : Matrix (Fin b) (Fin b2) R)
    (T1 : Ten R d a b) (T2 : Ten R d a2 b2) (hx : HoldsX k x X) (h1 : HoldsTen A1 T1) (h2 : HoldsTen A2 T2)
    (hd : 0 < d) (threads : ℕ) (ht : 0 < threads) (sched : List ℕ)
    (hs : Complete sched (stepR k a b a2 b2 x A1 A2) (a * b2) (a * a2) d threads) (ndout : Buf R) :
    ∃ out, epsRC k d a b a2 b2 x A1 A2 threads sched ndout = some out ∧
      HoldsMat out 0 (∑ s, T1 s * X * (T2 s)ᴴ) ∧ ∀ p, a * a2 ≤ p → out p = ndout p := by
  obtain ⟨out, ho, hp⟩ := epsNoop_spec (kernelR a b a2 b2 x A1 A2 k fun h => hx.square h) d threads hd ht sched hs ndout
  refine ⟨out, ho, fun i j => ?_, fun p h => by rw [hp, if_neg (by omega)]⟩
  rw [Nat.zero_add, hp, if_pos (pos_lt i.2 j.2), Finset.sum_range, Matrix.sum_apply]
  refine Finset.sum_congr rfl fun s _ => ?_
  rw [valR, (divmod j.2).1, (divmod j.2).2, Finset.sum_range, Matrix.mul_apply]
  refine Finset.sum_congr rfl fun l _ => ?_
  rw [tmpR_eq hx h1 s i l, conjTranspose_apply, ← h2 s j l]

/-- **C41** (compiled and pure python maps).  The compiled maps compute what the maps of `core_common.py` compute
(`epsL`, `epsR`, the functions used everywhere else in this model). -/
theorem C41_same_as_python {d a b a2 b2 : ℕ} (k : XKind) (x A1 A2 : Buf R) (X : Matrix (Fin a) (Fin a2) R)
    (T1 : Ten R d a b) (T2 : Ten R d a2 b2) (hx : HoldsX k x X) (h1 : HoldsTen A1 T1) (h2 : HoldsTen A2 T2)
    (hd : 0 < d) (threads : ℕ) (ht : 0 < threads) (sched : List ℕ)
    (hs : Complete sched (stepL k a b a2 b2 x A1 A2) (b * a2) (b * b2) d threads) (ndout : Buf R) :
    ∃ out, epsLC k d a b a2 b2 x A1 A2 threads sched ndout = some out ∧ HoldsMat out 0 (epsL X T1 T2) := by
  obtain ⟨out, ho, h, _⟩ := C41_eps_l k x A1 A2 X T1 T2 hx h1 h2 hd threads ht sched hs ndout
  exact ⟨out, ho, by rw [epsL_eq]; exact h⟩

omit [StarRing R] in
/-- **C41** (schedules exist).  Running the chunks one after the other is a complete schedule, so the hypothesis of
the theorems above can be met for all shapes and numbers of threads. -/
theorem C41_sequential (step : ℕ → ℕ → ℕ → List (Mem R → Mem R)) (nt no d threads : ℕ) :
    Complete ((List.range (numChunks threads d)).flatMap fun i =>
      List.replicate (chunkProg step nt no threads d i).length i) step nt no d threads := by
  unfold Complete runSched
  generalize hP : chunkProg step nt no threads d = prog
  generalize (⟨fun _ => 0, fun _ => 0⟩ : Mem R) = m
  have one : ∀ (n i : ℕ) (st : Mem R × (ℕ → List (Mem R → Mem R))), (st.2 i).length = n →
      (∀ j, j ≠ i → ((List.replicate n i).foldl schedStep st).2 j = st.2 j) ∧
      ((List.replicate n i).foldl schedStep st).2 i = [] := by
    intro n i
    induction n with
    | zero => intro st h; exact ⟨fun _ _ => rfl, List.length_eq_zero_iff.mp h⟩
    | succ n ih =>
      intro st h
      rw [List.replicate_succ, List.foldl_cons]
      cases hst : st.2 i with
      | nil => rw [hst] at h; simp at h
      | cons op rest =>
        have e : schedStep st i = (op st.1, Function.update st.2 i rest) := by rw [schedStep, hst]
        rw [e]
        obtain ⟨i1, i2⟩ := ih (op st.1, Function.update st.2 i rest) (by
          rw [hst] at h
          simpa using h)
        exact ⟨fun j hj => by rw [i1 j hj]; exact Function.update_of_ne hj _ _, i2⟩
  generalize numChunks threads d = n
  have key : (∀ i < n, (((List.range n).flatMap fun i => List.replicate (prog i).length i).foldl schedStep
        (m, prog)).2 i = []) ∧
      ∀ i, n ≤ i → (((List.range n).flatMap fun i => List.replicate (prog i).length i).foldl schedStep
        (m, prog)).2 i = prog i := by
    induction n with
    | zero => simp
    | succ n ih =>
      rw [List.range_succ, List.flatMap_append, List.foldl_append, List.flatMap_singleton]
      obtain ⟨i1, i2⟩ := ih
      generalize ((List.range n).flatMap fun i => List.replicate (prog i).length i).foldl schedStep (m, prog) = st at *
      obtain ⟨o1, o2⟩ := one (prog n).length n st (by rw [i2 n le_rfl])
      refine ⟨fun i hi => ?_, fun i hi => ?_⟩
      · by_cases hin : i = n
        · subst hin; exact o2
        · rw [o1 i hin]; exact i1 i (by omega)
      · rw [o1 i (by omega)]; exact i2 i (by omega)
  exact key.1

/-- The only exception: an empty physical index range. -/
theorem C41_empty (k : XKind) (a b a2 b2 : ℕ) (x A1 A2 : Buf R) (threads : ℕ) (sched : List ℕ) (ndout : Buf R) :
    epsLC k 0 a b a2 b2 x A1 A2 threads sched ndout = none := by
  simp [epsLC, epsNoop, numChunks]

/-! ## The hypotheses can be met -/

/-- Five indices, three threads: slices 0, 1, 2-4. -/
example : (List.range (numChunks 3 5)).map (chunk 3 5) = [[0], [1], [2, 3, 4]] := by decide

/-- Every tensor and matrix can be stored. -/
example {d a b : ℕ} (T : Ten R d a b) : ∃ buf, HoldsTen buf T := by
  refine ⟨fun p => if h : p / (a * b) < d ∧ p % (a * b) / b < a ∧ p % (a * b) % b < b then
    T ⟨_, h.1⟩ ⟨_, h.2.1⟩ ⟨_, h.2.2⟩ else 0, fun s i j => ?_⟩
  have hij : i.val * b + j.val < a * b := pos_lt i.2 j.2
  have e1 := divmod (j := s.val) hij
  have e2 := divmod (j := i.val) j.2
  simp only [e1.1, e1.2, e2.1, e2.2]
  rw [dif_pos ⟨s.2, i.2, j.2⟩]

/-- A complete schedule that alternates between two chunks. -/
example (x A1 A2 : Buf ℤ) : Complete [0, 1, 1, 0] (stepL .dense 2 2 2 2 x A1 A2) 4 4 2 2 := by
  intro i hi
  have : numChunks 2 2 = 2 := rfl
  rw [this] at hi
  interval_cases i <;> rfl

end EvoMPS
