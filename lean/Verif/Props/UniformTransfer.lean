import Verif.UniformLemmas
import Mathlib.NumberTheory.Zsqrtd.GaussianInt

/-!
# C43: the transfer operator and the dense transfer matrix of a uniform chain

The meaning of both is given by explicit sums over the configurations of the block
(`chainTransfer`, `chainTransferL`, `chainProd` in `UniformSpec.lean`); vectors are indexed
by `finProdFinEquiv (i, j) = j + D2 * i`.
-/

namespace EvoMPS

open Matrix Uni

set_option linter.unusedSectionVars false

variable {R : Type*} [CommRing R] [StarRing R] {q D1 D2 : ℕ}

/-- Applying the operator made from two lists of the same length to the right: row-major
vectorisation of `sum_s A[s] x B[s]^+`, `s` running over the configurations of the block. -/
theorem C43_apply_right (A1 : List (Ten R q D1 D1)) (A2 : List (Ten R q D2 D2))
    (hlen : A1.length = A2.length) (h0 : 0 < A1.length) (junk : Matrix (Fin D1) (Fin D2) R)
    (v : Fin (D1 * D2) → R) :
    ∃ w, (EOp.mk A1 A2 false).matvec junk v = some w ∧ ∀ i j, w (finProdFinEquiv (i, j))
      = chainTransfer A1.length A2.length (fun k => A1.getD k 0) (fun k => A2.getD k 0) 0 A1.length
        (Matrix.of fun i j => v (finProdFinEquiv (i, j))) i j := by
  refine ⟨_, matvec_right A1 A2 hlen h0 junk v, fun i j => ?_⟩
  rw [← flat_eq, ravel, flat_divNat, flat_modNat]
  simp only [reshape, flat_eq]

/-- The same to the left. -/
theorem C43_apply_left (A1 : List (Ten R q D1 D1)) (A2 : List (Ten R q D2 D2))
    (hlen : A1.length = A2.length) (h0 : 0 < A1.length) (junk : Matrix (Fin D1) (Fin D2) R)
    (v : Fin (D1 * D2) → R) :
    ∃ w, (EOp.mk A1 A2 true).matvec junk v = some w ∧ ∀ i j, w (finProdFinEquiv (i, j))
      = chainTransferL A1.length A2.length (fun k => A1.getD k 0) (fun k => A2.getD k 0) 0 A1.length
        (Matrix.of fun i j => v (finProdFinEquiv (i, j))) i j := by
  refine ⟨_, matvec_left A1 A2 hlen h0 junk v, fun i j => ?_⟩
  rw [← flat_eq, ravel, flat_divNat, flat_modNat]
  simp only [reshape, flat_eq]

/-- The entries of the dense matrix: for a cut in front of site `k`, the block of
`lcm(L, L')` sites from site `k` on. -/
theorem C43_dense (A : List (Ten R q D1 D1)) (A' : List (Ten R q D2 D2)) (h : 0 < A.length)
    (h' : 0 < A'.length) (k : ℕ) (hk : k ≤ Nat.lcm A.length A'.length) :
    ∃ M, denseBlock A A' k = some M ∧ ∀ i i' j j',
      M (finProdFinEquiv (i, i')) (finProdFinEquiv (j, j'))
        = ∑ s : Fin (Nat.lcm A.length A'.length) → Fin q,
          chainProd A.length (fun k => A.getD k 0) k _ s i j
            * star (chainProd A'.length (fun k => A'.getD k 0) k _ s i' j') := by
  have hne : ¬ (A.length = 0 ∨ A'.length = 0) := by omega
  simp only [denseBlock, dif_pos, hne, if_false, lcm_div, ← flat_eq]
  refine denseLoop_spec _ _ _ _ _ _ k _ (fun j hj => ?_) fun j hj => ?_
  · rw [rot_repeat_get k _ A (by rwa [lcm_div_mul_left]) j (by rwa [lcm_div_mul_left]),
      getElem?_mod A h]
  · rw [rot_repeat_get k _ A' (by rwa [lcm_div_mul_right]) j (by rwa [lcm_div_mul_right]),
      getElem?_mod A' h']

/-- **C43**, right: the operator handed to the eigenvalue solver multiplies the row-major
vectorisation by the dense matrix. -/
theorem C43_right (A : List (Ten R q D1 D1)) (A' : List (Ten R q D2 D2)) (h : 0 < A.length)
    (h' : 0 < A'.length) (k : ℕ) (hk : k ≤ Nat.lcm A.length A'.length)
    (junk : Matrix (Fin D1) (Fin D2) R) (v : Fin (D1 * D2) → R) :
    ∃ M, denseBlock A A' k = some M ∧ (largestOp A A' k false).matvec junk v = some (M *ᵥ v) := by
  obtain ⟨M, hM, hv⟩ := C43_dense A A' h h' k hk
  refine ⟨M, hM, ?_⟩
  have hpos : 0 < Nat.lcm A.length A'.length := Nat.lcm_pos h h'
  have l1 : (rotList k (repeatList (Nat.lcm A.length A'.length / A.length) A)).length
      = Nat.lcm A.length A'.length := by
    rw [rotList_length, repeatList_length, lcm_div_mul_left]
  have l2 : (rotList k (repeatList (Nat.lcm A.length A'.length / A'.length) A')).length
      = Nat.lcm A.length A'.length := by
    rw [rotList_length, repeatList_length, lcm_div_mul_right]
  simp only [largestOp, lcm_div]
  rw [matvec_right _ _ (l1.trans l2.symm) (by omega)]
  congr 1
  funext p
  rw [← finProdFinEquiv.apply_symm_apply p]
  generalize finProdFinEquiv.symm p = x
  obtain ⟨i, i'⟩ := x
  rw [Matrix.mulVec, dotProduct, sum_flat, ← flat_eq, ravel, flat_divNat, flat_modNat, l1, l2,
    chainTransfer, transfer_entry]
  simp only [flat_eq, hv, reshape, Matrix.of_apply,
    rot_lists A h k _ _ (lcm_div_mul_left _ _) hk, rot_lists A' h' k _ _ (lcm_div_mul_right _ _) hk]

/-- **C43**, left: the operator to the left multiplies by the adjoint of the dense matrix. -/
theorem C43_left (A : List (Ten R q D1 D1)) (A' : List (Ten R q D2 D2)) (h : 0 < A.length)
    (h' : 0 < A'.length) (k : ℕ) (hk : k ≤ Nat.lcm A.length A'.length)
    (junk : Matrix (Fin D1) (Fin D2) R) (v : Fin (D1 * D2) → R) :
    ∃ M, denseBlock A A' k = some M ∧ (largestOp A A' k true).matvec junk v = some (Mᴴ *ᵥ v) := by
  obtain ⟨M, hM, hv⟩ := C43_dense A A' h h' k hk
  refine ⟨M, hM, ?_⟩
  have hpos : 0 < Nat.lcm A.length A'.length := Nat.lcm_pos h h'
  have l1 : (rotList k (repeatList (Nat.lcm A.length A'.length / A.length) A)).length
      = Nat.lcm A.length A'.length := by
    rw [rotList_length, repeatList_length, lcm_div_mul_left]
  have l2 : (rotList k (repeatList (Nat.lcm A.length A'.length / A'.length) A')).length
      = Nat.lcm A.length A'.length := by
    rw [rotList_length, repeatList_length, lcm_div_mul_right]
  simp only [largestOp, lcm_div]
  rw [matvec_left _ _ (l1.trans l2.symm) (by omega)]
  congr 1
  funext p
  rw [← finProdFinEquiv.apply_symm_apply p]
  generalize finProdFinEquiv.symm p = x
  obtain ⟨i, i'⟩ := x
  rw [Matrix.mulVec, dotProduct, sum_flat, ← flat_eq, ravel, flat_divNat, flat_modNat, l1, l2,
    chainTransferL, transferL_entry]
  simp only [flat_eq, hv, reshape, Matrix.of_apply, Matrix.conjTranspose_apply,
    rot_lists A h k _ _ (lcm_div_mul_left _ _) hk, rot_lists A' h' k _ _ (lcm_div_mul_right _ _) hk]

/-- States with different site dimensions are rejected. -/
theorem C43_mismatch {q' : ℕ} (hq : q ≠ q') (A : List (Ten R q D1 D1)) (A' : List (Ten R q' D2 D2))
    (k : ℕ) : denseBlock A A' k = none := by
  rw [denseBlock, dif_neg hq]

/-- The hypotheses are met by blocks of two and three different tensors with bond dimensions 2
and 1, at a cut inside the block; the matrix is not trivial. -/
example : ∃ (A : List (Ten GaussianInt 2 2 2)) (A' : List (Ten GaussianInt 2 1 1)),
    0 < A.length ∧ 0 < A'.length ∧ 4 ≤ Nat.lcm A.length A'.length ∧
    denseSite (A.getD 1 0) (A'.getD 2 0) ≠ 0 := by
  refine ⟨[fun s => !![1, 0; (s : ℕ), 1], fun _ => !![⟨0, 1⟩, 0; 2, 1]],
    [fun _ => !![1], fun _ => !![2], fun s => !![⟨(s : ℕ), 1⟩]], by simp, by simp, ?_, ?_⟩
  · simp only [List.length_cons, List.length_nil]; decide
  · intro h
    have := congrFun (congrFun h 3) 3
    revert this
    simp only [List.getD]
    decide

end EvoMPS
