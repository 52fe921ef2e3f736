import Verif.UniformExpectLemmas
import Mathlib.Topology.Instances.Matrix
import Mathlib.Analysis.Complex.Basic

/-!
# The thermodynamic limit (helper lemmas)
-/

set_option linter.unusedSectionVars false

namespace EvoMPS

open Matrix Filter Topology

section
variable {R : Type*} [CommRing R] [StarRing R] {q D : ℕ} (L : ℕ) (A : ℕ → Ten R q D D)

theorem chainProd_shift {k k' : ℕ} (h : k % L = k' % L) (n : ℕ) (s : Fin n → Fin q) :
    chainProd L A k n s = chainProd L A k' n s := by
  simp only [chainProd]
  congr 2
  funext i
  rw [Nat.add_mod, h, ← Nat.add_mod]

theorem chainTransfer_shift {k k' : ℕ} (h : k % L = k' % L) (n : ℕ) (x : Matrix (Fin D) (Fin D) R) :
    chainTransfer L L A A k n x = chainTransfer L L A A k' n x := by
  simp only [chainTransfer, chainProd_shift L A h]

theorem chainTransferL_shift {k k' : ℕ} (h : k % L = k' % L) (n : ℕ) (x : Matrix (Fin D) (Fin D) R) :
    chainTransferL L L A A k n x = chainTransferL L L A A k' n x := by
  simp only [chainTransferL, chainProd_shift L A h]

/-- Two amplitudes as a trace. -/
theorem amp_trace (u v : Fin D → R) (M M' : Matrix (Fin D) (Fin D) R) :
    star (u ⬝ᵥ (M *ᵥ v)) * (u ⬝ᵥ (M' *ᵥ v))
      = (vecMulVec (star u) u * M' * vecMulVec v (star v) * Mᴴ).trace := by
  rw [Matrix.mul_assoc, Matrix.vecMulVec_mul v, Matrix.mul_assoc, Matrix.mul_vecMulVec M',
    Matrix.vecMulVec_mul_vecMulVec, Matrix.trace_vecMulVec, ← Matrix.star_mulVec, dotProduct_smul,
    smul_eq_mul, star_dotProduct_star, mul_comm, dotProduct_comm (M *ᵥ v) u]

/-- The contraction of an operator with arbitrary matrices at the two ends. -/
def sandwich (k n : ℕ) (O : (Fin n → Fin q) → (Fin n → Fin q) → R) (X Y : Matrix (Fin D) (Fin D) R) : R :=
  ∑ s, ∑ t, O s t * (Xᴴ * chainProd L A k n t * Y * (chainProd L A k n s)ᴴ).trace

theorem padOp_append {a n b : ℕ} (O : (Fin n → Fin q) → (Fin n → Fin q) → R) (s1 t1 : Fin a → Fin q)
    (s2 t2 : Fin n → Fin q) (s3 t3 : Fin b → Fin q) :
    padOp (a := a) (b := b) O (Fin.append (Fin.append s1 s2) s3) (Fin.append (Fin.append t1 t2) t3)
      = if s1 = t1 ∧ s3 = t3 then O s2 t2 else 0 := by
  simp only [padOp, Fin.append_left, Fin.append_right, funext_iff]

theorem transferL_herm (k n : ℕ) (x : Matrix (Fin D) (Fin D) R) (hx : xᴴ = x) :
    (chainTransferL L L A A k n x)ᴴ = chainTransferL L L A A k n x := by
  simp only [chainTransferL, Matrix.conjTranspose_sum, Matrix.conjTranspose_mul, hx,
    Matrix.conjTranspose_conjTranspose, Matrix.mul_assoc]

theorem pieceElem_eq (u v : Fin D → R) (k a n b : ℕ) (O : (Fin n → Fin q) → (Fin n → Fin q) → R) :
    pieceElem L A u v k a n b O = sandwich L A (k + a) n O
      (chainTransferL L L A A k a (vecMulVec (star u) u))
      (chainTransfer L L A A (k + a + n) b (vecMulVec v (star v))) := by
  have hU : (vecMulVec (star u) u)ᴴ = vecMulVec (star u) u := by
    rw [Matrix.conjTranspose_vecMulVec, star_star]
  rw [sandwich, transferL_herm _ _ _ _ _ hU]
  simp only [pieceElem, sum_append, padOp_append]
  have h1 : ∀ (s1 : Fin a → Fin q) (s2 : Fin n → Fin q) (s3 : Fin b → Fin q),
      (∑ t1, ∑ t2, ∑ t3, star (pieceAmp L A u v k (a + n + b) (Fin.append (Fin.append s1 s2) s3))
        * (if s1 = t1 ∧ s3 = t3 then O s2 t2 else 0)
        * pieceAmp L A u v k (a + n + b) (Fin.append (Fin.append t1 t2) t3))
      = ∑ t2, O s2 t2 * ((chainProd L A k a s1)ᴴ * vecMulVec (star u) u * chainProd L A k a s1
        * chainProd L A (k + a) n t2 * (chainProd L A (k + a + n) b s3 * vecMulVec v (star v)
        * (chainProd L A (k + a + n) b s3)ᴴ) * (chainProd L A (k + a) n s2)ᴴ).trace := by
    intro s1 s2 s3
    rw [Finset.sum_eq_single s1]
    · refine Finset.sum_congr rfl fun t2 _ => ?_
      rw [Finset.sum_eq_single s3]
      · rw [if_pos ⟨rfl, rfl⟩, mul_comm (star _), mul_assoc, pieceAmp, pieceAmp, amp_trace,
          chainProd_append, chainProd_append, chainProd_append, chainProd_append]
        congr 1
        simp only [Matrix.conjTranspose_mul, Matrix.mul_assoc, ← Nat.add_assoc]
        rw [Matrix.trace_mul_comm (chainProd L A k a s1)ᴴ]
        simp only [Matrix.mul_assoc]
      · intro t3 _ h3
        rw [if_neg (fun h => h3 h.2.symm), mul_zero, zero_mul]
      · simp
    · intro t1 _ h1
      refine Finset.sum_eq_zero fun t2 _ => Finset.sum_eq_zero fun t3 _ => ?_
      rw [if_neg (fun h => h1 h.1.symm), mul_zero, zero_mul]
    · simp
  simp only [h1]
  rw [Finset.sum_comm]
  refine Finset.sum_congr rfl fun s2 _ => ?_
  symm
  have h2 : ∀ t2, O s2 t2 * (chainTransferL L L A A k a (vecMulVec (star u) u) * chainProd L A (k + a) n t2
        * chainTransfer L L A A (k + a + n) b (vecMulVec v (star v)) * (chainProd L A (k + a) n s2)ᴴ).trace
      = ∑ s1, ∑ s3, O s2 t2 * ((chainProd L A k a s1)ᴴ * vecMulVec (star u) u * chainProd L A k a s1
        * chainProd L A (k + a) n t2 * (chainProd L A (k + a + n) b s3 * vecMulVec v (star v)
        * (chainProd L A (k + a + n) b s3)ᴴ) * (chainProd L A (k + a) n s2)ᴴ).trace := by
    intro t2
    simp only [chainTransfer, chainTransferL, Matrix.sum_mul, Matrix.trace_sum, Finset.mul_sum]
    rw [Finset.sum_comm]
  simp only [h2]
  rw [Finset.sum_comm]
  refine Finset.sum_congr rfl fun s1 _ => ?_
  rw [Finset.sum_comm]

theorem pieceNorm_eq (u v : Fin D → R) (k a n b : ℕ) :
    pieceNorm L A u v k (a + n + b)
      = pieceElem L A u v k a n b (fun s t => if s = t then 1 else 0) := by
  simp only [pieceElem, pieceNorm, sum_append, padOp_append]
  refine Finset.sum_congr rfl fun s1 _ => Finset.sum_congr rfl fun s2 _ => Finset.sum_congr rfl fun s3 _ => ?_
  rw [Finset.sum_eq_single s1, Finset.sum_eq_single s2, Finset.sum_eq_single s3]
  · simp
  · intro t _ h; simp [Ne.symm h]
  · simp
  · intro t _ h; simp [Ne.symm h]
  · simp
  · intro t _ h; simp [Ne.symm h]
  · simp

theorem mod_pred {L : ℕ} (hL : 0 < L) (m : ℕ) : (m % L + L - 1) % L = (m + L - 1) % L := by
  rw [Nat.add_sub_assoc hL, Nat.add_sub_assoc hL, Nat.mod_add_mod]

theorem mod_pred_succ {L : ℕ} (m : ℕ) : (m + 1 + L - 1) % L = m % L := by
  rw [show m + 1 + L - 1 = m + L by omega, Nat.add_mod_right]

theorem ChainEnv.transferL {l r : ℕ → Matrix (Fin D) (Fin D) R} {L : ℕ} {A : ℕ → Ten R q D D} (hL : 0 < L)
    (E : ChainEnv L A l r) (k n : ℕ) :
    chainTransferL L L A A k n (l ((k + L - 1) % L)) = l ((k + n + L - 1) % L) := by
  induction n with
  | zero => rw [chainTransferL_zero]; rfl
  | succ n ih =>
    rw [chainTransferL_succ, ih, ← Nat.add_assoc, mod_pred_succ, E.left _ (Nat.mod_lt (k + n) hL), mod_pred hL, epsL_eq]

theorem ChainEnv.transferR {l r : ℕ → Matrix (Fin D) (Fin D) R} {L : ℕ} {A : ℕ → Ten R q D D} (hL : 0 < L)
    (E : ChainEnv L A l r) (k n : ℕ) :
    chainTransfer L L A A k n (r ((k + n + L - 1) % L)) = r ((k + L - 1) % L) := by
  induction n with
  | zero => rw [chainTransfer_zero]; rfl
  | succ n ih =>
    rw [chainTransfer_succ, ← ih, ← Nat.add_assoc, mod_pred_succ, ← mod_pred hL (k + n),
      E.right _ (Nat.mod_lt (k + n) hL), epsR_eq]

theorem chainExpect_sandwich (l r : ℕ → Matrix (Fin D) (Fin D) R) (k n : ℕ)
    (O : (Fin n → Fin q) → (Fin n → Fin q) → R) :
    chainExpect L A l r k n O = sandwich L A k n O (l ((k + L - 1) % L)) (r ((k + n + L - 1) % L)) := rfl

theorem sandwich_smul (k n : ℕ) (O : (Fin n → Fin q) → (Fin n → Fin q) → R) (c d : R)
    (X Y : Matrix (Fin D) (Fin D) R) :
    sandwich L A k n O (c • X) (d • Y) = star c * d * sandwich L A k n O X Y := by
  simp only [sandwich, Finset.mul_sum, Matrix.conjTranspose_smul, Matrix.smul_mul, Matrix.mul_smul,
    Matrix.trace_smul, smul_eq_mul]
  refine Finset.sum_congr rfl fun s _ => Finset.sum_congr rfl fun t _ => ?_
  ring

theorem sandwich_shift {k k' : ℕ} (h : k % L = k' % L) (n : ℕ) (O : (Fin n → Fin q) → (Fin n → Fin q) → R)
    (X Y : Matrix (Fin D) (Fin D) R) :
    sandwich L A k n O X Y = sandwich L A k' n O X Y := by
  simp only [sandwich, chainProd_shift L A h]

/-- The identity has expectation value one. -/
theorem chainExpect_one {l r : ℕ → Matrix (Fin D) (Fin D) R} {L : ℕ} {A : ℕ → Ten R q D D} (hL : 0 < L)
    (E : ChainEnv L A l r) (k n : ℕ) :
    chainExpect L A l r k n (fun s t => if s = t then 1 else 0) = 1 := by
  have h : ∀ s : Fin n → Fin q, (∑ t, (if s = t then (1 : R) else 0) * ((l ((k + L - 1) % L))ᴴ
      * chainProd L A k n t * r ((k + n + L - 1) % L) * (chainProd L A k n s)ᴴ).trace)
      = ((l ((k + L - 1) % L))ᴴ * (chainProd L A k n s * r ((k + n + L - 1) % L)
        * (chainProd L A k n s)ᴴ)).trace := by
    intro s
    rw [Finset.sum_eq_single s]
    · rw [if_pos rfl, one_mul]; simp only [Matrix.mul_assoc]
    · intro t _ ht; rw [if_neg (Ne.symm ht), zero_mul]
    · simp
  rw [chainExpect]
  simp only [h]
  rw [← Matrix.trace_sum, ← Matrix.mul_sum]
  rw [show ∑ s, chainProd L A k n s * r ((k + n + L - 1) % L) * (chainProd L A k n s)ᴴ
    = r ((k + L - 1) % L) from E.transferR hL k n]
  exact E.norm _ (Nat.mod_lt _ hL)

end

section
variable {q D : ℕ} {L : ℕ} {A : ℕ → Ten ℂ q D D}

theorem continuous_transferL (k n : ℕ) :
    Continuous fun x : Matrix (Fin D) (Fin D) ℂ => chainTransferL L L A A k n x :=
  continuous_finsetSum _ fun _ _ => (continuous_const.matrix_mul continuous_id).matrix_mul continuous_const

theorem continuous_transfer (k n : ℕ) :
    Continuous fun x : Matrix (Fin D) (Fin D) ℂ => chainTransfer L L A A k n x :=
  continuous_finsetSum _ fun _ _ => (continuous_const.matrix_mul continuous_id).matrix_mul continuous_const

theorem continuous_sandwich (k n : ℕ) (O : (Fin n → Fin q) → (Fin n → Fin q) → ℂ) :
    Continuous fun p : Matrix (Fin D) (Fin D) ℂ × Matrix (Fin D) (Fin D) ℂ => sandwich L A k n O p.1 p.2 :=
  continuous_finsetSum _ fun _ _ => continuous_finsetSum _ fun _ _ => continuous_const.mul
    (((continuous_fst.matrix_conjTranspose.matrix_mul continuous_const).matrix_mul
      continuous_snd).matrix_mul continuous_const).matrix_trace

theorem continuous_adot (x : Matrix (Fin D) (Fin D) ℂ) :
    Continuous fun y : Matrix (Fin D) (Fin D) ℂ => adot x y := by
  simp only [adot_eq_trace]
  exact (continuous_const.matrix_mul continuous_id).matrix_trace

theorem adot_single (x : Matrix (Fin D) (Fin D) ℂ) (i j : Fin D) :
    adot x (Matrix.single i j 1) = star (x i j) := by
  simp [adot_eq_trace, Matrix.trace_mul_single]

/-- The left powers converge when the right ones do. -/
theorem left_limit {l r : Matrix (Fin D) (Fin D) ℂ}
    (hlim : ∀ x, Tendsto (fun m : ℕ => chainTransfer L L A A 0 (m * L) x) atTop (𝓝 (adot l x • r)))
    (U : Matrix (Fin D) (Fin D) ℂ) :
    Tendsto (fun m : ℕ => chainTransferL L L A A 0 (m * L) U) atTop (𝓝 (star (adot U r) • l)) := by
  refine tendsto_pi_nhds.2 fun i => tendsto_pi_nhds.2 fun j => ?_
  have h := ((continuous_star.comp (continuous_adot U)).tendsto _).comp (hlim (Matrix.single i j 1))
  simp only [Function.comp_def, ← adot_chainTransferL, adot_single, star_star, adot_smul_right, star_mul] at h
  exact h

end

end EvoMPS
