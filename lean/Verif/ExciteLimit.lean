import Verif.ExciteAssemble
import Verif.Props.UniformK
import Verif.Props.UniformTangent

/-!
# Excitations: the limits (helper lemmas)
-/

set_option linter.unusedSectionVars false

namespace EvoMPS

open Matrix Filter Topology

namespace Exc

open Uni

variable {q D v : ℕ}

theorem mapR_conj (P Q : Ten ℂ q D D) (x) : (mapR P Q x)ᴴ = mapR Q P xᴴ := by
  simp only [mapR, conjTranspose_sum, conjTranspose_mul, conjTranspose_conjTranspose, Matrix.mul_assoc]

theorem mapL_conj (P Q : Ten ℂ q D D) (x) : (mapL P Q x)ᴴ = mapL Q P xᴴ := by
  simp only [mapL, conjTranspose_sum, conjTranspose_mul, conjTranspose_conjTranspose, Matrix.mul_assoc]

theorem iter_mapR_conj (P Q : Ten ℂ q D D) (n : ℕ) (x) : ((mapR P Q)^[n] x)ᴴ = (mapR Q P)^[n] xᴴ := by
  induction n with
  | zero => rfl
  | succ n ih => rw [Function.iterate_succ_apply', Function.iterate_succ_apply', mapR_conj, ih]

theorem trace_iter (P Q : Ten ℂ q D D) (n : ℕ) (w x : Matrix (Fin D) (Fin D) ℂ) :
    (w * (mapR P Q)^[n] x).trace = ((mapL P Q)^[n] w * x).trace := by
  induction n generalizing w with
  | zero => rfl
  | succ n ih => rw [Function.iterate_succ_apply', trace_map, ih, ← Function.iterate_succ_apply]

theorem chainTransfer_one (A A' : ℕ → Ten ℂ q D D) (n : ℕ) (x) :
    chainTransfer 1 1 A A' 0 n x = (mapR (A 0) (A' 0))^[n] x := by
  induction n generalizing x with
  | zero => rw [chainTransfer_zero]; rfl
  | succ n ih => rw [chainTransfer_succ, ih, Nat.mod_one, epsR_eq, Function.iterate_succ_apply]; rfl

theorem blockMap_one (A A' : Ten ℂ q D D) (x) : blockMap [A] [A'] x = mapR A A' x := by
  rw [blockMap, List.length_singleton, List.length_singleton, chainTransfer_one]
  rfl

theorem blockMapL_one (A A' : Ten ℂ q D D) (x) : blockMapL [A'] [A] x = mapL A A' x := by
  rw [blockMapL, List.length_singleton, List.length_singleton, chainTransferL_succ, epsL_eq]
  simp [chainTransferL, chainProd, mapL]

/-- Convergence of the left maps from that of the right maps. -/
theorem left_limit {P Q : Ten ℂ q D D} {w W : Matrix (Fin D) (Fin D) ℂ} {L : Matrix (Fin D) (Fin D) ℂ → Matrix (Fin D) (Fin D) ℂ}
    (h : ∀ x, Tendsto (fun n => (mapR P Q)^[n] x) atTop (𝓝 (L x))) (hW : ∀ x, (w * L x).trace = (W * x).trace) :
    Tendsto (fun n => (mapL P Q)^[n] w) atTop (𝓝 W) := by
  have key : ∀ (M : Matrix (Fin D) (Fin D) ℂ) (i j), M i j = (M * Matrix.single j i 1).trace := by
    intro M i j
    rw [Matrix.trace_mul_single]
    simp
  refine tendsto_pi_nhds.2 fun i => tendsto_pi_nhds.2 fun j => ?_
  simp only [key _ i j]
  rw [← hW]
  simp only [← trace_iter]
  exact ((Continuous.matrix_trace (continuous_const.matrix_mul continuous_id)).tendsto _).comp (h _)

/-- Powers of a number of modulus one do not matter. -/
theorem phase_zero {z : ℂ} (hz : ‖z‖ = 1) {g : ℕ → ℂ} (hg : Tendsto g atTop (𝓝 0)) :
    Tendsto (fun n => z ^ n * g n) atTop (𝓝 0) := by
  rw [tendsto_zero_iff_norm_tendsto_zero] at hg ⊢
  simpa [norm_mul, norm_pow, hz] using hg

theorem phase_zero_mat {z : ℂ} (hz : ‖z‖ = 1) {g : ℕ → Matrix (Fin D) (Fin D) ℂ} (hg : Tendsto g atTop (𝓝 0)) :
    Tendsto (fun n => z ^ n • g n) atTop (𝓝 0) := by
  refine tendsto_pi_nhds.2 fun i => tendsto_pi_nhds.2 fun j => ?_
  exact phase_zero hz ((tendsto_pi_nhds.1 ((tendsto_pi_nhds.1 hg) i)) j)

/-- A geometric series from its equation. -/
theorem geom_sum {f : Matrix (Fin D) (Fin D) ℂ → Matrix (Fin D) (Fin D) ℂ} (hadd : ∀ x y, f (x + y) = f x + f y)
    (hsmul : ∀ (c : ℂ) x, f (c • x) = c • f x) {M u : Matrix (Fin D) (Fin D) ℂ} {w : ℂ} (h : M = u + w • f M) (n : ℕ) :
    ∑ j ∈ Finset.range n, w ^ j • f^[j] u = M - w ^ n • f^[n] M := by
  induction n with
  | zero => simp
  | succ n ih =>
    have e : f^[n] M = f^[n] u + w • f^[n + 1] M := by
      conv_lhs => rw [h]
      rw [iter_add hadd, iter_smul hsmul, Function.iterate_succ_apply]
    rw [Finset.sum_range_succ, ih, e, smul_add, smul_smul, ← pow_succ]
    abel

theorem geom_limit {f : Matrix (Fin D) (Fin D) ℂ → Matrix (Fin D) (Fin D) ℂ} (hadd : ∀ x y, f (x + y) = f x + f y)
    (hsmul : ∀ (c : ℂ) x, f (c • x) = c • f x) {M u : Matrix (Fin D) (Fin D) ℂ} {w : ℂ} (hw : ‖w‖ = 1)
    (h : M = u + w • f M) (h0 : Tendsto (fun n => f^[n] M) atTop (𝓝 0)) :
    Tendsto (fun n => ∑ j ∈ Finset.range n, w ^ j • f^[j] u) atTop (𝓝 M) := by
  simp only [geom_sum hadd hsmul h]
  simpa using (tendsto_const_nhds (x := M)).sub (phase_zero_mat hw h0)

theorem ZO_const (A : ℕ → Ten ℂ q D D) (r : ℕ → Matrix (Fin D) (Fin D) ℂ) (n : ℕ) (O : (Fin n → Fin q) → (Fin n → Fin q) → ℂ) :
    ZO (fun _ => A 0) (fun _ => A 0) 0 n O (r 0) = termRight 1 A r 0 n O := by
  simp only [ZO, lineOp, termRight, lineProd, chainProd, Nat.mod_one]

theorem leftOp_const (A : ℕ → Ten ℂ q D D) (l : ℕ → Matrix (Fin D) (Fin D) ℂ) (k n : ℕ)
    (O : (Fin n → Fin q) → (Fin n → Fin q) → ℂ) : leftOp (A 0) O (l 0) = termLeft 1 A l k n O := by
  simp only [leftOp, termLeft, lineProd, chainProd, Nat.mod_one]

section
variable {A : ℕ → Ten ℂ q D D} {l r : ℕ → Matrix (Fin D) (Fin D) ℂ} (Env : ChainEnv 1 A l r)
include Env

theorem env_left : mapL (A 0) (A 0) (l 0) = l 0 := (Env.left 0 (by omega)).symm

theorem env_right : mapR (A 0) (A 0) (r 0) = r 0 := (Env.right 0 (by omega)).symm

theorem id_transfer (n : ℕ) : ∑ s : Fin n → Fin q, chainProd 1 A 0 n s * r 0 * (chainProd 1 A 0 n s)ᴴ = r 0 := by
  have := chainTransfer_one A A n (r 0)
  rw [Function.iterate_fixed (env_right Env)] at this
  exact this

theorem id_transferL (n : ℕ) : ∑ s : Fin n → Fin q, (chainProd 1 A 0 n s)ᴴ * l 0 * chainProd 1 A 0 n s = l 0 := by
  induction n with
  | zero => simp [chainProd]
  | succ n ih =>
    have h := chainTransferL_succ (L := 1) (L' := 1) (A := A) (B := A) 0 n (l 0)
    rw [chainTransferL, chainTransferL, ih, Nat.mod_one, epsL_eq] at h
    rw [h]
    exact env_left Env

/-- Subtracting a number from the term. -/
theorem termRight_shift (n : ℕ) (O : (Fin n → Fin q) → (Fin n → Fin q) → ℂ) (e : ℂ) :
    termRight 1 A r 0 n (shiftOp O e) = termRight 1 A r 0 n O - e • r 0 := by
  have h := id_transfer Env n
  simp only [termRight, shiftOp, sub_smul, Finset.sum_sub_distrib, Nat.mod_one, ite_smul, zero_smul,
    Finset.sum_ite_eq, Finset.mem_univ, if_true, ← Finset.smul_sum, h]

theorem termLeft_shift (n k : ℕ) (O : (Fin n → Fin q) → (Fin n → Fin q) → ℂ) (e : ℂ) :
    termLeft 1 A l k n (shiftOp O e) = termLeft 1 A l k n O - e • l 0 := by
  have h := id_transferL Env n
  simp only [chainProd, Nat.mod_one] at h
  simp only [termLeft, shiftOp, sub_smul, Finset.sum_sub_distrib, Nat.mod_one, ite_smul, zero_smul,
    Finset.sum_ite_eq, Finset.mem_univ, if_true, ← Finset.smul_sum, chainProd, h]

theorem Ksum_limit (n : ℕ) (O : (Fin n → Fin q) → (Fin n → Fin q) → ℂ) {K : ℕ → Matrix (Fin D) (Fin D) ℂ}
    (hK : KRight 1 A l r n O K)
    (hlim : ∀ x, Tendsto (fun m => (mapR (A 0) (A 0))^[m] x) atTop (𝓝 (((l 0)ᴴ * x).trace • r 0))) :
    Tendsto (Ksum (A 0) (r 0) (shiftOp O (chainExpect 1 A l r 0 n O))) atTop (𝓝 (K 0)) := by
  have h1 := hK.step 0 (by omega)
  have h2 := hK.orth 0 (by omega)
  simp only [Nat.mod_one] at h1 h2
  have h3 : K 0 = ZO (fun _ => A 0) (fun _ => A 0) 0 n (shiftOp O (chainExpect 1 A l r 0 n O)) (r 0)
      + (1 : ℂ) • mapR (A 0) (A 0) (K 0) := by
    rw [ZO_const A r, termRight_shift Env, one_smul]
    exact h1.trans (by rw [mapR]; abel)
  have h4 := hlim (K 0)
  rw [h2, zero_smul] at h4
  have := geom_limit (mapR_add _ _) (mapR_smul _ _) norm_one h3 h4
  refine this.congr fun N => ?_
  simp [Ksum]

theorem KLsum_limit (n : ℕ) (O : (Fin n → Fin q) → (Fin n → Fin q) → ℂ) {K : ℕ → Matrix (Fin D) (Fin D) ℂ}
    (hK : KLeft 1 A l r n O K) (hx : chainExpect 1 A l r (0 + 1 + n * 1 - n) n O = chainExpect 1 A l r 0 n O)
    (hlim : ∀ x, Tendsto (fun m => (mapR (A 0) (A 0))^[m] x) atTop (𝓝 (((l 0)ᴴ * x).trace • r 0))) :
    Tendsto (KLsum (A 0) (l 0) (shiftOp O (chainExpect 1 A l r 0 n O))) atTop (𝓝 (K 0)) := by
  have h1 := hK.step 0 (by omega)
  have h2 := hK.orth 0 (by omega)
  rw [hx] at h1
  simp only [Nat.mod_one] at h1
  have h3 : K 0 = leftOp (A 0) (shiftOp O (chainExpect 1 A l r 0 n O)) (l 0)
      + (1 : ℂ) • mapL (A 0) (A 0) (K 0) := by
    rw [leftOp_const A l (0 + 1 + n * 1 - n), termLeft_shift Env, one_smul]
    exact h1.trans (by rw [mapL]; abel)
  have h4 : Tendsto (fun m => (mapL (A 0) (A 0))^[m] (K 0)) atTop (𝓝 0) := by
    refine left_limit hlim fun x => ?_
    rw [Matrix.mul_smul, Matrix.trace_smul, h2, smul_zero, Matrix.zero_mul, Matrix.trace_zero]
  have := geom_limit (mapL_add _ _) (mapL_smul _ _) norm_one h3 h4
  refine this.congr fun N => ?_
  simp [KLsum]

end

/-- The last linear system. -/
theorem partSum_limit {A A' : Ten ℂ q D D} {l : Matrix (Fin D) (Fin D) ℂ} {B' : Ten ℂ q D D} {z : ℂ} (hz : ‖z‖ = 1)
    {y Y w0 : Matrix (Fin D) (Fin D) ℂ} (h : y = (Y + w0) + z • mapR A A' y)
    (h0 : ∀ j, close A l B' ((mapR A A')^[j] w0) = 0)
    (hf : Tendsto (fun j => close A l B' ((mapR A A')^[j] y)) atTop (𝓝 0)) :
    Tendsto (partSum A A' l B' z Y) atTop (𝓝 (close A l B' y)) := by
  have e : ∀ N, partSum A A' l B' z Y N = close A l B' y - z ^ N * close A l B' ((mapR A A')^[N] y) := by
    intro N
    have h1 := congrArg (close A l B') (geom_sum (mapR_add A A') (mapR_smul A A') h N)
    rw [close_sum, sub_eq_add_neg, close_add, ← neg_one_smul ℂ, close_smul, close_smul] at h1
    rw [partSum, show close A l B' y - z ^ N * close A l B' ((mapR A A')^[N] y)
      = close A l B' y + -1 * (z ^ N * close A l B' ((mapR A A')^[N] y)) by ring, ← h1]
    refine Finset.sum_congr rfl fun j _ => ?_
    rw [close_smul, iter_add (mapR_add A A'), close_add, h0, add_zero]
  rw [show partSum A A' l B' z Y = fun N => _ from funext e]
  simpa using (tendsto_const_nhds (x := close A l B' y)).sub (phase_zero hz hf)

end Exc

end EvoMPS
