import Verif.HalfChain
import Verif.HalfChainSpec
import Verif.UniformKLemmas
import Verif.UniformLimit
import Verif.SwEnergySpec
import Verif.Props.UniformPinv
import Verif.Props.UniformExpect

/-!
# Lemmas about operators on a half chain
-/

set_option linter.unusedSectionVars false

namespace EvoMPS.Uni

open Matrix

section
variable {q D : ℕ} (L : ℕ) (A : ℕ → Ten ℂ q D D)

theorem halfElem_eq (r : ℕ → Matrix (Fin D) (Fin D) ℂ) (k n : ℕ) (O : (Fin n → Fin q) → (Fin n → Fin q) → ℂ) (α β : Fin D) :
    halfElem L A r k n O α β = chainOp L A k n O (r ((k + n + L - 1) % L)) α β := by
  simp only [halfElem, chainOp, Matrix.sum_apply, Matrix.smul_apply, smul_eq_mul]

theorem epsROp1_siteId {a a' b b' : ℕ} (x : Matrix (Fin b) (Fin b') ℂ) (A1 : Ten ℂ q a b) (A2 : Ten ℂ q a' b') :
    epsROp1 x A1 A2 siteId = epsR x A1 A2 := by
  rw [epsROp1_eq, epsR_eq]
  refine Finset.sum_congr rfl fun s _ => ?_
  simp [siteId]

theorem chainOp_id (k n : ℕ) (x : Matrix (Fin D) (Fin D) ℂ) :
    chainOp L A k n (tensorOp n fun _ => siteId) x = chainTransfer L L A A k n x := by
  induction n generalizing x with
  | zero => rw [chainOp_zero, chainTransfer_zero]
  | succ n ih => rw [chainOp_string_succ, ih, epsROp1_siteId, chainTransfer_succ]

theorem chainOp_congr (k n : ℕ) {o o' : ℕ → Fin q → Fin q → ℂ} (h : ∀ i < n, o i = o' i) (x : Matrix (Fin D) (Fin D) ℂ) :
    chainOp L A k n (tensorOp n o) x = chainOp L A k n (tensorOp n o') x := by
  have e : tensorOp n o = tensorOp n o' := by
    funext s t
    exact Finset.prod_congr rfl fun i _ => by rw [h i i.2]
  rw [e]

/-- `op` on site `k + j`, in front of the right environment of this site. -/
noncomputable def opSite (r : ℕ → Matrix (Fin D) (Fin D) ℂ) (op : Fin q → Fin q → ℂ) (j : ℕ) : Matrix (Fin D) (Fin D) ℂ :=
  epsROp1 (r (j % L)) (A (j % L)) (A (j % L)) op

variable {L A} {l r : ℕ → Matrix (Fin D) (Fin D) ℂ} (hL : 0 < L) (E : ChainEnv L A l r)
include hL E

theorem chainOp_oneSite (op : Fin q → Fin q → ℂ) (k j n : ℕ) (hj : j < n) :
    chainOp L A k n (tensorOp n (halfSiteOp op j)) (r ((k + n + L - 1) % L)) = chainTransfer L L A A k j (opSite L A r op (k + j)) := by
  induction n with
  | zero => omega
  | succ n ih =>
    rw [chainOp_string_succ, ← Nat.add_assoc, mod_pred_succ]
    by_cases h : j = n
    · subst h
      rw [chainOp_congr L A k j (o' := fun _ => siteId) (fun i hi => by rw [halfSiteOp, if_neg (by omega)]), chainOp_id, halfSiteOp, if_pos rfl]
      rfl
    · rw [halfSiteOp, if_neg (fun e => h e.symm), epsROp1_siteId, epsR_eq, ← E.right _ (Nat.mod_lt (k + n) hL), mod_pred hL]
      exact ih (by omega)

theorem halfNorm_eq (k n : ℕ) (α : Fin D) : halfNorm L A r k n α = r ((k + L - 1) % L) α α := by
  rw [halfNorm, halfElem_eq, chainOp_id, E.transferR hL]

theorem halfSum_eq (op : Fin q → Fin q → ℂ) (k n : ℕ) (α β : Fin D) :
    halfSum L A r k n op α β = (∑ j ∈ Finset.range n, chainTransfer L L A A k j (opSite L A r op (k + j))) α β := by
  rw [halfSum, Matrix.sum_apply]
  refine Finset.sum_congr rfl fun j hj => ?_
  rw [halfElem_eq, chainOp_oneSite hL E op k j n (Finset.mem_range.1 hj)]

omit hL E in
theorem chainTransfer_addM (k n : ℕ) (x y : Matrix (Fin D) (Fin D) ℂ) :
    chainTransfer L L A A k n (x + y) = chainTransfer L L A A k n x + chainTransfer L L A A k n y := by
  simp only [chainTransfer, Matrix.mul_add, Matrix.add_mul, Finset.sum_add_distrib]

omit hL E in
theorem chainTransfer_sumM (k n : ℕ) {ι : Type*} (s : Finset ι) (f : ι → Matrix (Fin D) (Fin D) ℂ) :
    chainTransfer L L A A k n (∑ i ∈ s, f i) = ∑ i ∈ s, chainTransfer L L A A k n (f i) := by
  simp only [chainTransfer, Matrix.mul_sum, Matrix.sum_mul]
  rw [Finset.sum_comm]

omit hL E in
/-- The sum over whole blocks. -/
theorem sum_transfer_blocks (op : Fin q → Fin q → ℂ) (k m : ℕ) :
    ∑ j ∈ Finset.range (m * L), chainTransfer L L A A k j (opSite L A r op (k + j))
      = ∑ b ∈ Finset.range m, chainTransfer L L A A k (b * L)
        (∑ j ∈ Finset.range L, chainTransfer L L A A k j (opSite L A r op (k + j))) := by
  induction m with
  | zero => simp
  | succ m ih =>
    rw [Nat.add_mul, Nat.one_mul, Finset.sum_range_add, ih, Finset.sum_range_succ, chainTransfer_sumM]
    congr 1
    refine Finset.sum_congr rfl fun j _ => ?_
    rw [chainTransfer_add, chainTransfer_shift L A (k := k + m * L) (k' := k) (by rw [Nat.add_mul_mod_self_right])]
    have e : opSite L A r op (k + (m * L + j)) = opSite L A r op (k + j) := by
      unfold opSite
      rw [show k + (m * L + j) = k + j + m * L by ring, Nat.add_mul_mod_self_right]
    rw [e]

/-- The powers of the transfer map of the block that starts at site `k`. -/
theorem mixing_shift (hmix : BlockMixing L A (l (L - 1)) (r (L - 1))) (k : ℕ) (hk : k < L) (x : Matrix (Fin D) (Fin D) ℂ) :
    Filter.Tendsto (fun m : ℕ => chainTransfer L L A A k (m * L) x) Filter.atTop
      (nhds (((l ((k + L - 1) % L))ᴴ * x).trace • r ((k + L - 1) % L))) := by
  have h := hmix (chainTransfer L L A A 0 k x)
  have e1 : ((l (L - 1))ᴴ * chainTransfer L L A A 0 k x).trace = ((l ((k + L - 1) % L))ᴴ * x).trace := by
    have := E.transferL hL 0 k
    rw [Nat.zero_add, Nat.zero_add, Nat.mod_eq_of_lt (show L - 1 < L by omega)] at this
    rw [← adot_eq_trace, ← adot_eq_trace, ← adot_chainTransferL, this]
  have e2 : chainTransfer L L A A k (L - k) (r (L - 1)) = r ((k + L - 1) % L) := by
    have := E.transferR hL k (L - k)
    rw [show k + (L - k) + L - 1 = L - 1 + L by omega, Nat.add_mod_right, Nat.mod_eq_of_lt (show L - 1 < L by omega)] at this
    exact this
  rw [e1] at h
  have h2 := ((continuous_transfer (L := L) (A := A) k (L - k)).tendsto _).comp h
  have e3 : chainTransfer L L A A k (L - k) (((l ((k + L - 1) % L))ᴴ * x).trace • r (L - 1))
      = ((l ((k + L - 1) % L))ᴴ * x).trace • r ((k + L - 1) % L) := by
    rw [← e2]
    simp only [chainTransfer, Matrix.mul_smul, Matrix.smul_mul, Finset.smul_sum]
  rw [e3] at h2
  refine (Filter.tendsto_add_atTop_iff_nat 1).1 (h2.congr fun m => ?_)
  simp only [Function.comp]
  rw [show (m + 1) * L = (L - k) + (m * L + k) by rw [Nat.add_mul]; omega, chainTransfer_add L L A A k (L - k),
    show k + (L - k) = L by omega, chainTransfer_shift L A (k := L) (k' := 0) (by simp), chainTransfer_add L L A A 0 (m * L) k,
    chainTransfer_shift L A (k := 0 + m * L) (k' := 0) (by simp)]

end

section
variable {q D : ℕ} (S : UMPS ℂ q D)

theorem rops_eq (op : Fin q → Fin q → ℂ) (k : ℕ) (hk : k < S.L) :
    S.rops op k = ∑ j ∈ Finset.range S.L, chainTransfer S.L S.L S.A S.A k j (opSite S.L S.A S.r op (k + j)) := by
  have inner : ∀ (j m : ℕ) (x : Matrix (Fin D) (Fin D) ℂ), m ≤ j → (List.range m).foldl (fun rj (l : ℕ) =>
      epsR rj (S.A (pmod ((k : ℤ) + j - l - 1) S.L)) (S.A (pmod ((k : ℤ) + j - l - 1) S.L))) x
        = chainTransfer S.L S.L S.A S.A (k + j - m) m x := by
    intro j m
    induction m with
    | zero => intro x _; rw [chainTransfer_zero]; rfl
    | succ m ih =>
      intro x hm
      rw [List.range_succ, List.foldl_append, ih x (by omega)]
      simp only [List.foldl_cons, List.foldl_nil]
      rw [Nat.add_comm m 1, chainTransfer_add, chainTransfer_one, show k + j - (1 + m) + 1 = k + j - m by omega,
        show (k : ℤ) + j - m - 1 = ((k + j - (1 + m) : ℕ) : ℤ) by omega, pmod_nat]
  have outer : ∀ m ≤ S.L - 1, (List.range' 1 m).foldl (fun rops (j : ℕ) =>
      rops + (List.range j).foldl (fun rj (l : ℕ) => epsR rj (S.A (pmod ((k : ℤ) + j - l - 1) S.L)) (S.A (pmod ((k : ℤ) + j - l - 1) S.L)))
        (epsROp1 (S.r ((k + j) % S.L)) (S.A ((k + j) % S.L)) (S.A ((k + j) % S.L)) op)) (epsROp1 (S.r k) (S.A k) (S.A k) op)
      = ∑ j ∈ Finset.range (m + 1), chainTransfer S.L S.L S.A S.A k j (opSite S.L S.A S.r op (k + j)) := by
    intro m
    induction m with
    | zero =>
      intro _
      rw [Finset.sum_range_one, chainTransfer_zero, opSite, Nat.add_zero, Nat.mod_eq_of_lt hk]
      rfl
    | succ m ih =>
      intro hm
      rw [List.range'_concat, List.foldl_append, ih (by omega), Finset.sum_range_succ _ (m + 1), show 1 + 1 * m = m + 1 by ring]
      simp only [List.foldl_cons, List.foldl_nil]
      rw [inner (m + 1) (m + 1) _ le_rfl, show k + (m + 1) - (m + 1) = k by omega]
      rfl
  have := outer (S.L - 1) le_rfl
  rw [show S.L - 1 + 1 = S.L by omega] at this
  exact this

theorem blockMap_rot (k : ℕ) (hk : k < S.L) (x : Matrix (Fin D) (Fin D) ℂ) :
    blockMap (rotList k S.list) (rotList k S.list) x = chainTransfer S.L S.L S.A S.A k S.L x := by
  rw [blockMap, rotList_length, list_length]
  have e : ∀ s : Fin S.L → Fin q, chainProd S.L (fun j => (rotList k S.list).getD j 0) 0 S.L s = chainProd S.L S.A k S.L s := fun s => by
    refine chainProd_congr (fun j hj => ?_) s
    rw [Nat.zero_add, Nat.mod_eq_of_lt hj]
    refine getD_of_getElem? ?_
    rw [rotList_get k _ (by rw [list_length]; omega) j (by rw [list_length]; exact hj), list_length]
    simp [UMPS.list, Nat.mod_lt _ (show 0 < S.L by omega)]
  simp only [chainTransfer, e]

end

end EvoMPS.Uni
