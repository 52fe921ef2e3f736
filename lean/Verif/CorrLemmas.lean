import Verif.FidelityMain
import Verif.CorrSpec

/-!
# Helper lemmas for the correlation length
-/

set_option linter.unusedSectionVars false

namespace EvoMPS.Uni

open Matrix Filter Topology

variable {q D L : ℕ} {A : ℕ → Ten ℂ q D D} {l r : ℕ → Matrix (Fin D) (Fin D) ℂ}

/-- The transfer map without the part that belongs to the environments. -/
noncomputable def deflT (L : ℕ) (A : ℕ → Ten ℂ q D D) (l r : ℕ → Matrix (Fin D) (Fin D) ℂ) (k n : ℕ) (y : Matrix (Fin D) (Fin D) ℂ) :
    Matrix (Fin D) (Fin D) ℂ :=
  chainTransfer L L A A k n y - adot (l ((k + n + L - 1) % L)) y • r ((k + L - 1) % L)

theorem chainTransfer_sub (k n : ℕ) (x y : Matrix (Fin D) (Fin D) ℂ) :
    chainTransfer L L A A k n (x - y) = chainTransfer L L A A k n x - chainTransfer L L A A k n y := by
  simp only [chainTransfer, Matrix.mul_sub, Matrix.sub_mul, Finset.sum_sub_distrib]

theorem chainTransfer_plus (k n : ℕ) (x y : Matrix (Fin D) (Fin D) ℂ) :
    chainTransfer L L A A k n (x + y) = chainTransfer L L A A k n x + chainTransfer L L A A k n y := by
  simp only [chainTransfer, Matrix.mul_add, Matrix.add_mul, Finset.sum_add_distrib]

theorem adot_minus (x y z : Matrix (Fin D) (Fin D) ℂ) : adot x (y - z) = adot x y - adot x z := by
  simp only [adot_eq_trace, Matrix.mul_sub, Matrix.trace_sub]

theorem deflT_left (hL : 0 < L) (E : ChainEnv L A l r) (k a b : ℕ) (y : Matrix (Fin D) (Fin D) ℂ) :
    deflT L A l r k (a + b) y = chainTransfer L L A A k a (deflT L A l r (k + a) b y) := by
  rw [deflT, deflT, chainTransfer_add, chainTransfer_sub, mixedT_smul, E.transferR hL k a, Nat.add_assoc k a b]

theorem deflT_right (hL : 0 < L) (E : ChainEnv L A l r) (k a b : ℕ) (y : Matrix (Fin D) (Fin D) ℂ) :
    deflT L A l r k (a + b) y = deflT L A l r k a (chainTransfer L L A A (k + a) b y) := by
  rw [deflT, deflT, chainTransfer_add, ← adot_chainTransferL, E.transferL hL (k + a) b, Nat.add_assoc k a b]

theorem deflT_shift (hL : 0 < L) {k k' : ℕ} (h : k % L = k' % L) (n : ℕ) (y : Matrix (Fin D) (Fin D) ℂ) :
    deflT L A l r k n y = deflT L A l r k' n y := by
  have e1 : (k + n + L - 1) % L = (k' + n + L - 1) % L := by
    rw [← mod_pred hL, Nat.add_mod, h, ← Nat.add_mod, mod_pred hL]
  have e2 : (k + L - 1) % L = (k' + L - 1) % L := by rw [← mod_pred hL, h, mod_pred hL]
  rw [deflT, deflT, chainTransfer_shift L A h, e1, e2]

/-- The contraction of the second operator with the environment to its right. -/
noncomputable def opEnv (L : ℕ) (A : ℕ → Ten ℂ q D D) (k n : ℕ) (O : (Fin n → Fin q) → (Fin n → Fin q) → ℂ)
    (x : Matrix (Fin D) (Fin D) ℂ) : Matrix (Fin D) (Fin D) ℂ :=
  ∑ s, ∑ t, O s t • (chainProd L A k n t * x * (chainProd L A k n s)ᴴ)

theorem farOp_append {n1 d n2 : ℕ} (O1 : (Fin n1 → Fin q) → (Fin n1 → Fin q) → ℂ) (O2 : (Fin n2 → Fin q) → (Fin n2 → Fin q) → ℂ)
    (s1 t1 : Fin n1 → Fin q) (s2 t2 : Fin d → Fin q) (s3 t3 : Fin n2 → Fin q) :
    farOp d O1 O2 (Fin.append (Fin.append s1 s2) s3) (Fin.append (Fin.append t1 t2) t3)
      = if s2 = t2 then O1 s1 t1 * O2 s3 t3 else 0 := by
  simp only [farOp, Fin.append_left, Fin.append_right, funext_iff]

theorem chainExpect_far (k : ℕ) {n1 n2 : ℕ} (O1 : (Fin n1 → Fin q) → (Fin n1 → Fin q) → ℂ)
    (O2 : (Fin n2 → Fin q) → (Fin n2 → Fin q) → ℂ) (d : ℕ) :
    chainExpect L A l r k (n1 + d + n2) (farOp d O1 O2)
      = sandwich L A k n1 O1 (l ((k + L - 1) % L)) (chainTransfer L L A A (k + n1) d
        (opEnv L A (k + n1 + d) n2 O2 (r ((k + (n1 + d + n2) + L - 1) % L)))) := by
  rw [chainExpect, sandwich]
  simp only [sum_append, farOp_append]
  refine Finset.sum_congr rfl fun s1 _ => ?_
  have e1 : ∀ t1, O1 s1 t1 * ((l ((k + L - 1) % L))ᴴ * chainProd L A k n1 t1 * chainTransfer L L A A (k + n1) d
        (opEnv L A (k + n1 + d) n2 O2 (r ((k + (n1 + d + n2) + L - 1) % L))) * (chainProd L A k n1 s1)ᴴ).trace
      = ∑ s2, ∑ s3, ∑ t3, O1 s1 t1 * O2 s3 t3 * ((l ((k + L - 1) % L))ᴴ * (chainProd L A k n1 t1 * chainProd L A (k + n1) d s2
        * chainProd L A (k + n1 + d) n2 t3) * r ((k + (n1 + d + n2) + L - 1) % L) * (chainProd L A k n1 s1 * chainProd L A (k + n1) d s2
        * chainProd L A (k + n1 + d) n2 s3)ᴴ).trace := by
    intro t1
    simp only [chainTransfer, opEnv, Matrix.mul_sum, Matrix.sum_mul, Matrix.trace_sum, Finset.mul_sum]
    refine Finset.sum_congr rfl fun s2 _ => Finset.sum_congr rfl fun s3 _ => Finset.sum_congr rfl fun t3 _ => ?_
    simp only [Matrix.mul_smul, Matrix.smul_mul, Matrix.trace_smul, smul_eq_mul, Matrix.conjTranspose_mul, Matrix.mul_assoc]
    ring
  simp only [e1]
  have e2 : ∀ (s2 : Fin d → Fin q) (s3 : Fin n2 → Fin q) (t1 : Fin n1 → Fin q), (∑ t2, ∑ t3, (if s2 = t2 then O1 s1 t1 * O2 s3 t3 else 0)
        * ((l ((k + L - 1) % L))ᴴ * chainProd L A k (n1 + d + n2) (Fin.append (Fin.append t1 t2) t3) * r ((k + (n1 + d + n2) + L - 1) % L)
          * (chainProd L A k (n1 + d + n2) (Fin.append (Fin.append s1 s2) s3))ᴴ).trace)
      = ∑ t3, O1 s1 t1 * O2 s3 t3 * ((l ((k + L - 1) % L))ᴴ * (chainProd L A k n1 t1 * chainProd L A (k + n1) d s2
        * chainProd L A (k + n1 + d) n2 t3) * r ((k + (n1 + d + n2) + L - 1) % L) * (chainProd L A k n1 s1 * chainProd L A (k + n1) d s2
        * chainProd L A (k + n1 + d) n2 s3)ᴴ).trace := by
    intro s2 s3 t1
    rw [Finset.sum_eq_single s2]
    · refine Finset.sum_congr rfl fun t3 _ => ?_
      rw [if_pos rfl, chainProd_append, chainProd_append, chainProd_append, chainProd_append, ← Nat.add_assoc]
    · intro t2 _ h2
      refine Finset.sum_eq_zero fun t3 _ => ?_
      rw [if_neg (fun h => h2 h.symm), zero_mul]
    · simp
  simp only [e2]
  conv_rhs => rw [Finset.sum_comm]
  refine Finset.sum_congr rfl fun s2 _ => ?_
  rw [Finset.sum_comm]

theorem chainCorr_eq (k : ℕ) {n1 n2 : ℕ} (O1 : (Fin n1 → Fin q) → (Fin n1 → Fin q) → ℂ)
    (O2 : (Fin n2 → Fin q) → (Fin n2 → Fin q) → ℂ) (d : ℕ) :
    chainCorr L A l r k O1 O2 d = sandwich L A k n1 O1 (l ((k + L - 1) % L)) (deflT L A l r (k + n1) d
        (opEnv L A (k + n1 + d) n2 O2 (r ((k + (n1 + d + n2) + L - 1) % L)))) := by
  have e2 : chainExpect L A l r (k + n1 + d) n2 O2 = adot (l ((k + n1 + d + L - 1) % L))
      (opEnv L A (k + n1 + d) n2 O2 (r ((k + (n1 + d + n2) + L - 1) % L))) := by
    rw [chainExpect, adot_eq_trace, opEnv]
    simp only [Matrix.mul_sum, Matrix.trace_sum, Matrix.mul_smul, Matrix.trace_smul, smul_eq_mul, Matrix.mul_assoc,
      show k + n1 + d + n2 + L - 1 = k + (n1 + d + n2) + L - 1 by omega]
  rw [chainCorr, chainExpect_far, e2, chainExpect_sandwich, deflT]
  simp only [sandwich, Matrix.mul_sub, Matrix.sub_mul, Matrix.trace_sub, mul_sub, Finset.sum_sub_distrib, Matrix.mul_smul, Matrix.smul_mul,
    Matrix.trace_smul, smul_eq_mul]
  congr 1
  rw [Finset.sum_mul]
  refine Finset.sum_congr rfl fun s _ => ?_
  rw [Finset.sum_mul]
  refine Finset.sum_congr rfl fun t _ => ?_
  rw [Nat.add_assoc k n1 d]
  ring

/-! ## Growth -/

theorem adot_reshape (x : Matrix (Fin D) (Fin D) ℂ) (v : Fin (D * D) → ℂ) : adot x (reshape v) = star (ravel x) ⬝ᵥ v := by
  rw [adot_eq_trace, dotProduct, sum_flat, Matrix.trace]
  simp only [Matrix.diag_apply, Matrix.mul_apply, Matrix.conjTranspose_apply, reshape, Matrix.of_apply, Pi.star_apply, ravel]
  rw [Finset.sum_comm]
  simp

theorem adot_deflT (hL : 0 < L) (E : ChainEnv L A l r) (n : ℕ) (y : Matrix (Fin D) (Fin D) ℂ) :
    adot (l (L - 1)) (deflT L A l r 0 n y) = 0 := by
  have h0 : (0 + L - 1) % L = L - 1 := env_idx hL (dvd_zero L)
  have h1 := E.transferL hL 0 n
  rw [h0] at h1
  rw [deflT, h0, adot_minus, adot_smul_right, ← adot_chainTransferL, h1, adot_eq_trace (l (L - 1)), E.norm (L - 1) (by omega), mul_one, sub_self]

/-- Linearity. -/
theorem deflT_expand (k n : ℕ) (y : Matrix (Fin D) (Fin D) ℂ) (i i' : Fin D) :
    deflT L A l r k n y i i' = ∑ j, ∑ j', y j j' * deflT L A l r k n (Matrix.single j j' 1) i i' := by
  let f : Matrix (Fin D) (Fin D) ℂ →ₗ[ℂ] ℂ :=
    { toFun := fun y => deflT L A l r k n y i i'
      map_add' := fun x y => by
        simp only [deflT, chainTransfer_plus, adot_add_right, add_smul, Matrix.sub_apply, Matrix.add_apply]
        ring
      map_smul' := fun c x => by
        simp only [deflT, mixedT_smul, adot_smul_right, Matrix.sub_apply, Matrix.smul_apply, smul_eq_mul, RingHom.id_apply]
        ring }
  change f y = ∑ j, ∑ j', y j j' * f (Matrix.single j j' 1)
  conv_lhs => rw [Matrix.matrix_eq_sum_single y]
  simp only [map_sum]
  refine Finset.sum_congr rfl fun j _ => Finset.sum_congr rfl fun j' _ => ?_
  rw [← smul_eq_mul, ← map_smul, Matrix.smul_single, smul_eq_mul, mul_one]

theorem sandwich_expand (k n : ℕ) (O : (Fin n → Fin q) → (Fin n → Fin q) → ℂ) (x y : Matrix (Fin D) (Fin D) ℂ) :
    sandwich L A k n O x y = ∑ j, ∑ j', y j j' * sandwich L A k n O x (Matrix.single j j' 1) := by
  let f : Matrix (Fin D) (Fin D) ℂ →ₗ[ℂ] ℂ :=
    { toFun := fun y => sandwich L A k n O x y
      map_add' := fun y z => by
        simp only [sandwich, Matrix.mul_add, Matrix.add_mul, Matrix.trace_add, mul_add, Finset.sum_add_distrib]
      map_smul' := fun c y => by
        simp only [sandwich, Matrix.mul_smul, Matrix.smul_mul, Matrix.trace_smul, smul_eq_mul, RingHom.id_apply, Finset.mul_sum]
        exact Finset.sum_congr rfl fun s _ => Finset.sum_congr rfl fun t _ => by ring }
  change f y = ∑ j, ∑ j', y j j' * f (Matrix.single j j' 1)
  conv_lhs => rw [Matrix.matrix_eq_sum_single y]
  simp only [map_sum]
  refine Finset.sum_congr rfl fun j _ => Finset.sum_congr rfl fun j' _ => ?_
  rw [← smul_eq_mul, ← map_smul, Matrix.smul_single, smul_eq_mul, mul_one]

/-- Growth from the first site of a block on. -/
theorem deflT_growth0 (hL : 0 < L) (E : ChainEnv L A l r) {ρ σ : ℝ} (h0 : 0 ≤ ρ) (hσ : 0 < σ) (hρσ : ρ < σ ^ L)
    (hρ : ∀ (μ : ℂ) x, x ≠ 0 → adot (l (L - 1)) x = 0 → chainTransfer L L A A 0 L x = μ • x → ‖μ‖ ≤ ρ) :
    ∃ C : ℝ, 0 ≤ C ∧ ∀ n j j' i i', ‖deflT L A l r 0 n (Matrix.single j j' 1) i i'‖ ≤ C * σ ^ n := by
  obtain ⟨E0, -, e1, -⟩ := dense_mixed (⟨L, A, fun _ _ _ => 0, l, r, 0, 0⟩ : UMPS ℂ q D) ⟨L, A, fun _ _ _ => 0, l, r, 0, 0⟩ hL hL
  simp only [Nat.lcm_self] at e1
  have hi0 : (0 + L - 1) % L = L - 1 := env_idx hL (dvd_zero L)
  have hlr : adot (l (L - 1)) (r (L - 1)) = 1 := by rw [adot_eq_trace]; exact E.norm _ (by omega)
  have hlT : ∀ x, adot (l (L - 1)) (chainTransfer L L A A 0 L x) = adot (l (L - 1)) x := by
    intro x
    rw [← adot_chainTransferL, env_blockL hL E (dvd_refl L)]
  set F := E0 - vecMulVec (ravel (r (L - 1))) (star (ravel (l (L - 1)))) with hF
  have hFv : ∀ v, reshape (F *ᵥ v) = chainTransfer L L A A 0 L (reshape v) - adot (l (L - 1)) (reshape v) • r (L - 1) := by
    intro v
    rw [hF, Matrix.sub_mulVec, Matrix.vecMulVec_mulVec, ← adot_reshape, ← e1]
    ext i j
    simp [reshape, ravel]
  have hev : ∀ (μ : ℂ) v, v ≠ 0 → F *ᵥ v = μ • v → ‖μ‖ ≤ ρ := by
    intro μ v hv h
    by_cases hμ : μ = 0
    · rw [hμ, norm_zero]
      exact h0
    have h1 := hFv v
    rw [h, reshape_smul] at h1
    have h2 : adot (l (L - 1)) (reshape v) = 0 := by
      have := congrArg (adot (l (L - 1))) h1
      rw [adot_smul_right, adot_minus, adot_smul_right, hlT, hlr, mul_one, sub_self] at this
      exact (mul_eq_zero.mp this).resolve_left hμ
    rw [h2, zero_smul, sub_zero] at h1
    exact hρ μ (reshape v) (reshape_ne.mpr hv) h2 h1.symm
  obtain ⟨C, hC, hb⟩ := pow_growth F h0 hev (show 0 < σ ^ L - ρ by linarith)
  rw [add_sub_cancel] at hb
  have hpow : ∀ m y, deflT L A l r 0 (m * L) y = reshape ((F ^ m) *ᵥ ravel (y - adot (l (L - 1)) y • r (L - 1))) := by
    intro m y
    induction m with
    | zero =>
      rw [Nat.zero_mul, pow_zero, Matrix.one_mulVec, reshape_ravel, deflT, chainTransfer_zero, Nat.add_zero, hi0]
    | succ m ih =>
      rw [show (m + 1) * L = L + m * L by ring, deflT_left hL E, deflT_shift hL (k' := 0) (by simp), pow_succ', ← Matrix.mulVec_mulVec,
        hFv, ← ih, adot_deflT hL E, zero_smul, sub_zero]
  obtain ⟨K, hK⟩ := Finite.exists_le fun x : Fin L × Fin D × Fin D =>
    (∑ p, ‖(ravel (chainTransfer L L A A 0 x.1 (Matrix.single x.2.1 x.2.2 (1 : ℂ))
      - adot (l (L - 1)) (chainTransfer L L A A 0 x.1 (Matrix.single x.2.1 x.2.2 (1 : ℂ))) • r (L - 1)) : Fin (D * D) → ℂ) p‖) * (σ ^ (x.1 : ℕ))⁻¹
  refine ⟨C * max K 0, by positivity, fun n j j' i i' => ?_⟩
  have hn : n = n / L * L + n % L := by rw [Nat.mul_comm]; exact (Nat.div_add_mod n L).symm
  have htL : n % L < L := Nat.mod_lt n hL
  have hk1 := (hK (⟨n % L, htL⟩, j, j')).trans (le_max_left K 0)
  simp only at hk1
  set m := n / L
  set t := n % L
  rw [hn, deflT_right hL E, hpow, chainTransfer_shift L A (k' := 0) (by simp), reshape, Matrix.of_apply, Matrix.mulVec, dotProduct]
  refine (norm_sum_le _ _).trans ?_
  set z : Fin (D * D) → ℂ := ravel (chainTransfer L L A A 0 t (Matrix.single j j' (1 : ℂ))
      - adot (l (L - 1)) (chainTransfer L L A A 0 t (Matrix.single j j' (1 : ℂ))) • r (L - 1)) with hz
  calc ∑ p, ‖(F ^ m) (flat i i') p * z p‖ ≤ ∑ p, C * (σ ^ L) ^ m * ‖z p‖ := by
        refine Finset.sum_le_sum fun p _ => ?_
        rw [norm_mul]
        exact mul_le_mul_of_nonneg_right (hb m _ p) (norm_nonneg _)
    _ = C * σ ^ (m * L + t) * ((∑ p, ‖z p‖) * (σ ^ t)⁻¹) := by
        rw [← Finset.mul_sum, pow_add, ← pow_mul, Nat.mul_comm L m]
        field_simp
    _ ≤ C * σ ^ (m * L + t) * max K 0 := mul_le_mul_of_nonneg_left hk1 (by positivity)
    _ = _ := by ring

/-- Growth from any site on. -/
theorem deflT_growth (hL : 0 < L) (E : ChainEnv L A l r) {ρ σ : ℝ} (h0 : 0 ≤ ρ) (hσ : 0 < σ) (hρσ : ρ < σ ^ L)
    (hρ : ∀ (μ : ℂ) x, x ≠ 0 → adot (l (L - 1)) x = 0 → chainTransfer L L A A 0 L x = μ • x → ‖μ‖ ≤ ρ) :
    ∃ C : ℝ, 0 ≤ C ∧ ∀ k n j j' i i', ‖deflT L A l r k n (Matrix.single j j' 1) i i'‖ ≤ C * σ ^ n := by
  obtain ⟨C, hC, hb⟩ := deflT_growth0 hL E h0 hσ hρσ hρ
  obtain ⟨K1, hK1⟩ := Finite.exists_le fun x : Fin L × Fin L × (Fin D × Fin D) × (Fin D × Fin D) =>
    ‖deflT L A l r x.1 x.2.1 (Matrix.single x.2.2.1.1 x.2.2.1.2 (1 : ℂ)) x.2.2.2.1 x.2.2.2.2‖ * (σ ^ (x.2.1 : ℕ))⁻¹
  obtain ⟨K2, hK2⟩ := Finite.exists_le fun x : Fin L × Fin L × (Fin D × Fin D) =>
    (∑ j, ∑ j', ‖∑ s, chainProd L A x.1 x.2.1 s x.2.2.1 j * star (chainProd L A x.1 x.2.1 s x.2.2.2 j')‖) * (σ ^ (x.2.1 : ℕ))⁻¹
  refine ⟨max K1 0 + max K2 0 * C, by positivity, fun k n j j' i i' => ?_⟩
  have hkL : k % L < L := Nat.mod_lt k hL
  rw [deflT_shift hL (show k % L = k % L % L by rw [Nat.mod_mod])]
  by_cases hn : n < L
  · have h1 := (hK1 (⟨k % L, hkL⟩, ⟨n, hn⟩, (j, j'), (i, i'))).trans (le_max_left K1 0)
    simp only at h1
    rw [← div_eq_mul_inv, div_le_iff₀ (by positivity)] at h1
    refine h1.trans ?_
    have : 0 ≤ max K2 0 * C * σ ^ n := by positivity
    nlinarith
  · obtain ⟨a, ha, hka⟩ : ∃ a < L, (k % L + a) % L = 0 := by
      by_cases hz : k % L = 0
      · exact ⟨0, hL, by rw [hz]; simp⟩
      · exact ⟨L - k % L, by omega, by rw [Nat.add_sub_cancel' hkL.le, Nat.mod_self]⟩
    obtain ⟨b, rfl⟩ : ∃ b, n = a + b := ⟨n - a, by omega⟩
    rw [deflT_left hL E, deflT_shift hL (k' := 0) (by rw [hka, Nat.zero_mod]), chainTransfer, transfer_entry]
    have h2 := (hK2 (⟨k % L, hkL⟩, ⟨a, ha⟩, (i, i'))).trans (le_max_left K2 0)
    simp only at h2
    rw [← div_eq_mul_inv, div_le_iff₀ (by positivity)] at h2
    have h3 : ‖∑ p, ∑ p', (∑ s, chainProd L A (k % L) a s i p * star (chainProd L A (k % L) a s i' p'))
        * deflT L A l r 0 b (Matrix.single j j' 1) p p'‖
        ≤ (∑ p, ∑ p', ‖∑ s, chainProd L A (k % L) a s i p * star (chainProd L A (k % L) a s i' p')‖) * (C * σ ^ b) := by
      rw [Finset.sum_mul]
      refine (norm_sum_le _ _).trans (Finset.sum_le_sum fun p _ => ?_)
      rw [Finset.sum_mul]
      refine (norm_sum_le _ _).trans (Finset.sum_le_sum fun p' _ => ?_)
      rw [norm_mul]
      exact mul_le_mul_of_nonneg_left (hb b j j' p p') (norm_nonneg _)
    refine h3.trans ((mul_le_mul_of_nonneg_right h2 (by positivity)).trans ?_)
    rw [pow_add]
    have : 0 ≤ max K1 0 * (σ ^ a * σ ^ b) := by positivity
    nlinarith

/-- Decay of the connected correlations. -/
theorem chainCorr_decay (hL : 0 < L) (E : ChainEnv L A l r) {ρ σ : ℝ} (h0 : 0 ≤ ρ) (hσ : 0 < σ) (hρσ : ρ < σ ^ L)
    (hρ : ∀ (μ : ℂ) x, x ≠ 0 → adot (l (L - 1)) x = 0 → chainTransfer L L A A 0 L x = μ • x → ‖μ‖ ≤ ρ)
    (k : ℕ) {n1 n2 : ℕ} (O1 : (Fin n1 → Fin q) → (Fin n1 → Fin q) → ℂ) (O2 : (Fin n2 → Fin q) → (Fin n2 → Fin q) → ℂ) :
    ∃ C : ℝ, ∀ d, ‖chainCorr L A l r k O1 O2 d‖ ≤ C * σ ^ d := by
  obtain ⟨C, hC, hb⟩ := deflT_growth hL E h0 hσ hρσ hρ
  obtain ⟨K, hK⟩ := Finite.exists_le fun x : Fin L =>
    ∑ j, ∑ j', ‖opEnv L A (k + n1 + x) n2 O2 (r ((k + (n1 + x + n2) + L - 1) % L)) j j'‖
  refine ⟨(∑ i, ∑ i', ‖sandwich L A k n1 O1 (l ((k + L - 1) % L)) (Matrix.single i i' 1)‖) * (max K 0 * C), fun d => ?_⟩
  rw [chainCorr_eq, sandwich_expand]
  have hY : opEnv L A (k + n1 + d) n2 O2 (r ((k + (n1 + d + n2) + L - 1) % L))
      = opEnv L A (k + n1 + d % L) n2 O2 (r ((k + (n1 + d % L + n2) + L - 1) % L)) := by
    have e1 : (k + n1 + d) % L = (k + n1 + d % L) % L := by rw [Nat.add_mod_mod]
    have e2 : (k + (n1 + d + n2) + L - 1) % L = (k + (n1 + d % L + n2) + L - 1) % L := by
      rw [show k + (n1 + d + n2) + L - 1 = k + n1 + n2 + L - 1 + d by omega,
        show k + (n1 + d % L + n2) + L - 1 = k + n1 + n2 + L - 1 + d % L by omega, Nat.add_mod_mod]
    simp only [opEnv, e2, chainProd_shift L A e1]
  have hd : ∀ i i', ‖deflT L A l r (k + n1) d (opEnv L A (k + n1 + d) n2 O2 (r ((k + (n1 + d + n2) + L - 1) % L))) i i'‖
      ≤ max K 0 * (C * σ ^ d) := by
    intro i i'
    rw [deflT_expand, hY]
    have h1 := (hK ⟨d % L, Nat.mod_lt d hL⟩).trans (le_max_left K 0)
    simp only at h1
    refine le_trans ?_ (mul_le_mul_of_nonneg_right h1 (by positivity))
    rw [Finset.sum_mul]
    refine (norm_sum_le _ _).trans (Finset.sum_le_sum fun j _ => ?_)
    rw [Finset.sum_mul]
    refine (norm_sum_le _ _).trans (Finset.sum_le_sum fun j' _ => ?_)
    rw [norm_mul]
    exact mul_le_mul_of_nonneg_left (hb _ _ _ _ _ _) (norm_nonneg _)
  rw [mul_assoc, Finset.sum_mul]
  refine (norm_sum_le _ _).trans (Finset.sum_le_sum fun i _ => ?_)
  rw [Finset.sum_mul]
  refine (norm_sum_le _ _).trans (Finset.sum_le_sum fun i' _ => ?_)
  rw [norm_mul, mul_comm]
  refine mul_le_mul_of_nonneg_left ((hd i i').trans (le_of_eq (by ring))) (norm_nonneg _)

end EvoMPS.Uni
