import Verif.HalfString
import Verif.HalfStringSpec
import Verif.HalfChainLemmas

/-!
# Lemmas about string operators on a half chain
-/

set_option linter.unusedSectionVars false

namespace EvoMPS.Uni

open Matrix

section
variable {q D L : ℕ} {A : ℕ → Ten ℂ q D D} {op : Fin q → Fin q → ℂ} {V : ℕ → Matrix (Fin D) (Fin D) ℂ} {w : ℕ → ℂ}
  (hL : 0 < L) (Y : StringSym L A op V w)

theorem unitary_left {n : ℕ} {M : Matrix (Fin n) (Fin n) ℂ} (h : M * Mᴴ = 1) : Mᴴ * M = 1 := mul_eq_one_comm.1 h

/-- The phases collected on `n` sites. -/
noncomputable def strPhase (L : ℕ) (w : ℕ → ℂ) (k n : ℕ) : ℂ := ∏ i ∈ Finset.range n, w ((k + i) % L)

include hL Y

theorem strPhase_norm (k n : ℕ) : ‖strPhase L w k n‖ = 1 := by
  rw [strPhase, norm_prod]
  exact Finset.prod_eq_one fun i _ => Y.phase _ (Nat.mod_lt _ hL)

theorem sym_site (j : ℕ) (s : Fin q) : opTen op (A (j % L)) s = w (j % L) • (V ((j + L - 1) % L) * A (j % L) s * (V (j % L))ᴴ) := by
  rw [opTen, Y.site _ (Nat.mod_lt _ hL), mod_pred hL]

/-- The mixed transfer map of a symmetry. -/
theorem sym_transfer (k n : ℕ) (x : Matrix (Fin D) (Fin D) ℂ) :
    chainTransfer L L (fun j => opTen op (A j)) A k n x
      = strPhase L w k n • (V ((k + L - 1) % L) * chainTransfer L L A A k n ((V ((k + n + L - 1) % L))ᴴ * x)) := by
  induction n generalizing x with
  | zero =>
    rw [chainTransfer_zero, chainTransfer_zero, strPhase, Finset.prod_range_zero, one_smul, Nat.add_zero, ← Matrix.mul_assoc,
      Y.unitary _ (Nat.mod_lt _ hL), Matrix.one_mul]
  | succ n ih =>
    rw [chainTransfer_succ, ih, chainTransfer_succ, strPhase, strPhase, Finset.prod_range_succ, mul_smul, ← Nat.add_assoc, mod_pred_succ]
    congr 1
    have e : (V ((k + n + L - 1) % L))ᴴ * epsR x (opTen op (A ((k + n) % L))) (A ((k + n) % L))
        = w ((k + n) % L) • epsR ((V ((k + n) % L))ᴴ * x) (A ((k + n) % L)) (A ((k + n) % L)) := by
      rw [epsR_eq, epsR_eq, Matrix.mul_sum, Finset.smul_sum]
      refine Finset.sum_congr rfl fun s _ => ?_
      rw [sym_site hL Y, Matrix.smul_mul, Matrix.smul_mul, Matrix.mul_smul]
      congr 1
      simp only [← Matrix.mul_assoc, unitary_left (Y.unitary _ (Nat.mod_lt (k + n + L - 1) hL)), Matrix.one_mul]
    rw [e]
    simp only [chainTransfer, Matrix.mul_smul, Matrix.smul_mul, ← Finset.smul_sum]

theorem sym_conj (hU : OpUnitary op) (k n : ℕ) (x : Matrix (Fin D) (Fin D) ℂ) :
    chainTransfer L L A A k n (V ((k + n + L - 1) % L) * x * (V ((k + n + L - 1) % L))ᴴ)
      = V ((k + L - 1) % L) * chainTransfer L L A A k n x * (V ((k + L - 1) % L))ᴴ := by
  induction n generalizing x with
  | zero => rw [chainTransfer_zero, chainTransfer_zero, Nat.add_zero]
  | succ n ih =>
    rw [chainTransfer_succ, chainTransfer_succ, ← ih, ← Nat.add_assoc, mod_pred_succ]
    congr 1
    have hm := Nat.mod_lt (k + n) hL
    set j := (k + n) % L with hj
    set W := V ((k + n + L - 1) % L)
    have hu := unitary_left (Y.unitary j hm)
    have e1 : ∀ s, opTen op (A j) s * V j = w j • (W * A j s) := fun s => by
      rw [hj, sym_site hL Y, Matrix.smul_mul, Matrix.mul_assoc, ← hj, hu, Matrix.mul_one]
    have e2 : ∑ s, (opTen op (A j) s * V j) * x * (opTen op (A j) s * V j)ᴴ = epsR (V j * x * (V j)ᴴ) (A j) (A j) := by
      rw [epsR_eq]
      have : ∀ s, (opTen op (A j) s * V j) * x * (opTen op (A j) s * V j)ᴴ
          = ∑ t, ∑ t', (op s t * star (op s t')) • (A j t * (V j * x * (V j)ᴴ) * (A j t')ᴴ) := fun s => by
        simp only [opTen, Matrix.conjTranspose_mul, Matrix.conjTranspose_sum, Matrix.conjTranspose_smul, Matrix.sum_mul, Matrix.mul_sum,
          Matrix.smul_mul, Matrix.mul_smul, Finset.smul_sum, smul_smul, Matrix.mul_assoc]
        rw [Finset.sum_comm]
        refine Finset.sum_congr rfl fun t _ => Finset.sum_congr rfl fun t' _ => ?_
        rw [mul_comm]
      simp only [this]
      rw [Finset.sum_comm]
      refine Finset.sum_congr rfl fun t _ => ?_
      rw [Finset.sum_comm]
      have hU' := hU t
      simp only [← Finset.sum_smul, hU', ite_smul, one_smul, zero_smul, Finset.sum_ite_eq, Finset.mem_univ, if_true]
    rw [← e2, epsR_eq, Matrix.mul_sum, Matrix.sum_mul]
    refine Finset.sum_congr rfl fun s _ => ?_
    have hw : w j * star (w j) = 1 := by
      rw [Complex.star_def, Complex.mul_conj, Complex.normSq_eq_norm_sq, Y.phase j hm]
      simp
    rw [e1, Matrix.conjTranspose_smul, Matrix.conjTranspose_mul]
    simp only [Matrix.smul_mul, Matrix.mul_smul, smul_smul]
    rw [mul_comm, hw, one_smul]
    simp only [Matrix.mul_assoc]

variable {l r : ℕ → Matrix (Fin D) (Fin D) ℂ} (E : ChainEnv L A l r) (hmix : BlockMixing L A (l (L - 1)) (r (L - 1)))
include E hmix

/-- An eigenvector of the mixed map for an eigenvalue of largest modulus. -/
theorem sym_eigen (k : ℕ) (hk : k < L) (ev : ℂ) (v : Matrix (Fin D) (Fin D) ℂ) (hv : v ≠ 0)
    (h1 : chainTransfer L L (fun j => opTen op (A j)) A k L v = ev • v)
    (h2 : ∀ (μ : ℂ) x, x ≠ 0 → chainTransfer L L (fun j => opTen op (A j)) A k L x = μ • x → ‖μ‖ ≤ ‖ev‖) :
    ev = strPhase L w k L ∧ ∃ c : ℂ, v = c • (V ((k + L - 1) % L) * r ((k + L - 1) % L)) := by
  have hm := Nat.mod_lt (k + L - 1) hL
  have hkk : (k + L + L - 1) % L = (k + L - 1) % L := by
    rw [show k + L + L - 1 = k + L - 1 + L by omega, Nat.add_mod_right]
  set W := V ((k + L - 1) % L) with hW
  set R := r ((k + L - 1) % L) with hR
  set Ω := strPhase L w k L with hΩ
  have hΩn : ‖Ω‖ = 1 := strPhase_norm hL Y k L
  have hΩ0 : Ω ≠ 0 := fun h => by rw [h, norm_zero] at hΩn; exact zero_ne_one hΩn
  have hWW : W * Wᴴ = 1 := Y.unitary _ hm
  have hW' := unitary_left hWW
  have hRfix : chainTransfer L L A A k L R = R := by
    have := E.transferR hL k L
    rwa [hkk] at this
  have hR0 : R ≠ 0 := fun h0 => by
    have := E.norm _ hm
    rw [← hR, h0, Matrix.mul_zero, Matrix.trace_zero] at this
    exact zero_ne_one this
  have hF : ∀ x, chainTransfer L L (fun j => opTen op (A j)) A k L x = Ω • (W * chainTransfer L L A A k L (Wᴴ * x)) := fun x => by
    rw [sym_transfer hL Y, hkk]
  have hge : 1 ≤ ‖ev‖ := by
    rw [← hΩn]
    refine h2 Ω (W * R) (fun h0 => hR0 ?_) ?_
    · have := congrArg (fun M => Wᴴ * M) h0
      simpa only [← Matrix.mul_assoc, hW', Matrix.one_mul, Matrix.mul_zero] using this
    · rw [hF, ← Matrix.mul_assoc, hW', Matrix.one_mul, hRfix]
  set y := Wᴴ * v with hy
  have hvy : v = W * y := by rw [hy, ← Matrix.mul_assoc, hWW, Matrix.one_mul]
  have hy0 : y ≠ 0 := fun h0 => hv (by rw [hvy, h0, Matrix.mul_zero])
  set c := ev / Ω with hc
  have hcn : 1 ≤ ‖c‖ := by rw [hc, norm_div, hΩn, div_one]; exact hge
  have hEy : chainTransfer L L A A k L y = c • y := by
    rw [hF] at h1
    have := congrArg (fun M => Ω⁻¹ • (Wᴴ * M)) h1
    simp only [Matrix.mul_smul, ← Matrix.mul_assoc, hW', Matrix.one_mul, smul_smul] at this
    rw [inv_mul_cancel₀ hΩ0, one_smul, inv_mul_eq_div] at this
    exact this
  have hpow : ∀ m : ℕ, chainTransfer L L A A k (m * L) y = c ^ m • y := fun m => by
    induction m with
    | zero => rw [Nat.zero_mul, chainTransfer_zero, pow_zero, one_smul]
    | succ m ih =>
      rw [Nat.add_mul, Nat.one_mul, chainTransfer_add, chainTransfer_shift L A (k := k + m * L) (k' := k)
        (by rw [Nat.add_mul_mod_self_right]), hEy, pow_succ', mul_smul, ← ih]
      simp only [chainTransfer, Matrix.mul_smul, Matrix.smul_mul, Finset.smul_sum]
  have hlim := mixing_shift hL E hmix k hk y
  simp only [hpow] at hlim
  rw [← hR] at hlim
  set z := ((l ((k + L - 1) % L))ᴴ * y).trace • R with hz
  obtain ⟨i, j, hij⟩ : ∃ i j, y i j ≠ 0 := by
    by_contra hcon
    push Not at hcon
    exact hy0 (by ext i j; exact hcon i j)
  have hlim' : Filter.Tendsto (fun m : ℕ => c ^ m * y i j) Filter.atTop (nhds (z i j)) :=
    ((continuous_id.matrix_elem i j).tendsto z).comp hlim
  have hz0 : z i j ≠ 0 := fun h0 => by
    rw [h0] at hlim'
    have h3 := hlim'.norm
    rw [norm_zero] at h3
    have h4 : ‖y i j‖ ≤ 0 := by
      refine ge_of_tendsto' h3 fun m => ?_
      rw [norm_mul, norm_pow]
      exact le_mul_of_one_le_left (norm_nonneg _) (one_le_pow₀ hcn)
    exact hij (norm_le_zero_iff.1 h4)
  have hc1 : c = 1 := by
    have h3 := hlim'.const_mul c
    have h4 : Filter.Tendsto (fun m : ℕ => c ^ (m + 1) * y i j) Filter.atTop (nhds (z i j)) :=
      (Filter.tendsto_add_atTop_iff_nat (f := fun m : ℕ => c ^ m * y i j) 1).2 hlim'
    have h5 := tendsto_nhds_unique (h3.congr fun m => by rw [pow_succ]; ring) h4
    exact mul_right_cancel₀ hz0 (by rw [h5, one_mul])
  refine ⟨by rw [hc, div_eq_one_iff_eq hΩ0] at hc1; exact hc1, ((l ((k + L - 1) % L))ᴴ * y).trace, ?_⟩
  have h6 : y = z := by
    refine tendsto_nhds_unique (f := fun _ : ℕ => y) tendsto_const_nhds (hlim.congr fun m => ?_)
    rw [hc1, one_pow, one_smul]
  calc v = W * y := hvy
    _ = W * z := congrArg (W * ·) h6
    _ = _ := by rw [hz, Matrix.mul_smul]

/-- The unitary matrices commute with the Schmidt matrices. -/
theorem sym_commute (hU : OpUnitary op) (k : ℕ) (hk : k < L) (htr : (r ((k + L - 1) % L)).trace ≠ 0) :
    V ((k + L - 1) % L) * r ((k + L - 1) % L) = r ((k + L - 1) % L) * V ((k + L - 1) % L) ∧
    V ((k + L - 1) % L) * l ((k + L - 1) % L) = l ((k + L - 1) % L) * V ((k + L - 1) % L) := by
  have hm := Nat.mod_lt (k + L - 1) hL
  have hkk : ∀ m, (k + m * L + L - 1) % L = (k + L - 1) % L := fun m => by
    rw [show k + m * L + L - 1 = k + L - 1 + m * L by omega, Nat.add_mul_mod_self_right]
  set W := V ((k + L - 1) % L) with hW
  set R := r ((k + L - 1) % L) with hR
  set Lm := l ((k + L - 1) % L) with hLm
  have hWW : W * Wᴴ = 1 := Y.unitary _ hm
  have hW' := unitary_left hWW
  have hconj : ∀ m x, chainTransfer L L A A k (m * L) (W * x * Wᴴ) = W * chainTransfer L L A A k (m * L) x * Wᴴ := fun m x => by
    have := sym_conj hL Y hU k (m * L) x
    rwa [hkk] at this
  have hlim := mixing_shift hL E hmix k hk
  have hc : Continuous fun x : Matrix (Fin D) (Fin D) ℂ => W * x * Wᴴ :=
    (continuous_const.matrix_mul continuous_id).matrix_mul continuous_const
  have key : ∀ x, (Lmᴴ * (W * x * Wᴴ)).trace • R = (Lmᴴ * x).trace • (W * R * Wᴴ) := fun x => by
    have h1 := hlim (W * x * Wᴴ)
    have h2 := (hc.tendsto _).comp (hlim x)
    have h3 := tendsto_nhds_unique h1 (h2.congr fun m => by simp only [Function.comp]; rw [hconj])
    rw [← hR, ← hLm] at h3
    rw [h3, Matrix.mul_smul, Matrix.smul_mul]
  have hRR : W * R * Wᴴ = R := by
    have h1 := key R
    have hn := E.norm _ hm
    rw [← hR, ← hLm] at hn
    rw [hn, one_smul] at h1
    have h2 := congrArg Matrix.trace h1
    rw [Matrix.trace_smul, Matrix.trace_mul_comm (W * R), ← Matrix.mul_assoc Wᴴ, hW', Matrix.one_mul, smul_eq_mul] at h2
    rw [← h1, mul_right_cancel₀ htr (h2.trans (one_mul _).symm), one_smul]
  refine ⟨?_, ?_⟩
  · conv_rhs => rw [← hRR]
    rw [Matrix.mul_assoc, hW', Matrix.mul_one]
  · have hL2 : ∀ x, (Lmᴴ * (W * x * Wᴴ)).trace = (Lmᴴ * x).trace := fun x => by
      have h1 := congrArg Matrix.trace (key x)
      rw [hRR, Matrix.trace_smul, Matrix.trace_smul, smul_eq_mul, smul_eq_mul] at h1
      exact mul_right_cancel₀ htr h1
    have h3 : (Wᴴ * Lmᴴ * W) = Lmᴴ := by
      refine Matrix.ext_iff_trace_mul_right.2 fun x => ?_
      rw [← hL2 x, Matrix.mul_assoc, Matrix.mul_assoc, Matrix.trace_mul_comm]
      simp only [Matrix.mul_assoc]
    have h4 := congrArg (fun M => Mᴴ) h3
    simp only [Matrix.conjTranspose_mul, Matrix.conjTranspose_conjTranspose] at h4
    conv_lhs => rw [← h4]
    rw [← Matrix.mul_assoc W, hWW, Matrix.one_mul]

end

section
variable {q D : ℕ}

theorem frob_reshape (v : Fin (D * D) → ℂ) :
    ∑ i, ‖v i‖ ^ 2 = ∑ a, ∑ b, ‖(reshape v : Matrix (Fin D) (Fin D) ℂ) a b‖ ^ 2 := by
  rw [← finProdFinEquiv.sum_comp, Fintype.sum_prod_type]
  refine Finset.sum_congr rfl fun a _ => Finset.sum_congr rfl fun b _ => ?_
  have e : finProdFinEquiv (a, b) = flat a b := by
    ext
    simp [flat, finProdFinEquiv, Nat.add_comm, Nat.mul_comm]
  rw [e]
  rfl

theorem frob_trace (M : Matrix (Fin D) (Fin D) ℂ) : ((∑ a, ∑ b, ‖M a b‖ ^ 2 : ℝ) : ℂ) = (Mᴴ * M).trace := by
  rw [Matrix.trace, Finset.sum_comm, Complex.ofReal_sum]
  refine Finset.sum_congr rfl fun a _ => ?_
  rw [Matrix.diag_apply, Matrix.mul_apply, Complex.ofReal_sum]
  refine Finset.sum_congr rfl fun b _ => ?_
  rw [Matrix.conjTranspose_apply, Complex.star_def, mul_comm, Complex.mul_conj, Complex.normSq_eq_norm_sq]

theorem frob_mul (W R : Matrix (Fin D) (Fin D) ℂ) (h : W * Wᴴ = 1) (c : ℂ) :
    ((∑ a, ∑ b, ‖(c • (W * R)) a b‖ ^ 2 : ℝ) : ℂ) = (‖c‖ ^ 2 : ℝ) * (Rᴴ * R).trace := by
  rw [frob_trace, Matrix.conjTranspose_smul, Matrix.smul_mul, Matrix.mul_smul, smul_smul, Matrix.trace_smul, Matrix.conjTranspose_mul,
    Matrix.mul_assoc, ← Matrix.mul_assoc Wᴴ, unitary_left h, Matrix.one_mul, smul_eq_mul, Complex.star_def, mul_comm ((starRingEnd ℂ) c),
    Complex.mul_conj, Complex.normSq_eq_norm_sq]

variable (S : UMPS ℂ q D)

theorem string_matvec (op : Fin q → Fin q → ℂ) (k : ℕ) (hk : k < S.L) (junk : Matrix (Fin D) (Fin D) ℂ) (v : Fin (D * D) → ℂ) :
    (EOp.mk ((rotList k S.list).map (opTen op)) (rotList k S.list) false).matvec junk v
      = some (ravel (chainTransfer S.L S.L (fun j => opTen op (S.A j)) S.A k S.L (reshape v))) := by
  have hlen : (rotList k S.list).length = S.L := by rw [rotList_length, list_length]
  rw [matvec_right _ _ (by rw [List.length_map]) (by rw [List.length_map, hlen]; omega), List.length_map, hlen]
  have hg : ∀ j < S.L, (rotList k S.list)[j]? = some (S.A ((k + j) % S.L)) := fun j hj => by
    rw [rotList_get k _ (by rw [list_length]; omega) j (by rw [list_length]; exact hj), list_length]
    simp [UMPS.list, Nat.mod_lt _ (show 0 < S.L by omega)]
  have e1 : ∀ s : Fin S.L → Fin q, chainProd S.L (fun j => (rotList k S.list).getD j 0) 0 S.L s = chainProd S.L S.A k S.L s := fun s => by
    refine chainProd_congr (fun j hj => ?_) s
    rw [Nat.zero_add, Nat.mod_eq_of_lt hj]
    exact getD_of_getElem? (hg j hj)
  have e2 : ∀ s : Fin S.L → Fin q, chainProd S.L (fun j => ((rotList k S.list).map (opTen op)).getD j 0) 0 S.L s
      = chainProd S.L (fun j => opTen op (S.A j)) k S.L s := fun s => by
    refine chainProd_congr (fun j hj => ?_) s
    rw [Nat.zero_add, Nat.mod_eq_of_lt hj]
    exact getD_of_getElem? (by rw [List.getElem?_map, hg j hj]; rfl)
  simp only [chainTransfer, e1, e2]

theorem string_amplitudes (L : ℕ) (A : ℕ → Ten ℂ q D D) (op : Fin q → Fin q → ℂ) (k n : ℕ) (s : Fin n → Fin q) :
    ∑ t, tensorOp n (fun _ => op) s t • chainProd L A k n t = chainProd L (fun j => opTen op (A j)) k n s := by
  induction n with
  | zero => simp [tensorOp, chainProd_zero]
  | succ n ih =>
    rw [← Fin.snoc_init_self s, sum_snoc, chainProd_snoc, ← ih, Matrix.sum_mul]
    refine Finset.sum_congr rfl fun t _ => ?_
    simp only [tensorOp_snoc, chainProd_snoc, opTen, Matrix.mul_sum, Matrix.smul_mul, Matrix.mul_smul, mul_smul]
    exact Finset.sum_congr rfl fun x _ => smul_comm _ _ _

theorem sym_amplitudes {L : ℕ} {A : ℕ → Ten ℂ q D D} {op : Fin q → Fin q → ℂ} {V : ℕ → Matrix (Fin D) (Fin D) ℂ} {w : ℕ → ℂ}
    (hL : 0 < L) (Y : StringSym L A op V w) (k n : ℕ) (s : Fin n → Fin q) :
    chainProd L (fun j => opTen op (A j)) k n s
      = strPhase L w k n • (V ((k + L - 1) % L) * chainProd L A k n s * (V ((k + n + L - 1) % L))ᴴ) := by
  induction n with
  | zero =>
    rw [chainProd_zero, chainProd_zero, strPhase, Finset.prod_range_zero, one_smul, Matrix.mul_one, Nat.add_zero, Y.unitary _ (Nat.mod_lt _ hL)]
  | succ n ih =>
    rw [← Fin.snoc_init_self s, chainProd_snoc, ih, chainProd_snoc, strPhase, strPhase, Finset.prod_range_succ, ← Nat.add_assoc, mod_pred_succ,
      sym_site hL Y, Matrix.mul_smul, Matrix.smul_mul, smul_smul, mul_comm (w _)]
    congr 1
    simp only [Matrix.mul_assoc]
    rw [← Matrix.mul_assoc (V ((k + n + L - 1) % L))ᴴ, unitary_left (Y.unitary _ (Nat.mod_lt (k + n + L - 1) hL)), Matrix.one_mul]

theorem argmaxRe_some (f : Fin D → ℂ) (i : Fin D) : ∃ j, argmaxRe f = some j := by
  unfold argmaxRe
  cases h : List.finRange D with
  | nil => exact absurd (List.mem_finRange i) (by rw [h]; simp)
  | cons a as => exact ⟨_, rfl⟩

theorem argmaxRe_spec {f : Fin D → ℂ} {i : Fin D} (h : argmaxRe f = some i) (j : Fin D) : (f j).re ≤ (f i).re := by
  unfold argmaxRe at h
  have key : ∀ (as : List (Fin D)) (b : Fin D), (f b).re ≤ (f (as.foldl (fun b j => if (f b).re < (f j).re then j else b) b)).re ∧
      ∀ j ∈ as, (f j).re ≤ (f (as.foldl (fun b j => if (f b).re < (f j).re then j else b) b)).re := by
    intro as
    induction as with
    | nil => intro b; simp
    | cons a as ih =>
      intro b
      rw [List.foldl_cons]
      obtain ⟨h1, h2⟩ := ih (if (f b).re < (f a).re then a else b)
      have h3 : (f b).re ≤ (f (if (f b).re < (f a).re then a else b)).re ∧ (f a).re ≤ (f (if (f b).re < (f a).re then a else b)).re := by
        split_ifs with hlt
        · exact ⟨hlt.le, le_rfl⟩
        · exact ⟨le_rfl, not_lt.1 hlt⟩
      refine ⟨h3.1.trans h1, fun j hj => ?_⟩
      rcases List.mem_cons.1 hj with rfl | hj
      · exact h3.2.trans h1
      · exact h2 j hj
  cases hl : List.finRange D with
  | nil => rw [hl] at h; exact absurd h (by simp)
  | cons a as =>
    rw [hl] at h
    simp only [Option.some.injEq] at h
    rw [← h]
    have hj := List.mem_finRange j
    rw [hl] at hj
    rcases List.mem_cons.1 hj with rfl | hj
    · exact (key as j).1
    · exact (key as a).2 j hj

/-- A unitary matrix that commutes with a diagonal one. -/
theorem commute_diag {W : Matrix (Fin D) (Fin D) ℂ} (h : W * Wᴴ = 1) (p : Fin D → ℂ) (hc : W * Matrix.diagonal p = Matrix.diagonal p * W)
    (i : Fin D) (hp : ∀ j ≠ i, p j ≠ p i) : ‖W i i‖ = 1 := by
  have h0 : ∀ j ≠ i, W i j = 0 := fun j hj => by
    have := congrFun (congrFun hc i) j
    rw [Matrix.mul_diagonal, Matrix.diagonal_mul, mul_comm] at this
    have h2 : (p j - p i) * W i j = 0 := by rw [sub_mul, this, sub_self]
    exact (mul_eq_zero.1 h2).resolve_left (sub_ne_zero.2 (hp j hj))
  have h1 := congrFun (congrFun h i) i
  rw [Matrix.mul_apply, Matrix.one_apply_eq, Finset.sum_eq_single i (fun j _ hj => by rw [h0 j hj, zero_mul]) (by simp),
    Matrix.conjTranspose_apply, Complex.star_def, Complex.mul_conj, Complex.normSq_eq_norm_sq] at h1
  have h2 : ‖W i i‖ ^ 2 = 1 := by exact_mod_cast h1
  exact (pow_eq_one_iff_of_nonneg (norm_nonneg _) two_ne_zero).1 h2

end

end EvoMPS.Uni
