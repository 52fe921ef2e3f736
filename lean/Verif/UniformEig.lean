import Verif.UniformEnvLemmas
import Verif.Props.UniformTransfer
import Mathlib.Analysis.Matrix.PosDef
import Mathlib.Analysis.Matrix.Order
import Mathlib.Analysis.Complex.Basic

/-!
# Helper lemmas for the eigenvalue back ends of the uniform chain
-/

set_option linter.unusedSectionVars false

namespace EvoMPS.Uni

open Matrix
open scoped ComplexOrder MatrixOrder

variable {q D : ℕ}

/-! ## Positive matrices -/

theorem trace_mul_psd {n : ℕ} {P Q : Matrix (Fin n) (Fin n) ℂ} (hP : P.PosSemidef)
    (hQ : Q.PosSemidef) : 0 ≤ (P * Q).trace := by
  have h : Q ∈ AddSubmonoid.closure (Set.range fun s : Matrix (Fin n) (Fin n) ℂ => star s * s) :=
    StarOrderedRing.nonneg_iff.1 hQ.nonneg
  induction h using AddSubmonoid.closure_induction with
  | mem x hx =>
    obtain ⟨B, rfl⟩ := hx
    rw [← Matrix.mul_assoc, Matrix.trace_mul_comm, ← Matrix.mul_assoc]
    exact (hP.mul_mul_conjTranspose_same B).trace_nonneg
  | zero => simp
  | add x y hx hy h1 h2 =>
    rw [Matrix.mul_add, Matrix.trace_add]
    exact add_nonneg (h1 (StarOrderedRing.nonneg_iff.2 hx).posSemidef)
      (h2 (StarOrderedRing.nonneg_iff.2 hy).posSemidef)

theorem trace_psd_pos {n : ℕ} {P : Matrix (Fin n) (Fin n) ℂ} (hP : P.PosSemidef) (h0 : P ≠ 0) :
    0 < P.trace := by
  refine lt_of_le_of_ne hP.trace_nonneg fun h => h0 ?_
  exact hP.trace_eq_zero_iff.1 h.symm

theorem chainTransfer_psd (L : ℕ) (A : ℕ → Ten ℂ q D D) (k n : ℕ) {P : Matrix (Fin D) (Fin D) ℂ}
    (hP : P.PosSemidef) : (chainTransfer L L A A k n P).PosSemidef :=
  Matrix.posSemidef_sum _ fun _ _ => hP.mul_mul_conjTranspose_same _

theorem chainTransferL_psd (L : ℕ) (A : ℕ → Ten ℂ q D D) (k n : ℕ) {P : Matrix (Fin D) (Fin D) ℂ}
    (hP : P.PosSemidef) : (chainTransferL L L A A k n P).PosSemidef :=
  Matrix.posSemidef_sum _ fun _ _ => hP.conjTranspose_mul_mul_same _

/-- An eigenvalue whose eigenvector is positive is not negative. -/
theorem eigenvalue_nonneg {P T : Matrix (Fin D) (Fin D) ℂ} (hP : P.PosSemidef) (h0 : P ≠ 0)
    (hT : T.PosSemidef) (μ : ℂ) (h : T = μ • P) : 0 ≤ μ := by
  have h1 := hT.trace_nonneg
  rw [h, Matrix.trace_smul, smul_eq_mul] at h1
  have h2 := trace_psd_pos hP h0
  have : μ = μ * P.trace * (P.trace)⁻¹ := by rw [mul_assoc, mul_inv_cancel₀ h2.ne', mul_one]
  rw [this]
  exact mul_nonneg h1 (inv_nonneg.2 h2.le)

theorem nonneg_real {z : ℂ} (h : 0 ≤ z) : z = ((z.re : ℝ) : ℂ) ∧ 0 ≤ z.re := by
  rw [Complex.le_def] at h
  refine ⟨Complex.ext rfl ?_, h.1⟩
  simpa using h.2.symm

/-! ## Roots and phases -/

theorem csqrt_sq (z : ℂ) : csqrt z * csqrt z = z := by
  rw [csqrt, ← pow_two, show (1 / 2 : ℂ) = ((2 : ℕ) : ℂ)⁻¹ by norm_num]
  exact Complex.cpow_nat_inv_pow z two_ne_zero

theorem csqrt_ofReal {e : ℝ} (he : 0 ≤ e) : csqrt (e : ℂ) = ((Real.sqrt e : ℝ) : ℂ) := by
  rw [csqrt, Real.sqrt_eq_rpow, Complex.ofReal_cpow he]
  norm_num

theorem star_mul_inv_csqrt {e : ℝ} (he : 0 < e) :
    star (1 / csqrt (e : ℂ)) * (1 / csqrt (e : ℂ)) = ((1 / e : ℝ) : ℂ) := by
  have h := congrArg norm (csqrt_sq (e : ℂ))
  rw [norm_mul, Complex.norm_real, Real.norm_of_nonneg he.le] at h
  rw [mul_comm, Complex.star_def, Complex.mul_conj, Complex.normSq_eq_norm_sq, norm_div, norm_one,
    div_pow, one_pow, pow_two, h]

theorem mean_smul {n : ℕ} (c : ℂ) (v : Fin n → ℂ) : mean (c • v) = c * mean v := by
  simp [mean, forSum_eq, mul_div_assoc, ← Finset.mul_sum]

theorem mean_psd {P : Matrix (Fin D) (Fin D) ℂ} (hP : P.PosSemidef) : 0 ≤ mean (ravel P) := by
  have h := hP.dotProduct_mulVec_nonneg (fun _ => 1)
  have e : star (fun _ : Fin D => (1 : ℂ)) ⬝ᵥ P *ᵥ (fun _ => 1) = ∑ p, ravel P p := by
    rw [sum_flat]
    simp [ravel, dotProduct, Matrix.mulVec]
  rw [e] at h
  rw [mean, forSum_eq]
  exact div_nonneg h (by exact_mod_cast (Nat.cast_nonneg (α := ℝ) _))

/-- After the phase has been removed the vector is a positive multiple of the positive matrix. -/
theorem removePhase_psd {P : Matrix (Fin D) (Fin D) ℂ} (hP : P.PosSemidef) (c : ℂ)
    (h0 : mean (c • ravel P) ≠ 0) :
    0 < ‖c‖ ∧ removePhase (c • ravel P) = ((‖c‖ : ℝ) : ℂ) • ravel P := by
  obtain ⟨hm, hm0⟩ := nonneg_real (mean_psd hP)
  set m := (mean (ravel P)).re with hmdef
  rw [mean_smul, hm] at h0
  have hc : c ≠ 0 := left_ne_zero_of_mul h0
  have hm1 : (m : ℂ) ≠ 0 := right_ne_zero_of_mul h0
  have hm2 : 0 < m := lt_of_le_of_ne hm0 fun h => hm1 (by rw [← h, Complex.ofReal_zero])
  set b := csqrt (star (mean (c • ravel P)) / mean (c • ravel P)) * c with hb
  have hbb : b * b = ((‖c‖ ^ 2 : ℝ) : ℂ) := by
    have h1 : b * b = (star (mean (c • ravel P)) / mean (c • ravel P)) * (c * c) := by
      have h2 := csqrt_sq (star (mean (c • ravel P)) / mean (c • ravel P))
      rw [hb]
      linear_combination (c * c) * h2
    rw [h1, mean_smul, hm, star_mul', Complex.star_def, Complex.conj_ofReal,
      mul_div_mul_right _ _ hm1, ← Complex.normSq_eq_norm_sq, ← Complex.mul_conj]
    field_simp
  have hb2 : b = ((‖c‖ : ℝ) : ℂ) ∨ b = -((‖c‖ : ℝ) : ℂ) := by
    have : (b - ((‖c‖ : ℝ) : ℂ)) * (b + ((‖c‖ : ℝ) : ℂ)) = 0 := by
      push_cast at hbb
      linear_combination hbb
    rcases mul_eq_zero.1 this with h | h
    · exact Or.inl (sub_eq_zero.1 h)
    · exact Or.inr (eq_neg_of_add_eq_zero_left h)
  have hc' : 0 < ‖c‖ := norm_pos_iff.2 hc
  have hv : csqrt (star (mean (c • ravel P)) / mean (c • ravel P)) • c • ravel P = b • ravel P := by
    rw [smul_smul]
  refine ⟨hc', ?_⟩
  unfold removePhase
  simp only [hv]
  rw [mean_smul, hm]
  rcases hb2 with h | h
  · rw [h, if_neg]
    rw [← Complex.ofReal_mul, Complex.ofReal_re, Complex.ofReal_im]
    have : 0 < ‖c‖ * m := by positivity
    push Not
    exact ⟨this.le, fun h => absurd h this.ne'⟩
  · rw [h, if_pos]
    · rw [smul_smul]; simp
    · left
      rw [neg_mul, ← Complex.ofReal_mul, Complex.neg_re, Complex.ofReal_re]
      have : 0 < ‖c‖ * m := by positivity
      linarith

/-- How LAPACK's `zgeev` normalises the phase of an eigenvector: the first entry of largest modulus
is real and positive. -/
def FirstMaxPos {n : ℕ} (v : Fin n → ℂ) : Prop :=
  ∃ p, (∀ p', ‖v p'‖ ≤ ‖v p‖) ∧ (∀ p' < p, ‖v p'‖ < ‖v p‖) ∧ 0 < v p

theorem psd_minor {P : Matrix (Fin D) (Fin D) ℂ} (hP : P.PosSemidef) (i j : Fin D) :
    ‖P i j‖ ^ 2 ≤ ‖P i i‖ * ‖P j j‖ := by
  have h := (hP.submatrix ![i, j]).det_nonneg
  rw [Matrix.det_fin_two] at h
  simp only [Matrix.submatrix_apply, Matrix.cons_val_zero, Matrix.cons_val_one] at h
  have hji : P j i = star (P i j) := by
    conv_lhs => rw [← hP.isHermitian.eq, Matrix.conjTranspose_apply]
  obtain ⟨hi, hi0⟩ := nonneg_real (hP.diag_nonneg (i := i))
  obtain ⟨hj, hj0⟩ := nonneg_real (hP.diag_nonneg (i := j))
  rw [hji, Complex.star_def, Complex.mul_conj, hi, hj, ← Complex.ofReal_mul, ← Complex.ofReal_sub,
    Complex.normSq_eq_norm_sq] at h
  have h' : 0 ≤ (P i i).re * (P j j).re - ‖P i j‖ ^ 2 := by exact_mod_cast h
  have ni : ‖P i i‖ = (P i i).re := by
    conv_lhs => rw [hi, Complex.norm_real, Real.norm_of_nonneg hi0]
  have nj : ‖P j j‖ = (P j j).re := by
    conv_lhs => rw [hj, Complex.norm_real, Real.norm_of_nonneg hj0]
  rw [ni, nj]
  linarith

theorem flat_lt {m n : ℕ} (i i' : Fin m) (j j' : Fin n) (h : i < i' ∨ i = i' ∧ j < j') :
    flat i j < flat i' j' := by
  rw [flat_eq, flat_eq, Fin.lt_def]
  simp only [finProdFinEquiv_apply_val]
  rcases h with h | ⟨rfl, h⟩
  · have h1 : (i : ℕ) + 1 ≤ i' := h
    have h2 : n * ((i : ℕ) + 1) ≤ n * i' := Nat.mul_le_mul_left n h1
    have := j.2
    rw [Nat.mul_add, Nat.mul_one] at h2
    omega
  · have : (j : ℕ) < j' := h
    omega

/-- With LAPACK's normalisation, an eigenvector that is a multiple of a positive matrix is a
positive multiple. -/
theorem firstMax_psd {P : Matrix (Fin D) (Fin D) ℂ} (hP : P.PosSemidef) (c : ℂ)
    (h : FirstMaxPos (c • ravel P)) : 0 < c := by
  obtain ⟨p, hmax, hfirst, hpos⟩ := h
  have key : ∀ (i j : Fin D), p = flat i j → i = j := by
    rintro i j rfl
    have hne : c • ravel P (flat i j) ≠ 0 := hpos.ne'
    have hc : 0 < ‖c‖ := norm_pos_iff.2 (smul_ne_zero_iff.1 hne).1
    have hn : ∀ a b : Fin D, ‖(c • ravel P) (flat a b)‖ = ‖c‖ * ‖P a b‖ := fun a b => by
      simp [ravel]
    have hij : 0 < ‖P i j‖ := by
      have : 0 < ‖(c • ravel P) (flat i j)‖ := norm_pos_iff.2 hpos.ne'
      rw [hn] at this
      exact pos_of_mul_pos_right this hc.le
    have hle : ∀ a b, ‖P a b‖ ≤ ‖P i j‖ := fun a b => by
      have := hmax (flat a b)
      rw [hn, hn] at this
      exact le_of_mul_le_mul_left this hc
    have hm := psd_minor hP i j
    have hii := hle i i
    have hjj := hle j j
    have e1 : ‖P i i‖ = ‖P i j‖ := by
      refine le_antisymm hii ?_
      by_contra hlt
      push Not at hlt
      nlinarith [norm_nonneg (P i i), norm_nonneg (P j j)]
    have e2 : ‖P j j‖ = ‖P i j‖ := by
      refine le_antisymm hjj ?_
      by_contra hlt
      push Not at hlt
      nlinarith [norm_nonneg (P i i), norm_nonneg (P j j)]
    rcases lt_trichotomy i j with h | h | h
    · have := hfirst (flat i i) (flat_lt _ _ _ _ (Or.inr ⟨rfl, h⟩))
      rw [hn, hn, e1] at this
      exact absurd this (lt_irrefl _)
    · exact h
    · have := hfirst (flat j j) (flat_lt _ _ _ _ (Or.inl h))
      rw [hn, hn, e2] at this
      exact absurd this (lt_irrefl _)
  obtain ⟨⟨i, j⟩, hp⟩ : ∃ x : Fin D × Fin D, p = finProdFinEquiv x := 
    ⟨finProdFinEquiv.symm p, (finProdFinEquiv.apply_symm_apply p).symm⟩
  rw [← flat_eq] at hp
  have hij := key i j hp
  subst hij
  rw [hp, Pi.smul_apply, smul_eq_mul, ravel, flat_divNat, flat_modNat] at hpos
  have h0 := hP.diag_nonneg (i := i)
  have h1 : P i i ≠ 0 := right_ne_zero_of_mul hpos.ne'
  have h2 : 0 < P i i := lt_of_le_of_ne h0 h1.symm
  have : c = c * P i i * (P i i)⁻¹ := by rw [mul_assoc, mul_inv_cancel₀ h1, mul_one]
  rw [this]
  exact mul_pos hpos (inv_pos.2 h2)

/-! ## Rescaling of the tensors -/

theorem chainProd_scale (L : ℕ) (A : ℕ → Ten ℂ q D D) (f : ℂ) (k n : ℕ) (s : Fin n → Fin q) :
    chainProd L (fun k s => f • A k s) k n s = f ^ n • chainProd L A k n s := by
  induction n with
  | zero => simp [chainProd_zero]
  | succ n ih =>
    have hs : s = Fin.snoc (α := fun _ => Fin q) (fun i => s i.castSucc) (s (Fin.last n)) :=
      (Fin.snoc_init_self s).symm
    rw [hs, chainProd_snoc, chainProd_snoc, ih, Matrix.smul_mul, Matrix.mul_smul, smul_smul, pow_succ]

theorem chainTransfer_scale (L : ℕ) (A : ℕ → Ten ℂ q D D) (f : ℂ) (k n : ℕ)
    (x : Matrix (Fin D) (Fin D) ℂ) : chainTransfer L L (fun k s => f • A k s) (fun k s => f • A k s) k n x
      = (star (f ^ n) * f ^ n) • chainTransfer L L A A k n x := by
  simp only [chainTransfer, chainProd_scale, Matrix.conjTranspose_smul, Matrix.smul_mul, Matrix.mul_smul,
    smul_smul, Finset.smul_sum]

theorem chainTransferL_scale (L : ℕ) (A : ℕ → Ten ℂ q D D) (f : ℂ) (k n : ℕ)
    (x : Matrix (Fin D) (Fin D) ℂ) :
    chainTransferL L L (fun k s => f • A k s) (fun k s => f • A k s) k n x
      = (star (f ^ n) * f ^ n) • chainTransferL L L A A k n x := by
  simp only [chainTransferL, chainProd_scale, Matrix.conjTranspose_smul, Matrix.smul_mul, Matrix.mul_smul,
    smul_smul, Finset.smul_sum]
  simp [mul_comm]

theorem chainTransfer_scale0 (L : ℕ) (hL : 0 < L) (A : ℕ → Ten ℂ q D D) (f : ℂ)
    (x : Matrix (Fin D) (Fin D) ℂ) :
    chainTransfer L L (Function.update A 0 fun s => f • A 0 s) (Function.update A 0 fun s => f • A 0 s) 0 L x
      = (star f * f) • chainTransfer L L A A 0 L x := by
  set A' := Function.update A 0 fun s => f • A 0 s with hA'
  have hc : ∀ s, chainProd L A' 1 (L - 1) s = chainProd L A 1 (L - 1) s := fun s =>
    chainProd_congr (fun j hj => by
      rw [Nat.mod_eq_of_lt (by omega), hA', Function.update_of_ne (by omega)]) s
  have h1 := chainTransfer_add L L A' A' 0 1 (L - 1) x
  have h2 := chainTransfer_add L L A A 0 1 (L - 1) x
  rw [show 1 + (L - 1) = L by omega, chainTransfer_one, Nat.zero_mod, Nat.zero_add] at h1 h2
  rw [h1, h2]
  have h3 : chainTransfer L L A' A' 1 (L - 1) x = chainTransfer L L A A 1 (L - 1) x := by
    simp only [chainTransfer, hc]
  rw [h3, epsR_eq, epsR_eq, hA', Function.update_self]
  simp only [Matrix.conjTranspose_smul, Matrix.smul_mul, Matrix.mul_smul, smul_smul, Finset.smul_sum]

theorem chainTransferL_scale0 (L : ℕ) (hL : 0 < L) (A : ℕ → Ten ℂ q D D) (f : ℂ)
    (x : Matrix (Fin D) (Fin D) ℂ) :
    chainTransferL L L (Function.update A 0 fun s => f • A 0 s) (Function.update A 0 fun s => f • A 0 s) 0 L x
      = (star f * f) • chainTransferL L L A A 0 L x := by
  set A' := Function.update A 0 fun s => f • A 0 s with hA'
  have hc : ∀ s, chainProd L A' 1 (L - 1) s = chainProd L A 1 (L - 1) s := fun s =>
    chainProd_congr (fun j hj => by
      rw [Nat.mod_eq_of_lt (by omega), hA', Function.update_of_ne (by omega)]) s
  have h1 := chainTransferL_add L L A' A' 0 1 (L - 1) x
  have h2 := chainTransferL_add L L A A 0 1 (L - 1) x
  rw [show 1 + (L - 1) = L by omega, chainTransferL_one, Nat.zero_mod, Nat.zero_add] at h1 h2
  rw [h1, h2]
  have h3 : ∀ y, chainTransferL L L A' A' 1 (L - 1) y = chainTransferL L L A A 1 (L - 1) y := fun y => by
    simp only [chainTransferL, hc]
  rw [h3, epsL_eq, epsL_eq, hA', Function.update_self, ← chainTransferL_smul]
  congr 1
  simp only [Matrix.conjTranspose_smul, Matrix.smul_mul, Matrix.mul_smul, smul_smul, Finset.smul_sum]
  simp [mul_comm]

/-! ## The operators of a state -/

theorem list_length (S : UMPS ℂ q D) : S.list.length = S.L := by simp [UMPS.list]

theorem list_getD (S : UMPS ℂ q D) (k : ℕ) (hk : k < S.L) : S.list.getD k 0 = S.A k := by
  simp [UMPS.list, List.getD, hk]

theorem list_chainProd (S : UMPS ℂ q D) (hL : 0 < S.L) (k n : ℕ) (s : Fin n → Fin q) :
    chainProd S.L (fun k => S.list.getD k 0) k n s = chainProd S.L S.A k n s :=
  chainProd_congr (fun _ _ => list_getD S _ (Nat.mod_lt _ hL)) s

theorem matvec_state_right (S : UMPS ℂ q D) (hL : 0 < S.L) (junk) (v : Fin (D * D) → ℂ) :
    (EOp.mk S.list S.list false).matvec junk v
      = some (ravel (chainTransfer S.L S.L S.A S.A 0 S.L (reshape v))) := by
  rw [matvec_right _ _ rfl (by rwa [list_length]), list_length]
  simp only [chainTransfer, list_chainProd S hL]

theorem matvec_state_left (S : UMPS ℂ q D) (hL : 0 < S.L) (junk) (v : Fin (D * D) → ℂ) :
    (EOp.mk S.list S.list true).matvec junk v
      = some (ravel (chainTransferL S.L S.L S.A S.A 0 S.L (reshape v))) := by
  rw [matvec_left _ _ rfl (by rwa [list_length]), list_length]
  simp only [chainTransferL, list_chainProd S hL]

theorem reshape_ravel {m n : ℕ} (x : Matrix (Fin m) (Fin n) ℂ) : reshape (ravel x) = x := by
  ext i j
  simp [reshape, ravel]

theorem reshape_smul {m n : ℕ} (c : ℂ) (v : Fin (m * n) → ℂ) :
    (reshape (c • v) : Matrix (Fin m) (Fin n) ℂ) = c • reshape v := by
  ext i j
  simp [reshape]

theorem ravel_smul {m n : ℕ} (c : ℂ) (x : Matrix (Fin m) (Fin n) ℂ) : ravel (c • x) = c • ravel x := by
  funext p
  simp [ravel]

theorem largestOp_self {R : Type*} [CommRing R] [StarRing R] (A : List (Ten R q D D))
    (h : 0 < A.length) (left : Bool) : largestOp A A 0 left = ⟨A, A, left⟩ := by
  simp [largestOp, Nat.mul_div_cancel _ h, Nat.div_self h, rotList, repeatList]

theorem dense_state (S : UMPS ℂ q D) (hL : 0 < S.L) :
    ∃ E, denseBlock S.list S.list 0 = some E ∧
      (∀ v, reshape (E *ᵥ v) = chainTransfer S.L S.L S.A S.A 0 S.L (reshape v)) ∧
      ∀ v, reshape (Eᴴ *ᵥ v) = chainTransferL S.L S.L S.A S.A 0 S.L (reshape v) := by
  have hl : 0 < S.list.length := by rwa [list_length]
  obtain ⟨E, hE, -⟩ := C43_right S.list S.list hl hl 0 (Nat.zero_le _) 0 0
  refine ⟨E, hE, fun v => ?_, fun v => ?_⟩
  · obtain ⟨E', hE', h⟩ := C43_right S.list S.list hl hl 0 (Nat.zero_le _) 0 v
    obtain rfl : E = E' := Option.some.inj (hE.symm.trans hE')
    rw [largestOp_self _ hl, matvec_state_right S hL] at h
    rw [← Option.some.inj h, reshape_ravel]
  · obtain ⟨E', hE', h⟩ := C43_left S.list S.list hl hl 0 (Nat.zero_le _) 0 v
    obtain rfl : E = E' := Option.some.inj (hE.symm.trans hE')
    rw [largestOp_self _ hl, matvec_state_left S hL] at h
    rw [← Option.some.inj h, reshape_ravel]

end EvoMPS.Uni
