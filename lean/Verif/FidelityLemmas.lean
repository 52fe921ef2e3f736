import Verif.Fidelity
import Verif.UniformEig
import Verif.UniformLimit
import Mathlib.Analysis.Matrix.Order

/-!
# Helper lemmas for the fidelity per site
-/

set_option linter.unusedSectionVars false

namespace EvoMPS.Uni

open Matrix
open scoped ComplexOrder MatrixOrder Matrix.Norms.L2Operator

/-- A positive definite matrix as a product. -/
theorem posDef_factor {n : ℕ} {A : Matrix (Fin n) (Fin n) ℂ} (hA : A.PosDef) :
    ∃ x xi : Matrix (Fin n) (Fin n) ℂ, xᴴ * x = A ∧ xi * x = 1 := by
  obtain ⟨x, hx⟩ := CStarAlgebra.nonneg_iff_eq_star_mul_self.mp hA.posSemidef.nonneg
  rw [Matrix.star_eq_conjTranspose] at hx
  refine ⟨x, A⁻¹ * xᴴ, hx.symm, ?_⟩
  rw [Matrix.mul_assoc, ← hx]
  exact Matrix.nonsing_inv_mul A ((Matrix.isUnit_iff_isUnit_det A).mp hA.isUnit)

/-- The weighted norm of a rectangular matrix. -/
theorem weighted_nonneg {a b : ℕ} {l : Matrix (Fin a) (Fin a) ℂ} {r : Matrix (Fin b) (Fin b) ℂ} (hl : l.PosDef) (hr : r.PosDef)
    (F : Matrix (Fin a) (Fin b) ℂ) : 0 ≤ (l * (F * r * Fᴴ)).trace :=
  trace_mul_psd hl.posSemidef (hr.posSemidef.mul_mul_conjTranspose_same F)

theorem weighted_pos {a b : ℕ} {l : Matrix (Fin a) (Fin a) ℂ} {r : Matrix (Fin b) (Fin b) ℂ} (hl : l.PosDef) (hr : r.PosDef)
    {F : Matrix (Fin a) (Fin b) ℂ} (hF : F ≠ 0) : 0 < (l * (F * r * Fᴴ)).trace := by
  obtain ⟨x, xi, h1, h2⟩ := posDef_factor hl
  obtain ⟨y, yi, h3, h4⟩ := posDef_factor hr
  have e : (l * (F * r * Fᴴ)).trace = ((x * F * yᴴ) * (x * F * yᴴ)ᴴ).trace := by
    rw [← h1, ← h3, Matrix.mul_assoc, Matrix.trace_mul_comm]
    simp only [Matrix.conjTranspose_mul, Matrix.conjTranspose_conjTranspose, Matrix.mul_assoc]
  rw [e]
  refine trace_psd_pos (Matrix.posSemidef_self_mul_conjTranspose _) fun h => hF ?_
  have h5 : x * F * yᴴ = 0 := Matrix.self_mul_conjTranspose_eq_zero.mp h
  have h6 : xi * (x * F * yᴴ) * yiᴴ = F := by
    rw [show xi * (x * F * yᴴ) * yiᴴ = (xi * x) * F * (yᴴ * yiᴴ) by simp only [Matrix.mul_assoc], h2,
      ← Matrix.conjTranspose_mul, h4, Matrix.conjTranspose_one, Matrix.one_mul, Matrix.mul_one]
  rw [← h6, h5, Matrix.mul_zero, Matrix.zero_mul]

section core

variable {ι : Type*} [Fintype ι] {a b : ℕ} {B : ι → Matrix (Fin a) (Fin a) ℂ} {B' : ι → Matrix (Fin b) (Fin b) ℂ}
  {l : Matrix (Fin a) (Fin a) ℂ} {r' : Matrix (Fin b) (Fin b) ℂ} {V : Matrix (Fin a) (Fin b) ℂ} {w : ℂ}

/-- The defect of the intertwining relation. -/
theorem defect_sum {W : Matrix (Fin a) (Fin b) ℂ} (hh : r'ᴴ = r') (hr : ∑ i, B' i * r' * (B' i)ᴴ = r')
    (h : ∑ i, B i * (W * r') * (B' i)ᴴ = w • (W * r')) :
    ∑ i, (B i * W - w • (W * B' i)) * r' * (B i * W - w • (W * B' i))ᴴ
      = ∑ i, B i * (W * r' * Wᴴ) * (B i)ᴴ - (w * star w) • (W * r' * Wᴴ) := by
  have e : ∀ i, (B i * W - w • (W * B' i)) * r' * (B i * W - w • (W * B' i))ᴴ
      = B i * (W * r' * Wᴴ) * (B i)ᴴ - star w • (B i * (W * r') * (B' i)ᴴ * Wᴴ)
        - w • (B i * (W * r') * (B' i)ᴴ * Wᴴ)ᴴ * 1 + (w * star w) • (W * (B' i * r' * (B' i)ᴴ) * Wᴴ) := by
    intro i
    simp only [Matrix.conjTranspose_sub, Matrix.conjTranspose_smul, Matrix.conjTranspose_mul, Matrix.sub_mul, Matrix.mul_sub,
      Matrix.smul_mul, Matrix.mul_smul, smul_smul, smul_sub, Matrix.mul_assoc, Matrix.mul_one, Matrix.conjTranspose_conjTranspose, hh,
      mul_comm (star w) w]
    abel
  simp only [e, Finset.sum_add_distrib, Finset.sum_sub_distrib, Matrix.mul_one]
  rw [← Finset.smul_sum, ← Finset.smul_sum, ← Finset.smul_sum, ← Matrix.conjTranspose_sum, ← Matrix.sum_mul, h,
    ← Matrix.sum_mul, ← Matrix.mul_sum, hr]
  simp only [Matrix.smul_mul, Matrix.conjTranspose_smul, Matrix.conjTranspose_mul, Matrix.conjTranspose_conjTranspose, hh, smul_smul,
    mul_comm (star w) w, Matrix.mul_assoc]
  abel

/-- Eigenvalues of the mixed transfer map have modulus at most one, and one only if the tensors are related. -/
theorem mixed_core (hl : l.PosDef) (hle : ∑ i, (B i)ᴴ * l * B i = l) (hr : r'.PosDef) (hre : ∑ i, B' i * r' * (B' i)ᴴ = r')
    (hV : V ≠ 0) (h : ∑ i, B i * V * (B' i)ᴴ = w • V) :
    ‖w‖ ≤ 1 ∧ (‖w‖ = 1 → (∀ i, B i * (V * r'⁻¹) = w • (V * r'⁻¹ * B' i)) ∧
      ∑ i, B i * (V * r'⁻¹ * r' * (V * r'⁻¹)ᴴ) * (B i)ᴴ = V * r'⁻¹ * r' * (V * r'⁻¹)ᴴ) := by
  set W := V * r'⁻¹ with hW
  have hWr : W * r' = V := by
    rw [hW, Matrix.mul_assoc, Matrix.nonsing_inv_mul r' ((Matrix.isUnit_iff_isUnit_det r').mp hr.isUnit), Matrix.mul_one]
  have hW0 : W ≠ 0 := fun h0 => hV (by rw [← hWr, h0, Matrix.zero_mul])
  have hd := defect_sum (W := W) (B := B) (w := w) hr.isHermitian.eq hre (by rw [hWr]; exact h)
  have e1 : (l * ∑ i, B i * (W * r' * Wᴴ) * (B i)ᴴ).trace = (l * (W * r' * Wᴴ)).trace := by
    conv_rhs => rw [← hle]
    simp only [Matrix.mul_sum, Matrix.sum_mul, Matrix.trace_sum]
    refine Finset.sum_congr rfl fun i _ => ?_
    rw [← Matrix.mul_assoc, Matrix.trace_mul_comm]
    simp only [Matrix.mul_assoc]
  have ht : ∑ i, (l * ((B i * W - w • (W * B' i)) * r' * (B i * W - w • (W * B' i))ᴴ)).trace
      = (l * (W * r' * Wᴴ)).trace - w * star w * (l * (W * r' * Wᴴ)).trace := by
    rw [← Matrix.trace_sum, ← Matrix.mul_sum, hd, Matrix.mul_sub, Matrix.trace_sub, e1, Matrix.mul_smul, Matrix.trace_smul,
      smul_eq_mul]
  have hz := weighted_pos hl hr hW0
  set z := (l * (W * r' * Wᴴ)).trace with hzd
  have hsum : ∀ i, 0 ≤ (l * ((B i * W - w • (W * B' i)) * r' * (B i * W - w • (W * B' i))ᴴ)).trace :=
    fun i => weighted_nonneg hl hr _
  have hww : w * star w = ((‖w‖ ^ 2 : ℝ) : ℂ) := by
    rw [Complex.star_def, Complex.mul_conj, Complex.normSq_eq_norm_sq]
  have hz1 : 0 < z.re := (Complex.lt_def.mp hz).1
  have hre1 : 0 ≤ (1 - ‖w‖ ^ 2) * z.re := by
    have : 0 ≤ z - w * star w * z := by
      rw [← ht]
      exact Finset.sum_nonneg fun i _ => hsum i
    have h2 := (Complex.le_def.mp this).1
    rw [hww, Complex.sub_re, Complex.re_ofReal_mul] at h2
    simp only [Complex.zero_re] at h2
    linarith
  refine ⟨?_, fun hw1 => ?_⟩
  · have : 0 ≤ 1 - ‖w‖ ^ 2 := nonneg_of_mul_nonneg_left hre1 hz1
    nlinarith [norm_nonneg w]
  · rw [hww, hw1, one_pow, Complex.ofReal_one, one_mul, sub_self] at ht
    have h0 := (Finset.sum_eq_zero_iff_of_nonneg fun i _ => hsum i).mp ht
    have hF : ∀ i, B i * W - w • (W * B' i) = 0 := by
      intro i
      by_contra hne
      exact (weighted_pos hl hr hne).ne' (h0 i (Finset.mem_univ i))
    refine ⟨fun i => sub_eq_zero.mp (hF i), ?_⟩
    simp only [hF, Matrix.zero_mul, Finset.sum_const_zero] at hd
    rw [hww, hw1, one_pow, Complex.ofReal_one, one_smul] at hd
    exact (sub_eq_zero.mp hd.symm)

end core

/-- The gauge transformation between two tensors whose mixed transfer map has an eigenvalue of modulus one. -/
theorem mixed_gauge {ι : Type*} [Fintype ι] {a b : ℕ} {B : ι → Matrix (Fin a) (Fin a) ℂ} {B' : ι → Matrix (Fin b) (Fin b) ℂ}
    {l r : Matrix (Fin a) (Fin a) ℂ} {l' r' : Matrix (Fin b) (Fin b) ℂ} {V : Matrix (Fin a) (Fin b) ℂ} {w : ℂ}
    (hl : l.PosDef) (hle : ∑ i, (B i)ᴴ * l * B i = l) (hr : r.PosDef) (hre : ∑ i, B i * r * (B i)ᴴ = r)
    (hl' : l'.PosDef) (hle' : ∑ i, (B' i)ᴴ * l' * B' i = l') (hr' : r'.PosDef) (hre' : ∑ i, B' i * r' * (B' i)ᴴ = r')
    (hu : ∀ Z, ∑ i, B i * Z * (B i)ᴴ = Z → ∃ c : ℂ, Z = c • r) (hu' : ∀ Z, ∑ i, B' i * Z * (B' i)ᴴ = Z → ∃ c : ℂ, Z = c • r')
    (hV : V ≠ 0) (h : ∑ i, B i * V * (B' i)ᴴ = w • V) (hw : ‖w‖ = 1) :
    ∃ (c : ℂ) (gi : Matrix (Fin b) (Fin a) ℂ), c ≠ 0 ∧ V * r'⁻¹ * gi = 1 ∧ gi * (V * r'⁻¹) = 1
      ∧ V * r'⁻¹ * r' * (V * r'⁻¹)ᴴ = c • r := by
  have hri : r * r⁻¹ = 1 := Matrix.mul_nonsing_inv r ((Matrix.isUnit_iff_isUnit_det r).mp hr.isUnit)
  have hri' : r' * r'⁻¹ = 1 := Matrix.mul_nonsing_inv r' ((Matrix.isUnit_iff_isUnit_det r').mp hr'.isUnit)
  have hrj : r⁻¹ * r = 1 := mul_eq_one_comm.mp hri
  have hrj' : r'⁻¹ * r' = 1 := mul_eq_one_comm.mp hri'
  have hrih : (r⁻¹)ᴴ = r⁻¹ := by rw [Matrix.conjTranspose_nonsing_inv, hr.isHermitian.eq]
  have hrih' : (r'⁻¹)ᴴ = r'⁻¹ := by rw [Matrix.conjTranspose_nonsing_inv, hr'.isHermitian.eq]
  obtain ⟨c, hc⟩ := hu _ ((mixed_core hl hle hr' hre' hV h).2 hw).2
  -- the adjoint eigenvector
  have hV' : Vᴴ ≠ 0 := fun h0 => hV (by rw [← Matrix.conjTranspose_conjTranspose V, h0, Matrix.conjTranspose_zero])
  have h' : ∑ i, B' i * Vᴴ * (B i)ᴴ = star w • Vᴴ := by
    have := congrArg Matrix.conjTranspose h
    rw [Matrix.conjTranspose_sum, Matrix.conjTranspose_smul] at this
    rw [← this]
    refine Finset.sum_congr rfl fun i _ => ?_
    simp only [Matrix.conjTranspose_mul, Matrix.conjTranspose_conjTranspose, Matrix.mul_assoc]
  obtain ⟨c2, hc2⟩ := hu' _ ((mixed_core hl' hle' hr hre hV' h').2 (by rw [norm_star, hw])).2
  have hc1 : V * (r'⁻¹ * Vᴴ) = c • r := by
    rw [← hc]
    simp only [Matrix.conjTranspose_mul, hrih', Matrix.mul_assoc]
    rw [← Matrix.mul_assoc r' r'⁻¹, hri', Matrix.one_mul]
  have hc3 : Vᴴ * (r⁻¹ * V) = c2 • r' := by
    rw [← hc2]
    simp only [Matrix.conjTranspose_mul, hrih, Matrix.mul_assoc, Matrix.conjTranspose_conjTranspose]
    rw [← Matrix.mul_assoc r r⁻¹, hri, Matrix.one_mul]
  set W := V * r'⁻¹ with hW
  have hWr : W * r' = V := by rw [hW, Matrix.mul_assoc, hrj', Matrix.mul_one]
  have hW0 : W ≠ 0 := fun h0 => hV (by rw [← hWr, h0, Matrix.zero_mul])
  have hc0 : c ≠ 0 := by
    intro h0
    rw [h0, zero_smul] at hc
    have := weighted_pos hl hr' hW0
    rw [hc, Matrix.mul_zero, Matrix.trace_zero] at this
    exact lt_irrefl _ this
  have e1 : W * (c⁻¹ • (Vᴴ * r⁻¹)) = 1 := by
    rw [Matrix.mul_smul, ← Matrix.mul_assoc, hW, Matrix.mul_assoc V, hc1, Matrix.smul_mul, hri, smul_smul, inv_mul_cancel₀ hc0, one_smul]
  have e2 : (c⁻¹ • (Vᴴ * r⁻¹)) * W = (c⁻¹ * c2) • (1 : Matrix (Fin b) (Fin b) ℂ) := by
    rw [Matrix.smul_mul, hW, Matrix.mul_assoc, ← Matrix.mul_assoc r⁻¹, ← Matrix.mul_assoc, hc3, Matrix.smul_mul, hri', smul_smul]
  have e3 : (c⁻¹ * c2) • W = W := by
    conv_rhs => rw [← Matrix.one_mul W, ← e1, Matrix.mul_assoc, e2, Matrix.mul_smul, Matrix.mul_one]
  have e4 : c⁻¹ * c2 = 1 := by
    have : (c⁻¹ * c2 - 1) • W = 0 := by rw [sub_smul, e3, one_smul, sub_self]
    rcases smul_eq_zero.mp this with h | h
    · exact sub_eq_zero.mp h
    · exact absurd h hW0
  refine ⟨c, c⁻¹ • (Vᴴ * r⁻¹), hc0, e1, ?_, hc⟩
  rw [e2, e4, one_smul]

/-! ## The operators handed to the solvers -/

section solver
variable {q D1 D2 : ℕ}

theorem dense_mixed (S : UMPS ℂ q D1) (S' : UMPS ℂ q D2) (hL : 0 < S.L) (hL' : 0 < S'.L) :
    ∃ E, denseBlock S.list S'.list 0 = some E ∧
      (∀ v, reshape (E *ᵥ v) = chainTransfer S.L S'.L S.A S'.A 0 (Nat.lcm S.L S'.L) (reshape v)) ∧
      (∀ v, reshape (Eᴴ *ᵥ v) = chainTransferL S.L S'.L S.A S'.A 0 (Nat.lcm S.L S'.L) (reshape v)) ∧
      (∀ junk v, (largestOp S.list S'.list 0 false).matvec junk v = some (E *ᵥ v)) ∧
      ∀ junk v, (largestOp S.list S'.list 0 true).matvec junk v = some (Eᴴ *ᵥ v) := by
  have hl : 0 < S.list.length := by rwa [list_length]
  have hl' : 0 < S'.list.length := by rwa [list_length]
  obtain ⟨E, hE, he⟩ := C43_dense S.list S'.list hl hl' 0 (Nat.zero_le _)
  rw [list_length, list_length] at he
  simp only [list_chainProd S hL, list_chainProd S' hL', ← flat_eq] at he
  refine ⟨E, hE, fun v => ?_, fun v => ?_, fun junk v => ?_, fun junk v => ?_⟩
  · ext i i'
    rw [chainTransfer, transfer_entry, reshape, Matrix.of_apply, Matrix.mulVec, dotProduct, sum_flat]
    simp only [he, reshape, Matrix.of_apply]
  · ext i i'
    rw [chainTransferL, transferL_entry, reshape, Matrix.of_apply, Matrix.mulVec, dotProduct, sum_flat]
    simp only [Matrix.conjTranspose_apply, he, reshape, Matrix.of_apply]
  · obtain ⟨E', hE', h⟩ := C43_right S.list S'.list hl hl' 0 (Nat.zero_le _) junk v
    rw [h, Option.some.inj (hE.symm.trans hE')]
  · obtain ⟨E', hE', h⟩ := C43_left S.list S'.list hl hl' 0 (Nat.zero_le _) junk v
    rw [h, Option.some.inj (hE.symm.trans hE')]

theorem argmaxPair_spec {n : ℕ} {ps : EigPairs n} {p} (h : argmaxPair ps = some p) : p ∈ ps ∧ ∀ p' ∈ ps, ‖p'.1‖ ≤ ‖p.1‖ := by
  cases ps with
  | nil => exact absurd h (by simp [argmaxPair])
  | cons e es =>
    simp only [argmaxPair, Option.some.injEq] at h
    rw [← h]
    clear h
    induction es generalizing e with
    | nil => simp
    | cons x xs ih =>
      simp only [List.foldl_cons]
      by_cases hx : ‖e.1‖ < ‖x.1‖
      · rw [if_pos hx]
        obtain ⟨h1, h2⟩ := ih x
        refine ⟨List.mem_cons_of_mem _ h1, fun p' hp' => ?_⟩
        rcases List.mem_cons.mp hp' with rfl | h
        · exact hx.le.trans (h2 x (List.mem_cons_self ..))
        · exact h2 p' h
      · rw [if_neg hx]
        obtain ⟨h1, h2⟩ := ih e
        refine ⟨?_, fun p' hp' => ?_⟩
        · rcases List.mem_cons.mp h1 with h | h
          · rw [h]; exact List.mem_cons_self ..
          · exact List.mem_cons_of_mem _ (List.mem_cons_of_mem _ h)
        · rcases List.mem_cons.mp hp' with rfl | h
          · exact h2 _ (List.mem_cons_self ..)
          · rcases List.mem_cons.mp h with rfl | h
            · exact (not_lt.mp hx).trans (h2 e (List.mem_cons_self ..))
            · exact h2 p' (List.mem_cons_of_mem _ h)

theorem reshape_ne {m n : ℕ} {v : Fin (m * n) → ℂ} : (reshape v : Matrix (Fin m) (Fin n) ℂ) ≠ 0 ↔ v ≠ 0 := by
  rw [not_iff_not]
  constructor
  · intro h
    rw [← ravel_reshape v, h]
    rfl
  · rintro rfl
    rfl

/-- The pair selected by `fidelity_per_site`. -/
theorem fidelity_spec {lib : SpecLib (D1 * D2)} (hlib : lib.Ok) {o : SpecOpts} {left : Bool} {S : UMPS ℂ q D1} {S' : UMPS ℂ q D2}
    (hL : 0 < S.L) (hL' : 0 < S'.L) {d : ℝ} {w : ℂ} {v} (h : fidelity lib o left S S' = some (d, w, v)) :
    d = ‖w‖ ^ (1 / (Nat.lcm S.L S'.L : ℝ)) ∧ (reshape v : Matrix (Fin D1) (Fin D2) ℂ) ≠ 0 ∧
    (left = false → chainTransfer S.L S'.L S.A S'.A 0 (Nat.lcm S.L S'.L) (reshape v) = w • reshape v ∧
      ∀ (μ : ℂ) x, x ≠ 0 → chainTransfer S.L S'.L S.A S'.A 0 (Nat.lcm S.L S'.L) x = μ • x → ‖μ‖ ≤ ‖w‖) ∧
    (left = true → chainTransferL S.L S'.L S.A S'.A 0 (Nat.lcm S.L S'.L) (reshape v)
        = (if (D1 * D2 ≤ o.cutoff ∨ o.forceDense) ∧ ¬ o.forceSparse then star w else w) • reshape v ∧
      ∀ (μ : ℂ) x, x ≠ 0 → chainTransferL S.L S'.L S.A S'.A 0 (Nat.lcm S.L S'.L) x = μ • x → ‖μ‖ ≤ ‖w‖) := by
  unfold fidelity at h
  obtain ⟨ps, h1, h⟩ := Option.bind_eq_some_iff.mp h
  obtain ⟨p, h2, h⟩ := Option.bind_eq_some_iff.mp h
  simp only [Option.some.injEq, Prod.mk.injEq] at h
  obtain ⟨h3, rfl, rfl⟩ := h
  obtain ⟨h4, h5⟩ := argmaxPair_spec h2
  obtain ⟨E, hE, e1, e2, e3, e4⟩ := dense_mixed S S' hL hL'
  have hrs : ∀ (T : Matrix (Fin (D1 * D2)) (Fin (D1 * D2)) ℂ) (μ : ℂ) (x : Matrix (Fin D1) (Fin D2) ℂ),
      (reshape (T *ᵥ ravel x) : Matrix (Fin D1) (Fin D2) ℂ) = μ • x → T *ᵥ ravel x = μ • ravel x := by
    intro T μ x hx
    rw [← ravel_reshape (T *ᵥ ravel x), hx, ravel_smul]
  have hrv : ∀ x : Matrix (Fin D1) (Fin D2) ℂ, x ≠ 0 → ravel x ≠ 0 := by
    intro x hx
    rw [← reshape_ne, reshape_ravel]
    exact hx
  refine ⟨by rw [← h3]; rfl, ?_⟩
  unfold largestEigs at h1
  by_cases hd : (D1 * D2 ≤ o.cutoff ∨ o.forceDense) ∧ ¬ o.forceSparse
  · rw [if_pos hd, hE, Option.bind_some] at h1
    obtain ⟨k1, k2⟩ := hlib.eig E left ps h1
    refine ⟨reshape_ne.mpr (k1 p h4).1, ?_, ?_⟩
    · rintro rfl
      simp only [Bool.false_eq_true, if_false] at k1 k2
      refine ⟨by rw [← e1, (k1 p h4).2, reshape_smul], fun μ x hx hμ => ?_⟩
      obtain ⟨p', m1, rfl⟩ := k2 μ (ravel x) (hrv x hx) (hrs E μ x (by rw [e1, reshape_ravel, hμ]))
      exact h5 p' m1
    · rintro rfl
      simp only [if_true] at k1 k2
      refine ⟨by rw [if_pos hd, ← e2, (k1 p h4).2, reshape_smul], fun μ x hx hμ => ?_⟩
      obtain ⟨p', m1, m2⟩ := k2 (star μ) (ravel x) (hrv x hx) (by
        rw [star_star]
        exact hrs Eᴴ μ x (by rw [e2, reshape_ravel, hμ]))
      rw [← norm_star, ← m2]
      exact h5 p' m1
  · rw [if_neg hd, if_neg (by omega)] at h1
    obtain ⟨k1, k2⟩ := hlib.eigs _ ps h1
    refine ⟨reshape_ne.mpr (k1 p h4).1, ?_, ?_⟩
    · rintro rfl
      simp only [e3] at k1 k2
      refine ⟨by rw [← e1, Option.some.inj (k1 p h4).2, reshape_smul], fun μ x hx hμ => ?_⟩
      obtain ⟨p', m1, m2⟩ := k2 μ (ravel x) (hrv x hx) (by rw [hrs E μ x (by rw [e1, reshape_ravel, hμ])])
      exact m2.trans (h5 p' m1)
    · rintro rfl
      simp only [e4] at k1 k2
      refine ⟨by rw [if_neg hd, ← e2, Option.some.inj (k1 p h4).2, reshape_smul], fun μ x hx hμ => ?_⟩
      obtain ⟨p', m1, m2⟩ := k2 μ (ravel x) (hrv x hx) (by rw [hrs Eᴴ μ x (by rw [e2, reshape_ravel, hμ])])
      exact m2.trans (h5 p' m1)

end solver

end EvoMPS.Uni
