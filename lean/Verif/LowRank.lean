import Verif.PairGauge
import Mathlib.Analysis.InnerProductSpace.Projection.FiniteDimensional
import Mathlib.Analysis.InnerProductSpace.PiL2
import Mathlib.LinearAlgebra.Dimension.Constructions

/-!
# Approximation by matrices of low rank

The truncated singular value decomposition is the best approximation of a matrix by products with a given inner
dimension.
-/

namespace EvoMPS

open Matrix

/-- The squared Frobenius norm. -/
noncomputable def frobSq {m n : ℕ} (X : Matrix (Fin m) (Fin n) ℂ) : ℝ := ∑ i, ∑ j, ‖X i j‖ ^ 2

theorem adot_self_frob {m n : ℕ} (X : Matrix (Fin m) (Fin n) ℂ) : adot X X = (frobSq X : ℂ) := by
  rw [adot_eq_trace, frobSq, Matrix.trace]
  simp only [Matrix.diag_apply, Matrix.mul_apply, conjTranspose_apply, Complex.ofReal_sum]
  rw [Finset.sum_comm]
  refine Finset.sum_congr rfl fun i _ => Finset.sum_congr rfl fun j _ => ?_
  rw [Complex.star_def, ← Complex.normSq_eq_conj_mul_self, Complex.normSq_eq_norm_sq]

/-- Numbers between 0 and 1 with sum at most `d`: with descending weights, the weighted sum is at most the sum of the
first `d` weights. -/
theorem weighted_le {m : ℕ} (d : ℕ) (w p : Fin m → ℝ) (hw : ∀ i j, i ≤ j → w j ≤ w i) (hw0 : ∀ i, 0 ≤ w i)
    (p0 : ∀ i, 0 ≤ p i) (p1 : ∀ i, p i ≤ 1) (hs : ∑ i, p i ≤ d) :
    ∑ i, w i * p i ≤ ∑ i : Fin m, if (i : ℕ) < d then w i else 0 := by
  by_cases hd : d < m
  · set c := w ⟨d, hd⟩ with hc
    have h1 : ∀ i : Fin m, w i * p i - c * p i ≤ (if (i : ℕ) < d then w i else 0) - (if (i : ℕ) < d then c else 0) := by
      intro i
      split
      · next h =>
        have : c ≤ w i := hw _ _ (by rw [Fin.le_def]; exact h.le)
        nlinarith [p1 i]
      · next h =>
        have : w i ≤ c := hw _ _ (by rw [Fin.le_def]; simpa using h)
        nlinarith [p0 i]
    have h2 : ∑ i : Fin m, (if (i : ℕ) < d then c else 0) = d * c := by
      rw [← Finset.sum_filter, Finset.sum_const, nsmul_eq_mul]
      congr 2
      rw [show (Finset.univ.filter fun i : Fin m => (i : ℕ) < d) = Finset.Iio ⟨d, hd⟩ by ext i; simp [Fin.lt_def]]
      simp
    have h3 := Finset.sum_le_sum fun i (_ : i ∈ Finset.univ) => h1 i
    rw [Finset.sum_sub_distrib, Finset.sum_sub_distrib, h2, ← Finset.mul_sum] at h3
    have : c * ∑ i, p i ≤ c * d := mul_le_mul_of_nonneg_left hs (hw0 _)
    linarith
  · refine Finset.sum_le_sum fun i _ => ?_
    rw [if_pos (by omega)]
    exact mul_le_of_le_one_right (hw0 i) (p1 i)

section
variable {m n : ℕ}

/-- A unitary factor on the left does not change the norm. -/
theorem frobSq_left (U : Matrix (Fin m) (Fin m) ℂ) (hU : Uᴴ * U = 1) (X : Matrix (Fin m) (Fin n) ℂ) :
    frobSq (U * X) = frobSq X := by
  have : ((frobSq (U * X) : ℝ) : ℂ) = (frobSq X : ℝ) := by
    rw [← adot_self_frob, ← adot_self_frob, adot_eq_trace, adot_eq_trace, conjTranspose_mul, Matrix.mul_assoc,
      ← Matrix.mul_assoc Uᴴ, hU, Matrix.one_mul]
  exact_mod_cast this

theorem frobSq_right (V : Matrix (Fin n) (Fin n) ℂ) (hV : V * Vᴴ = 1) (X : Matrix (Fin m) (Fin n) ℂ) :
    frobSq (X * V) = frobSq X := by
  have : ((frobSq (X * V) : ℝ) : ℂ) = (frobSq X : ℝ) := by
    rw [← adot_self_frob, ← adot_self_frob, adot_eq_trace, adot_eq_trace, conjTranspose_mul, Matrix.trace_mul_comm,
      Matrix.mul_assoc, ← Matrix.mul_assoc V, hV, Matrix.one_mul, Matrix.trace_mul_comm]
  exact_mod_cast this

/-- A vector of the subspace is at least as far away as the projection. -/
theorem dist_sub {E : Type*} [NormedAddCommGroup E] [InnerProductSpace ℂ E] (W : Submodule ℂ E)
    [W.HasOrthogonalProjection] (x z : E) (hz : z ∈ W) :
    ‖x‖ ^ 2 - ‖W.starProjection x‖ ^ 2 ≤ ‖x - z‖ ^ 2 := by
  have h1 := W.norm_sq_eq_add_norm_sq_starProjection x
  have h2 := W.norm_sq_eq_add_norm_sq_starProjection (x - z)
  have h3 : Wᗮ.starProjection (x - z) = Wᗮ.starProjection x := by
    rw [map_sub, Submodule.starProjection_orthogonal_apply_eq_zero hz, sub_zero]
  rw [h3] at h2
  have := sq_nonneg ‖W.starProjection (x - z)‖
  linarith

/-- The squared lengths of the projected unit vectors: at most 1 each, and together the dimension. -/
theorem proj_unit {m : ℕ} (W : Submodule ℂ (EuclideanSpace ℂ (Fin m))) :
    (∀ i, ‖W.starProjection (EuclideanSpace.single i (1 : ℂ))‖ ^ 2 ≤ 1) ∧
      ∑ i, ‖W.starProjection (EuclideanSpace.single i (1 : ℂ))‖ ^ 2 = Module.finrank ℂ W := by
  constructor
  · intro i
    have h := W.norm_starProjection_apply_le (EuclideanSpace.single i (1 : ℂ))
    rw [PiLp.norm_single, norm_one] at h
    exact pow_le_one₀ (norm_nonneg _) h
  · let b := stdOrthonormalBasis ℂ W
    have h1 : ∀ i, ‖W.starProjection (EuclideanSpace.single i (1 : ℂ))‖ ^ 2
        = ∑ l, ‖(b l : EuclideanSpace ℂ (Fin m)) i‖ ^ 2 := by
      intro i
      have : ‖W.starProjection (EuclideanSpace.single i (1 : ℂ))‖
          = ‖W.orthogonalProjectionOnto (EuclideanSpace.single i (1 : ℂ))‖ := rfl
      rw [this, ← b.sum_sq_norm_inner_right]
      refine Finset.sum_congr rfl fun l _ => ?_
      congr 1
      have e : Inner.inner ℂ (b l) (W.orthogonalProjectionOnto (EuclideanSpace.single i (1 : ℂ)))
          = Inner.inner ℂ (b l : EuclideanSpace ℂ (Fin m)) (EuclideanSpace.single i (1 : ℂ)) := by
        rw [← Submodule.inner_orthogonalProjectionOnto_eq_of_mem_left]
      rw [e, EuclideanSpace.inner_single_right, one_mul]
      exact RCLike.norm_conj _
    rw [Finset.sum_congr rfl fun i _ => h1 i, Finset.sum_comm]
    have h2 : ∀ l, ∑ i, ‖(b l : EuclideanSpace ℂ (Fin m)) i‖ ^ 2 = 1 := by
      intro l
      rw [← EuclideanSpace.norm_sq_eq]
      have : ‖(b l : EuclideanSpace ℂ (Fin m))‖ = 1 := b.orthonormal.1 l
      rw [this, one_pow]
    rw [Finset.sum_congr rfl fun l _ => h2 l]
    simp

/-- The singular values as a matrix. -/
def svMat (s : Fin (min m n) → ℝ) : Matrix (Fin m) (Fin n) ℂ :=
  Matrix.of fun i j => if h : (i : ℕ) = j then (s ⟨i, by omega⟩ : ℂ) else 0

theorem svd_svMat {Y : Matrix (Fin m) (Fin n) ℂ} (f : SvdOf Y) : Y = f.U * svMat f.sv * f.Vh := by
  ext i j
  rw [f.eq, Matrix.mul_apply]
  have : ∀ l : Fin n, (f.U * svMat f.sv) i l = if h : (l : ℕ) < m then f.U i ⟨l, h⟩ * (f.sv ⟨l, by omega⟩ : ℂ) else 0 := by
    intro l
    rw [Matrix.mul_apply]
    split
    · next h =>
      rw [Finset.sum_eq_single ⟨l, h⟩]
      · simp [svMat]
      · intro b _ hb
        rw [svMat, Matrix.of_apply, dif_neg (fun e => hb (Fin.ext e)), mul_zero]
      · simp
    · next h =>
      refine Finset.sum_eq_zero fun b _ => ?_
      rw [svMat, Matrix.of_apply, dif_neg (by omega), mul_zero]
  simp only [this]
  rw [← Finset.sum_filter_add_sum_filter_not Finset.univ (fun l : Fin n => (l : ℕ) < m)]
  rw [Finset.sum_eq_zero (s := Finset.univ.filter fun l : Fin n => ¬ (l : ℕ) < m) (fun l hl => by
    rw [dif_neg (Finset.mem_filter.1 hl).2, zero_mul]), add_zero]
  refine Finset.sum_bij (fun k _ => ⟨k, by omega⟩) (fun k _ => by simp; omega) (by simp [Fin.ext_iff]) ?_ ?_
  · intro b hb
    have := (Finset.mem_filter.1 hb).2
    exact ⟨⟨b, by omega⟩, by simp, rfl⟩
  · intro k _
    rw [dif_pos (show (k : ℕ) < m by omega)]

/-- A diagonal of descending singular values, approximated by a product with inner dimension `d`. -/
theorem svMat_low_rank (s : Fin (min m n) → ℝ) (h0 : ∀ i, 0 ≤ s i) (hs : ∀ i j, i ≤ j → s j ≤ s i) (d : ℕ)
    (Y : Matrix (Fin m) (Fin d) ℂ) (Z : Matrix (Fin d) (Fin n) ℂ) :
    ∑ i : Fin (min m n), (if (i : ℕ) < d then 0 else s i ^ 2) ≤ frobSq (svMat s - Y * Z) := by
  classical
  -- the column space of `Y`
  let col : Fin d → EuclideanSpace ℂ (Fin m) := fun l => WithLp.toLp 2 fun i => Y i l
  let W : Submodule ℂ (EuclideanSpace ℂ (Fin m)) := Submodule.span ℂ (Set.range col)
  have hW : Module.finrank ℂ W ≤ d := by
    have := finrank_range_le_card (R := ℂ) col
    rwa [Fintype.card_fin] at this
  obtain ⟨p1, p2⟩ := proj_unit W
  let p : Fin m → ℝ := fun i => ‖W.starProjection (EuclideanSpace.single i (1 : ℂ))‖ ^ 2
  have p0 : ∀ i, 0 ≤ p i := fun i => sq_nonneg _
  -- each column on its own
  have hcol : ∀ j : Fin n, (if h : (j : ℕ) < m then s ⟨j, by omega⟩ ^ 2 * (1 - p ⟨j, h⟩) else 0)
      ≤ ∑ i, ‖(svMat s - Y * Z) i j‖ ^ 2 := by
    intro j
    split
    · next h =>
      have hz : (WithLp.toLp 2 fun i => (Y * Z) i j : EuclideanSpace ℂ (Fin m)) ∈ W := by
        have e : (WithLp.toLp 2 fun i => (Y * Z) i j : EuclideanSpace ℂ (Fin m)) = ∑ l, Z l j • col l := by
          ext i
          simp [col, Matrix.mul_apply, mul_comm]
        rw [e]
        exact Submodule.sum_mem _ fun l _ => Submodule.smul_mem _ _ (Submodule.subset_span ⟨l, rfl⟩)
      have hd := dist_sub W ((s ⟨j, by omega⟩ : ℂ) • EuclideanSpace.single (⟨j, h⟩ : Fin m) (1 : ℂ)) _ hz
      rw [map_smul, norm_smul, norm_smul, PiLp.norm_single, norm_one, mul_one, mul_pow, Complex.norm_real,
        Real.norm_eq_abs, sq_abs] at hd
      have e : ‖(s ⟨j, by omega⟩ : ℂ) • EuclideanSpace.single (⟨j, h⟩ : Fin m) (1 : ℂ)
          - (WithLp.toLp 2 fun i => (Y * Z) i j : EuclideanSpace ℂ (Fin m))‖ ^ 2 = ∑ i, ‖(svMat s - Y * Z) i j‖ ^ 2 := by
        rw [EuclideanSpace.norm_sq_eq]
        refine Finset.sum_congr rfl fun i _ => ?_
        congr 2
        by_cases hij : (i : ℕ) = j
        · have : i = ⟨j, h⟩ := Fin.ext hij
          subst this
          simp [svMat]
        · have : i ≠ ⟨j, h⟩ := fun e => hij (by rw [e])
          simp [svMat, hij, this]
      rw [e] at hd
      have : s ⟨j, by omega⟩ ^ 2 * (1 - p ⟨j, h⟩) = s ⟨j, by omega⟩ ^ 2 - s ⟨j, by omega⟩ ^ 2 * p ⟨j, h⟩ := by ring
      rw [this]
      exact hd
    · exact Finset.sum_nonneg fun i _ => sq_nonneg _
  -- the sum over the columns
  have hsum : ∑ i : Fin (min m n), s i ^ 2 * (1 - p ⟨i, by omega⟩) ≤ frobSq (svMat s - Y * Z) := by
    rw [frobSq, Finset.sum_comm]
    refine le_trans (le_of_eq ?_) (Finset.sum_le_sum fun j _ => hcol j)
    rw [← Finset.sum_filter_add_sum_filter_not Finset.univ (fun l : Fin n => (l : ℕ) < m)]
    rw [Finset.sum_eq_zero (s := Finset.univ.filter fun l : Fin n => ¬ (l : ℕ) < m) (fun l hl => by
      rw [dif_neg (Finset.mem_filter.1 hl).2]), add_zero]
    refine Finset.sum_bij (fun k _ => ⟨k, by omega⟩) (fun k _ => by simp; omega) (by simp [Fin.ext_iff]) ?_ ?_
    · intro b hb
      have := (Finset.mem_filter.1 hb).2
      exact ⟨⟨b, by omega⟩, by simp, rfl⟩
    · intro k _
      rw [dif_pos (show (k : ℕ) < m by omega)]
  -- the projections
  have hp : ∑ i : Fin (min m n), p ⟨i, by omega⟩ ≤ d := by
    have h1 : ∑ i : Fin (min m n), p ⟨i, by omega⟩ ≤ ∑ i, p i := by
      rw [← Finset.sum_image (s := Finset.univ) (g := fun i : Fin (min m n) => (⟨i, by omega⟩ : Fin m)) (f := p)
        (fun a _ b _ e => Fin.ext (by simpa using e))]
      exact Finset.sum_le_sum_of_subset_of_nonneg (Finset.subset_univ _) fun i _ _ => p0 i
    have h2 : ∑ i, p i ≤ d := by
      show ∑ i, ‖W.starProjection (EuclideanSpace.single i (1 : ℂ))‖ ^ 2 ≤ d
      rw [p2]
      exact_mod_cast hW
    exact h1.trans h2
  have hw := weighted_le d (fun i => s i ^ 2) (fun i : Fin (min m n) => p ⟨i, by omega⟩)
    (fun i j hij => pow_le_pow_left₀ (h0 j) (hs i j hij) 2) (fun i => sq_nonneg _) (fun i => p0 _) (fun i => p1 _) hp
  have e : ∑ i : Fin (min m n), (if (i : ℕ) < d then 0 else s i ^ 2)
      = ∑ i : Fin (min m n), s i ^ 2 - ∑ i : Fin (min m n), (if (i : ℕ) < d then s i ^ 2 else 0) := by
    rw [← Finset.sum_sub_distrib]
    exact Finset.sum_congr rfl fun i _ => by split <;> ring
  have e' : ∑ i : Fin (min m n), s i ^ 2 * (1 - p ⟨i, by omega⟩)
      = ∑ i : Fin (min m n), s i ^ 2 - ∑ i : Fin (min m n), s i ^ 2 * p ⟨i, by omega⟩ := by
    rw [← Finset.sum_sub_distrib]
    exact Finset.sum_congr rfl fun i _ => by ring
  rw [e]
  rw [e'] at hsum
  linarith

/-- No product with inner dimension `d` is closer to the matrix than the square root of the sum of the squares of all but
the `d` largest singular values. -/
theorem low_rank {M : Matrix (Fin m) (Fin n) ℂ} (f : SvdOf M) (d : ℕ) (Y : Matrix (Fin m) (Fin d) ℂ)
    (Z : Matrix (Fin d) (Fin n) ℂ) :
    ∑ i : Fin (min m n), (if (i : ℕ) < d then 0 else f.sv i ^ 2) ≤ frobSq (M - Y * Z) := by
  have hU : f.U * f.Uᴴ = 1 := mul_eq_one_comm.1 f.unitU
  have hV : f.Vhᴴ * f.Vh = 1 := mul_eq_one_comm.1 f.unitV
  have h := svMat_low_rank f.sv f.nonneg f.desc d (f.Uᴴ * Y) (Z * f.Vhᴴ)
  have e : M - Y * Z = f.U * (svMat f.sv - f.Uᴴ * Y * (Z * f.Vhᴴ)) * f.Vh := by
    conv_lhs => rw [svd_svMat f]
    rw [Matrix.mul_sub, Matrix.sub_mul]
    congr 1
    have : f.U * (f.Uᴴ * Y * (Z * f.Vhᴴ)) * f.Vh = f.U * f.Uᴴ * (Y * Z) * (f.Vhᴴ * f.Vh) := by
      simp only [Matrix.mul_assoc]
    rw [this, hU, hV, Matrix.one_mul, Matrix.mul_one]
  rw [e, frobSq_right _ f.unitV, frobSq_left _ f.unitU]
  exact h

/-- The distance of a matrix from its truncated decomposition. -/
theorem frobSq_svdMk {M : Matrix (Fin m) (Fin n) ℂ} (f : SvdOf M) (d : ℕ) :
    frobSq (M - svdMk f fun k => if (k : ℕ) < d then (f.sv k : ℂ) else 0)
      = ∑ i : Fin (min m n), (if (i : ℕ) < d then 0 else f.sv i ^ 2) := by
  have : ((frobSq (M - svdMk f fun k => if (k : ℕ) < d then (f.sv k : ℂ) else 0) : ℝ) : ℂ)
      = ((∑ i : Fin (min m n), (if (i : ℕ) < d then 0 else f.sv i ^ 2) : ℝ) : ℂ) := by
    rw [← adot_self_frob]
    have e : M - (svdMk f fun k => if (k : ℕ) < d then (f.sv k : ℂ) else 0)
        = svdMk f ((fun k => (f.sv k : ℂ)) - fun k : Fin (min m n) => if (k : ℕ) < d then (f.sv k : ℂ) else 0) := by
      rw [← svdMk_sub, svdMk_sv]
    rw [e, adot_svdMk]
    push_cast
    refine Finset.sum_congr rfl fun i _ => ?_
    simp only [Pi.sub_apply]
    split
    · simp
    · simp [pow_two]
  exact_mod_cast this

end

end EvoMPS
