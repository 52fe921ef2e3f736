import Verif.DynExp
import Mathlib.Analysis.InnerProductSpace.SingularValues

/-!
# The contract of `scipy.linalg.svd` is met

Every complex matrix has a singular value decomposition in the sense of `SvdOf`, so the theorems that take one
are not vacuous.
-/

namespace EvoMPS

open Matrix Module

section
variable {m n : ℕ} (Y : Matrix (Fin m) (Fin n) ℂ)

/-- `Y` as a linear map. -/
noncomputable abbrev svdT : EuclideanSpace ℂ (Fin n) →ₗ[ℂ] EuclideanSpace ℂ (Fin m) := Matrix.toEuclideanLin Y

/-- The right singular vectors. -/
noncomputable def svdV : OrthonormalBasis (Fin n) ℂ (EuclideanSpace ℂ (Fin n)) :=
  (svdT Y).isSymmetric_adjoint_comp_self.eigenvectorBasis finrank_euclideanSpace_fin

theorem svdT_inner (i j : Fin n) : Inner.inner ℂ (svdT Y (svdV Y i)) (svdT Y (svdV Y j))
    = if i = j then (((svdT Y).singularValues i ^ 2 : ℝ) : ℂ) else 0 := by
  rw [← LinearMap.adjoint_inner_right, ← LinearMap.comp_apply, svdV,
    LinearMap.IsSymmetric.apply_eigenvectorBasis, inner_smul_right, OrthonormalBasis.inner_eq_ite,
    (svdT Y).sq_singularValues_fin finrank_euclideanSpace_fin]
  split
  · rename_i h; subst h; simp
  · simp

theorem svdT_zero {j : Fin n} (h : (svdT Y).singularValues j = 0) : svdT Y (svdV Y j) = 0 := by
  have := svdT_inner Y j j
  rw [if_pos rfl, h] at this
  simpa using this

theorem svdT_out {j : ℕ} (h : m ≤ j) : (svdT Y).singularValues j = 0 := by
  rw [LinearMap.singularValues_eq_zero_iff_le_finrank_range]
  refine le_trans (Submodule.finrank_le _) ?_
  rw [finrank_euclideanSpace_fin]
  exact h

/-- The left singular vectors. -/
theorem exists_svdU : ∃ b : OrthonormalBasis (Fin m) ℂ (EuclideanSpace ℂ (Fin m)), ∀ (i : Fin m) (hi : (i : ℕ) < n),
    svdT Y (svdV Y ⟨i, hi⟩) = (((svdT Y).singularValues i : ℝ) : ℂ) • b i := by
  let v : Fin m → EuclideanSpace ℂ (Fin m) := fun i => if hi : (i : ℕ) < n then
    (((svdT Y).singularValues i : ℝ) : ℂ)⁻¹ • svdT Y (svdV Y ⟨i, hi⟩) else 0
  let s : Set (Fin m) := {i | (i : ℕ) < n ∧ (svdT Y).singularValues i ≠ 0}
  have ho : Orthonormal ℂ (s.domRestrict v) := by
    rw [orthonormal_iff_ite]
    rintro ⟨i, hi, hi0⟩ ⟨j, hj, hj0⟩
    have e1 : v i = (((svdT Y).singularValues i : ℝ) : ℂ)⁻¹ • svdT Y (svdV Y ⟨i, hi⟩) := dif_pos hi
    have e2 : v j = (((svdT Y).singularValues j : ℝ) : ℂ)⁻¹ • svdT Y (svdV Y ⟨j, hj⟩) := dif_pos hj
    have := svdT_inner Y ⟨i, hi⟩ ⟨j, hj⟩
    rw [Set.domRestrict_apply, Set.domRestrict_apply, e1, e2, inner_smul_left, inner_smul_right, this]
    by_cases hij : i = j
    · subst hij
      have : (((svdT Y).singularValues i : ℝ) : ℂ) ≠ 0 := by exact_mod_cast hi0
      simp
      field_simp
    · have h1 : ¬ (⟨i, hi⟩ : Fin n) = ⟨j, hj⟩ := by
        intro h; exact hij (Fin.ext (by simpa using h))
      rw [if_neg h1, if_neg (by simpa using hij), mul_zero, mul_zero]
  obtain ⟨b, hb⟩ := ho.exists_orthonormalBasis_extension_of_card_eq (by simp)
  refine ⟨b, fun i hi => ?_⟩
  by_cases h0 : (svdT Y).singularValues i = 0
  · rw [svdT_zero Y h0, h0]; simp
  · have : (((svdT Y).singularValues i : ℝ) : ℂ) ≠ 0 := by exact_mod_cast h0
    rw [hb i ⟨hi, h0⟩]
    simp only [v, dif_pos hi]
    rw [smul_smul, mul_inv_cancel₀ this, one_smul]

/-- Every matrix has a singular value decomposition. -/
theorem exists_svd : Nonempty (SvdOf Y) := by
  obtain ⟨b, hb⟩ := exists_svdU Y
  refine ⟨⟨Matrix.of fun i k => b k i, fun i => (svdT Y).singularValues i,
    Matrix.of fun k j => star (svdV Y k j), ?_, ?_, fun i => (svdT Y).singularValues_nonneg i,
    fun i j h => (svdT Y).singularValues_antitone h, fun i j => ?_⟩⟩
  · ext k k'
    have := b.inner_eq_ite k k'
    rw [PiLp.inner_apply] at this
    rw [Matrix.mul_apply, Matrix.one_apply, ← this]
    refine Finset.sum_congr rfl fun i _ => ?_
    simp [mul_comm]
  · ext k k'
    have := (svdV Y).inner_eq_ite k k'
    rw [PiLp.inner_apply] at this
    rw [Matrix.mul_apply, Matrix.one_apply, ← this]
    refine Finset.sum_congr rfl fun i _ => ?_
    simp [mul_comm]
  · have e1 : Y i j = svdT Y (EuclideanSpace.single j 1) i := by
      simp [svdT, Matrix.toLpLin_apply]
    have e2 : (EuclideanSpace.single j 1 : EuclideanSpace ℂ (Fin n)) = ∑ k, star (svdV Y k j) • svdV Y k := by
      conv_lhs => rw [← (svdV Y).sum_repr' (EuclideanSpace.single j 1)]
      refine Finset.sum_congr rfl fun k _ => ?_
      congr 1
      rw [PiLp.inner_apply, Finset.sum_eq_single j]
      · simp
      · intro i _ hij; simp [hij]
      · simp
    rw [e1, e2, map_sum]
    simp only [map_smul]
    have e3 : ∀ g : Fin n → ℂ, (∀ k : Fin n, m ≤ (k : ℕ) → g k = 0) →
        ∑ k, g k = ∑ k : Fin (min m n), g ⟨k, by omega⟩ := by
      intro g hg
      symm
      refine Finset.sum_bij_ne_zero (fun k _ _ => (⟨k, by omega⟩ : Fin n)) (by simp) ?_ ?_ (fun _ _ _ => rfl)
      · intro a _ _ b _ _ h; exact Fin.ext (by simpa using h)
      · intro k _ hk
        have : (k : ℕ) < m := by by_contra h; exact hk (hg k (by omega))
        exact ⟨⟨k, by omega⟩, Finset.mem_univ _, hk, rfl⟩
    have e4 : (∑ k, star (svdV Y k j) • svdT Y (svdV Y k)) i = ∑ k, star (svdV Y k j) * svdT Y (svdV Y k) i := by
      simp
    rw [e4, e3 _ (fun k hk => by rw [svdT_zero Y (svdT_out Y hk)]; simp)]
    refine Finset.sum_congr rfl fun k _ => ?_
    rw [hb ⟨k, by omega⟩ (by simp; omega)]
    simp
    ring

/-- A routine that never fails. -/
noncomputable def someSvd : Svd := fun _ _ Y => some (Classical.choice (exists_svd Y))

end

end EvoMPS
