import Verif.Contracts
import Verif.UniformCF
import Mathlib.LinearAlgebra.Matrix.Block
import Mathlib.Analysis.Matrix.Order
import Mathlib.Data.Fin.Tuple.Sort

/-!
# The contracts of the Cholesky and of the ordered eigenvalue routine can be met
-/

namespace EvoMPS

open Matrix
open scoped ComplexOrder MatrixOrder Matrix.Norms.L2Operator

/-- Every positive definite matrix has a Cholesky factor. -/
theorem exists_chol {n : ℕ} {A : Matrix (Fin n) (Fin n) ℂ} (hA : A.PosDef) :
    ∃ x : Matrix (Fin n) (Fin n) ℂ, xᴴ * x = A ∧ (∀ i j, j < i → x i j = 0) ∧ ∀ i, 0 < x i i := by
  obtain ⟨B, hB⟩ := CStarAlgebra.nonneg_iff_eq_star_mul_self.mp hA.posSemidef.nonneg
  rw [Matrix.star_eq_conjTranspose] at hB
  set U := fullQR.fac B with hU
  have hQ : B = fullQR.Q B * U := (fullQR.mul_eq B).symm
  have hA' : Uᴴ * U = A := by
    rw [hB]
    conv_rhs => rw [hQ]
    rw [Matrix.conjTranspose_mul, Matrix.mul_assoc, ← Matrix.mul_assoc _ _ U, fullQR.unit, Matrix.one_mul]
  have htri : ∀ i j : Fin n, j < i → U i j = 0 := fun i j h => fullQR.tri B i j h
  have hdet : U.det ≠ 0 := by
    intro h0
    have h1 : A.det = 0 := by rw [← hA', Matrix.det_mul, h0, mul_zero]
    exact (Matrix.isUnit_iff_isUnit_det A).mp hA.isUnit |>.ne_zero h1
  have hdiag : ∀ i, U i i ≠ 0 := by
    rw [Matrix.det_of_isUpperTriangular (fun i j h => htri i j h)] at hdet
    exact fun i => Finset.prod_ne_zero_iff.mp hdet i (Finset.mem_univ _)
  let ph : Fin n → ℂ := fun i => star (U i i) / ‖U i i‖
  have hph : ∀ i, star (ph i) * ph i = 1 := by
    intro i
    have h0 : ((‖U i i‖ : ℝ) : ℂ) ≠ 0 := by exact_mod_cast norm_ne_zero_iff.mpr (hdiag i)
    simp only [ph, star_div₀, Complex.star_def, Complex.conj_ofReal, Complex.conj_conj]
    rw [div_mul_div_comm, Complex.mul_conj, Complex.normSq_eq_norm_sq]
    push_cast
    rw [pow_two, div_self (mul_ne_zero h0 h0)]
  refine ⟨diagonal ph * U, ?_, ?_, ?_⟩
  · rw [Matrix.conjTranspose_mul, Matrix.mul_assoc, ← Matrix.mul_assoc _ (diagonal ph) U,
      Matrix.diagonal_conjTranspose, Matrix.diagonal_mul_diagonal]
    have : (diagonal fun i => star ph i * ph i) = (1 : Matrix (Fin n) (Fin n) ℂ) := by
      rw [← Matrix.diagonal_one]
      congr 1
      funext i
      exact hph i
    rw [this, Matrix.one_mul, hA']
  · intro i j h
    rw [Matrix.diagonal_mul, htri i j h, mul_zero]
  · intro i
    rw [Matrix.diagonal_mul]
    have h0 : 0 < ‖U i i‖ := norm_pos_iff.mpr (hdiag i)
    have : ph i * U i i = ((‖U i i‖ : ℝ) : ℂ) := by
      have h0' : ((‖U i i‖ : ℝ) : ℂ) ≠ 0 := by exact_mod_cast h0.ne'
      simp only [ph]
      rw [div_mul_eq_mul_div, Complex.star_def, mul_comm, Complex.mul_conj, Complex.normSq_eq_norm_sq]
      push_cast
      field_simp
    rw [this]
    exact_mod_cast h0

open Classical in
/-- A Cholesky routine that meets the contract. -/
noncomputable def someChol : Chol where
  fac b {n} A := if h : A.PosDef then
    some (if b then (Classical.choose (exists_chol h))ᴴ else Classical.choose (exists_chol h)) else none
  ok b {n} A h := ⟨_, dif_pos h⟩
  fail b {n} A _ h := dif_neg h
  lower {n} A x h hx := by
    rw [dif_pos h] at hx
    obtain rfl := Option.some.inj hx
    obtain ⟨h1, h2, h3⟩ := Classical.choose_spec (exists_chol h)
    simp only [if_true, Matrix.conjTranspose_conjTranspose, Matrix.conjTranspose_apply]
    refine ⟨h1, fun i j hij => by rw [h2 j i hij, star_zero], fun i => ?_⟩
    simpa using (star_lt_star_iff.mpr (h3 i))
  upper {n} A x h hx := by
    rw [dif_pos h] at hx
    obtain rfl := Option.some.inj hx
    exact Classical.choose_spec (exists_chol h)

/-- Eigenvalues in ascending order. -/
noncomputable def ascEigh : Eigh ℂ where
  ev {n} M i := specEigh.ev M (Tuple.sort (fun i => (specEigh.ev M i).re) i)
  vec {n} M := (specEigh.vec M).submatrix id (Tuple.sort fun i => (specEigh.ev M i).re)
  real M h i := specEigh.real M h _
  unit {n} M h := by
    ext i j
    have := congrFun (congrFun (specEigh.unit M h) (Tuple.sort (fun i => (specEigh.ev M i).re) i))
      (Tuple.sort (fun i => (specEigh.ev M i).re) j)
    rw [Matrix.one_apply] at this ⊢
    simp only [EmbeddingLike.apply_eq_iff_eq] at this
    rw [← this]
    rfl
  eig {n} M h := by
    ext i j
    have := congrFun (congrFun (specEigh.eig M h) i) (Tuple.sort (fun i => (specEigh.ev M i).re) j)
    rw [Matrix.mul_diagonal] at this ⊢
    exact this
  one {n} M h1 h := by
    subst h1
    rw [specEigh.one M rfl h]
    ext i j
    fin_cases i; fin_cases j
    simp [Matrix.one_apply, Subsingleton.elim (Tuple.sort (fun i : Fin 1 => (specEigh.ev M i).re) 0) 0]

/-- The library routines of `herm_fac_with_inv` exist. -/
noncomputable def someHermLib : HermLib where
  chol := someChol
  eigh := ascEigh
  asc M _ _ _ h := Tuple.monotone_sort (fun i => (specEigh.ev M i).re) h

end EvoMPS
