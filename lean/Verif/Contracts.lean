import Verif.Canon
import Verif.Schmidt
import Verif.NullspaceLemmas
import Mathlib.Analysis.InnerProductSpace.GramSchmidtOrtho
import Mathlib.Analysis.InnerProductSpace.PiL2
import Mathlib.Analysis.Matrix.Spectrum
import Mathlib.Analysis.Complex.Polynomial.Basic

/-!
# The contracts of the LAPACK routines can be met

The structures `FullQR`, `QR` and `Eigh` list what is assumed about the factorisation routines.  Here
each of them is shown to be inhabited over the complex numbers, so theorems that take such a
routine as a parameter do not hold vacuously.
-/

namespace EvoMPS

open Matrix

/-- The columns of `A`, completed with zeros to `m` vectors. -/
noncomputable def qrCols {m n : ℕ} (A : Matrix (Fin m) (Fin n) ℂ) (j : Fin m) : EuclideanSpace ℂ (Fin m) :=
  WithLp.toLp 2 fun i => if h : j.val < n then A i ⟨j, h⟩ else 0

/-- The orthonormal basis the Gram-Schmidt process makes of the columns of `A`. -/
noncomputable def qrBasis {m n : ℕ} (A : Matrix (Fin m) (Fin n) ℂ) :
    OrthonormalBasis (Fin m) ℂ (EuclideanSpace ℂ (Fin m)) :=
  InnerProductSpace.gramSchmidtOrthonormalBasis (𝕜 := ℂ) (by simp) (qrCols A)

/-- The unitary factor. -/
noncomputable def qrQ {m n : ℕ} (A : Matrix (Fin m) (Fin n) ℂ) : Matrix (Fin m) (Fin m) ℂ :=
  Matrix.of fun i j => qrBasis A j i

theorem qrQ_unit {m n : ℕ} (A : Matrix (Fin m) (Fin n) ℂ) : (qrQ A)ᴴ * qrQ A = 1 := by
  ext i j
  have h := (orthonormal_iff_ite.mp (qrBasis A).orthonormal) i j
  rw [Matrix.one_apply, ← h, Matrix.mul_apply]
  simp [qrQ, PiLp.inner_apply, mul_comm]

/-- A full QR factorisation exists for every complex matrix. -/
noncomputable def fullQR : FullQR ℂ where
  Q A := qrQ A
  fac A := (qrQ A)ᴴ * A
  mul_eq A := by
    rw [← Matrix.mul_assoc, mul_eq_one_comm.mp (qrQ_unit A), Matrix.one_mul]
  unit A := qrQ_unit A
  tri {m n} A i j hij := by
    have h := InnerProductSpace.gramSchmidtOrthonormalBasis_inv_triangular (𝕜 := ℂ)
      (by simp) (qrCols A) (i := ⟨j, by omega⟩) (j := i) hij
    rw [Matrix.mul_apply, ← h]
    simp [qrQ, qrBasis, PiLp.inner_apply, qrCols, mul_comm]

/-- An economic QR factorisation exists for every complex matrix. -/
noncomputable def econQR : QR ℂ where
  Q {m n} A := Matrix.of fun i j => qrQ A i ⟨j, by omega⟩
  fac {m n} A := Matrix.of fun i j => fullQR.fac A ⟨i, by omega⟩ j
  mul_eq {m n} A := by
    conv_rhs => rw [← fullQR.mul_eq A]
    ext i j
    rw [Matrix.mul_apply, Matrix.mul_apply, sum_fin_split (Nat.min_le_left m n)]
    rw [Finset.sum_eq_zero (s := Finset.univ (α := Fin (m - min m n))), add_zero]
    · rfl
    · intro t _
      rw [fullQR.tri _ _ _ (by have := t.2; have := j.2; simp only; omega), mul_zero]
  iso {m n} A := by
    ext i j
    rw [← one_fin_eq (R := ℂ) i j (⟨i, by omega⟩ : Fin m) ⟨j, by omega⟩
      (by simp [Fin.ext_iff]), ← qrQ_unit A]
    rfl

open Classical in
/-- Every Hermitian matrix has a spectral decomposition. -/
noncomputable def specEigh : Eigh ℂ where
  ev {n} M := if n = 1 then fun i => M i i
    else if h : M.IsHermitian then fun i => (h.eigenvalues i : ℂ) else 0
  vec {n} M := if n = 1 then 1
    else if h : M.IsHermitian then (h.eigenvectorUnitary : Matrix (Fin n) (Fin n) ℂ) else 0
  real {n} M h i := by
    by_cases h1 : n = 1
    · simp only [if_pos h1]
      exact (congrFun (congrFun h i) i)
    · simp [if_neg h1, dif_pos h]
  unit {n} M h := by
    by_cases h1 : n = 1
    · simp [if_pos h1]
    · simp only [if_neg h1, dif_pos h]
      exact Unitary.coe_star_mul_self h.eigenvectorUnitary
  eig {n} M h := by
    by_cases h1 : n = 1
    · subst h1
      simp only [if_pos]
      ext i j
      fin_cases i; fin_cases j; simp
    · simp only [if_neg h1, dif_pos h]
      ext i j
      have := congrFun (h.mulVec_eigenvectorBasis j) i
      rw [Matrix.mul_diagonal, Matrix.mul_apply]
      simp only [h.eigenvectorUnitary_apply]
      simp only [Matrix.mulVec, dotProduct, Pi.smul_apply, Complex.real_smul] at this
      rw [this, mul_comm]
  one {n} M h1 h := by simp [if_pos h1]

/-- The list of the roots of the characteristic polynomial has length `n`. -/
theorem charpoly_roots_length {n : ℕ} (M : Matrix (Fin n) (Fin n) ℂ) :
    M.charpoly.roots.toList.length = n := by
  rw [Multiset.length_toList, ← (IsAlgClosed.splits M.charpoly).natDegree_eq_card_roots,
    Matrix.charpoly_natDegree_eq_dim, Fintype.card_fin]

/-- Every complex matrix has `n` eigenvalues. -/
noncomputable def rootsEigVals : EigVals where
  ev M i := M.charpoly.roots.toList.get (i.cast (charpoly_roots_length M).symm)
  spec {n} M := by
    conv_lhs => rw [(IsAlgClosed.splits M.charpoly).eq_prod_roots_of_monic (Matrix.charpoly_monic M)]
    have h : (M.charpoly.roots.map fun a => Polynomial.X - Polynomial.C a).prod
        = (M.charpoly.roots.toList.map fun a => Polynomial.X - Polynomial.C a).prod := by
      conv_lhs => rw [← Multiset.coe_toList M.charpoly.roots]
      rw [Multiset.map_coe, Multiset.prod_coe]
    rw [h, ← (finCongr (charpoly_roots_length M)).prod_comp]
    rw [← List.prod_ofFn]
    congr 1
    apply List.ext_get
    · simp
    · intro i h1 h2
      simp

end EvoMPS
