import Verif.Canon
import Mathlib.Analysis.Matrix.Spectrum
import Mathlib.Data.Fin.Tuple.Sort
import Mathlib.LinearAlgebra.Matrix.PosDef
import Mathlib.LinearAlgebra.Matrix.Rank
import Mathlib.LinearAlgebra.Matrix.DotProduct

/-!
# The contracts of the linear algebra routines can be met

Over the complex numbers there are functions that satisfy the contracts `QR` and `Eigh`
(with eigenvalues in ascending order), so theorems that assume such routines are not vacuous.
-/

namespace EvoMPS

open Matrix ComplexOrder

/-- Ascending eigenvalues, as LAPACK returns them (`tdvp_common.py:651`, `943`). -/
def Eigh.Ascending (e : Eigh ℂ) : Prop :=
  ∀ {n : ℕ} (M : Matrix (Fin n) (Fin n) ℂ), M.IsHermitian →
    ∀ i j, i ≤ j → (e.ev M i).re ≤ (e.ev M j).re

theorem exists_eig {n : ℕ} (M : Matrix (Fin n) (Fin n) ℂ) :
    ∃ (ev : Fin n → ℝ) (V : Matrix (Fin n) (Fin n) ℂ), M.IsHermitian →
      Vᴴ * V = 1 ∧ M * V = V * diagonal (fun i => (ev i : ℂ)) ∧ Monotone ev ∧ (n = 1 → V = 1) := by
  by_cases hM : M.IsHermitian
  swap
  · exact ⟨0, 0, fun h => absurd h hM⟩
  by_cases h1 : n = 1
  · subst h1
    refine ⟨fun _ => (M 0 0).re, 1, fun _ => ⟨by simp, ?_, fun i j _ => le_rfl, fun _ => rfl⟩⟩
    ext i j
    rw [Subsingleton.elim i 0, Subsingleton.elim j 0]
    have := congrFun (congrFun hM 0) 0
    rw [Matrix.conjTranspose_apply] at this
    simp [Complex.conj_eq_iff_re.mp this]
  let σ := Tuple.sort hM.eigenvalues
  let U : Matrix (Fin n) (Fin n) ℂ := hM.eigenvectorUnitary
  have hU : Uᴴ * U = 1 := by
    have := (hM.eigenvectorUnitary).2
    exact (Unitary.mem_iff.mp this).1
  have hE : M * U = U * diagonal (fun i => (hM.eigenvalues i : ℂ)) := by
    have := hM.spectral_theorem
    rw [Unitary.conjStarAlgAut_apply] at this
    have h2 : M = U * diagonal (fun i => (hM.eigenvalues i : ℂ)) * Uᴴ := this
    conv_lhs => rw [h2]
    rw [Matrix.mul_assoc, hU, Matrix.mul_one]
  refine ⟨fun i => hM.eigenvalues (σ i), U.submatrix id σ, fun _ => ⟨?_, ?_, ?_, fun h => absurd h h1⟩⟩
  · ext i j
    have := congrFun (congrFun hU (σ i)) (σ j)
    rw [Matrix.one_apply] at this ⊢
    simp only [σ.injective.eq_iff] at this
    rw [← this]
    rfl
  · ext i j
    have := congrFun (congrFun hE i) (σ j)
    rw [Matrix.mul_diagonal] at this ⊢
    exact this
  · exact Tuple.monotone_sort hM.eigenvalues

/-- An eigenvalue routine satisfying the contract exists over `ℂ`. -/
theorem exists_eigh : ∃ e : Eigh ℂ, e.Ascending := by
  choose ev V h using @exists_eig
  refine ⟨⟨fun M i => (ev M i : ℂ), V, ?_, ?_, ?_, ?_⟩, ?_⟩
  · intro n M _ i
    exact Complex.conj_ofReal _
  · intro n M hM
    exact (h M hM).1
  · intro n M hM
    exact (h M hM).2.1
  · intro n M h1 hM
    exact (h M hM).2.2.2 h1
  · intro n M hM i j hij
    simp only [Complex.ofReal_re]
    exact (h M hM).2.2.1 hij

theorem exists_qr_one {m n : ℕ} (A : Matrix (Fin m) (Fin n) ℂ) :
    ∃ (Q : Matrix (Fin m) (Fin (min m n)) ℂ) (F : Matrix (Fin (min m n)) (Fin n) ℂ),
      Q * F = A ∧ Qᴴ * Q = 1 := by
  have hM : (A * Aᴴ).IsHermitian := Matrix.isHermitian_mul_conjTranspose_self A
  obtain ⟨ev, V, h⟩ := exists_eig (A * Aᴴ)
  obtain ⟨hV, hE, hmono, -⟩ := h hM
  have hV' : V * Vᴴ = 1 := mul_eq_one_comm.mp hV
  have hdiag : (Vᴴ * A) * (Vᴴ * A)ᴴ = diagonal (fun i => (ev i : ℂ)) := by
    rw [Matrix.conjTranspose_mul, Matrix.conjTranspose_conjTranspose]
    calc Vᴴ * A * (Aᴴ * V) = Vᴴ * (A * Aᴴ * V) := by simp only [Matrix.mul_assoc]
      _ = _ := by rw [hE, ← Matrix.mul_assoc, hV, Matrix.one_mul]
  have hrow : ∀ i, ev i = 0 → ∀ j, (Vᴴ * A) i j = 0 := by
    intro i hi
    have h1 := congrFun (congrFun hdiag i) i
    rw [Matrix.diagonal_apply_eq, hi, Matrix.mul_apply] at h1
    simp only [Matrix.conjTranspose_apply] at h1
    have h2 : (Vᴴ * A) i ⬝ᵥ star ((Vᴴ * A) i) = 0 := by
      simpa [dotProduct] using h1
    have h3 := dotProduct_self_star_eq_zero.mp h2
    exact fun j => congrFun h3 j
  have hnonneg : ∀ i, 0 ≤ ev i := by
    intro i
    have h1 := congrFun (congrFun hdiag i) i
    rw [Matrix.diagonal_apply_eq, Matrix.mul_apply] at h1
    simp only [Matrix.conjTranspose_apply] at h1
    have : ((ev i : ℝ) : ℂ) = ((∑ j, Complex.normSq ((Vᴴ * A) i j) : ℝ) : ℂ) := by
      rw [← h1, Complex.ofReal_sum]
      refine Finset.sum_congr rfl fun j _ => ?_
      rw [← Complex.mul_conj]; rfl
    rw [Complex.ofReal_inj.mp this]
    exact Finset.sum_nonneg fun j _ => Complex.normSq_nonneg _
  have hrank : Fintype.card {i // (ev i : ℂ) ≠ 0} ≤ n := by
    rw [← Matrix.rank_diagonal, ← hdiag]
    exact ((Matrix.rank_mul_le_left _ _).trans (Matrix.rank_mul_le_right _ _)).trans
      (by simpa using Matrix.rank_le_card_width A)
  have hzero : ∀ i : Fin m, i.val < m - min m n → ev i = 0 := by
    intro i hi
    by_contra hne
    have hlt : 0 < ev i := lt_of_le_of_ne (hnonneg i) (Ne.symm hne)
    have : m - i.val ≤ Fintype.card {i // (ev i : ℂ) ≠ 0} := by
      let f : Fin (m - i.val) → {i // (ev i : ℂ) ≠ 0} := fun k =>
        ⟨⟨i.val + k.val, by omega⟩, by
          have : ev i ≤ ev ⟨i.val + k.val, by omega⟩ := hmono (by simp [Fin.le_def])
          simpa using (lt_of_lt_of_le hlt this).ne'⟩
      have hf : Function.Injective f := by
        intro a b hab
        simp only [f, Subtype.mk.injEq, Fin.mk.injEq] at hab
        exact Fin.ext (by omega)
      simpa using Fintype.card_le_of_injective f hf
    omega
  let ι : Fin (min m n) → Fin m := fun k => ⟨m - min m n + k.val, by omega⟩
  have hι : Function.Injective ι := by
    intro a b hab
    simp only [ι, Fin.mk.injEq] at hab
    exact Fin.ext (by omega)
  refine ⟨V.submatrix id ι, (Vᴴ * A).submatrix ι id, ?_, ?_⟩
  · have h1 : V * (Vᴴ * A) = A := by rw [← Matrix.mul_assoc, hV', Matrix.one_mul]
    conv_rhs => rw [← h1]
    ext i j
    rw [Matrix.mul_apply, Matrix.mul_apply]
    have : ∑ k : Fin (min m n), (V.submatrix id ι) i k * ((Vᴴ * A).submatrix ι id) k j
        = ∑ k ∈ Finset.univ.image ι, V i k * (Vᴴ * A) k j := by
      rw [Finset.sum_image fun a _ b _ h => hι h]
      rfl
    rw [this]
    refine Finset.sum_subset (Finset.subset_univ _) fun k _ hk => ?_
    rw [hrow k (hzero k ?_) j, mul_zero]
    by_contra hlt
    apply hk
    rw [Finset.mem_image]
    exact ⟨⟨k.val - (m - min m n), by omega⟩, Finset.mem_univ _, by
      apply Fin.ext; simp only [ι]; omega⟩
  · ext i j
    have := congrFun (congrFun hV (ι i)) (ι j)
    rw [Matrix.one_apply] at this ⊢
    simp only [hι.eq_iff] at this
    rw [← this]
    rfl

/-- A QR routine satisfying the contract exists over `ℂ`. -/
theorem exists_qr : Nonempty (QR ℂ) := by
  choose Q F h using @exists_qr_one
  exact ⟨⟨fun A => Q A, fun A => F A, fun A => (h A).1, fun A => (h A).2⟩⟩

end EvoMPS
