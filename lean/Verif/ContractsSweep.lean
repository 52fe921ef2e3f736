import Verif.Sweep
import Verif.SweepLin
import Mathlib.Analysis.Matrix.Spectrum

/-!
# The contracts of the solvers of the sweeps can be met
-/

namespace EvoMPS

open Matrix

namespace Sweep

section
variable {ι : Type} [Fintype ι] [DecidableEq ι]

theorem exists_min_eig [Nonempty ι] (M : Matrix ι ι ℂ) (hM : M.IsHermitian) : ∃ w : ι → ℂ, w ≠ 0 ∧ ∃ e : ℝ,
    M *ᵥ w = (e : ℂ) • w ∧ ∀ x : ι → ℂ, e * (star x ⬝ᵥ x).re ≤ (star x ⬝ᵥ (M *ᵥ x)).re := by
  obtain ⟨i0, hi⟩ := Finite.exists_min hM.eigenvalues
  let U : Matrix ι ι ℂ := hM.eigenvectorUnitary
  have hU : Uᴴ * U = 1 := (Unitary.mem_iff.mp (hM.eigenvectorUnitary).2).1
  have hU' : U * Uᴴ = 1 := (Unitary.mem_iff.mp (hM.eigenvectorUnitary).2).2
  have hE : M = U * diagonal (fun i => (hM.eigenvalues i : ℂ)) * Uᴴ := by
    have := hM.spectral_theorem
    rw [Unitary.conjStarAlgAut_apply] at this
    exact this
  refine ⟨U *ᵥ Pi.single i0 1, fun hz => ?_, hM.eigenvalues i0, ?_, fun x => ?_⟩
  · have : Uᴴ *ᵥ (U *ᵥ Pi.single i0 1) = (0 : ι → ℂ) := by rw [hz, Matrix.mulVec_zero]
    rw [Matrix.mulVec_mulVec, hU, Matrix.one_mulVec] at this
    simpa using congrFun this i0
  · conv_lhs => rw [hE]
    rw [Matrix.mulVec_mulVec, Matrix.mul_assoc, hU, Matrix.mul_one, ← Matrix.mulVec_mulVec, ← Matrix.mulVec_smul]
    congr 1
    ext i
    rw [Matrix.mulVec_diagonal]
    by_cases h : i = i0
    · subst h; simp
    · simp [h]
  · set y := Uᴴ *ᵥ x with hy
    have hx : x = U *ᵥ y := by rw [hy, Matrix.mulVec_mulVec, hU', Matrix.one_mulVec]
    have h1 : star x ⬝ᵥ x = star y ⬝ᵥ y := by
      rw [hx, star_mulVec, ← Matrix.dotProduct_mulVec, Matrix.mulVec_mulVec, hU, Matrix.one_mulVec]
    have h2 : star x ⬝ᵥ (M *ᵥ x) = star y ⬝ᵥ (diagonal (fun i => (hM.eigenvalues i : ℂ)) *ᵥ y) := by
      conv_lhs => rw [hE]
      rw [hx, star_mulVec, ← Matrix.dotProduct_mulVec, Matrix.mulVec_mulVec, Matrix.mulVec_mulVec,
        Matrix.mul_assoc, Matrix.mul_assoc, hU, Matrix.mul_one, ← Matrix.mul_assoc, hU, Matrix.one_mul]
    rw [h1, h2, dotProduct, dotProduct, Complex.re_sum, Complex.re_sum, Finset.mul_sum]
    refine Finset.sum_le_sum fun i _ => ?_
    rw [Matrix.mulVec_diagonal, mul_left_comm, Complex.re_ofReal_mul]
    refine mul_le_mul_of_nonneg_right (hi i) ?_
    rw [Pi.star_apply, Complex.star_def, ← Complex.normSq_eq_conj_mul_self, Complex.ofReal_re]
    exact Complex.normSq_nonneg _

theorem matrix_unique {M M' : Matrix ι ι ℂ} {f : (ι → ℂ) → Option (ι → ℂ)} (h : ∀ x, f x = some (M *ᵥ x))
    (h' : ∀ x, f x = some (M' *ᵥ x)) : M = M' :=
  Matrix.ext_of_mulVec_single fun i => Option.some.inj ((h _).symm.trans (h' _))

end

open Classical in
/-- The exact exponential and a vector of lowest energy. -/
noncomputable def exactSolvers : Solvers where
  expmv f h v := if hf : ∃ M : Matrix _ _ ℂ, ∀ x, f x = some (M *ᵥ x) then
    some (NormedSpace.exp ((h : ℂ) • hf.choose) *ᵥ v) else none
  eigsh {ι} _ _ f v := if hf : ∃ M : Matrix ι ι ℂ, M.IsHermitian ∧ (∀ x, f x = some (M *ᵥ x)) ∧ Nonempty ι then
    haveI := hf.choose_spec.2.2
    some (exists_min_eig hf.choose hf.choose_spec.1).choose else none

theorem not_none {ι : Type} [Fintype ι] {f : (ι → ℂ) → Option (ι → ℂ)} (h : ∀ x, f x = none) (M : Matrix ι ι ℂ)
    (h' : ∀ x, f x = some (M *ᵥ x)) : False := by
  have := (h 0).symm.trans (h' 0)
  simp at this

theorem exactSolvers_ok : exactSolvers.Ok where
  expmv_none f h v hf := by
    unfold exactSolvers
    dsimp only
    rw [dif_neg]
    rintro ⟨M, hM⟩
    exact not_none hf M hM
  expmv_eq f M h v w hf hw := by
    unfold exactSolvers at hw
    dsimp only at hw
    have hex : ∃ M : Matrix _ _ ℂ, ∀ x, f x = some (M *ᵥ x) := ⟨M, hf⟩
    rw [dif_pos hex] at hw
    rw [matrix_unique hf hex.choose_spec]
    exact (Option.some.inj hw).symm
  eigsh_none f v hf := by
    unfold exactSolvers
    dsimp only
    rw [dif_neg]
    rintro ⟨M, -, hM, -⟩
    exact not_none hf M hM
  eigsh_eq f M v w hM hf hw := by
    unfold exactSolvers at hw
    dsimp only at hw
    split at hw
    · next hex =>
      haveI := hex.choose_spec.2.2
      obtain rfl := Option.some.inj hw
      rw [matrix_unique hf hex.choose_spec.2.1]
      exact (exists_min_eig hex.choose hex.choose_spec.1).choose_spec
    · exact absurd hw (by simp)

theorem exactSolvers_returns : exactSolvers.Returns where
  expmv f M h v _ _ hf := by
    unfold exactSolvers
    dsimp only
    rw [dif_pos ⟨M, hf⟩]
    rfl
  eigsh f M v hc _ hM hf := by
    unfold exactSolvers
    dsimp only
    rw [dif_pos ⟨M, hM, hf, Fintype.card_pos_iff.1 (by omega)⟩]
    rfl

end Sweep

end EvoMPS
