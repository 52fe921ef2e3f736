import Mathlib.Analysis.Normed.Algebra.GelfandFormula
import Mathlib.Analysis.Matrix.Normed
import Mathlib.LinearAlgebra.Eigenspace.Basic
import Mathlib.LinearAlgebra.Eigenspace.Minpoly
import Mathlib.LinearAlgebra.Eigenspace.Matrix

/-!
# Growth of the powers of a matrix

If all eigenvalues have modulus at most `ρ`, the entries of the powers grow at most like `(ρ + ε) ^ k`.
-/

namespace EvoMPS

open Matrix Filter Topology
open scoped NNReal ENNReal Matrix.Norms.Operator

variable {n : ℕ}

theorem eigen_of_spectrum {M : Matrix (Fin n) (Fin n) ℂ} {μ : ℂ} (h : μ ∈ spectrum ℂ M) :
    ∃ v, v ≠ 0 ∧ M *ᵥ v = μ • v := by
  rw [← Matrix.spectrum_toLin', ← Module.End.hasEigenvalue_iff_mem_spectrum] at h
  obtain ⟨v, hv⟩ := h.exists_hasEigenvector
  exact ⟨v, hv.2, by simpa using hv.apply_eq_smul⟩

theorem entry_le_norm (M : Matrix (Fin n) (Fin n) ℂ) (i j : Fin n) : ‖M i j‖ ≤ ‖M‖ := by
  rw [Matrix.linfty_opNorm_def]
  have h1 : ‖M i j‖₊ ≤ ∑ j, ‖M i j‖₊ :=
    Finset.single_le_sum (f := fun j => ‖M i j‖₊) (fun _ _ => zero_le) (Finset.mem_univ j)
  have h2 : ∑ j, ‖M i j‖₊ ≤ Finset.univ.sup fun i => ∑ j, ‖M i j‖₊ :=
    Finset.le_sup (f := fun i => ∑ j, ‖M i j‖₊) (Finset.mem_univ i)
  exact_mod_cast h1.trans h2

theorem pow_growth (M : Matrix (Fin n) (Fin n) ℂ) {ρ : ℝ} (h0 : 0 ≤ ρ)
    (hρ : ∀ (μ : ℂ) v, v ≠ 0 → M *ᵥ v = μ • v → ‖μ‖ ≤ ρ) {ε : ℝ} (hε : 0 < ε) :
    ∃ C : ℝ, 0 < C ∧ ∀ k i j, ‖(M ^ k) i j‖ ≤ C * (ρ + ε) ^ k := by
  have hp : 0 < ρ + ε := by linarith
  have hs : spectralRadius ℂ M ≤ ENNReal.ofReal ρ := by
    refine iSup₂_le fun μ hμ => ?_
    obtain ⟨v, h1, h2⟩ := eigen_of_spectrum hμ
    have := hρ μ v h1 h2
    rw [← enorm_eq_nnnorm, ← ofReal_norm]
    exact ENNReal.ofReal_le_ofReal this
  have hlt : spectralRadius ℂ M < ENNReal.ofReal (ρ + ε) :=
    lt_of_le_of_lt hs ((ENNReal.ofReal_lt_ofReal_iff hp).2 (by linarith))
  have hev := (spectrum.pow_norm_pow_one_div_tendsto_nhds_spectralRadius M).eventually_lt_const hlt
  obtain ⟨K, hK⟩ := eventually_atTop.1 hev
  have hbig : ∀ k, K + 1 ≤ k → ‖M ^ k‖ ≤ (ρ + ε) ^ k := by
    intro k hk
    have h1 := (ENNReal.ofReal_lt_ofReal_iff hp).1 (hK k (by omega))
    have hk0 : (k : ℝ) ≠ 0 := by
      have : k ≠ 0 := by omega
      exact_mod_cast this
    have h2 := Real.rpow_le_rpow (by positivity) h1.le (Nat.cast_nonneg k : (0 : ℝ) ≤ k)
    rw [← Real.rpow_mul (norm_nonneg _), one_div, inv_mul_cancel₀ hk0, Real.rpow_one,
      Real.rpow_natCast] at h2
    exact h2
  refine ⟨1 + ∑ k ∈ Finset.range (K + 1), ‖M ^ k‖ / (ρ + ε) ^ k, by positivity, fun k i j => ?_⟩
  have hsum : 0 ≤ ∑ k ∈ Finset.range (K + 1), ‖M ^ k‖ / (ρ + ε) ^ k := by positivity
  refine (entry_le_norm _ i j).trans ?_
  by_cases hk : k < K + 1
  · have h1 : ‖M ^ k‖ / (ρ + ε) ^ k ≤ ∑ k ∈ Finset.range (K + 1), ‖M ^ k‖ / (ρ + ε) ^ k :=
      Finset.single_le_sum (f := fun k => ‖M ^ k‖ / (ρ + ε) ^ k) (fun _ _ => by positivity)
        (Finset.mem_range.2 hk)
    have h2 : ‖M ^ k‖ = ‖M ^ k‖ / (ρ + ε) ^ k * (ρ + ε) ^ k := by
      field_simp
    rw [h2]
    exact mul_le_mul_of_nonneg_right (by linarith) (by positivity)
  · refine (hbig k (by omega)).trans ?_
    have : 0 < (ρ + ε) ^ k := by positivity
    nlinarith

end EvoMPS
