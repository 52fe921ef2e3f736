import Verif.FidelityLemmas
import Verif.Spectral

/-!
# The contract of the eigenvalue solvers can be met
-/

namespace EvoMPS.Uni

open Matrix Classical

/-- The contract of `eig` for one call. -/
def EigOk {n : ℕ} (E : Matrix (Fin n) (Fin n) ℂ) (left : Bool) (ps : EigPairs n) : Prop :=
  (∀ p ∈ ps, p.2 ≠ 0 ∧ if left then Eᴴ *ᵥ p.2 = star p.1 • p.2 else E *ᵥ p.2 = p.1 • p.2) ∧
    ∀ (μ : ℂ) v, v ≠ 0 → (if left then Eᴴ *ᵥ v = star μ • v else E *ᵥ v = μ • v) → ∃ p ∈ ps, p.1 = μ

theorem finite_eigen {n : ℕ} (E : Matrix (Fin n) (Fin n) ℂ) :
    ∃ ps : EigPairs n, (∀ p ∈ ps, p.2 ≠ 0 ∧ E *ᵥ p.2 = p.1 • p.2) ∧
      ∀ (μ : ℂ) v, v ≠ 0 → E *ᵥ v = μ • v → ∃ p ∈ ps, p.1 = μ := by
  have hf : (spectrum ℂ E).Finite := Matrix.finite_spectrum E
  have hv : ∀ μ : ℂ, ∃ v : Fin n → ℂ, μ ∈ spectrum ℂ E → v ≠ 0 ∧ E *ᵥ v = μ • v := by
    intro μ
    by_cases h : μ ∈ spectrum ℂ E
    · obtain ⟨v, h1, h2⟩ := eigen_of_spectrum h
      exact ⟨v, fun _ => ⟨h1, h2⟩⟩
    · exact ⟨0, fun h' => absurd h' h⟩
  choose f hf' using hv
  refine ⟨hf.toFinset.toList.map fun μ => (μ, f μ), ?_, ?_⟩
  · intro p hp
    obtain ⟨μ, h1, rfl⟩ := List.mem_map.mp hp
    exact hf' μ (by simpa using h1)
  · intro μ v h1 h2
    refine ⟨(μ, f μ), List.mem_map.mpr ⟨μ, ?_, rfl⟩, rfl⟩
    simp only [Finset.mem_toList, Set.Finite.mem_toFinset]
    rw [← Matrix.spectrum_toLin', ← Module.End.hasEigenvalue_iff_mem_spectrum]
    exact Module.End.hasEigenvalue_of_hasEigenvector ⟨Module.End.mem_eigenspace_iff.2 (by simpa using h2), h1⟩

theorem eigOk_exists {n : ℕ} (E : Matrix (Fin n) (Fin n) ℂ) (left : Bool) : ∃ ps, EigOk E left ps := by
  cases left
  · obtain ⟨ps, h⟩ := finite_eigen E
    exact ⟨ps, by simpa [EigOk] using h⟩
  · obtain ⟨ps, h1, h2⟩ := finite_eigen Eᴴ
    refine ⟨ps.map fun p => (star p.1, p.2), ?_, ?_⟩
    · intro p hp
      obtain ⟨p0, h3, rfl⟩ := List.mem_map.mp hp
      simpa using h1 p0 h3
    · intro μ v h3 h4
      obtain ⟨p, h5, h6⟩ := h2 (star μ) v h3 (by simpa using h4)
      exact ⟨(star p.1, p.2), List.mem_map.mpr ⟨p, h5, rfl⟩, by simp [h6]⟩

/-- Solvers that fail only if the operator of the sparse solver has no eigenvector of largest modulus. -/
noncomputable def someSpecLib (n : ℕ) : SpecLib n where
  eig E left := some (choose (eigOk_exists E left))
  eigs T := if h : ∃ p : ℂ × (Fin n → ℂ), (p.2 ≠ 0 ∧ T p.2 = some (p.1 • p.2)) ∧
      ∀ (μ : ℂ) v, v ≠ 0 → T v = some (μ • v) → ‖μ‖ ≤ ‖p.1‖ then some [choose h] else none

theorem someSpecLib_ok (n : ℕ) : (someSpecLib n).Ok where
  eig E left ps h := by
    have := choose_spec (eigOk_exists E left)
    simp only [someSpecLib, Option.some.injEq] at h
    rw [h] at this
    exact this
  eigs T ps h := by
    simp only [someSpecLib] at h
    split at h
    · rename_i hp
      have := choose_spec hp
      simp only [Option.some.injEq] at h
      subst h
      refine ⟨fun p h1 => ?_, fun μ v h1 h2 => ⟨_, List.mem_singleton.2 rfl, this.2 μ v h1 h2⟩⟩
      rw [List.mem_singleton.1 h1]
      exact this.1
    · cases h

theorem argmaxPair_some {n : ℕ} {ps : EigPairs n} (h : ps ≠ []) : ∃ p, argmaxPair ps = some p := by
  cases ps with
  | nil => exact absurd rfl h
  | cons e es => exact ⟨_, rfl⟩

/-- With these solvers the dense branch of `fidelity_per_site` returns, if the bond dimensions are positive. -/
theorem fidelity_returns {q D1 D2 : ℕ} (hD1 : 0 < D1) (hD2 : 0 < D2) {o : SpecOpts} (ho : (D1 * D2 ≤ o.cutoff ∨ o.forceDense) ∧ ¬ o.forceSparse)
    (left : Bool) (S : UMPS ℂ q D1) (S' : UMPS ℂ q D2) (hL : 0 < S.L) (hL' : 0 < S'.L) :
    ∃ f, fidelity (someSpecLib (D1 * D2)) o left S S' = some f := by
  obtain ⟨E, hE, -⟩ := dense_mixed S S' hL hL'
  have hne : choose (eigOk_exists E left) ≠ [] := by
    intro h0
    have hs := (choose_spec (eigOk_exists E left)).2
    rw [h0] at hs
    have : NeZero (D1 * D2) := ⟨(Nat.mul_pos hD1 hD2).ne'⟩
    cases left
    · obtain ⟨μ, hμ⟩ := spectrum.nonempty_of_isAlgClosed_of_finiteDimensional ℂ E
      obtain ⟨v, h1, h2⟩ := eigen_of_spectrum hμ
      obtain ⟨p, hp, -⟩ := hs μ v h1 (by simpa using h2)
      cases hp
    · obtain ⟨μ, hμ⟩ := spectrum.nonempty_of_isAlgClosed_of_finiteDimensional ℂ Eᴴ
      obtain ⟨v, h1, h2⟩ := eigen_of_spectrum hμ
      obtain ⟨p, hp, -⟩ := hs (star μ) v h1 (by simpa using h2)
      cases hp
  obtain ⟨p, hp⟩ := argmaxPair_some hne
  refine ⟨(‖p.1‖ ^ (1 / ((S.L * S'.L / Nat.gcd S.L S'.L : ℕ) : ℝ)), p.1, p.2), ?_⟩
  unfold fidelity largestEigs
  rw [if_pos ho, hE, Option.bind_some, show (someSpecLib (D1 * D2)).eig E left = some (choose (eigOk_exists E left)) from rfl,
    Option.bind_some, hp, Option.bind_some]

end EvoMPS.Uni
