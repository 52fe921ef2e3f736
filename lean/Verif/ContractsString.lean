import Verif.HalfStringLemmas
import Verif.ContractsSpec

/-!
# The contract of the sparse eigenvalue solver of the string functions can be met
-/

namespace EvoMPS.Uni

open Matrix Classical

/-- A solver that fails only if the operator has no normalised eigenvector of largest modulus. -/
noncomputable def someEigs1 (n : ℕ) : Eigs1 n := fun T =>
  if h : ∃ p : ℂ × (Fin n → ℂ), T p.2 = some (p.1 • p.2) ∧ ∑ i, ‖p.2 i‖ ^ 2 = 1 ∧
      ∀ (μ : ℂ) x, x ≠ 0 → T x = some (μ • x) → ‖μ‖ ≤ ‖p.1‖ then some (choose h) else none

theorem someEigs1_ok (n : ℕ) : (someEigs1 n).Ok := fun T e v h => by
  unfold someEigs1 at h
  split at h
  · rename_i hp
    have := choose_spec hp
    rw [Option.some.inj h] at this
    exact this
  · cases h

/-- It returns for every matrix. -/
theorem someEigs1_matrix {n : ℕ} (hn : 0 < n) (E : Matrix (Fin n) (Fin n) ℂ) (T : (Fin n → ℂ) → Option (Fin n → ℂ))
    (hT : ∀ x, T x = some (E *ᵥ x)) : ∃ p, someEigs1 n T = some p := by
  obtain ⟨ps, h1, h2⟩ := finite_eigen E
  have hne : ps ≠ [] := fun h0 => by
    have : NeZero n := ⟨hn.ne'⟩
    obtain ⟨μ, hμ⟩ := spectrum.nonempty_of_isAlgClosed_of_finiteDimensional ℂ E
    obtain ⟨v, h3, h4⟩ := eigen_of_spectrum hμ
    obtain ⟨p, hp, -⟩ := h2 μ v h3 h4
    rw [h0] at hp
    cases hp
  obtain ⟨p, hp, hmax⟩ := Finset.exists_max_image ps.toFinset (fun p => ‖p.1‖) (List.toFinset_nonempty_iff ps |>.2 hne)
  have hp := List.mem_toFinset.1 hp
  obtain ⟨hp0, hpe⟩ := h1 p hp
  have hs : 0 < ∑ i, ‖p.2 i‖ ^ 2 := by
    obtain ⟨i, hi⟩ := Function.ne_iff.1 hp0
    exact Finset.sum_pos' (fun i _ => by positivity) ⟨i, Finset.mem_univ _, by have := norm_pos_iff.2 hi; positivity⟩
  have hex : ∃ p : ℂ × (Fin n → ℂ), T p.2 = some (p.1 • p.2) ∧ ∑ i, ‖p.2 i‖ ^ 2 = 1 ∧
      ∀ (μ : ℂ) x, x ≠ 0 → T x = some (μ • x) → ‖μ‖ ≤ ‖p.1‖ := by
    refine ⟨(p.1, (((Real.sqrt (∑ i, ‖p.2 i‖ ^ 2))⁻¹ : ℝ) : ℂ) • p.2), ?_, ?_, fun μ x hx0 hx => ?_⟩
    · rw [hT, Matrix.mulVec_smul, hpe, smul_comm]
    · simp only [Pi.smul_apply, smul_eq_mul, norm_mul, Complex.norm_real, mul_pow, ← Finset.mul_sum]
      rw [Real.norm_of_nonneg (by positivity), inv_pow, Real.sq_sqrt hs.le, inv_mul_cancel₀ hs.ne']
    · rw [hT, Option.some.injEq] at hx
      obtain ⟨p', hp', he⟩ := h2 μ x hx0 hx
      rw [← he]
      exact hmax p' (List.mem_toFinset.2 hp')
  unfold someEigs1
  rw [dif_pos hex]
  exact ⟨_, rfl⟩

/-- It returns for the operators of the string functions. -/
theorem someEigs1_string {q D : ℕ} (S : UMPS ℂ q D) (hD : 0 < D) (op : Fin q → Fin q → ℂ) (k : ℕ) (hk : k < S.L) (junk : Matrix (Fin D) (Fin D) ℂ) :
    ∃ p, someEigs1 (D * D) ((EOp.mk ((rotList k S.list).map (opTen op)) (rotList k S.list) false).matvec junk) = some p := by
  let F : (Fin (D * D) → ℂ) →ₗ[ℂ] (Fin (D * D) → ℂ) :=
    { toFun := fun v => ravel (chainTransfer S.L S.L (fun j => opTen op (S.A j)) S.A k S.L (reshape v))
      map_add' := fun x y => by
        rw [show (reshape (x + y) : Matrix (Fin D) (Fin D) ℂ) = reshape x + reshape y from rfl]
        simp only [chainTransfer, Matrix.mul_add, Matrix.add_mul, Finset.sum_add_distrib]
        rfl
      map_smul' := fun c x => by
        rw [show (reshape (c • x) : Matrix (Fin D) (Fin D) ℂ) = c • reshape x from rfl]
        simp only [chainTransfer, Matrix.mul_smul, Matrix.smul_mul, ← Finset.smul_sum]
        rfl }
  refine someEigs1_matrix (Nat.mul_pos hD hD) (LinearMap.toMatrix' F) _ fun x => ?_
  rw [string_matvec S op k hk, LinearMap.toMatrix'_mulVec]
  rfl

end EvoMPS.Uni
