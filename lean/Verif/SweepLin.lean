import Verif.Sweep
import Verif.SweepSpec
import Mathlib.LinearAlgebra.Matrix.ToLin
import Mathlib.LinearAlgebra.Matrix.DotProduct

/-!
# Local evolution in a subspace (helper lemmas)
-/

set_option linter.unusedSectionVars false

namespace EvoMPS

open Matrix

namespace Sweep

section
variable {ι C : Type} [Fintype ι] [DecidableEq ι] [Fintype C] [DecidableEq C]

set_option backward.isDefEq.respectTransparency false in
theorem exp_hasSum (A : Matrix C C ℂ) : HasSum (fun n : ℕ => ((n.factorial : ℂ)⁻¹) • A ^ n) (NormedSpace.exp A) :=
  open scoped Matrix.Norms.Operator in NormedSpace.exp_series_hasSum_exp' (𝕂 := ℂ) A

theorem pow_intertwine {A : Matrix C C ℂ} {B : Matrix ι ι ℂ} {W : Matrix C ι ℂ} (h : A * W = W * B) (n : ℕ) :
    A ^ n * W = W * B ^ n := by
  induction n with
  | zero => simp
  | succ n ih => rw [pow_succ, Matrix.mul_assoc, h, ← Matrix.mul_assoc, ih, Matrix.mul_assoc, ← pow_succ]

theorem exp_intertwine {A : Matrix C C ℂ} {B : Matrix ι ι ℂ} {W : Matrix C ι ℂ} (h : A * W = W * B) :
    NormedSpace.exp A * W = W * NormedSpace.exp B := by
  have h1 := (exp_hasSum A).map (AddMonoidHom.mk' (fun X : Matrix C C ℂ => X * W) fun X Y => Matrix.add_mul X Y W)
    (continuous_id.matrix_mul continuous_const)
  have h2 := (exp_hasSum B).map (AddMonoidHom.mk' (fun X : Matrix ι ι ℂ => W * X) fun X Y => Matrix.mul_add W X Y)
    (continuous_const.matrix_mul continuous_id)
  refine h1.unique ?_
  have e : (⇑(AddMonoidHom.mk' (fun X : Matrix C C ℂ => X * W) fun X Y => Matrix.add_mul X Y W) ∘
      fun n : ℕ => ((n.factorial : ℂ)⁻¹) • A ^ n) = (⇑(AddMonoidHom.mk' (fun X : Matrix ι ι ℂ => W * X)
      fun X Y => Matrix.mul_add W X Y) ∘ fun n : ℕ => ((n.factorial : ℂ)⁻¹) • B ^ n) := by
    funext n
    simp [pow_intertwine h]
  rw [e]
  exact h2

end

section
variable {ι : Type} [Fintype ι] [DecidableEq ι] {q : ℕ → ℕ} {N : ℕ}

theorem braket_dot (φ ψ : Cfg q N → ℂ) : braket φ ψ = star φ ⬝ᵥ ψ := rfl

theorem matElem_dot (φ ψ : Cfg q N → ℂ) (O : Matrix (Cfg q N) (Cfg q N) ℂ) : matElem φ O ψ = star φ ⬝ᵥ (O *ᵥ ψ) := by
  simp only [matElem, dotProduct, Matrix.mulVec, Finset.mul_sum, Pi.star_apply, mul_assoc]

theorem dot_self (v : ι → ℂ) : star v ⬝ᵥ v = ((∑ i, ‖v i‖ ^ 2 : ℝ) : ℂ) := by
  rw [dotProduct, Complex.ofReal_sum]
  refine Finset.sum_congr rfl fun i _ => ?_
  rw [Pi.star_apply, Complex.star_def, ← Complex.normSq_eq_conj_mul_self, Complex.normSq_eq_norm_sq]

theorem dot_self_im (v : ι → ℂ) : ((star v ⬝ᵥ v).re : ℂ) = star v ⬝ᵥ v := by
  rw [dot_self, Complex.ofReal_re]

theorem dot_self_pos {v : ι → ℂ} (h : v ≠ 0) : 0 < (star v ⬝ᵥ v).re := by
  rw [dot_self, Complex.ofReal_re]
  obtain ⟨i, hi⟩ := Function.ne_iff.1 h
  exact Finset.sum_pos' (fun _ _ => by positivity) ⟨i, Finset.mem_univ _, by
    have : v i ≠ 0 := hi
    positivity⟩

theorem normed_dot {v : ι → ℂ} (h : v ≠ 0) : star (normed v) ⬝ᵥ normed v = 1 := by
  have hp := dot_self_pos h
  set c := (star v ⬝ᵥ v).re with hc
  have hs : Real.sqrt c ≠ 0 := (Real.sqrt_pos.2 hp).ne'
  rw [normed, ← hc, star_smul, smul_dotProduct, dotProduct_smul, ← dot_self_im, ← hc, smul_eq_mul, smul_eq_mul,
    star_inv₀, Complex.star_def, Complex.conj_ofReal, ← Complex.ofReal_inv, ← Complex.ofReal_mul, ← Complex.ofReal_mul,
    ← Complex.ofReal_one]
  congr 1
  field_simp
  exact (Real.sq_sqrt hp.le).symm

/-- An isometry from tensors to states. -/
structure Iso (T : (ι → ℂ) →ₗ[ℂ] (Cfg q N → ℂ)) : Prop where
  iso : ∀ x y, braket (T y) (T x) = star y ⬝ᵥ x

variable {T : (ι → ℂ) →ₗ[ℂ] (Cfg q N → ℂ)}

theorem toM_mulVec (v : ι → ℂ) : LinearMap.toMatrix' T *ᵥ v = T v := LinearMap.toMatrix'_mulVec T v

theorem Iso.mul (hT : Iso T) : (LinearMap.toMatrix' T)ᴴ * LinearMap.toMatrix' T = 1 := by
  refine Matrix.ext_of_mulVec_single fun i => ?_
  refine dotProduct_eq _ _ fun u => ?_
  have := hT.iso (Pi.single i 1) (star u)
  rw [braket_dot, ← toM_mulVec, ← toM_mulVec, star_mulVec, ← Matrix.dotProduct_mulVec, Matrix.mulVec_mulVec,
    star_star] at this
  rw [dotProduct_comm, this, Matrix.one_mulVec, dotProduct_comm]

theorem Iso.proj (hT : Iso T) : IsProj (LinearMap.toMatrix' T * (LinearMap.toMatrix' T)ᴴ) (Set.range T) := by
  refine ⟨Matrix.isHermitian_mul_conjTranspose_self _, ?_, fun ψ => ⟨?_, fun h => ?_⟩⟩
  · rw [Matrix.mul_assoc, ← Matrix.mul_assoc _ (LinearMap.toMatrix' T), hT.mul, Matrix.one_mul]
  · rintro ⟨v, rfl⟩
    rw [← toM_mulVec, Matrix.mulVec_mulVec, Matrix.mul_assoc, hT.mul, Matrix.mul_one]
  · refine ⟨(LinearMap.toMatrix' T)ᴴ *ᵥ ψ, ?_⟩
    rw [← toM_mulVec, Matrix.mulVec_mulVec, h]

theorem Iso.unit (hT : Iso T) (v : ι → ℂ) : unitVec (T v) = T (normed v) := by
  rw [unitVec, hT.iso, normed, map_smul]

/-- The Hamiltonian between tensors. -/
noncomputable def effM (T : (ι → ℂ) →ₗ[ℂ] (Cfg q N → ℂ)) (H : Matrix (Cfg q N) (Cfg q N) ℂ) : Matrix ι ι ℂ :=
  (LinearMap.toMatrix' T)ᴴ * H * LinearMap.toMatrix' T

theorem effM_dot (H : Matrix (Cfg q N) (Cfg q N) ℂ) (x y : ι → ℂ) :
    star y ⬝ᵥ (effM T H *ᵥ x) = matElem (T y) H (T x) := by
  rw [matElem_dot, ← toM_mulVec, ← toM_mulVec, star_mulVec, ← Matrix.dotProduct_mulVec, Matrix.mulVec_mulVec,
    Matrix.mulVec_mulVec, effM]

theorem op_eq (H : Matrix (Cfg q N) (Cfg q N) ℂ) (tau : ℂ) (f : (ι → ℂ) → Option (ι → ℂ)) (hs : ∀ x, (f x).isSome)
    (hf : ∀ x y r, f x = some r → star y ⬝ᵥ r = tau * matElem (T y) H (T x)) (x : ι → ℂ) :
    f x = some ((tau • effM T H) *ᵥ x) := by
  obtain ⟨r, hr⟩ := Option.isSome_iff_exists.1 (hs x)
  rw [hr]
  congr 1
  refine dotProduct_eq _ _ fun u => ?_
  have := hf x (star u) r hr
  rw [star_star] at this
  rw [dotProduct_comm, this, ← effM_dot, star_star, Matrix.smul_mulVec, smul_dotProduct, dotProduct_comm, smul_eq_mul]

theorem Iso.evolved (hT : Iso T) (H : Matrix (Cfg q N) (Cfg q N) ℂ) (tau : ℂ) (h : ℝ) (v : ι → ℂ) :
    Evolved H (Set.range T) (h * tau) (T v)
      (T (normed (NormedSpace.exp ((h : ℂ) • (tau • effM T H)) *ᵥ v))) := by
  refine ⟨⟨v, rfl⟩, _, hT.proj, ?_⟩
  rw [← hT.unit]
  congr 1
  have e : (((h : ℂ) * tau) • (LinearMap.toMatrix' T * (LinearMap.toMatrix' T)ᴴ * H
      * (LinearMap.toMatrix' T * (LinearMap.toMatrix' T)ᴴ))) * LinearMap.toMatrix' T
      = LinearMap.toMatrix' T * ((h : ℂ) • (tau • effM T H)) := by
    rw [effM, smul_smul, Matrix.smul_mul, Matrix.mul_smul]
    congr 1
    simp only [Matrix.mul_assoc, hT.mul, Matrix.mul_one]
  rw [← toM_mulVec, ← toM_mulVec, Matrix.mulVec_mulVec, Matrix.mulVec_mulVec, exp_intertwine e]

theorem Iso.optimal (hT : Iso T) (H : Matrix (Cfg q N) (Cfg q N) ℂ) (w : ι → ℂ) (hw : w ≠ 0) (e : ℝ)
    (he : effM T H *ᵥ w = (e : ℂ) • w) (hmin : ∀ x, e * (star x ⬝ᵥ x).re ≤ (star x ⬝ᵥ (effM T H *ᵥ x)).re) :
    Optimal H (Set.range T) (T (normed w)) := by
  have hn := normed_dot hw
  refine ⟨⟨_, rfl⟩, by rw [hT.iso, hn], ?_⟩
  rintro _ ⟨x, rfl⟩
  have h1 : effM T H *ᵥ normed w = (e : ℂ) • normed w := by
    rw [normed, Matrix.mulVec_smul, he, smul_comm]
  rw [← effM_dot, ← effM_dot, h1, dotProduct_smul, hn, hT.iso]
  simpa using hmin x

theorem effM_herm (H : Matrix (Cfg q N) (Cfg q N) ℂ) (hH : H.IsHermitian) : (effM T H).IsHermitian := by
  rw [Matrix.IsHermitian, effM, Matrix.conjTranspose_mul, Matrix.conjTranspose_mul, Matrix.conjTranspose_conjTranspose,
    hH.eq, Matrix.mul_assoc]

end

end Sweep

end EvoMPS
