import Verif.PackCG
import Mathlib.Analysis.Calculus.Deriv.Comp
import Mathlib.Analysis.Calculus.Deriv.Mul
import Mathlib.Algebra.BigOperators.Fin
import Mathlib.Data.Fintype.BigOperators
import Mathlib.Data.Complex.BigOperators

/-!
# C99: the optimisation with a library routine
-/

namespace EvoMPS

open CG2

variable {L q D : ℕ}

theorem ravelBlock_flatIdx (A : Block L q D) (k : Fin L) (s : Fin q) (i j : Fin D) :
    ravelBlock A (flatIdx k s i j) = A k s i j := by
  simp only [ravelBlock, flatIdx, Equiv.symm_apply_apply]

theorem flatIdx_surj (m : Fin (pars L q D)) : ∃ k s i j, m = flatIdx (L := L) (q := q) (D := D) k s i j := by
  refine ⟨_, _, _, _, (?_ : m = flatIdx (finProdFinEquiv.symm (finProdFinEquiv.symm (finProdFinEquiv.symm m).1).1).1
    (finProdFinEquiv.symm (finProdFinEquiv.symm (finProdFinEquiv.symm m).1).1).2 (finProdFinEquiv.symm (finProdFinEquiv.symm m).1).2
    (finProdFinEquiv.symm m).2)⟩
  simp only [flatIdx, Prod.mk.eta, Equiv.apply_symm_apply]

/-- **C99** (variables).  The entry `[s, i, j]` of tensor `k` is given by the real variables with the numbers `((k q + s) D + i) D + j`
(real part) and `L q D² + ((k q + s) D + i) D + j` (imaginary part).  Each block has exactly one set of variables. -/
theorem C99_variables (A : Block L q D) (x : Fin (pars L q D + pars L q D) → ℝ) :
    (∀ k s i j (h : ((k.val * q + s.val) * D + i.val) * D + j.val < L * q * D * D),
      pack A ⟨((k.val * q + s.val) * D + i.val) * D + j.val, by simp only [pars]; omega⟩ = (A k s i j).re ∧
      pack A ⟨L * q * D * D + (((k.val * q + s.val) * D + i.val) * D + j.val), by simp only [pars]; omega⟩ = (A k s i j).im) ∧
      unpack (pack A) = A ∧ pack (unpack (L := L) (q := q) (D := D) x) = x := by
  have hf : ∀ (k : Fin L) (s : Fin q) (i j : Fin D),
      (flatIdx k s i j).val = ((k.val * q + s.val) * D + i.val) * D + j.val := by
    intro k s i j
    simp only [flatIdx, finProdFinEquiv_apply_val]
    ring
  refine ⟨fun k s i j h => ⟨?_, ?_⟩, ?_, ?_⟩
  · have e : (⟨((k.val * q + s.val) * D + i.val) * D + j.val, by simp only [pars]; omega⟩ : Fin (pars L q D + pars L q D))
        = Fin.castAdd _ (flatIdx k s i j) := Fin.ext (hf k s i j).symm
    rw [e, pack, Fin.append_left, ravelBlock_flatIdx]
  · have e : (⟨L * q * D * D + (((k.val * q + s.val) * D + i.val) * D + j.val), by simp only [pars]; omega⟩ :
        Fin (pars L q D + pars L q D)) = Fin.natAdd _ (flatIdx k s i j) := by
      apply Fin.ext
      rw [Fin.val_natAdd, hf]
    rw [e, pack, Fin.append_right, ravelBlock_flatIdx]
  · funext k s
    ext i j
    simp only [unpack, Matrix.of_apply, pack, Fin.append_left, Fin.append_right, ravelBlock_flatIdx]
    rw [mul_comm]
    exact Complex.re_add_im _
  · funext m
    refine Fin.addCases (fun m => ?_) (fun m => ?_) m
    · obtain ⟨k, s, i, j, rfl⟩ := flatIdx_surj (L := L) (q := q) (D := D) m
      rw [pack, Fin.append_left, ravelBlock_flatIdx]
      simp [unpack]
    · obtain ⟨k, s, i, j, rfl⟩ := flatIdx_surj (L := L) (q := q) (D := D) m
      rw [pack, Fin.append_right, ravelBlock_flatIdx]
      simp [unpack]

/-- **C99** (slope).  The slope that the routine computes from the returned gradient in the direction of `C` is twice the real part of the
product of `calc_B()` with `C`. -/
theorem C99_slope (upd calcB : Block L q D → Block L q D) (x : Fin (pars L q D + pars L q D) → ℝ) (C : Block L q D) :
    ∑ m, jacobian upd calcB x m * pack C m =
      2 * (∑ k, ∑ s, ∑ i, ∑ j, star (calcB (upd (unpack x)) k s i j) * C k s i j).re := by
  set B := calcB (upd (unpack x)) with hB
  have h1 : ∑ m, jacobian upd calcB x m * pack C m = ∑ m, 2 * (star (ravelBlock B m) * ravelBlock C m).re := by
    rw [Fin.sum_univ_add, ← Finset.sum_add_distrib]
    refine Finset.sum_congr rfl fun m _ => ?_
    simp only [jacobian, pack, Fin.append_left, Fin.append_right, ← hB, Complex.star_def, Complex.mul_re, Complex.conj_re,
      Complex.conj_im]
    ring
  rw [h1, ← Finset.mul_sum, ← Complex.re_sum]
  congr 2
  rw [← finProdFinEquiv.sum_comp, Fintype.sum_prod_type, ← finProdFinEquiv.sum_comp, Fintype.sum_prod_type,
    ← finProdFinEquiv.sum_comp, Fintype.sum_prod_type]
  refine Finset.sum_congr rfl fun k _ => Finset.sum_congr rfl fun s _ => Finset.sum_congr rfl fun i _ =>
    Finset.sum_congr rfl fun j _ => ?_
  rw [← ravelBlock_flatIdx B, ← ravelBlock_flatIdx C]
  rfl

/-- **C99** (result).  The chain is left with the tensors of the variables the routine returns, updated; a routine that returns
the starting point leaves the state. -/
theorem C99_result (minimize) (upd updCF : Block L q D → Block L q D) (energy : Block L q D → ℂ)
    (calcB : Block L q D → Block L q D) (A B : Block L q D)
    (h : minimize (objective upd energy) (pack A) (jacobian upd calcB) = pack B) :
    optConjGrad2 minimize upd updCF energy calcB A = updCF B := by
  simp only [optConjGrad2, h, (C99_variables B 0).2.1]

theorem unpack_smul (c : ℝ) (x : Fin (pars L q D + pars L q D) → ℝ) :
    unpack (L := L) (q := q) (D := D) (c • x) = fun k s => (c : ℂ) • unpack x k s := by
  funext k s
  ext i j
  simp only [unpack, Matrix.of_apply, Matrix.smul_apply, Pi.smul_apply, smul_eq_mul]
  push_cast
  ring

/-- **C99, violated** (gradient).  The routine is given `_opt_conj_grad2_g` as the derivative of `_opt_conj_grad2_f`.  The update
normalises the state, so it gives the same for multiples of the tensors; then wherever the returned gradient is not zero, it is not the derivative at that point and
at twice that point. -/
theorem C99_gradient_violated (upd calcB : Block L q D → Block L q D) (energy : Block L q D → ℂ)
    (hupd : ∀ (c : ℝ) (A : Block L q D), 0 < c → upd (fun k s => (c : ℂ) • A k s) = upd A)
    (x : Fin (pars L q D + pars L q D) → ℝ) (hx : jacobian upd calcB x ≠ 0) :
    ¬ ∀ y ∈ ({x, (2 : ℝ) • x} : Set (Fin (pars L q D + pars L q D) → ℝ)), ∀ v : Fin (pars L q D + pars L q D) → ℝ,
      HasDerivAt (fun t : ℝ => objective upd energy (y + t • v)) (∑ m, jacobian upd calcB y m * v m) 0 := by
  intro h
  have hf : ∀ y, objective upd energy ((2 : ℝ) • y) = objective upd energy y := by
    intro y
    simp only [objective]
    rw [unpack_smul, hupd 2 _ two_pos]
  have hg : jacobian upd calcB ((2 : ℝ) • x) = jacobian upd calcB x := by
    simp only [jacobian]
    rw [unpack_smul, hupd 2 _ two_pos]
  apply hx
  funext m
  set v : Fin (pars L q D + pars L q D) → ℝ := Pi.single m 1 with hv
  have hs : ∀ g : Fin (pars L q D + pars L q D) → ℝ, ∑ n, g n * v n = g m := by
    intro g
    rw [Finset.sum_eq_single m (fun n _ hn => by rw [hv, Pi.single_eq_of_ne hn, mul_zero]) (fun h => absurd (Finset.mem_univ _) h), hv,
      Pi.single_eq_same, mul_one]
  have h1 := h x (by simp) v
  have h2 := h ((2 : ℝ) • x) (by simp) v
  rw [hs] at h1 h2
  rw [hg] at h2
  have h3 : HasDerivAt (fun t : ℝ => objective upd energy ((2 : ℝ) • x + (2 * t) • v)) (jacobian upd calcB x m * 2) 0 := by
    have hlin : HasDerivAt (fun t : ℝ => 2 * t) 2 0 := by
      simpa using (hasDerivAt_id (0 : ℝ)).const_mul 2
    have h2' : HasDerivAt (fun t : ℝ => objective upd energy ((2 : ℝ) • x + t • v)) (jacobian upd calcB x m) (2 * 0) := by
      rw [mul_zero]
      exact h2
    exact HasDerivAt.comp (0 : ℝ) h2' hlin
  have h4 : (fun t : ℝ => objective upd energy ((2 : ℝ) • x + (2 * t) • v)) = fun t : ℝ => objective upd energy (x + t • v) := by
    funext t
    rw [mul_smul, ← smul_add, hf]
  rw [h4] at h3
  have := h1.unique h3
  show jacobian upd calcB x m = 0
  linarith

/-! ### The hypotheses can be met -/

/-- One site of dimension two, bond dimension one: normalisation, energy `|A[1]|²` of a normalised state and its projected gradient
`(0 - e) A[0], (1 - e) A[1]`. -/
noncomputable def demoNormalise (A : Block 1 2 1) : Block 1 2 1 :=
  fun k s => ((1 / Real.sqrt (Complex.normSq (A 0 0 0 0) + Complex.normSq (A 0 1 0 0)) : ℝ) : ℂ) • A k s

noncomputable def demoGrad (A : Block 1 2 1) : Block 1 2 1 :=
  fun k s => ((if s = 0 then 0 else 1) - (Complex.normSq (A 0 1 0 0) : ℂ)) • A k s

theorem demoNormalise_smul (c : ℝ) (A : Block 1 2 1) (hc : 0 < c) :
    demoNormalise (fun k s => (c : ℂ) • A k s) = demoNormalise A := by
  funext k s
  simp only [demoNormalise, Matrix.smul_apply, smul_eq_mul, Complex.normSq_mul, Complex.normSq_ofReal, smul_smul]
  congr 1
  rw [← mul_add, Real.sqrt_mul (by positivity), Real.sqrt_mul_self hc.le]
  rw [← Complex.ofReal_mul]
  congr 1
  field_simp

theorem demoGrad_ne : ∃ x : Fin (pars 1 2 1 + pars 1 2 1) → ℝ, jacobian demoNormalise demoGrad x ≠ 0 := by
  refine ⟨pack (fun _ _ => 1), fun h => ?_⟩
  have h0 := congrFun h (Fin.castAdd _ (flatIdx (L := 1) (q := 2) (D := 1) 0 0 0 0))
  simp only [jacobian, Fin.append_left, ravelBlock_flatIdx, (C99_variables (L := 1) (q := 2) (D := 1) (fun _ _ => 1) 0).2.1] at h0
  have h2 : (Real.sqrt 2) ≠ 0 := by positivity
  have h3 : (Real.sqrt 2) * (Real.sqrt 2) = 2 := Real.mul_self_sqrt (by norm_num)
  norm_num [demoGrad, demoNormalise, Complex.normSq_apply] at h0

example : ∃ x : Fin (pars 1 2 1 + pars 1 2 1) → ℝ, ¬ ∀ y ∈ ({x, (2 : ℝ) • x} : Set (Fin (pars 1 2 1 + pars 1 2 1) → ℝ)), ∀ v,
    HasDerivAt (fun t : ℝ => objective demoNormalise (fun A => (Complex.normSq (A 0 1 0 0) : ℂ)) (y + t • v))
      (∑ m, jacobian demoNormalise demoGrad y m * v m) 0 :=
  let ⟨x, hx⟩ := demoGrad_ne
  ⟨x, C99_gradient_violated demoNormalise demoGrad _ demoNormalise_smul x hx⟩

end EvoMPS
