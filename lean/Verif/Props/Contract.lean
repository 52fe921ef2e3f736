import Verif.TwoSiteLemmas
import Mathlib.NumberTheory.Zsqrtd.GaussianInt

/-!
# Property C14: equivalent contraction routines agree
-/

set_option linter.unusedSectionVars false

namespace EvoMPS

open Matrix

variable {R : Type*} [CommRing R] [StarRing R]
variable {q q' q'' a a' b b' c c' : ℕ}

section
variable [DecidableEq R]

/-- C14: every way of contracting a two-site operator from the right gives the sum over
all pairs of site basis states that defines the map. -/
theorem C14_right_routines (x : Matrix (Fin c) (Fin c') R) (A1 : Ten R q a b)
    (A2 : Ten R q' b c) (A3 : Ten R q a' b') (A4 : Ten R q' b' c') (op : Op2 R q q') :
    let val := ∑ s, ∑ t, ∑ u, ∑ v, op s t u v • (A1 u * A2 v * x * (A3 s * A4 t)ᴴ)
    epsR2A x A1 A2 A3 A4 op = val ∧
    epsR2AA12 x (calcAA A1 A2) A3 A4 op = val ∧
    epsR2Func x (calcAA A1 A2) (calcAA A3 A4) op = val ∧
    epsR2C12 x (calcC op (calcAA A1 A2)) A3 A4 = val ∧
    epsR2 x (calcC op (calcAA A1 A2)) (calcAA A3 A4) = val ∧
    epsR2C34 x A1 A2 (calcCConj op (calcAA A3 A4)) = val ∧
    epsR2 x (calcAA A1 A2) (calcCConj op (calcAA A3 A4)) = val := by
  have hC : ∑ u, ∑ v, (A1 u * A2 v) * x * (∑ s, ∑ t, star (op s t u v) • (A3 s * A4 t))ᴴ
      = ∑ s, ∑ t, ∑ u, ∑ v, op s t u v • (A1 u * A2 v * x * (A3 s * A4 t)ᴴ) := by
    simp only [Matrix.conjTranspose_sum, Matrix.conjTranspose_smul, star_star, Matrix.mul_sum,
      Matrix.mul_smul]
    rw [sum_comm4, Finset.sum_comm]
  have hA : ∑ u, ∑ v, (∑ s, ∑ t, op u v s t • (A1 s * A2 t)) * x * (A3 u * A4 v)ᴴ
      = ∑ s, ∑ t, ∑ u, ∑ v, op s t u v • (A1 u * A2 v * x * (A3 s * A4 t)ᴴ) := by
    simp only [Matrix.sum_mul, Matrix.smul_mul]
  refine ⟨?_, ?_, ?_, ?_, ?_, ?_, ?_⟩
  · rw [epsR2A_eq, hA]
  · rw [epsR2AA12_eq]; exact hA
  · rw [epsR2Func_eq]; exact hA
  · rw [epsR2C12_eq]; simp only [calcC_eq]; exact hA
  · rw [epsR2_eq]; simp only [calcC_eq]; exact hA
  · rw [epsR2C34_eq]; simp only [calcCConj_eq]; exact hC
  · rw [epsR2_eq]; simp only [calcCConj_eq]; exact hC

/-- C14: every way of applying a two-site operator to a pair of tensors gives
`C[s,t] = Σ op[s,t,u,v] A[u] Ap1[v]`. -/
theorem C14_apply_routines (op : Op2 R q q') (A : Ten R q a b) (Ap1 : Ten R q' b c) :
    let val : Ten2 R q q' a c := fun s t => ∑ u, ∑ v, op s t u v • (A u * Ap1 v)
    calcC op (calcAA A Ap1) = val ∧ calcCTensordot op (calcAA A Ap1) = val ∧
    calcCFunc op A Ap1 = val ∧ calcCFuncAA op (calcAA A Ap1) = val := by
  refine ⟨?_, ?_, ?_, ?_⟩ <;> funext s t
  · rw [calcC_eq]; rfl
  · rw [calcCTensordot_eq]; rfl
  · rw [calcCFunc_eq, calcCFuncAA_eq]; rfl
  · rw [calcCFuncAA_eq]; rfl

end

/-- C14: the conjugated operator, both implementations: the adjoint matrix is applied. -/
theorem C14_conj_routines (op : Op2 R q q') (AA : Ten2 R q q' a c) :
    let val : Ten2 R q q' a c := fun s t => ∑ u, ∑ v, star (op u v s t) • AA u v
    calcCConj op AA = val ∧ calcCConjTensordot op AA = val ∧
      calcCConj op AA = calcC (fun s t u v => star (op u v s t)) AA := by
  refine ⟨?_, ?_, ?_⟩ <;> funext s t
  · rw [calcCConj_eq]
  · rw [calcCConjTensordot_eq]
  · rw [calcCConj_eq, calcC_eq]

/-- C14: three-site operators; products of three tensors in either order. -/
theorem C14_three_site_routines {d : ℕ}
    (op : Fin q → Fin q' → Fin q'' → Fin q → Fin q' → Fin q'' → R)
    (A : Ten R q a b) (Ap1 : Ten R q' b c) (Ap2 : Ten R q'' c d) :
    let AAA : Ten3 R q q' q'' a d := fun s t u => A s * Ap1 t * Ap2 u
    let val : Ten3 R q q' q'' a d := fun s t u =>
      ∑ s', ∑ t', ∑ u', op s t u s' t' u' • (A s' * Ap1 t' * Ap2 u')
    calcAAA A Ap1 Ap2 = AAA ∧ calcAAA_AA (calcAA A Ap1) Ap2 = AAA ∧
    calcAAA_AAr A (calcAA Ap1 Ap2) = AAA ∧
    calcC3 op AAA = val ∧ calcC3Tensordot op AAA = val := by
  refine ⟨rfl, rfl, ?_, ?_, ?_⟩ <;> funext s t u
  · rw [calcAAA_AAr, calcAA, Matrix.mul_assoc]
  · rw [calcC3_eq]
  · rw [calcC3Tensordot_eq]

/-- C14: for an operator `Σ_α x_α ⊗ y_α` given by the list of its terms, the product-form
routines agree with the general ones. -/
theorem C14_tensor_product_routines
    (opTp : List (Matrix (Fin q) (Fin q) R × Matrix (Fin q') (Fin q') R)) (op : Op2 R q q')
    (hop : ∀ s t u v, op s t u v = (opTp.map fun o => o.1 s u * o.2 t v).sum)
    (A : Ten R q a b) (Ap1 : Ten R q' b c) :
    calcCtpMat opTp A Ap1 = calcC op (calcAA A Ap1) ∧
    (∀ (x : Matrix (Fin c) (Fin c') R) (A3 : Ten R q a' b') (A4 : Ten R q' b' c'),
      epsR2tp x (calcCtp opTp A Ap1) A3 A4
        = epsR2 x (calcC op (calcAA A Ap1)) (calcAA A3 A4)) ∧
    (∀ (x : Matrix (Fin a') (Fin a) R) (A1 : Ten R q a' b') (A2 : Ten R q' b' c'),
      epsL2tp x A1 A2 (calcCtp opTp A Ap1)
        = epsL2 x (calcAA A1 A2) (calcC op (calcAA A Ap1))) := by
  have hlist : ∀ s t, (opTp.map fun o => opDotTen o.1 A s * opDotTen o.2 Ap1 t).sum
      = ∑ u, ∑ v, op s t u v • (A u * Ap1 v) := by
    intro s t
    simp only [hop, opDotTen_eq]
    clear hop
    induction opTp with
    | nil => simp
    | cons o L ih =>
      rw [List.map_cons, List.sum_cons, ih]
      simp only [List.map_cons, List.sum_cons, add_smul, Finset.sum_add_distrib]
      congr 1
      rw [Matrix.sum_mul]
      refine Finset.sum_congr rfl fun u _ => ?_
      rw [Matrix.mul_sum]
      refine Finset.sum_congr rfl fun v _ => ?_
      rw [Matrix.smul_mul, Matrix.mul_smul, smul_smul]
  have hC : ∀ s t, (opTp.map fun o => opDotTen o.1 A s * opDotTen o.2 Ap1 t).sum
      = calcC op (calcAA A Ap1) s t := by
    intro s t
    rw [hlist, calcC_eq]; rfl
  refine ⟨?_, ?_, ?_⟩
  · funext s t
    rw [← hC, calcCtpMat, foldl_add_eq, zero_add]
    induction opTp with
    | nil => rfl
    | cons o L ih =>
      rw [List.map_cons, List.sum_cons, List.map_cons, List.sum_cons]
      have key : ∀ L' : List (Matrix (Fin q) (Fin q) R × Matrix (Fin q') (Fin q') R),
          (L'.map fun o => calcAA (opDotTen o.1 A) (opDotTen o.2 Ap1)).sum s t
            = (L'.map fun o => opDotTen o.1 A s * opDotTen o.2 Ap1 t).sum := by
        intro L'
        induction L' with
        | nil => rfl
        | cons o L' ih' =>
          rw [List.map_cons, List.sum_cons, List.map_cons, List.sum_cons, ← ih']; rfl
      rw [← key]; rfl
  · intro x A3 A4
    rw [epsR2tp, calcCtp_eq, foldl_add_eq, zero_add, List.map_map, epsR2_eq]
    simp only [← hC]
    clear hop hlist hC
    induction opTp with
    | nil => simp
    | cons o L ih =>
      rw [List.map_cons, List.sum_cons, ih]
      simp only [List.map_cons, List.sum_cons, Matrix.add_mul, Finset.sum_add_distrib]
      congr 1
      simp only [Function.comp, epsR_eq, calcAA, Matrix.mul_sum, Matrix.sum_mul,
        Matrix.conjTranspose_mul, Matrix.mul_assoc]
  · intro x A1 A2
    rw [epsL2tp, calcCtp_eq, foldl_add_eq, zero_add, List.map_map, epsL2_eq]
    simp only [← hC]
    clear hop hlist hC
    induction opTp with
    | nil => simp
    | cons o L ih =>
      rw [List.map_cons, List.sum_cons, ih]
      simp only [List.map_cons, List.sum_cons, Matrix.mul_add, Finset.sum_add_distrib]
      congr 1
      simp only [Function.comp, epsL_eq, calcAA, Matrix.mul_sum, Matrix.sum_mul,
        Matrix.conjTranspose_mul, Matrix.mul_assoc]
      exact Finset.sum_comm

/-- C14: the two left two-site routines. -/
theorem C14_left_routines (x : Matrix (Fin a) (Fin a') R) (A1 : Ten R q a b)
    (A2 : Ten R q' b c) (C34 : Ten2 R q q' a' c') :
    epsL2 x (calcAA A1 A2) C34 = ∑ s, ∑ t, (A1 s * A2 t)ᴴ * x * C34 s t ∧
    epsL2A1A2C34 x A1 A2 C34 = ∑ s, ∑ t, (A1 s * A2 t)ᴴ * x * C34 s t := by
  refine ⟨?_, epsL2A1A2C34_eq x A1 A2 C34⟩
  rw [epsL2_eq]; rfl

/-- C14: the left and right maps are adjoint to each other, without operator, for two and
three sites at once. -/
theorem C14_adjoint :
    (∀ (x : Matrix (Fin a) (Fin a') R) (y : Matrix (Fin b) (Fin b') R) (A1 : Ten R q a b)
      (A2 : Ten R q a' b'), adot (epsL x A1 A2) y = adot x (epsR y A1 A2)) ∧
    (∀ (x : Matrix (Fin a) (Fin a') R) (y : Matrix (Fin b) (Fin b') R) (B : Ten2 R q q' a b)
      (C : Ten2 R q q' a' b'), adot (epsL2 x B C) y = adot x (epsR2 y B C)) ∧
    (∀ (x : Matrix (Fin a) (Fin a') R) (y : Matrix (Fin b) (Fin b') R)
      (B : Ten3 R q q' q'' a b) (C : Ten3 R q q' q'' a' b'),
      adot (epsL3 x B C) y = adot x (epsR3 y B C)) :=
  ⟨adot_epsL, fun x y _ _ => adot_epsL x y _ _, fun x y _ _ => adot_epsL x y _ _⟩

/-- C14: the same with a single-site operator. -/
theorem C14_adjoint_op [DecidableEq R] (x : Matrix (Fin a) (Fin a') R)
    (y : Matrix (Fin b) (Fin b') R) (A1 : Ten R q a b) (A2 : Ten R q a' b')
    (op : Fin q → Fin q → R) :
    adot (epsLOp1 x A1 A2 op) y = adot x (epsROp1 y A1 A2 op) := by
  simp only [adot_eq_trace, epsLOp1_eq, epsROp1_eq, Matrix.conjTranspose_sum, Matrix.sum_mul,
    Matrix.mul_sum, Matrix.trace_sum, Matrix.conjTranspose_mul, Matrix.conjTranspose_smul,
    star_star, Matrix.conjTranspose_conjTranspose, Matrix.smul_mul, Matrix.mul_smul,
    Matrix.trace_smul]
  rw [Finset.sum_comm]
  refine Finset.sum_congr rfl fun s _ => Finset.sum_congr rfl fun t _ => ?_
  rw [Matrix.mul_assoc, Matrix.trace_mul_comm]
  simp only [Matrix.mul_assoc]

/-- The hypothesis of `C14_tensor_product_routines` is met by every list of terms. -/
example (opTp : List (Matrix (Fin 2) (Fin 2) GaussianInt × Matrix (Fin 3) (Fin 3) GaussianInt))
    (A : Ten GaussianInt 2 1 2) (Ap1 : Ten GaussianInt 3 2 1) :=
  C14_tensor_product_routines (a' := 1) (b' := 1) (c' := 1) opTp
    (fun s t u v => (opTp.map fun o => o.1 s u * o.2 t v).sum) (fun _ _ _ _ => rfl) A Ap1

end EvoMPS
