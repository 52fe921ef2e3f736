import Verif.MatMulLemmas
import Mathlib.Data.Fin.VecNotation
import Mathlib.Analysis.Complex.Polynomial.Basic
import Mathlib.Tactic.FieldSimp
import Mathlib.Tactic.FinCases
import Mathlib.LinearAlgebra.Matrix.Notation

/-!
# C40, C54: identity and diagonal matrix objects, square roots and inverses of Hermitian matrices
-/

namespace EvoMPS

open Matrix

section
variable {R : Type*} [CommRing R]

/-- What the objects stand for: the identity, the diagonal matrix, the array itself. -/
theorem C40_toarray {n : ℕ} (d : Fin n → R) (M : Matrix (Fin n) (Fin n) R) :
    (MM.eye n : MM R n n).toArray = 1 ∧ (MM.diag d).toArray = Matrix.diagonal d ∧
      (MM.dense M).toArray = M :=
  ⟨toArray_eye n, toArray_diag d, rfl⟩

/-- `a.dot(b)` is the product for all combinations of classes. -/
theorem C40_dot {m n k : ℕ} (a : MM R m n) (b : MM R n k) :
    (a.dot b).toArray = a.toArray * b.toArray := MM.dot_toArray a b

/-- `x.dot_left(a)` is `a` times `x`; only an array does not have the method. -/
theorem C40_dot_left {m n k : ℕ} (x : MM R n k) (a : MM R m n) :
    (∀ y, x.dotLeft a = some y → y.toArray = a.toArray * x.toArray) ∧
      (x.dotLeft a = none ↔ ∃ M, x = .dense M) := by
  refine ⟨MM.dotLeft_toArray x a, ?_⟩
  cases x with
  | eye => simp [MM.dotLeft]
  | diag d => cases a <;> simp [MM.dotLeft]
  | dense M => simp [MM.dotLeft]

/-- `mmul` of any chain of objects is the product of the matrices, from left to right. -/
theorem C40_mmul {m n k : ℕ} (a : MM R m n) (c : MChain R n k) :
    (a.mmul c).toArray = a.toArray * c.prod := MM.mmul_toArray c a

/-- `mmul` of diagonal and identity objects returns such an object again. -/
theorem C40_mmul_diag {n : ℕ} (a b : MM R n n) (ha : ∀ M, a ≠ .dense M) (hb : ∀ M, b ≠ .dense M) :
    (∃ d, a.mmul (.cons b (.nil n)) = .diag d) ∨
      (a = .eye n ∧ b = .eye n ∧ a.mmul (.cons b (.nil n)) = .eye n) := by
  cases a with
  | dense M => exact absurd rfl (ha M)
  | eye =>
    cases b with
    | dense M => exact absurd rfl (hb M)
    | eye => right; exact ⟨rfl, rfl, rfl⟩
    | diag e => left; exact ⟨e, rfl⟩
  | diag d =>
    cases b with
    | dense M => exact absurd rfl (hb M)
    | eye => left; exact ⟨d, rfl⟩
    | diag e => left; exact ⟨_, rfl⟩

/-- Sums, differences and multiples are those of the matrices. -/
theorem C40_linear {m n : ℕ} (c : R) (a b : MM R m n) :
    (a.add b).toArray = a.toArray + b.toArray ∧ (a.sub b).toArray = a.toArray - b.toArray ∧
      (a.smul c).toArray = c • a.toArray := by
  refine ⟨rfl, rfl, ?_⟩
  cases a with
  | eye => ext i j; simp [MM.smul, diagonal_apply, one_apply]
  | diag d => ext i j; by_cases h : i = j <;> simp [MM.smul, h, mul_comm]
  | dense M => ext i j; simp [MM.smul, mul_comm]

/-- Element-wise products are those of the matrices. -/
theorem C40_elementwise {n : ℕ} (a b : MM R n n) :
    (a.emul b).toArray = Matrix.of fun i j => a.toArray i j * b.toArray i j := by
  cases a with
  | eye => ext i j; by_cases h : i = j <;> simp [MM.emul, one_apply, h]
  | diag d => ext i j; by_cases h : i = j <;> simp [MM.emul, diagonal_apply, h]
  | dense A =>
    cases b with
    | eye => ext i j; by_cases h : i = j <;> simp [MM.emul, one_apply, h]
    | diag d => ext i j; by_cases h : i = j <;> simp [MM.emul, diagonal_apply, h, mul_comm]
    | dense B => rfl

/-- `trace(offset)` sums the diagonal `offset` places above the main one; `diagonal()` is the
main diagonal. -/
theorem C40_trace {n : ℕ} (a : MM R n n) (offset : ℕ) :
    a.trace offset = (∑ i : Fin n, ∑ j : Fin n, if j.val = i.val + offset then a.toArray i j else 0) ∧
      a.trace 0 = Matrix.trace a.toArray ∧ a.diagonal = a.toArray.diag := by
  have key : ∀ d : Fin n → R, ∀ o : ℕ,
      (∑ i : Fin n, ∑ j : Fin n, if j.val = i.val + o then Matrix.diagonal d i j else 0) =
        if o = 0 then ∑ i, d i else 0 := by
    intro d o
    by_cases ho : o = 0
    · subst ho
      rw [if_pos rfl]
      refine Finset.sum_congr rfl fun i _ => ?_
      rw [Finset.sum_eq_single i]
      · simp
      · intro j _ hj
        rw [if_neg]
        intro h
        exact hj (Fin.ext (by omega))
      · simp
    · rw [if_neg ho]
      refine Finset.sum_eq_zero fun i _ => Finset.sum_eq_zero fun j _ => ?_
      by_cases h : j.val = i.val + o
      · rw [if_pos h, diagonal_apply_ne]
        intro hij
        subst hij
        omega
      · rw [if_neg h]
  have h1 : ∀ o, a.trace o =
      ∑ i : Fin n, ∑ j : Fin n, if j.val = i.val + o then a.toArray i j else 0 := by
    intro o
    cases a with
    | eye =>
      rw [toArray_eye, ← diagonal_one]
      rw [key (fun _ => 1) o]
      simp [MM.trace]
    | diag d => rw [toArray_diag, key d o, MM.trace]
    | dense M => rfl
  refine ⟨h1 offset, ?_, ?_⟩
  · rw [h1 0, Matrix.trace]
    refine Finset.sum_congr rfl fun i _ => ?_
    rw [Finset.sum_eq_single i]
    · simp
    · intro j _ hj
      rw [if_neg]
      intro h
      exact hj (Fin.ext (by omega))
    · simp
  · cases a with
    | eye => funext i; simp [MM.diagonal]
    | diag d => funext i; simp [MM.diagonal]
    | dense M => rfl

/-- `H(m)` is the adjoint. -/
theorem C40_adjoint [StarRing R] {m n : ℕ} (a : MM R m n) : a.adjoint.toArray = a.toArrayᴴ := by
  cases a with
  | eye => simp [MM.adjoint]
  | diag d => simp only [MM.adjoint, toArray_diag, diagonal_conjTranspose]; rfl
  | dense M => rfl

/-- `dot_inplace` stores the product of the matrices, unless both operands are diagonal objects. -/
theorem C40_dot_inplace_partial {m n k : ℕ} (a : MM R m n) (b : MM R n k) :
    (∀ y, a.dotInplace b = some y → y = a.toArray * b.toArray) ∧
      ((∀ d, ¬ HEq a (MM.diag d : MM R n n)) ∨ (∀ d, ¬ HEq b (MM.diag d : MM R n n)) →
        (a.dotInplace b).isSome) := by
  constructor
  · intro y hy
    cases a with
    | eye =>
      simp only [MM.dotInplace, Option.some.injEq] at hy; subst hy; simp
    | diag d =>
      cases b with
      | eye => simp only [MM.dotInplace, Option.some.injEq] at hy; subst hy; simp
      | diag e => cases hy
      | dense B =>
        simp only [MM.dotInplace, Option.some.injEq] at hy; subst hy; simp [mmulDiagR_eq]
    | dense A =>
      cases b with
      | eye => simp only [MM.dotInplace, Option.some.injEq] at hy; subst hy; simp
      | diag e =>
        simp only [MM.dotInplace, Option.some.injEq] at hy; subst hy; simp [mmulDiagL_eq]
      | dense B => simp only [MM.dotInplace, Option.some.injEq] at hy; subst hy; simp
  · intro h
    cases a with
    | eye => simp [MM.dotInplace]
    | diag d =>
      cases b with
      | eye => simp [MM.dotInplace]
      | diag e =>
        rcases h with h | h
        · exact absurd HEq.rfl (h d)
        · exact absurd HEq.rfl (h e)
      | dense B => simp [MM.dotInplace]
    | dense A => cases b <;> simp [MM.dotInplace]

/-- `dot_inplace` of two diagonal objects raises, for all sizes and entries. -/
theorem C40_dot_inplace_violated {n : ℕ} (d e : Fin n → R) :
    (MM.diag d).dotInplace (MM.diag e) = none := rfl

end

/-- `inv()` of a special object is the inverse (for non-zero entries), `sqrt()` a square root. -/
theorem C40_inv_sqrt {n : ℕ} (a : MM ℂ n n) (sq : ℂ → ℂ) (hsq : ∀ z, sq z * sq z = z) :
    (∀ y, a.inv = some y → (∀ i, a.diagonal i ≠ 0) → y.toArray * a.toArray = 1) ∧
      (∀ y, a.sqrt sq = some y → y.toArray * y.toArray = a.toArray) ∧
      ((∀ M, a ≠ .dense M) → a.inv.isSome ∧ (a.sqrt sq).isSome) := by
  cases a with
  | eye =>
    refine ⟨?_, ?_, fun _ => ⟨rfl, rfl⟩⟩
    · intro y hy _
      simp only [MM.inv, Option.some.injEq] at hy; subst hy; simp
    · intro y hy
      simp only [MM.sqrt, Option.some.injEq] at hy; subst hy; simp
  | diag d =>
    refine ⟨?_, ?_, fun _ => ⟨rfl, rfl⟩⟩
    · intro y hy h0
      simp only [MM.inv, Option.some.injEq] at hy; subst hy
      simp only [toArray_diag, diagonal_mul_diagonal]
      rw [← diagonal_one]
      congr 1
      funext i
      have := h0 i
      simp only [MM.diagonal] at this
      field_simp
    · intro y hy
      simp only [MM.sqrt, Option.some.injEq] at hy; subst hy
      simp only [toArray_diag, diagonal_mul_diagonal, hsq]
  | dense M =>
    refine ⟨?_, ?_, fun h => absurd rfl (h M)⟩
    · intro y hy; cases hy
    · intro y hy; cases hy

/-- `sqrtmh(A)` is a square root of every Hermitian matrix, and it commutes with `A`. -/
theorem C54_sqrtmh (eigh : Eigh ℂ) (sq : ℂ → ℂ) (hsq : ∀ z, sq z * sq z = z) {n : ℕ}
    (A : Matrix (Fin n) (Fin n) ℂ) (hA : A.IsHermitian) :
    sqrtmh eigh sq A * sqrtmh eigh sq A = A ∧
      sqrtmh eigh sq A * A = A * sqrtmh eigh sq A := by
  obtain ⟨h1, -, h3⟩ := eigh_spectral eigh A hA
  have hs : sqrtmh eigh sq A =
      eigh.vec A * (Matrix.diagonal (fun i => sq (eigh.ev A i)) * (eigh.vec A)ᴴ) := by
    rw [sqrtmh, MM.mmul_toArray]
    simp [MChain.prod, mmulDiagR_eq]
  constructor
  · rw [hs, conj_diag_mul _ _ _ h1]
    simp only [hsq]
    exact h3.symm
  · rw [hs]
    conv_lhs => rhs; rw [h3]
    conv_rhs => lhs; rw [h3]
    rw [conj_diag_mul _ _ _ h1, conj_diag_mul _ _ _ h1]
    simp only [mul_comm]

/-- `sqrtmh(A)` is Hermitian if the square roots of the eigenvalues are real. -/
theorem C54_sqrtmh_hermitian_partial (eigh : Eigh ℂ) (sq : ℂ → ℂ) {n : ℕ}
    (A : Matrix (Fin n) (Fin n) ℂ) (hreal : ∀ i, star (sq (eigh.ev A i)) = sq (eigh.ev A i)) :
    (sqrtmh eigh sq A).IsHermitian := by
  have hs : sqrtmh eigh sq A =
      eigh.vec A * (Matrix.diagonal (fun i => sq (eigh.ev A i)) * (eigh.vec A)ᴴ) := by
    rw [sqrtmh, MM.mmul_toArray]
    simp [MChain.prod, mmulDiagR_eq]
  rw [Matrix.IsHermitian, hs, conjTranspose_mul, conjTranspose_mul, conjTranspose_conjTranspose,
    diagonal_conjTranspose, Matrix.mul_assoc]
  congr 3
  funext i
  exact hreal i

/-- The documentation says "The result is also Hermitian".  It is not for `A = -1`, whatever
square root and eigenvectors are used. -/
theorem C54_sqrtmh_hermitian_violated (eigh : Eigh ℂ) (sq : ℂ → ℂ) (hsq : ∀ z, sq z * sq z = z) :
    (-1 : Matrix (Fin 1) (Fin 1) ℂ).IsHermitian ∧
      ¬ (sqrtmh eigh sq (-1 : Matrix (Fin 1) (Fin 1) ℂ)).IsHermitian := by
  have hA : (-1 : Matrix (Fin 1) (Fin 1) ℂ).IsHermitian := by
    simp [Matrix.IsHermitian]
  refine ⟨hA, fun h => ?_⟩
  have h2 := (C54_sqrtmh eigh sq hsq _ hA).1
  have e1 := congrFun (congrFun h2 0) 0
  have e2 := congrFun (congrFun h 0) 0
  set z := sqrtmh eigh sq (-1 : Matrix (Fin 1) (Fin 1) ℂ) 0 0
  rw [conjTranspose_apply] at e2
  simp only [Matrix.mul_apply, Finset.univ_unique, Fin.default_eq_zero, Finset.sum_singleton,
    Matrix.neg_apply, Matrix.one_apply_eq] at e1
  have him : z.im = 0 := by
    have := congrArg Complex.im e2
    simp only [Complex.star_def, Complex.conj_im] at this
    change -z.im = z.im at this
    linarith
  have hre := congrArg Complex.re e1
  change (z * z).re = (-1 : ℂ).re at hre
  rw [Complex.mul_re, him] at hre
  simp at hre
  nlinarith [mul_self_nonneg z.re]

/-- `invmh(A)` is the inverse of a Hermitian matrix without vanishing eigenvalues, on both sides,
and Hermitian. -/
theorem C54_invmh (eigh : Eigh ℂ) {n : ℕ} (A : Matrix (Fin n) (Fin n) ℂ) (hA : A.IsHermitian)
    (h0 : ∀ i, eigh.ev A i ≠ 0) :
    invmh eigh A * A = 1 ∧ A * invmh eigh A = 1 ∧ (invmh eigh A).IsHermitian := by
  obtain ⟨h1, h2, h3⟩ := eigh_spectral eigh A hA
  have hs : invmh eigh A =
      eigh.vec A * (Matrix.diagonal (fun i => 1 / eigh.ev A i) * (eigh.vec A)ᴴ) := by
    rw [invmh, MM.mmul_toArray]
    simp [MChain.prod, mmulDiagR_eq]
  have key : invmh eigh A * A = 1 := by
    rw [hs]
    conv_lhs => rhs; rw [h3]
    rw [conj_diag_mul _ _ _ h1]
    have : (fun i => 1 / eigh.ev A i * eigh.ev A i) = fun _ => (1 : ℂ) := by
      funext i
      have := h0 i
      field_simp
    rw [this, diagonal_one, Matrix.one_mul, h2]
  refine ⟨key, mul_eq_one_comm.mp key, ?_⟩
  rw [Matrix.IsHermitian, hs, conjTranspose_mul, conjTranspose_mul, conjTranspose_conjTranspose,
    diagonal_conjTranspose, Matrix.mul_assoc]
  congr 3
  funext i
  have := eigh.real A hA i
  simp only [Pi.star_apply, star_div₀, star_one, this]

/-- A mixed chain: dense, identity, diagonal, dense (2 x 3 to 3 x 2). -/
example (A : Matrix (Fin 2) (Fin 3) ℤ) (B : Matrix (Fin 3) (Fin 2) ℤ) :
    (MM.mmul (.dense A) (.cons (.eye 3) (.cons (.diag ![1, 2, 3]) (.cons (.dense B) (.nil 2))))).toArray
      = A * (Matrix.diagonal (![1, 2, 3] : Fin 3 → ℤ) * B) := by
  rw [C40_mmul]; simp [MChain.prod]

/-- Square roots exist: the hypothesis on `sq` can be met. -/
example : ∃ sq : ℂ → ℂ, ∀ z, sq z * sq z = z := by
  have h : ∀ z : ℂ, ∃ w : ℂ, w * w = z := fun z => by
    obtain ⟨w, hw⟩ := IsAlgClosed.exists_pow_nat_eq z (n := 2) (by norm_num)
    exact ⟨w, by rw [← hw, pow_two]⟩
  choose sq hsq using h
  exact ⟨sq, hsq⟩

end EvoMPS
