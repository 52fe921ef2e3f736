import Mathlib.LinearAlgebra.Matrix.ConjTranspose

/-!
# Specification: a finite part between two uniform parts

An infinite chain with one tensor per integer.  The tensors may have different shapes, so a
tensor is stored together with its shape.  This file does not import the model.
-/

namespace EvoMPS

open Matrix

/-- A matrix with its shape. -/
structure AnyMat (R : Type*) where
  a : ℕ
  b : ℕ
  val : Matrix (Fin a) (Fin b) R

/-- A site tensor with its shape `(q, a, b)`. -/
structure AnyTen (R : Type*) where
  q : ℕ
  a : ℕ
  b : ℕ
  val : Fin q → Matrix (Fin a) (Fin b) R

section
variable {R : Type*} [CommRing R] [StarRing R]

/-- `y` is the environment to the left of a cut, `x` the one before the site `T`: shapes fit and
`y = ∑ T[s]^H x T[s]`. -/
def StepL (x : AnyMat R) (T : AnyTen R) (y : AnyMat R) : Prop :=
  ∃ X : Matrix (Fin T.a) (Fin T.a) R, x = ⟨T.a, T.a, X⟩
    ∧ y = ⟨T.b, T.b, ∑ s, (T.val s)ᴴ * X * T.val s⟩

/-- `y` is the environment to the right of a cut, `x` the one behind the site `T`: shapes fit and
`y = ∑ T[s] x T[s]^H`. -/
def StepR (x : AnyMat R) (T : AnyTen R) (y : AnyMat R) : Prop :=
  ∃ X : Matrix (Fin T.b) (Fin T.b) R, x = ⟨T.b, T.b, X⟩
    ∧ y = ⟨T.a, T.a, ∑ s, T.val s * X * (T.val s)ᴴ⟩

end

/-- The infinite chain `site` has the `LL` values `xL` repeated at the sites `..., -1, 0`, the values `f 1, ..., f N`
at the sites `1, ..., N`, and the `LR` values `xR` repeated at `N + 1, N + 2, ...`. -/
structure SandwichOf {α : Type*} (LL : ℕ) (xL : ℕ → α) (N : ℕ) (f : ℕ → α) (LR : ℕ) (xR : ℕ → α) (site : ℤ → α) :
    Prop where
  left_block : ∀ k < LL, site (k + 1 - LL) = xL k
  left_rep : ∀ n ≤ 0, site (n - LL) = site n
  mid : ∀ n : ℕ, 1 ≤ n → n ≤ N → site n = f n
  right_block : ∀ k < LR, site (N + 1 + k) = xR k
  right_rep : ∀ n > (N : ℤ), site (n + LR) = site n

variable {R : Type*} [CommRing R] [StarRing R]

/-- `l n` is the left environment of the cut to the right of site `n`, for every integer `n`: that of the left block
repeated for `n ≤ 0`, and going from cut to cut with the tensors of the chain. -/
structure LeftEnv (site : ℤ → AnyTen R) (LL : ℕ) (lL : ℕ → AnyMat R) (l : ℤ → AnyMat R) : Prop where
  step : ∀ n, StepL (l (n - 1)) (site n) (l n)
  left_block : ∀ k < LL, l (k + 1 - LL) = lL k
  left_rep : ∀ n ≤ 0, l (n - LL) = l n

/-- `r n` is the right environment of the cut to the right of site `n`, for every integer `n`. -/
structure RightEnv (site : ℤ → AnyTen R) (N : ℕ) (LR : ℕ) (rR : ℕ → AnyMat R) (r : ℤ → AnyMat R) : Prop where
  step : ∀ n, StepR (r n) (site n) (r (n - 1))
  right_block : ∀ k < LR, r (N + 1 + k) = rR k
  right_rep : ∀ n > (N : ℤ), r (n + LR) = r n

end EvoMPS
