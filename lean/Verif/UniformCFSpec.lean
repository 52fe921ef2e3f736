import Verif.UniformSpec
import Mathlib.LinearAlgebra.Matrix.PosDef
import Mathlib.Analysis.Complex.Order

/-!
# Specification: gauge transformations of the infinite chain

This file does not import the model.
-/

namespace EvoMPS

open Matrix

variable {R : Type*} [CommRing R] {q D : ℕ}

/-- The tensors `A'` are those of `A` with `g k gi k = 1` inserted at the cut to the right of
every site `k` of the block. -/
structure GaugeBy (L : ℕ) (g gi : ℕ → Matrix (Fin D) (Fin D) R)
    (A A' : ℕ → Fin q → Matrix (Fin D) (Fin D) R) : Prop where
  inv : ∀ k < L, g k * gi k = 1 ∧ gi k * g k = 1
  eq : ∀ k < L, ∀ s, A' k s = gi ((k + L - 1) % L) * A k s * g k

variable [StarRing R]

/-- Two blocks of tensors with their environments describe the same infinite chain: the traces of
the products around any number of blocks are equal, the transfer maps are similar, and every
operator on finitely many neighbouring sites has the same expectation value. -/
structure SameChain (L : ℕ) (g gi : ℕ → Matrix (Fin D) (Fin D) R)
    (A : ℕ → Fin q → Matrix (Fin D) (Fin D) R) (l r : ℕ → Matrix (Fin D) (Fin D) R)
    (A' : ℕ → Fin q → Matrix (Fin D) (Fin D) R) (l' r' : ℕ → Matrix (Fin D) (Fin D) R) : Prop where
  trace : ∀ k m (s : Fin (m * L) → Fin q),
    (chainProd L A' k (m * L) s).trace = (chainProd L A k (m * L) s).trace
  transfer : ∀ k n x, chainTransfer L L A' A' k n x
    = gi ((k + L - 1) % L) * chainTransfer L L A A k n
        (g ((k + n + L - 1) % L) * x * (g ((k + n + L - 1) % L))ᴴ) * (gi ((k + L - 1) % L))ᴴ
  expect : ∀ k n (O : (Fin n → Fin q) → (Fin n → Fin q) → R),
    chainExpect L A' l' r' k n O = chainExpect L A l r k n O

open scoped ComplexOrder in
/-- All eigenvalues of the Hermitian matrix `A` are greater than `tol`. -/
def AboveTol {n : ℕ} (tol : ℝ) (A : Matrix (Fin n) (Fin n) ℂ) : Prop :=
  (A - (tol : ℂ) • (1 : Matrix (Fin n) (Fin n) ℂ)).PosDef

/-- Every eigenvalue of `A` is zero or greater than `tol`: a rank decided with the tolerance `tol` is the rank. -/
def ZeroOrAbove {n : ℕ} (tol : ℝ) (A : Matrix (Fin n) (Fin n) ℂ) : Prop :=
  ∀ (μ : ℝ) (v : Fin n → ℂ), v ≠ 0 → A *ᵥ v = (μ : ℂ) • v → μ = 0 ∨ tol < μ

end EvoMPS
