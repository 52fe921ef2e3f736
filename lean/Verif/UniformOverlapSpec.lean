import Verif.UniformTangentSpec
import Mathlib.Analysis.SpecialFunctions.Exp
import Mathlib.Analysis.SpecialFunctions.Complex.Circle

/-!
# Specification: tangent vectors with momentum on the infinite chain

This file does not import the model.  A tangent vector is given by one tensor for every site of the block: it is the sum over
all sites `n` of the infinite chain of `e^{ipn}` times the uniform state with the tensor at site `n` replaced.  Its overlap with
another one is infinite; the overlap per block is the sum over all pairs of sites, one of each class of pairs that differ by a
translation by blocks, with the part of both vectors along the uniform state taken off.
-/

namespace EvoMPS

open Matrix

variable {q D : ℕ}

/-- The sites `0, ..., N*L-1`: the sum over all pairs of sites, one of them in the first block, of the overlaps of the state with a tensor of
`B2` at site `a` and the state with a tensor of `B1` at site `b`, less the product of their overlaps with the uniform state. -/
noncomputable def pairSum (L : ℕ) (A : ℕ → Fin q → Matrix (Fin D) (Fin D) ℂ) (l r : ℕ → Matrix (Fin D) (Fin D) ℂ)
    (B2 B1 : ℕ → Fin q → Matrix (Fin D) (Fin D) ℂ) (p : ℝ) (N : ℕ) : ℂ :=
  ∑ a ∈ Finset.range (N * L), ∑ b ∈ Finset.range (N * L), if a < L ∨ b < L then
    Complex.exp (Complex.I * p * ((b : ℂ) - a)) *
      (windowBraket L l r 0 (N * L) (replaced L A a (B2 (a % L))) (replaced L A b (B1 (b % L)))
        - windowBraket L l r 0 (N * L) (replaced L A a (B2 (a % L))) (fun j => A (j % L))
          * windowBraket L l r 0 (N * L) (fun j => A (j % L)) (replaced L A b (B1 (b % L)))) else 0

/-- The tangent vector in the window of the sites `0, ..., w-1`, before the open indices at its ends are closed. -/
noncomputable def tangentWindow (L : ℕ) (A B : ℕ → Fin q → Matrix (Fin D) (Fin D) ℂ) (p : ℝ) (w : ℕ) (s : Fin w → Fin q) :
    Matrix (Fin D) (Fin D) ℂ :=
  ∑ n ∈ Finset.range w, Complex.exp (Complex.I * p * n) • lineProd (replaced L A n (B (n % L))) 0 w s

/-- The right gauge condition at all sites of the block. -/
def BlockGauge (L : ℕ) (A B : ℕ → Fin q → Matrix (Fin D) (Fin D) ℂ) (r : ℕ → Matrix (Fin D) (Fin D) ℂ) : Prop :=
  ∀ k < L, ∑ s, B k s * r k * (A k s)ᴴ = 0

/-- The tensors of one block of the tangent vector, closed from the right. -/
noncomputable def blockRight (L : ℕ) (A B : ℕ → Fin q → Matrix (Fin D) (Fin D) ℂ) (r : ℕ → Matrix (Fin D) (Fin D) ℂ) (p : ℝ) :
    Matrix (Fin D) (Fin D) ℂ :=
  ∑ k ∈ Finset.range L, Complex.exp (Complex.I * p * k) • chainTransfer L L A A 0 k (∑ s, B k s * r k * (A k s)ᴴ)

end EvoMPS
