import Verif.UniformTangentExpSpec

/-!
# Specification: superpositions of states with one changed tensor

This file does not import the model.
-/

namespace EvoMPS

open Matrix

variable {R : Type*} [CommRing R] {q D : ℕ}

/-- The matrix product of the superposition `∑ c m |m⟩` over the sites `1, ..., w`, where `|m⟩` has `B` at site `m`, `AL` before
and `AR` after it. -/
def waveProd (AL B AR : Fin q → Matrix (Fin D) (Fin D) R) (c : ℕ → R) (w : ℕ) (s : Fin w → Fin q) : Matrix (Fin D) (Fin D) R :=
  ∑ m ∈ Finset.Icc 1 w, c m • lineProd (defectLine AL B AR m) 1 w s

variable [StarRing R]

/-- `⟨O⟩` in this superposition, not normalised, with `O` on the `n` sites behind the first `a` sites of the window. -/
def waveExpect (AL B AR : Fin q → Matrix (Fin D) (Fin D) R) (c : ℕ → R) (l r : Matrix (Fin D) (Fin D) R) (a n b : ℕ)
    (O : (Fin n → Fin q) → (Fin n → Fin q) → R) : R :=
  ∑ s, ∑ t, padOp (a := a) (b := b) O s t * (lᴴ * waveProd AL B AR c (a + n + b) t * r * (waveProd AL B AR c (a + n + b) s)ᴴ).trace

end EvoMPS
