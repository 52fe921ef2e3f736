import Verif.UniformSpec

/-!
# Specification: overlaps of pieces of two infinite chains

This file does not import the model.
-/

namespace EvoMPS

open Matrix

/-- The scalar product of the pieces of two infinite chains, the `n` sites from site 0 on, closed by row and column vectors. -/
def pieceOverlap {R : Type*} [CommRing R] [StarRing R] {q D D' : ℕ} (L L' : ℕ) (A : ℕ → Fin q → Matrix (Fin D) (Fin D) R)
    (A' : ℕ → Fin q → Matrix (Fin D') (Fin D') R) (u v : Fin D → R) (u' v' : Fin D' → R) (n : ℕ) : R :=
  ∑ s : Fin n → Fin q, star (pieceAmp L' A' u' v' 0 n s) * pieceAmp L A u v 0 n s

end EvoMPS
