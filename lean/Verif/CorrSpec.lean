import Verif.UniformSpec

/-!
# Specification: connected correlations in the infinite chain

This file does not import the model.
-/

namespace EvoMPS

open Matrix

variable {R : Type*} [CommRing R] {q D : ℕ}

/-- An operator on `n1` sites times an operator on `n2` sites, with `d` sites between them. -/
def farOp {n1 n2 : ℕ} (d : ℕ) (O1 : (Fin n1 → Fin q) → (Fin n1 → Fin q) → R) (O2 : (Fin n2 → Fin q) → (Fin n2 → Fin q) → R)
    (s t : Fin (n1 + d + n2) → Fin q) : R :=
  if ∀ i : Fin d, s ((i.natAdd n1).castAdd n2) = t ((i.natAdd n1).castAdd n2) then
    O1 (fun i => s ((i.castAdd d).castAdd n2)) (fun i => t ((i.castAdd d).castAdd n2))
      * O2 (fun i => s (i.natAdd (n1 + d))) (fun i => t (i.natAdd (n1 + d))) else 0

/-- The connected correlation of the two operators, the first of which starts at site `k`. -/
def chainCorr [StarRing R] (L : ℕ) (A : ℕ → Fin q → Matrix (Fin D) (Fin D) R) (l r : ℕ → Matrix (Fin D) (Fin D) R) (k : ℕ)
    {n1 n2 : ℕ} (O1 : (Fin n1 → Fin q) → (Fin n1 → Fin q) → R) (O2 : (Fin n2 → Fin q) → (Fin n2 → Fin q) → R) (d : ℕ) : R :=
  chainExpect L A l r k (n1 + d + n2) (farOp d O1 O2)
    - chainExpect L A l r k n1 O1 * chainExpect L A l r (k + n1 + d) n2 O2

end EvoMPS
