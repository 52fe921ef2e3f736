import Verif.UniformTangentSpec

/-!
# Specification: the state with one tensor between two uniform states

This file does not import the model.
-/

namespace EvoMPS

open Matrix

variable {R : Type*} [CommRing R] {q D : ℕ}

/-- The tensor `A` at the sites before `nb`, `B` at site `nb`, `A2` at the sites after it. -/
def defectLine (A B A2 : Fin q → Matrix (Fin D) (Fin D) R) (nb : ℕ) : ℕ → Fin q → Matrix (Fin D) (Fin D) R :=
  fun j => if j < nb then A else if j = nb then B else A2

variable [StarRing R]

/-- `⟨O⟩` in a state given by its tensors at the sites `1, ..., w`, with the environments `l` before site 1 and `r` after
site `w`, where `O` acts on the `n` sites from site `k + 1` on. -/
def lineExpect (X : ℕ → Fin q → Matrix (Fin D) (Fin D) R) (l r : Matrix (Fin D) (Fin D) R) (w k n : ℕ)
    (O : (Fin n → Fin q) → (Fin n → Fin q) → R) : R :=
  windowElem 1 (fun _ => l) (fun _ => r) 1 k n (w - k - n) O X X

end EvoMPS
