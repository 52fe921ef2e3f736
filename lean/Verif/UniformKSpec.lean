import Verif.UniformSpec

/-!
# Specification: the Hamiltonian terms of the infinite chain and the matrices `K`

This file does not import the model.  `O` is a term acting on `n` neighbouring sites, one copy
starting at every site; `e k` below is the expectation value of the copy starting at site `k`.
-/

namespace EvoMPS

open Matrix

variable {R : Type*} [CommRing R] [StarRing R] {q D : ℕ}

/-- The term on the sites `k, ..., k+n-1` applied to the right environment behind them. -/
def termRight (L : ℕ) (A : ℕ → Fin q → Matrix (Fin D) (Fin D) R) (r : ℕ → Matrix (Fin D) (Fin D) R)
    (k n : ℕ) (O : (Fin n → Fin q) → (Fin n → Fin q) → R) : Matrix (Fin D) (Fin D) R :=
  ∑ s, ∑ t, O s t • (chainProd L A k n t * r ((k + n + L - 1) % L) * (chainProd L A k n s)ᴴ)

/-- The term on the sites `k, ..., k+n-1` applied to the left environment in front of them. -/
def termLeft (L : ℕ) (A : ℕ → Fin q → Matrix (Fin D) (Fin D) R) (l : ℕ → Matrix (Fin D) (Fin D) R)
    (k n : ℕ) (O : (Fin n → Fin q) → (Fin n → Fin q) → R) : Matrix (Fin D) (Fin D) R :=
  ∑ s, ∑ t, O s t • ((chainProd L A k n s)ᴴ * l ((k + L - 1) % L) * chainProd L A k n t)

/-- The matrices `K k` of the cuts before site `k`: all terms starting at site `k` or further to the
right, with their expectation values subtracted.  The recursion holds around the whole block. -/
structure KRight (L : ℕ) (A : ℕ → Fin q → Matrix (Fin D) (Fin D) R)
    (l r : ℕ → Matrix (Fin D) (Fin D) R) (n : ℕ) (O : (Fin n → Fin q) → (Fin n → Fin q) → R)
    (K : ℕ → Matrix (Fin D) (Fin D) R) : Prop where
  step : ∀ k < L, K k = (∑ s, A k s * K ((k + 1) % L) * (A k s)ᴴ) + termRight L A r k n O
    - chainExpect L A l r k n O • r ((k + L - 1) % L)
  orth : ∀ k < L, ((l ((k + L - 1) % L))ᴴ * K k).trace = 0

/-- The left matrices `K k` of the cuts behind site `k`: all terms ending at site `k` or further to
the left. -/
structure KLeft (L : ℕ) (A : ℕ → Fin q → Matrix (Fin D) (Fin D) R)
    (l r : ℕ → Matrix (Fin D) (Fin D) R) (n : ℕ) (O : (Fin n → Fin q) → (Fin n → Fin q) → R)
    (K : ℕ → Matrix (Fin D) (Fin D) R) : Prop where
  step : ∀ k < L, K k = (∑ s, (A k s)ᴴ * K ((k + L - 1) % L) * A k s)
    + termLeft L A l (k + 1 + n * L - n) n O
    - chainExpect L A l r (k + 1 + n * L - n) n O • l k
  orth : ∀ k < L, (K k * r k).trace = 0

end EvoMPS
