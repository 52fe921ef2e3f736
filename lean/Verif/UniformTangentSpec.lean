import Verif.UniformSpec

/-!
# Specification: states of the infinite chain that differ from a uniform state at one site

This file does not import the model.  A state of the infinite chain is given by one tensor for
every site; two states that agree outside a window of sites are compared by summing over the
basis configurations of the window and closing it with the environments of the uniform state.
-/

namespace EvoMPS

open Matrix

variable {R : Type*} [CommRing R] {q D : ℕ}

/-- The uniform state with the tensor at site `p` of the infinite chain replaced by `b`. -/
def replaced (L : ℕ) (A : ℕ → Fin q → Matrix (Fin D) (Fin D) R) (p : ℕ) (b : Fin q → Matrix (Fin D) (Fin D) R) :
    ℕ → Fin q → Matrix (Fin D) (Fin D) R :=
  fun j => if j = p then b else A (j % L)

/-- The matrix product over the sites `c, ..., c+n-1` for a basis configuration of them. -/
def lineProd (X : ℕ → Fin q → Matrix (Fin D) (Fin D) R) (c n : ℕ) (s : Fin n → Fin q) : Matrix (Fin D) (Fin D) R :=
  (List.ofFn fun i : Fin n => X (c + i) (s i)).prod

variable [StarRing R]

/-- `⟨Y|X⟩` for two states that agree with the uniform state outside the window `c, ..., c+w-1`. -/
def windowBraket (L : ℕ) (l r : ℕ → Matrix (Fin D) (Fin D) R) (c w : ℕ)
    (Y X : ℕ → Fin q → Matrix (Fin D) (Fin D) R) : R :=
  ∑ s : Fin w → Fin q, ((l ((c + L - 1) % L))ᴴ * lineProd X c w s * r ((c + w + L - 1) % L)
    * (lineProd Y c w s)ᴴ).trace

/-- `⟨Y|O|X⟩` for two such states and the window `c, ..., c+a+n+b-1`, where `O` acts on the `n` sites
behind the first `a` sites of the window. -/
def windowElem (L : ℕ) (l r : ℕ → Matrix (Fin D) (Fin D) R) (c a n b : ℕ)
    (O : (Fin n → Fin q) → (Fin n → Fin q) → R) (Y X : ℕ → Fin q → Matrix (Fin D) (Fin D) R) : R :=
  ∑ s, ∑ t, padOp (a := a) (b := b) O s t * ((l ((c + L - 1) % L))ᴴ * lineProd X c (a + n + b) t
    * r ((c + (a + n + b) + L - 1) % L) * (lineProd Y c (a + n + b) s)ᴴ).trace

/-- `⟨Y|H|X⟩` where `H` is the sum of all copies of the `n`-site term inside the window of `w` sites. -/
def windowHam (L : ℕ) (l r : ℕ → Matrix (Fin D) (Fin D) R) (c w n : ℕ)
    (O : (Fin n → Fin q) → (Fin n → Fin q) → R) (Y X : ℕ → Fin q → Matrix (Fin D) (Fin D) R) : R :=
  ∑ a ∈ Finset.range (w + 1 - n), windowElem L l r c a n (w - n - a) O Y X

end EvoMPS
