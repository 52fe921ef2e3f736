import Verif.UniformTangentSpec
import Verif.DynExpSpec

/-!
# Specification: states of the infinite chain with a pair of neighbouring tensors replaced

This file does not import the model.
-/

namespace EvoMPS

open Matrix

variable {R : Type*} [CommRing R] {q D : ℕ}

/-- The matrix product over the sites `c, ..., c+n-1` of a uniform state in which the tensors of the sites `p` and `p + 1` are
replaced by the two-site tensor `Z`; the pair is inside, that is `c ≤ p` and `p + 1 < c + n`. -/
def pairProd (L : ℕ) (A : ℕ → Fin q → Matrix (Fin D) (Fin D) R) (p : ℕ) (Z : Fin q → Fin q → Matrix (Fin D) (Fin D) R) (c n : ℕ)
    (s : Fin n → Fin q) : Matrix (Fin D) (Fin D) R :=
  (List.ofFn fun i : Fin n => if c + i = p then 1 else
    if c + i = p + 1 then Z (s ⟨i - 1, by omega⟩) (s i) else A ((c + i) % L) (s i)).prod

/-- The matrix product over the sites `c, ..., c+n-1` of the tensors `E`, in which any number of disjoint pairs of neighbouring
tensors is replaced by `-t * X`. -/
def lineGrow (L : ℕ) (E : ℕ → Fin q → Matrix (Fin D) (Fin D) R) (X : ℕ → Fin q → Fin q → Matrix (Fin D) (Fin D) R) (t : R)
    (c n : ℕ) (s : Fin n → Fin q) : Matrix (Fin D) (Fin D) R :=
  ampGrow (q := fun _ => q) (D := fun _ => D) (fun j => E ((c + j) % L)) (fun j => X ((c + j) % L)) t n s

variable [StarRing R]

/-- `⟨P|Q⟩` for two states given by their matrix products over a window, which agree with the uniform state outside of it. -/
def closedBraket (l0 r0 : Matrix (Fin D) (Fin D) R) {n : ℕ} (P Q : (Fin n → Fin q) → Matrix (Fin D) (Fin D) R) : R :=
  ∑ s, (l0ᴴ * Q s * r0 * (P s)ᴴ).trace

/-- `⟨P|O|Q⟩` where `O` acts on the `n` sites behind the first `a` sites of the window. -/
def closedElem (l0 r0 : Matrix (Fin D) (Fin D) R) (a n b : ℕ) (O : (Fin n → Fin q) → (Fin n → Fin q) → R)
    (P Q : (Fin (a + n + b) → Fin q) → Matrix (Fin D) (Fin D) R) : R :=
  ∑ s, ∑ t, padOp (a := a) (b := b) O s t * (l0ᴴ * Q t * r0 * (P s)ᴴ).trace

/-- The overlap of two states that differ from the uniform state by the pairs `Z` at `p'` and `X` at `p`. -/
def pairBraket (L : ℕ) (A : ℕ → Fin q → Matrix (Fin D) (Fin D) R) (l r : ℕ → Matrix (Fin D) (Fin D) R) (c w p' p : ℕ)
    (Z X : Fin q → Fin q → Matrix (Fin D) (Fin D) R) : R :=
  closedBraket (l ((c + L - 1) % L)) (r ((c + w + L - 1) % L)) (pairProd L A p' Z c w) (pairProd L A p X c w)

/-- `⟨Z|H|ψ⟩` where `H` is the sum of all copies of the `n`-site term inside the window of `w` sites. -/
def pairHam (L : ℕ) (A : ℕ → Fin q → Matrix (Fin D) (Fin D) R) (l r : ℕ → Matrix (Fin D) (Fin D) R) (c w n : ℕ)
    (O : (Fin n → Fin q) → (Fin n → Fin q) → R) (p : ℕ) (Z : Fin q → Fin q → Matrix (Fin D) (Fin D) R) : R :=
  ∑ a ∈ Finset.range (w + 1 - n), closedElem (l ((c + L - 1) % L)) (r ((c + (a + n + (w - n - a)) + L - 1) % L)) a n (w - n - a) O
    (pairProd L A p Z c (a + n + (w - n - a))) (lineProd (fun j => A (j % L)) c (a + n + (w - n - a)))

end EvoMPS
