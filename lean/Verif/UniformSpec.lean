import Verif.Spec

/-!
# Specification: the infinite chain given by a block of tensors

This file does not import the model.  A uniform state is given by `L` tensors `A 0, ..., A (L-1)`
repeated over the infinite chain: site `n` carries the tensor `A (n % L)`.  Everything is
written as explicit finite sums over the basis configurations of finitely many sites.
-/

namespace EvoMPS

open Matrix

section
variable {R : Type*} [CommRing R] {q D : ℕ}

/-- The matrix product over the `n` sites `k, k+1, ..., k+n-1` of the infinite chain for the
basis configuration `s`. -/
def chainProd (L : ℕ) (A : ℕ → Fin q → Matrix (Fin D) (Fin D) R) (k n : ℕ) (s : Fin n → Fin q) :
    Matrix (Fin D) (Fin D) R :=
  (List.ofFn fun i : Fin n => A ((k + i) % L) (s i)).prod

variable [StarRing R]

/-- The transfer map of the `n` sites `k, ..., k+n-1` acting to the right, for a ket with
tensors `A` (block length `L`) and a bra with tensors `B` (block length `L'`). -/
def chainTransfer {D' : ℕ} (L L' : ℕ) (A : ℕ → Fin q → Matrix (Fin D) (Fin D) R)
    (B : ℕ → Fin q → Matrix (Fin D') (Fin D') R) (k n : ℕ) (x : Matrix (Fin D) (Fin D') R) :
    Matrix (Fin D) (Fin D') R :=
  ∑ s : Fin n → Fin q, chainProd L A k n s * x * (chainProd L' B k n s)ᴴ

/-- The transfer map of the `n` sites `k, ..., k+n-1` acting to the left. -/
def chainTransferL {D' : ℕ} (L L' : ℕ) (A : ℕ → Fin q → Matrix (Fin D) (Fin D) R)
    (B : ℕ → Fin q → Matrix (Fin D') (Fin D') R) (k n : ℕ) (x : Matrix (Fin D) (Fin D') R) :
    Matrix (Fin D) (Fin D') R :=
  ∑ s : Fin n → Fin q, (chainProd L A k n s)ᴴ * x * chainProd L' B k n s

/-- `l k` and `r k` are the environments of the cut to the right of site `k` of the block:
they obey the transfer equations around the block and have scalar product one at every cut. -/
structure ChainEnv (L : ℕ) (A : ℕ → Fin q → Matrix (Fin D) (Fin D) R)
    (l r : ℕ → Matrix (Fin D) (Fin D) R) : Prop where
  left : ∀ k < L, l k = ∑ s, (A k s)ᴴ * l ((k + L - 1) % L) * A k s
  right : ∀ k < L, r ((k + L - 1) % L) = ∑ s, A k s * r k * (A k s)ᴴ
  norm : ∀ k < L, ((l k)ᴴ * r k).trace = 1

/-- `l` and `r` are fixed points of the transfer maps of the whole block `0, ..., L-1` and their
scalar product is real. -/
structure FixedEnds (L : ℕ) (A : ℕ → Fin q → Matrix (Fin D) (Fin D) R)
    (l r : Matrix (Fin D) (Fin D) R) : Prop where
  right : chainTransfer L L A A 0 L r = r
  left : chainTransferL L L A A 0 L l = l
  real : star (lᴴ * r).trace = (lᴴ * r).trace

/-- The expectation value of an operator acting on the `n` sites `k, ..., k+n-1` of the infinite
chain (`O s t = ⟨s|O|t⟩`): everything to the left of these sites is contracted to the
left environment of the cut before site `k`, everything to the right to the right environment
of the cut after site `k+n-1`. -/
def chainExpect (L : ℕ) (A : ℕ → Fin q → Matrix (Fin D) (Fin D) R)
    (l r : ℕ → Matrix (Fin D) (Fin D) R) (k n : ℕ) (O : (Fin n → Fin q) → (Fin n → Fin q) → R) :
    R :=
  ∑ s, ∑ t, O s t * ((l ((k + L - 1) % L))ᴴ * chainProd L A k n t * r ((k + n + L - 1) % L)
    * (chainProd L A k n s)ᴴ).trace

/-- A product of one-site operators on `n` sites. -/
def tensorOp (n : ℕ) (o : ℕ → Fin q → Fin q → R) (s t : Fin n → Fin q) : R :=
  ∏ i : Fin n, o i (s i) (t i)

/-- The identity on one site. -/
def siteId (s t : Fin q) : R := if s = t then 1 else 0

/-- The factors of the operator with `op1` on the first site and `op2` on the site `d` further on. -/
def pairFactors (op1 op2 : Fin q → Fin q → R) (d i : ℕ) : Fin q → Fin q → R :=
  if i = 0 then op1 else if i = d then op2 else siteId

/-- The amplitudes of a finite piece of the chain, the `n` sites from site `k` on, closed by
the row vector `u` and the column vector `v`. -/
def pieceAmp (L : ℕ) (A : ℕ → Fin q → Matrix (Fin D) (Fin D) R) (u v : Fin D → R) (k n : ℕ)
    (s : Fin n → Fin q) : R :=
  u ⬝ᵥ (chainProd L A k n s *ᵥ v)

/-- An operator on `n` sites placed behind `a` sites and in front of `b` sites on which it
acts as the identity. -/
def padOp {a n b : ℕ} (O : (Fin n → Fin q) → (Fin n → Fin q) → R)
    (s t : Fin (a + n + b) → Fin q) : R :=
  if (∀ i : Fin a, s ((i.castAdd n).castAdd b) = t ((i.castAdd n).castAdd b)) ∧
      (∀ i : Fin b, s (i.natAdd (a + n)) = t (i.natAdd (a + n))) then
    O (fun i => s ((i.natAdd a).castAdd b)) (fun i => t ((i.natAdd a).castAdd b)) else 0

/-- Numerator of the expectation value of the padded operator in a finite piece. -/
def pieceElem (L : ℕ) (A : ℕ → Fin q → Matrix (Fin D) (Fin D) R) (u v : Fin D → R) (k a n b : ℕ)
    (O : (Fin n → Fin q) → (Fin n → Fin q) → R) : R :=
  ∑ s, ∑ t, star (pieceAmp L A u v k (a + n + b) s) * padOp (a := a) (b := b) O s t
    * pieceAmp L A u v k (a + n + b) t

/-- Squared norm of a finite piece. -/
def pieceNorm (L : ℕ) (A : ℕ → Fin q → Matrix (Fin D) (Fin D) R) (u v : Fin D → R) (k n : ℕ) : R :=
  ∑ s, star (pieceAmp L A u v k n s) * pieceAmp L A u v k n s

end

end EvoMPS
