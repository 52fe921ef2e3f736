import Verif.UniformSpec

/-!
# Specification: operators on one half of the infinite chain

This file does not import the model.  The bond index `α` of the cut in front of site `k` labels a vector `Φ_α` of the half chain
`k, k+1, ...`.  Its amplitudes on the first `n` sites are the rows of the matrix products of these sites; the vectors of the rest of
the chain have the scalar products `r`.
-/

namespace EvoMPS

open Matrix

variable {R : Type*} [CommRing R] [StarRing R] {q D : ℕ}

/-- The matrix elements `⟨Φ_β| O |Φ_α⟩` of an operator on the first `n` sites of the half chain that starts at site `k`. -/
def halfElem (L : ℕ) (A : ℕ → Fin q → Matrix (Fin D) (Fin D) R) (r : ℕ → Matrix (Fin D) (Fin D) R) (k n : ℕ)
    (O : (Fin n → Fin q) → (Fin n → Fin q) → R) (α β : Fin D) : R :=
  ∑ s, ∑ t, O s t * (chainProd L A k n t * r ((k + n + L - 1) % L) * (chainProd L A k n s)ᴴ) α β

/-- The operator `op` on site number `j`, the identity on the others. -/
def halfSiteOp (op : Fin q → Fin q → R) (j i : ℕ) : Fin q → Fin q → R := if i = j then op else siteId

/-- The matrix elements of the sum of `op` over the first `n` sites of the half chain. -/
def halfSum (L : ℕ) (A : ℕ → Fin q → Matrix (Fin D) (Fin D) R) (r : ℕ → Matrix (Fin D) (Fin D) R) (k n : ℕ)
    (op : Fin q → Fin q → R) (α β : Fin D) : R :=
  ∑ j ∈ Finset.range n, halfElem L A r k n (tensorOp n (halfSiteOp op j)) α β

/-- The squared norms `⟨Φ_α|Φ_α⟩`. -/
def halfNorm (L : ℕ) (A : ℕ → Fin q → Matrix (Fin D) (Fin D) R) (r : ℕ → Matrix (Fin D) (Fin D) R) (k n : ℕ) (α : Fin D) : R :=
  halfElem L A r k n (tensorOp n fun _ => siteId) α α

end EvoMPS
