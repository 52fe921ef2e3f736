import Verif.SwEnergySpec
import Verif.UniformDynSpec

/-!
# Specification: a window between two uniform chains with a pair of neighbouring tensors replaced

This file does not import the model.  States that agree with the chain outside of the sites `c, ..., c+w-1` are compared by summing over the
configurations of these sites and closing them with the environments of the chain.
-/

namespace EvoMPS

open Matrix

variable {q D : ℕ}

/-- The matrix product over the sites `c, ..., c+n-1` in which the tensors of the sites `p` and `p + 1` are replaced by the two-site
tensor `Z`; the pair is inside, that is `c ≤ p` and `p + 1 < c + n`. -/
def sitePairProd (site : ℤ → Fin q → Matrix (Fin D) (Fin D) ℂ) (p : ℤ) (Z : Fin q → Fin q → Matrix (Fin D) (Fin D) ℂ) (c : ℤ)
    (n : ℕ) (s : Fin n → Fin q) : Matrix (Fin D) (Fin D) ℂ :=
  (List.ofFn fun i : Fin n => if c + i = p then 1 else
    if c + i = p + 1 then Z (s ⟨i - 1, by omega⟩) (s i) else site (c + i) (s i)).prod

/-- The overlap of the states with the pair `Z` at `p'` and with the pair `X` at `p`. -/
def sitePairBraket (site : ℤ → Fin q → Matrix (Fin D) (Fin D) ℂ) (l r : ℤ → Matrix (Fin D) (Fin D) ℂ) (c : ℤ) (w : ℕ) (p' p : ℤ)
    (Z X : Fin q → Fin q → Matrix (Fin D) (Fin D) ℂ) : ℂ :=
  closedBraket (l (c - 1)) (r (c + w - 1)) (sitePairProd site p' Z c w) (sitePairProd site p X c w)

/-- `⟨Z|H|ψ⟩` where `|Z⟩` has the pair `Z` at `p` and `H` is the sum of the terms inside the window of `w` sites; the term at site `n`
acts on the `k n` sites from `n` on. -/
def sitePairHam (site : ℤ → Fin q → Matrix (Fin D) (Fin D) ℂ) (l r : ℤ → Matrix (Fin D) (Fin D) ℂ) (c : ℤ) (w : ℕ) (k : ℤ → ℕ)
    (O : ∀ n, (Fin (k n) → Fin q) → (Fin (k n) → Fin q) → ℂ) (p : ℤ) (Z : Fin q → Fin q → Matrix (Fin D) (Fin D) ℂ) : ℂ :=
  ∑ a ∈ (Finset.range w).filter fun a : ℕ => a + k (c + a) ≤ w,
    closedElem (l (c - 1)) (r (c + (a + k (c + a) + (w - k (c + a) - a) : ℕ) - 1)) a (k (c + a)) (w - k (c + a) - a) (O (c + a))
      (sitePairProd site p Z c _) (siteProd site c _)

end EvoMPS
