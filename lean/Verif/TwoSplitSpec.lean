import Verif.SweepSpec
import Verif.DynExpSpec

/-!
# Specification: the best approximation of a state with a given number of Schmidt coefficients

No model definitions are used here.
-/

namespace EvoMPS

open Matrix

section
variable {q D : ℕ → ℕ} {N : ℕ}

/-- The states that result from the chain `A` if the tensors of the sites `k` and `k + 1` are replaced by a two-site
tensor. -/
def pairSpace (A : Tensors ℂ q D) (h0 : D 0 = 1) (hN : D N = 1) (k : ℕ) : Set (Cfg q N → ℂ) :=
  {ψ | ∃ X : Pairs ℂ q D, ψ = twoSite A h0 hN X k}

/-- `χ` is a sum of `d` products of a vector for the first `n` sites and a vector for the others. -/
def CutRank (n d : ℕ) (χ : Cfg q N → ℂ) : Prop :=
  ∃ u v : Fin d → Cfg q N → ℂ,
    (∀ l s s', (∀ i : Fin N, (i : ℕ) < n → s i = s' i) → u l s = u l s') ∧
    (∀ l s s', (∀ i : Fin N, n ≤ (i : ℕ) → s i = s' i) → v l s = v l s') ∧
    ∀ s, χ s = ∑ l, u l s * v l s

/-- The squared norm of a state. -/
noncomputable def normSq (ψ : Cfg q N → ℂ) : ℝ := (braket ψ ψ).re

/-- Among all sums of `d` products with respect to the cut behind the first `n` sites, `χ` is closest to `φ`, at the
distance `err`. -/
structure Truncated (n d : ℕ) (φ χ : Cfg q N → ℂ) (err : ℝ) : Prop where
  rank : CutRank n d χ
  err_nonneg : 0 ≤ err
  dist : normSq (φ - χ) = err ^ 2
  best : ∀ χ' : Cfg q N → ℂ, CutRank n d χ' → normSq (φ - χ) ≤ normSq (φ - χ')
  orth : braket χ (φ - χ) = 0

end

end EvoMPS
