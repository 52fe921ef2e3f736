import Verif.StepSpec
import Verif.Spec

/-!
# Specification: energies along a search direction

No model definitions are used here.
-/

namespace EvoMPS

open Matrix

variable {q D : ℕ → ℕ}

/-- The energy `⟨ψ|H|ψ⟩ / ⟨ψ|ψ⟩` of the state with the tensors `A`. -/
noncomputable def rayleigh {N : ℕ} (ham : Ham ℂ q) (A : Tensors ℂ q D) (h0 : D 0 = 1) (hN : D N = 1) : ℝ :=
  (matElem (psi (N := N) A h0 hN) ham.total (psi A h0 hN)).re
    / (braket (psi (N := N) A h0 hN) (psi A h0 hN)).re

/-- All terms that fit on the chain are given. -/
def Ham.Complete (N : ℕ) : Ham ℂ q → Prop
  | .two h => ∀ k, k + 1 < N → h k ≠ none
  | .three h => ∀ k, k + 2 < N → h k ≠ none

end EvoMPS
