import Mathlib.LinearAlgebra.Matrix.Notation
import Mathlib.Analysis.Complex.Basic

/-!
# Specification: operators on two sites given as sums of products

This file does not import the model.
-/

namespace EvoMPS

/-- The array `⟨s t| ∑ o₁ ⊗ o₂ |u v⟩` of a sum of products of one-site operators. -/
def tpDense {R : Type*} [CommRing R] {q q' : ℕ} (tp : List (Matrix (Fin q) (Fin q) R × Matrix (Fin q') (Fin q') R)) :
    Fin q → Fin q' → Fin q → Fin q' → R := fun s t u v => (tp.map fun o => o.1 s u * o.2 t v).sum

end EvoMPS
