import Verif.Spec

/-!
# Specification: tangent vectors

No model definitions are used here.  A tangent vector of the set of matrix product states at the
tensors `A` is a sum of states in which one tensor is replaced.
-/

namespace EvoMPS

open Matrix

section
variable {R : Type*} [CommRing R] {q D : ℕ → ℕ} {N : ℕ}

/-- The state in which the tensor of site `k` is replaced by `B`. -/
def oneSite (A : Tensors R q D) (h0 : D 0 = 1) (hN : D N = 1) (k : ℕ)
    (B : Fin (q k) → Matrix (Fin (D k)) (Fin (D (k + 1))) R) : Cfg q N → R :=
  psi (Function.update A k B) h0 hN

/-- The tangent vector with parameters `B`; `none` is a site without contribution. -/
def tangent (A : Tensors R q D) (h0 : D 0 = 1) (hN : D N = 1)
    (B : ∀ k, Option (Fin (q k) → Matrix (Fin (D k)) (Fin (D (k + 1))) R)) : Cfg q N → R :=
  fun s => ∑ k ∈ Finset.range N, (B k).elim 0 fun b => oneSite A h0 hN k b s

variable [StarRing R]

/-- The right gauge-fixing condition `∑_s B[s] r A[s]ᴴ = 0`. -/
def RightGauge {p a b : ℕ} (A B : Fin p → Matrix (Fin a) (Fin b) R) (r : Matrix (Fin b) (Fin b) R) :
    Prop :=
  ∑ s, B s * r * (A s)ᴴ = 0

/-- The left gauge-fixing condition `∑_s A[s]ᴴ l B[s] = 0`. -/
def LeftGauge {p a b : ℕ} (A B : Fin p → Matrix (Fin a) (Fin b) R) (l : Matrix (Fin a) (Fin a) R) :
    Prop :=
  ∑ s, (A s)ᴴ * l * B s = 0

end

end EvoMPS
