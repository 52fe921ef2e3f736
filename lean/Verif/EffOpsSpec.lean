import Verif.Energy

/-!
# Central gauge, and conditions on the Hamiltonian terms (specification)
-/

namespace EvoMPS

open Matrix

namespace Eff

section
variable {R : Type*} [CommRing R] [StarRing R] {q : ℕ → ℕ}

/-- `∑_s A[s]ᴴ A[s] = 1`. -/
def LOrth {p a b : ℕ} (A : Fin p → Matrix (Fin a) (Fin b) R) : Prop := ∑ s, (A s)ᴴ * A s = 1

/-- `∑_s A[s] A[s]ᴴ = 1`. -/
def ROrth {p a b : ℕ} (A : Fin p → Matrix (Fin a) (Fin b) R) : Prop := ∑ s, A s * (A s)ᴴ = 1

/-- The three-site term is Hermitian in its first site alone. -/
def FirstHerm {p p' p'' : ℕ} (op : Fin p → Fin p' → Fin p'' → Fin p → Fin p' → Fin p'' → R) : Prop :=
  ∀ u s t u' s' t', op u s t u' s' t' = star (op u' s t u s' t')

/-- The three-site term is Hermitian in its last two sites alone. -/
def LastHerm {p p' p'' : ℕ} (op : Fin p → Fin p' → Fin p'' → Fin p → Fin p' → Fin p'' → R) : Prop :=
  ∀ t u v t' u' v', op t u v t' u' v' = star (op t u' v' t' u v)

/-- There is a term that starts at site `j`. -/
def Has (ham : Ham R q) (j : ℕ) : Prop :=
  match ham with
  | .two h => (h j).isSome
  | .three h => (h j).isSome

end

end Eff

end EvoMPS
