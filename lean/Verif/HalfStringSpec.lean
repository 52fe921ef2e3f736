import Verif.HalfChainSpec
import Mathlib.Analysis.Complex.Basic

/-!
# Specification: strings of one-site operators that are symmetries of a uniform state

This file does not import the model.
-/

namespace EvoMPS

open Matrix

variable {q D : ℕ}

/-- The string of `op` is a symmetry of the state: applying `op` to every site is a change of gauge by the unitary matrices `V` of the
bonds, up to the phases `w`. -/
structure StringSym (L : ℕ) (A : ℕ → Fin q → Matrix (Fin D) (Fin D) ℂ) (op : Fin q → Fin q → ℂ) (V : ℕ → Matrix (Fin D) (Fin D) ℂ)
    (w : ℕ → ℂ) : Prop where
  unitary : ∀ j < L, V j * (V j)ᴴ = 1
  phase : ∀ j < L, ‖w j‖ = 1
  site : ∀ j < L, ∀ s, ∑ t, op s t • A j t = w j • (V ((j + L - 1) % L) * A j s * (V j)ᴴ)

/-- `op` is unitary. -/
def OpUnitary (op : Fin q → Fin q → ℂ) : Prop := ∀ t t', ∑ s, op s t * star (op s t') = if t = t' then 1 else 0

/-- The matrix `G` describes what the string does to the vectors of the half chain that starts at site `k`: applied to the first `n` sites it
gives the amplitudes of the vectors transformed by `G`, up to a unitary transformation `W` at the far end. -/
def StringAction (L : ℕ) (A : ℕ → Fin q → Matrix (Fin D) (Fin D) ℂ) (op : Fin q → Fin q → ℂ) (k : ℕ) (G : Matrix (Fin D) (Fin D) ℂ) : Prop :=
  ∀ n, ∃ W : Matrix (Fin D) (Fin D) ℂ, W * Wᴴ = 1 ∧
    ∀ s : Fin n → Fin q, ∑ t, tensorOp n (fun _ => op) s t • chainProd L A k n t = G * chainProd L A k n s * W

end EvoMPS
