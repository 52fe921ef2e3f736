import Verif.SwCFSpec
import Verif.UniformSpec

/-!
# Specification: inner products of states with the same bulk

This file does not import the model.
-/

namespace EvoMPS

open Matrix

/-- The inner product of two states of an infinite chain that have the same tensors outside a window: `M s`, `M' s` are the matrix
products over the window for the configuration `s` (`M'` is the bra), everything to the left is contracted to `l`, everything to the
right to `r`. -/
noncomputable def commonInner {ι : Type*} [Fintype ι] {a b : ℕ} (l : Matrix (Fin a) (Fin a) ℂ) (r : Matrix (Fin b) (Fin b) ℂ)
    (M M' : ι → Matrix (Fin a) (Fin b) ℂ) : ℂ :=
  ∑ s, (l * M s * r * (M' s)ᴴ).trace

/-- The tensors `A'` give the tensors `A` by the gauge transformation `g`, up to the phase `z`, over the number of sites after which both
blocks repeat. -/
structure BulkGauge {q D D' : ℕ} (L L' : ℕ) (A : ℕ → Fin q → Matrix (Fin D) (Fin D) ℂ) (A' : ℕ → Fin q → Matrix (Fin D') (Fin D') ℂ)
    (z : ℂ) (g : Matrix (Fin D) (Fin D') ℂ) (gi : Matrix (Fin D') (Fin D) ℂ) : Prop where
  right_inv : g * gi = 1
  left_inv : gi * g = 1
  phase : ‖z‖ = 1
  eq : ∀ s : Fin (Nat.lcm L L') → Fin q, chainProd L A 0 (Nat.lcm L L') s = z • (g * chainProd L' A' 0 (Nat.lcm L L') s * gi)

/-- The two infinite chains are the same up to a gauge transformation and a factor: the bulks are, and with the gauge matrices `g`,
`h` of the bulks the windows are. -/
def SameState {q D D' : ℕ → ℕ} {qL qR N : ℕ} (T : SwTensors q D qL qR N) (T' : SwTensors q D' qL qR N) : Prop :=
  ∃ g gi h hi z w, ∃ κ : ℂ, BulkGauge T.LL T'.LL T.AL T'.AL z g gi ∧ BulkGauge T.LR T'.LR T.AR T'.AR w h hi ∧
    ∀ s : Cfg q N, amp T.A N s = κ • (g * amp T'.A N s * hi)

end EvoMPS
