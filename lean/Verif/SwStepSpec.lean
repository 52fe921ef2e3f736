import Verif.Basic
import Verif.Spec
import Mathlib.Data.Complex.Basic

/-!
# Specification: time steps of a window of sites `1, ..., N`

No model definitions are used here.
-/

namespace EvoMPS

variable {q D : ℕ}

/-- Tangent vector parameters of the sites `1, ..., N`; `none` is python's `None`. -/
abbrev WList (q D : ℕ) := ℕ → Option (Ten ℂ q D D)

/-- The tensors after a step of size `c` in direction `B`. -/
def movedW (A : ℕ → Ten ℂ q D D) (c : ℂ) (B : WList q D) : ℕ → Ten ℂ q D D :=
  fun n => (B n).elim (A n) fun b => A n - c • b

/-- The weighted sum `(k1 + 2 k2 + 2 k3 + k4) / 6`, at the sites where all four are given. -/
noncomputable def rkSumW (k1 k2 k3 k4 : WList q D) : WList q D := fun n =>
  match k1 n, k2 n, k3 n, k4 n with
  | some b1, some b2, some b3, some b4 => some ((1 / 6 : ℂ) • (b1 + (2 : ℂ) • b2 + (2 : ℂ) • b3 + b4))
  | _, _, _, _ => none

end EvoMPS
