import Verif.Basic
import Verif.Spec
import Mathlib.Data.Complex.Basic

/-!
# Specification: time steps

No model definitions are used here.
-/

namespace EvoMPS

open Matrix

variable {q D : ℕ → ℕ}

/-- A list of tangent vector parameters, one entry per site; `none` is python's `None`. -/
abbrev BList (q D : ℕ → ℕ) := ∀ k, Option (Ten ℂ (q k) (D k) (D (k + 1)))

/-- The tensors after a step of size `c` in direction `B`. -/
def moved (A : Tensors ℂ q D) (c : ℂ) (B : BList q D) : Tensors ℂ q D :=
  fun k => (B k).elim (A k) fun b => A k - c • b

/-- The weighted sum `(k1 + 2 k2 + 2 k3 + k4) / 6` of the classical Runge-Kutta method, at the sites
where all four are given. -/
noncomputable def rkSum (k1 k2 k3 k4 : BList q D) : BList q D := fun k =>
  match k1 k, k2 k, k3 k, k4 k with
  | some b1, some b2, some b3, some b4 =>
    some ((1 / 6 : ℂ) • (b1 + (2 : ℂ) • b2 + (2 : ℂ) • b3 + b4))
  | _, _, _, _ => none

end EvoMPS
