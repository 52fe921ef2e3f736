import Verif.Measure
import Mathlib.NumberTheory.Zsqrtd.GaussianInt

/-! # A concrete state used to show that hypotheses can be met -/

namespace EvoMPS

namespace Ex

/-- Site dimensions 2, 3, 2, ... -/
def q (n : ℕ) : ℕ := if n = 1 then 3 else 2
/-- Bond dimensions 1, 2, 2, 1, 1, ... -/
def D (n : ℕ) : ℕ := if n = 1 ∨ n = 2 then 2 else 1

/-- Tensors with Gaussian integer entries. -/
def A : Tensors GaussianInt q D := fun n s i j =>
  ⟨n + s.val + i.val, 2 * j.val - s.val⟩

/-- A three-site state before its environments have been computed. -/
def S0 : MPS GaussianInt q D := ⟨A, fun _ => 1, fun _ => 1⟩

/-- The same after `update(restore_CF=False)`. -/
def S : MPS GaussianInt q D := updateNoCF 3 S0

theorem upToDate : UpToDate 3 S.A S.l S.r := (updateNoCF_upToDate 3 S0 rfl rfl).2

end Ex


end EvoMPS
