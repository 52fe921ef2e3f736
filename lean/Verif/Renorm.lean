import Verif.MpsGen
import Mathlib.Data.Complex.Basic
import Mathlib.Analysis.Real.Sqrt

/-!
# Normalisation without canonical form (`mps_gen.py`)
-/

namespace EvoMPS

open Matrix

variable {q D : ℕ → ℕ}

/-- `mps_gen.py:387-415` `simple_renorm(update_r)`.  Python's `A[N]` is `A (N-1)` here;
`self.l[N][0, 0]` is the entry `(0, 0)` of a `1 x 1` matrix. -/
noncomputable def simpleRenorm (N : ℕ) (hN : D N = 1) (S : MPS ℂ q D) (updateR : Bool) :
    MPS ℂ q D :=
  let norm : ℝ := (S.l N ⟨0, by omega⟩ ⟨0, by omega⟩).re
  let G : ℂ := ((1 / Real.sqrt norm : ℝ) : ℂ)
  let A' := Function.update S.A (N - 1) (fun s => G • S.A (N - 1) s)
  let l' := Function.update S.l N (((1 / norm : ℝ) : ℂ) • S.l N)
  let r' := if updateR then fun n => if n < N then ((1 / norm : ℝ) : ℂ) • S.r n else S.r n
    else S.r
  ⟨A', l', r'⟩

/-- `mps_gen.py:310-348` `update(restore_CF=False, normalize)`. -/
noncomputable def updateNoCFNorm (N : ℕ) (hN : D N = 1) (S : MPS ℂ q D) (normalize : Bool) :
    MPS ℂ q D :=
  let S := calcL N S
  let S := if normalize then simpleRenorm N hN S false else S
  calcR N S

end EvoMPS
