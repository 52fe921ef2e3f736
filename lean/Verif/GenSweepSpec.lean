import Verif.Spec
import Mathlib.Analysis.Complex.Basic

/-!
# Specification: the operator that `vari_opt_ss_sweep` minimises

No model definitions are used here.
-/

namespace EvoMPS

/-- The sum of the local Hamiltonian (if it is used) and of the matrix product operator (if one is given). -/
noncomputable def sweepH {q M : ℕ → ℕ} (N : ℕ) (ham : Ham ℂ q) (useLocal : Bool)
    (W : Option (∀ n, Fin (M n) → Fin (M (n + 1)) → Fin (q n) → Fin (q n) → ℂ)) (hM0 : M 0 = 1) (hMN : M N = 1) :
    Matrix (Cfg q N) (Cfg q N) ℂ :=
  (if useLocal then Matrix.of (ham.total (N := N)) else 0)
    + W.elim 0 fun W => Matrix.of (mpoOp (N := N) 0 N hM0 hMN W)

end EvoMPS
