import Verif.Basic
import Mathlib.Data.Complex.Basic
import Mathlib.Logic.Equiv.Fin.Basic
import Mathlib.Data.Fin.Tuple.Basic

/-!
# `opt_conj_grad2` (`dynamics.py`)

The optimiser hands the tensors of a uniform chain to a library routine for functions of real variables.  Parameters: `upd` is
`update(restore_CF=False)` and `updCF` is `update()`, as maps of the tensors; `energy` is `h_expect` and `calcB` is `calc_B()` of the
updated chain; `minimize` is `scipy.optimize.minimize`.
-/

namespace EvoMPS.CG2

variable {L q D : ℕ}

/-- The tensors of a block, `sys.A`. -/
abbrev Block (L q D : ℕ) := Fin L → Ten ℂ q D D

/-- `pars`, `dynamics.py:247`. -/
abbrev pars (L q D : ℕ) : ℕ := L * q * D * D

/-- The position of an entry in `sp.array(sys.A).ravel()`. -/
def flatIdx (k : Fin L) (s : Fin q) (i j : Fin D) : Fin (pars L q D) :=
  finProdFinEquiv (finProdFinEquiv (finProdFinEquiv (k, s), i), j)

/-- `sp.array(A).ravel()`. -/
def ravelBlock (A : Block L q D) (m : Fin (pars L q D)) : ℂ :=
  let a := finProdFinEquiv.symm m
  let b := finProdFinEquiv.symm a.1
  let c := finProdFinEquiv.symm b.1
  A c.1 c.2 b.2 a.2

/-- `sp.concatenate((x0.real, x0.imag))`, `dynamics.py:249`. -/
def pack (A : Block L q D) : Fin (pars L q D + pars L q D) → ℝ :=
  Fin.append (fun m => (ravelBlock A m).re) (fun m => (ravelBlock A m).im)

/-- `list((x[:pars] + 1.j * x[pars:]).reshape((L, q, D, D)))`, `dynamics.py:232, 238, 258`. -/
def unpack (x : Fin (pars L q D + pars L q D) → ℝ) : Block L q D :=
  fun k s => Matrix.of fun i j =>
    (x (Fin.castAdd _ (flatIdx k s i j)) : ℂ) + Complex.I * (x (Fin.natAdd _ (flatIdx k s i j)) : ℂ)

/-- `dynamics.py:231-235` `_opt_conj_grad2_f`. -/
noncomputable def objective (upd : Block L q D → Block L q D) (energy : Block L q D → ℂ)
    (x : Fin (pars L q D + pars L q D) → ℝ) : ℝ :=
  (energy (upd (unpack x))).re

/-- `dynamics.py:237-244` `_opt_conj_grad2_g`. -/
noncomputable def jacobian (upd : Block L q D → Block L q D) (calcB : Block L q D → Block L q D)
    (x : Fin (pars L q D + pars L q D) → ℝ) : Fin (pars L q D + pars L q D) → ℝ :=
  let B := ravelBlock (calcB (upd (unpack x)))
  Fin.append (fun m => (B m).re * 2) (fun m => (B m).im * 2)

/-- `dynamics.py:246-261` `opt_conj_grad2`: the tensors of the chain afterwards.  The options and the output are left out. -/
noncomputable def optConjGrad2
    (minimize : ((Fin (pars L q D + pars L q D) → ℝ) → ℝ) → (Fin (pars L q D + pars L q D) → ℝ) →
      ((Fin (pars L q D + pars L q D) → ℝ) → Fin (pars L q D + pars L q D) → ℝ) → Fin (pars L q D + pars L q D) → ℝ)
    (upd updCF : Block L q D → Block L q D) (energy : Block L q D → ℂ) (calcB : Block L q D → Block L q D)
    (A : Block L q D) : Block L q D :=
  let x0 := pack A
  let xo := minimize (objective upd energy) x0 (jacobian upd calcB)
  updCF (unpack xo)

end EvoMPS.CG2
