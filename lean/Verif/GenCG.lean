import Mathlib.Data.Real.Basic
import Mathlib.Algebra.Module.Defs

/-!
# The conjugate-gradient step of `tdvp_gen.py`

`calc_B_CG` of a finite chain.  A tangent vector is a function of the site (python's list, entry `0` unused) with values `none`
where the chain has no parameters.  The gradient, its norm and the energy are parameters (`calc_B` and `H_expect` are modelled in
other files), and so is the line search `find_min_h_brent` (modelled in `LineSearch.lean`).  Not modelled: logging.
-/

namespace EvoMPS
namespace GenCG

/-- What `calc_B_CG` reads from the object: `grad` is `self.calc_B()`, `eta` the square root of the sum of `eta_sq`, `energy` is
`self.H_expect.real`, and `search Bs dtau_init use_tangvec_overlap` is `self.find_min_h_brent(...)`, that is the step length and the
energy found with it (`tdvp_gen.py:982-1099`). -/
structure Obj (V : Type*) where
  N : ℕ
  grad : ℕ → Option V
  eta : ℝ
  energy : ℝ
  search : (ℕ → Option V) → ℝ → Bool → ℝ × ℝ

/-- What `calc_B_CG` returns: `Bs_CG, Bs, eta, tau` (`tdvp_gen.py:1166`). -/
structure Result (V : Type*) where
  dir : ℕ → Option V
  grad : ℕ → Option V
  eta : ℝ
  tau : ℝ

variable {V : Type*} [AddCommMonoid V] [Module ℝ V]

/-- `tdvp_gen.py:1139-1142`: the loop over the sites.  `none`: `Bs_CG_0[n]` is `None` at a site where the gradient is not, so that
the product with `beta` raises. -/
def combine (grad prev : ℕ → Option V) (beta : ℝ) : ℕ → Option (ℕ → Option V)
  | 0 => some fun _ => none
  | N + 1 =>
    match combine grad prev beta N with
    | none => none
    | some f =>
      match grad (N + 1), prev (N + 1) with
      | none, _ => some f
      | some _, none => none
      | some b, some p => some fun k => if k = N + 1 then some (b + beta • p) else f k

/-- `tdvp_gen.py:1127-1142`: the search direction.  The quotient by `eta_0 = 0` is not a number in python; here it is zero, and the
theorems that speak of the quotient assume `eta_0 ≠ 0`. -/
noncomputable def direction (O : Obj V) (prev : ℕ → Option V) (eta0 : ℝ) (reset : Bool) : Option (ℕ → Option V) :=
  if reset then some O.grad
  else combine O.grad prev (max 0 (O.eta ^ 2 / eta0 ^ 2)) O.N

open Classical in
/-- `tdvp_gen.py:1102-1166` `calc_B_CG(Bs_CG_0, eta_0, dtau_init, reset, switch_threshold_eta)`. -/
noncomputable def calcBCG (O : Obj V) (prev : ℕ → Option V) (eta0 dtau : ℝ) (reset : Bool) (thr : ℝ) : Option (Result V) :=
  match direction O prev eta0 reset with
  | none => none
  | some d =>
    let etaLow : Bool := decide (O.eta < thr)
    let r := O.search d dtau etaLow
    if r.1 = 0 then some ⟨O.grad, O.grad, O.eta, r.1⟩
    else if etaLow = false ∧ O.energy < r.2 then
      let r' := O.search O.grad (dtau * (1 / 10)) false
      if O.energy < r'.2 then some ⟨O.grad, O.grad, O.eta, 0⟩
      else some ⟨O.grad, O.grad, O.eta, r'.1⟩
    else some ⟨d, O.grad, O.eta, r.1⟩

end GenCG
end EvoMPS
