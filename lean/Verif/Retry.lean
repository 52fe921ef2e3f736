import Mathlib.Analysis.Complex.Norm

/-!
# Repeated attempts of the iterative eigenvalue solvers

The solver is a function of the number of the attempt and of the arguments that change between attempts; it
returns nothing if it raises the exception that is caught.  The number of the attempt stands for the random start
vector.  Python's loop variable keeps its last value after the loop and does not exist if the loop body never ran.
-/

namespace EvoMPS.Retry

/-- How a call ends. -/
inductive Outcome (ρ : Type)
  /-- `return` -/
  | ok (r : ρ)
  /-- `EvoMPSNoConvergence` -/
  | noConvergence
  /-- a variable has no value yet (`UnboundLocalError`) -/
  | unbound

/-- The variables after a loop: `i` and the result, if any, and the arguments of the next attempt. -/
structure St (ρ : Type) where
  i : Option ℕ
  res : Option ρ
  nev : ℕ
  ncv : ℕ
  v0 : Bool

variable {ρ : Type}

/-- The result of the first attempt is checked inside the `try` block (`mps_uniform.py:366-375`): the eigenvalue must
not be too small, and must be real if both tensors are the same objects.  `ev` is the eigenvalue of largest modulus
among those returned, after `real_if_close`. -/
noncomputable def accept (symmetric : Bool) (ev : ρ → ℂ) (r : Option ρ) : Option ρ :=
  r.bind fun r => if ‖ev r‖ < 1 / 10 ^ 12 then none else if symmetric = true ∧ (ev r).im ≠ 0 then none else some r

/-- The loop of `mps_uniform.py:362-381` with `m` attempts left, the next one being number `i`. -/
noncomputable def arpackLoop (symmetric : Bool) (ev : ρ → ℂ) (solve : ℕ → ℕ → ℕ → Bool → Option ρ) :
    ℕ → ℕ → St ρ → St ρ
  | 0, _, S => S
  | m + 1, i, S =>
    match accept symmetric ev (solve i S.nev S.ncv S.v0) with
    | some r => ⟨some i, some r, S.nev, S.ncv, S.v0⟩
    | none => arpackLoop symmetric ev solve m (i + 1) ⟨some i, S.res, S.nev + 1, S.ncv + 5, false⟩

/-- `mps_uniform.py:345-411` `_calc_lr_ARPACK` as far as the attempts are concerned.  Returned are the result and the
last `nev` and `ncv`. -/
noncomputable def calcLrArpack (symmetric : Bool) (ev : ρ → ℂ) (solve : ℕ → ℕ → ℕ → Bool → Option ρ) (nev : ℕ)
    (ncv : Option ℕ) (maxRetries : ℕ) : Outcome (ρ × ℕ × ℕ) :=
  let ncv := ncv.getD (max 20 (2 * nev + 1))
  let S := arpackLoop symmetric ev solve maxRetries 0 ⟨none, none, nev, ncv, true⟩
  match S.i with
  | none => .unbound
  | some i =>
    if (i : ℤ) = maxRetries - 1 then .noConvergence
    else match S.res with
      | none => .unbound
      | some r => .ok (r, S.nev, S.ncv)

/-- The loop of `mps_uniform.py:447-455`. -/
def largestLoop (solve : ℕ → ℕ → ℕ → Bool → Option ρ) : ℕ → ℕ → St ρ → St ρ
  | 0, _, S => S
  | m + 1, i, S =>
    match solve i S.nev S.ncv S.v0 with
    | some r => ⟨some i, some r, S.nev, S.ncv, S.v0⟩
    | none => largestLoop solve m (i + 1) ⟨some i, S.res, S.nev + 1, (S.nev + 1) * 3, S.v0⟩

/-- `mps_uniform.py:413-461` `_calc_E_largest_eigenvalues`: dense up to a cutoff, otherwise with attempts.  `ncv = 0`
stands for `None`. -/
def calcLargest (dense : ρ) (small forceDense forceSparse : Bool) (solve : ℕ → ℕ → ℕ → Bool → Option ρ) (nev ncv : ℕ)
    (hasV0 : Bool) (maxRetries : ℕ) : Outcome ρ :=
  if (small || forceDense) && !forceSparse then .ok dense
  else
    let S := largestLoop solve maxRetries 0 ⟨none, none, nev, ncv, hasV0⟩
    match S.i with
    | none => .unbound
    | some i =>
      if (i : ℤ) = maxRetries - 1 then .noConvergence
      else match S.res with
        | none => .unbound
        | some r => .ok r

/-- The loop of `tdvp_uniform.py:817-828` and `tdvp_uniform.py:946-957`: there is no `break` after success, and the
failure of the last attempt raises inside the loop (`none`). -/
def exciteLoop (maxRetries : ℕ) (solve : ℕ → ℕ → ℕ → Bool → Option ρ) : ℕ → ℕ → St ρ → Option (St ρ)
  | 0, _, S => some S
  | m + 1, i, S =>
    match solve i S.nev S.ncv S.v0 with
    | some r => exciteLoop maxRetries solve m (i + 1) ⟨some i, some r, S.nev, S.ncv, S.v0⟩
    | none =>
      if (i : ℤ) = maxRetries - 1 then none
      else exciteLoop maxRetries solve m (i + 1) ⟨some i, S.res, S.nev, max 20 (S.nev * (3 + i)), false⟩

/-- `tdvp_uniform.py:764-830` `excite_top_triv` and `tdvp_uniform.py:880-959` `excite_top_nontriv` as far as the
attempts are concerned. -/
def exciteTop (solve : ℕ → ℕ → ℕ → Bool → Option ρ) (nev : ℕ) (ncv : Option ℕ) (maxRetries : ℕ) : Outcome ρ :=
  match exciteLoop maxRetries solve maxRetries 0 ⟨none, none, nev, ncv.getD (max 20 (2 * nev + 1)), true⟩ with
  | none => .noConvergence
  | some S => match S.res with
    | none => .unbound
    | some r => .ok r

/-- The loop of `mps_uniform.py:565-574`: `step` maps `tmp` of the previous iteration to `tmp` of this one, and `test`
is the comparison of the two.  Returned are `x`, whether the loop was left by `break`, and `i`. -/
def powerLoop {V : Type} (step : V → V) (test : V → V → Bool) : ℕ → ℕ → V → V → V × Bool × Option ℕ
  | 0, i, _, x => (x, false, if i = 0 then none else some (i - 1))
  | m + 1, i, tmp, _ =>
    if test (step tmp) tmp = true then (step tmp, true, some i)
    else powerLoop step test m (i + 1) (step tmp) tmp

/-- `mps_uniform.py:544-591` `_calc_lr`, the power iteration: the vector and the flag it reports; `none` if the loop
variable does not exist. -/
def calcLrPower {V : Type} (step : V → V) (test : V → V → Bool) (maxItr : ℕ) (x : V) : Option (V × Bool × ℕ) :=
  let R := powerLoop step test maxItr 0 x x
  R.2.2.map fun i : ℕ => (R.1, decide ((i : ℤ) < maxItr - 1), i)

end EvoMPS.Retry
