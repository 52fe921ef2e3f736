import Mathlib.Data.Real.Basic
import Mathlib.Data.List.Basic

/-!
# The integration loop `go` (`tdvp_sandwich.py`)

The loop over the steps, with the measured rows, the file they are written to and the saved state.  `time.clock`, the
output, and the rows of energies, entropies, `eta` and overlaps (which are treated like those of `op`, but each
step) are left out.  `op_every` and `save_every` are positive.
-/

namespace EvoMPS.Go

variable {σ : Type*}

/-- What the loop uses of the simulation `sim`, of type `σ`. -/
structure Sys (σ : Type*) where
  /-- `take_step(tau)` or `take_step_RK4(tau)` -/
  step : σ → σ
  /-- `update(restore_CF=True)` -/
  update : σ → σ
  /-- `grow_left(autogrow_amount)` -/
  growL : σ → σ
  /-- `grow_right(autogrow_amount)` -/
  growR : σ → σ
  /-- `N < autogrow_max_N and eta_sq[1] > 10 * eta_sq_uni.mean()` -/
  wantL : σ → Bool
  /-- `N < autogrow_max_N and eta_sq[-1] > 10 * eta_sq_uni.mean()` -/
  wantR : σ → Bool
  /-- `[expect_1s(op, n).real for n in range(-10, N + 10)]` -/
  row : σ → List ℝ
  /-- `eta < tol` -/
  reached : σ → Bool

/-- The arguments of `go`, `tdvp_sandwich.py:19-30`. -/
structure Args where
  start : ℕ
  steps : ℕ
  opEvery : ℕ
  saveEvery : ℕ
  amount : ℕ
  autogrow : Bool

/-- The variables of the loop; `file` are the rows in the file `op_save_as`, `saved` is the state in the file `save_as`. -/
structure St (σ : Type*) where
  sim : σ
  data : List (List ℝ)
  file : List (List ℝ)
  saved : Option σ

/-- `for j in range(m): for row in rows: row.insert(0, 0)`. -/
def padL (m : ℕ) (rows : List (List ℝ)) : List (List ℝ) := rows.map (List.replicate m 0 ++ ·)

/-- `for j in range(m): for row in rows: row.append(0)`. -/
def padR (m : ℕ) (rows : List (List ℝ)) : List (List ℝ) := rows.map (· ++ List.replicate m 0)

/-- `tdvp_sandwich.py:118-277`, the body of the loop for step `i`: the variables afterwards and whether the loop is left. -/
def body (P : Sys σ) (a : Args) (i : ℕ) (S : St σ) : St σ × Bool :=
  let later := decide (a.start < i)
  let stepped := if later then P.step S.sim else S.sim
  let left := later && a.autogrow && P.wantL stepped
  let right := later && a.autogrow && P.wantR stepped
  let sim := if left then P.growL stepped else stepped
  let data := if left then padL a.amount S.data else S.data
  let sim := if right then P.growR sim else sim
  let data := if right then padR a.amount data else data
  let sim := P.update sim
  let saved := if i % a.saveEvery = 0 ∨ i + 1 = a.steps then some sim else S.saved
  if i % a.opEvery = 0 then
    let row := P.row sim
    let data := data ++ [row]
    (⟨sim, data, if left || right then data else S.file ++ [row], saved⟩, later && P.reached stepped)
  else (⟨sim, data, S.file, saved⟩, later && P.reached stepped)

/-- The loop over the given step numbers. -/
def loop (P : Sys σ) (a : Args) : List ℕ → St σ → St σ
  | [], S => S
  | i :: is, S => if (body P a i S).2 then (body P a i S).1 else loop P a is (body P a i S).1

/-- `tdvp_sandwich.py:19-293` `go` with `append_saved=False`: the loop over `range(counter_start, steps + 1)`. -/
def go (P : Sys σ) (a : Args) (s : σ) : St σ :=
  loop P a (List.range' a.start (a.steps + 1 - a.start)) ⟨s, [], [], none⟩

end EvoMPS.Go
