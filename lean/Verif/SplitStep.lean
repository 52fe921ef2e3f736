import Mathlib.Data.Complex.Basic

/-!
# The split-step integrator: order and duration of the local evolutions

`split_step.py:437-910` `evolve_split` and `tdvp_gen.py:1178-1390` `take_step_split`.  The object is abstract: each
local operation is an arbitrary function of its state that may fail (`none`, an exception).  The bond dimensions are
read from the state because they decide which moves are made.  The functions return what happens to the state
together with the list of local operations, in order.  The running norm estimate, which only sets the step sizes
inside the Krylov routine, is taken to be part of the state; progress output and the `debug` switch are left out.
-/

namespace EvoMPS.Split

/-- A local operation.  `step` is the third argument of `gexpmv`; the operator it is called with carries the
factor `fac`. -/
inductive Op
  /-- `evolve_A` (`split_step.py:487-523`) -/
  | site (n : ℕ) (step : ℝ)
  /-- `evolve_AA` (`split_step.py:525-572`) with its `moving_right` -/
  | pair (n : ℕ) (step : ℝ) (right : Bool)
  /-- `evolve_G` (`split_step.py:574-602`) -/
  | bond (n : ℕ) (step : ℝ)
  /-- `opt_A` (`split_step.py:604-620`) -/
  | optSite (n : ℕ)
  /-- `opt_AA` (`split_step.py:622-655`) -/
  | optPair (n : ℕ) (right : Bool)
  /-- `restore_LCF_l_seq` for one site -/
  | orthL (n : ℕ)
  /-- `restore_RCF_r_seq` for one site -/
  | orthR (n : ℕ)
  /-- `update_Heff_left` (`split_step.py:677-702`) -/
  | heffL (n : ℕ)
  /-- `update_Heff_right` (`split_step.py:704-730`) -/
  | heffR (n : ℕ)
  /-- the centre matrix is multiplied into `A[n]` from the left -/
  | mulL (n : ℕ)
  /-- the centre matrix is multiplied into `A[n]` from the right -/
  | mulR (n : ℕ)
  /-- `mps.r[n] = eye` for `1 ≤ n ≤ N` and the callback with index `i` -/
  | cb (i : ℕ)

/-- What `evolve_split` needs to know of its arguments. -/
structure Obj (σ : Type) where
  /-- `mps.N` -/
  N : ℕ
  /-- the number of entries of the array `mps.D`: `N + 1` for a finite chain (`mps_gen.py:107`), `N + 2` for a
  chain between two uniform halves (`mps_sandwich.py:76`) -/
  lenD : ℕ
  /-- `mps.q` -/
  q : ℕ → ℕ
  /-- `mps.D` -/
  D : σ → ℕ → ℕ
  /-- the effect of a local operation -/
  act : Op → σ → Option σ

/-- The state and the operations so far. -/
structure World (σ : Type) where
  s : σ
  log : List Op

variable {σ : Type}

/-- Perform one operation. -/
def run (O : Obj σ) (o : Op) (w : World σ) : Option (World σ) := (O.act o w.s).map fun s => ⟨s, w.log ++ [o]⟩

/-- Perform a list of operations. -/
def runs (O : Obj σ) : List Op → World σ → Option (World σ)
  | [], w => some w
  | o :: os, w => (run O o w).bind (runs O os)

/-- `split_step.py:467-479`: the factor of the operators and the duration passed on.  `sp.iscomplex` is true for a
nonzero imaginary part; the real part is then dropped. -/
noncomputable def splitTime (dtau : ℂ) : ℂ × ℝ :=
  let d := -dtau
  if d.im ≠ 0 then (Complex.I, d.im) else (1, d.re)

/-- The arguments of `evolve_split` that matter for the schedule.  `Dmax = none` is the default `None`. -/
structure Args where
  /-- half of the duration returned by `splitTime` -/
  h : ℝ
  dmrg : Bool
  twoSite : Bool
  switch : Bool
  Dmax : Option ℕ

/-- `split_step.py:732-757` `right_move_1site`. -/
def right1 (O : Obj σ) (a : Args) (n : ℕ) (w : World σ) : Option (World σ) :=
  (run O (if a.dmrg then .optSite n else .site n a.h) w).bind fun w =>
    if n < O.N then
      (run O (.orthL n) w).bind fun w =>
      (run O (.heffL n) w).bind fun w =>
      (if a.dmrg then some w else run O (.bond n (-a.h)) w).bind fun w =>
      run O (.mulL (n + 1)) w
    else some w

/-- `split_step.py:759-780` `right_move_2site`. -/
def right2 (O : Obj σ) (a : Args) (n : ℕ) (w : World σ) : Option (World σ) :=
  if n = O.N then some w
  else
    (run O (if a.dmrg then .optPair n true else .pair n a.h true) w).bind fun w =>
    (run O (.heffL n) w).bind fun w =>
    if n < O.N - 1 ∧ a.dmrg = false then run O (.site (n + 1) (-a.h)) w else some w

/-- `split_step.py:782-807` `left_move_1site`. -/
def left1 (O : Obj σ) (a : Args) (n : ℕ) (w : World σ) : Option (World σ) :=
  (run O (if a.dmrg then .optSite n else .site n a.h) w).bind fun w =>
  (if n > 1 then run O (.orthR n) w else some w).bind fun w =>
  (run O (.heffR n) w).bind fun w =>
    if n > 1 then
      (if a.dmrg then some w else run O (.bond (n - 1) (-a.h)) w).bind fun w =>
      run O (.mulR (n - 1)) w
    else some w

/-- `split_step.py:809-834` `left_move_2site`. -/
def left2 (O : Obj σ) (a : Args) (n : ℕ) (w : World σ) : Option (World σ) :=
  if n = 0 then some w
  else
    (run O (if a.dmrg then .optPair n false else .pair n a.h false) w).bind fun w =>
    (run O (.heffR (n + 1)) w).bind fun w =>
    (if n = 1 then run O (.heffR 1) w else some w).bind fun w =>
    if a.dmrg = false ∧ n > 1 then run O (.site n (-a.h)) w else some w

/-- `mps.D[i]` with python's meaning of an index; for `i = -1` the last entry. -/
def pyD (O : Obj σ) (s : σ) (i : ℤ) : Option ℕ :=
  if 0 ≤ i then (if i < O.lenD then some (O.D s i.toNat) else none)
  else if 0 ≤ i + O.lenD then some (O.D s (i + O.lenD).toNat) else none

/-- `split_step.py:855-860` `can_increase_D`, with the short-circuit `and`; a comparison with `None` raises. -/
def canIncreaseD (O : Obj σ) (a : Args) (n : ℕ) (s : σ) : Option Bool :=
  (pyD O s n).bind fun d =>
  a.Dmax.bind fun m =>
  if d < m then
    (pyD O s (n - 1)).bind fun dm =>
    if d < dm * O.q n then
      (pyD O s (n + 1)).bind fun dp => some (decide (d < dp * O.q (n + 1)))
    else some false
  else some false

/-- The condition of `split_step.py:869` and `split_step.py:885`: the two-site test is evaluated only with
`two_site`. -/
def useTwo (O : Obj σ) (a : Args) (n : ℕ) (s : σ) : Option Bool :=
  if a.twoSite then (canIncreaseD O a n s).map fun c => c || !a.switch else some false

/-- One iteration of the sweep to the right, `split_step.py:865-876`.  The `continue` ends the iteration, which is
over at that point in any case. -/
def rightIter (O : Obj σ) (a : Args) (n : ℕ) (w : World σ) : Option (World σ) :=
  (useTwo O a n w.s).bind fun c =>
  if c then
    (right2 O a n w).bind fun w => if (n : ℤ) = O.N - 1 then right2 O a (n + 1) w else some w
  else right1 O a n w

/-- One iteration of the sweep to the left, `split_step.py:881-892`. -/
def leftIter (O : Obj σ) (a : Args) (n : ℕ) (w : World σ) : Option (World σ) :=
  (useTwo O a (n - 1) w.s).bind fun c =>
  if c then
    (left2 O a (n - 1) w).bind fun w => if n = 2 then left2 O a (n - 2) w else some w
  else left1 O a n w

/-- Loop over a list of indices, ending with the first failure. -/
def forEach {α : Type} (f : α → World σ → Option (World σ)) : List α → World σ → Option (World σ)
  | [], w => some w
  | x :: xs, w => (f x w).bind (forEach f xs)

/-- `range(1, N + 1)`. -/
def upTo (N : ℕ) : List ℕ := List.range' 1 N

/-- One step, `split_step.py:862-908`. -/
def step (O : Obj σ) (a : Args) (hasCb : Bool) (i : ℕ) (w : World σ) : Option (World σ) :=
  (forEach (rightIter O a) (upTo O.N) w).bind fun w =>
  (forEach (leftIter O a) (upTo O.N).reverse w).bind fun w =>
  if hasCb then run O (.cb i) w else some w

/-- `split_step.py:437-910` `evolve_split`, without a matrix product operator (`HMPO=None`).  First the right
environments are computed (`split_step.py:841-842`). -/
noncomputable def evolveSplit (O : Obj σ) (dtau : ℂ) (numSteps : ℕ) (dmrg twoSite switch : Bool) (Dmax : Option ℕ)
    (hasCb : Bool) (w : World σ) : Option (World σ) :=
  let a : Args := ⟨(splitTime dtau).2 / 2, dmrg, twoSite, switch, Dmax⟩
  (forEach (fun n => run O (.heffR n)) (upTo O.N).reverse w).bind
    (forEach (step O a hasCb) (List.range numSteps))

/-! ## The method of the finite chain -/

/-- `tdvp_gen.py:1329-1348`: an iteration of the sweep to the right.  `evolve_A` and `evolve_G` unpack five values
from the six that `gexpmv` returns (`tdvp_gen.py:1253`, `tdvp_gen.py:1269`, `sexpmv.py:228`), which raises. -/
def genRight (O : Obj σ) (dmrg : Bool) (n : ℕ) (w : World σ) : Option (World σ) :=
  (if dmrg then run O (.optSite n) w else none).bind fun w =>
  (run O (.orthL n) w).bind fun w =>
  (run O (.heffL n) w).bind fun w =>
  if n < O.N then (if dmrg then some w else none).bind fun w => run O (.mulL (n + 1)) w else some w

/-- `tdvp_gen.py:1353-1371`: an iteration of the sweep to the left. -/
def genLeft (O : Obj σ) (dmrg : Bool) (n : ℕ) (w : World σ) : Option (World σ) :=
  (if dmrg then run O (.optSite n) w else none).bind fun w =>
  (run O (.orthR n) w).bind fun w =>
  (run O (.heffR n) w).bind fun w =>
  if n > 1 then (if dmrg then some w else none).bind fun w => run O (.mulR (n - 1)) w else some w

/-- `tdvp_gen.py:1178-1390` `take_step_split` without a matrix product operator, for two- or three-site
Hamiltonians and an object in right canonical form (otherwise an assertion fails). -/
def takeStepSplit (O : Obj σ) (dmrg : Bool) (w : World σ) : Option (World σ) :=
  (forEach (genRight O dmrg) (upTo O.N) w).bind (forEach (genLeft O dmrg) (upTo O.N).reverse)

end EvoMPS.Split
