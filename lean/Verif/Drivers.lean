import Mathlib.Analysis.SpecialFunctions.Pow.Real
import Mathlib.Algebra.Order.Floor.Ring

/-!
# Driver loops (`dynamics.py`)

The simulated object is abstract: its methods are arbitrary functions of its state.  The drivers return what
python returns together with the list of all calls they make, in order; that list is what the properties talk
about.  Numbers are exact; decimal literals are the rational numbers they denote.  `none` stands for an
exception.  The three flags in `Sys` record in which respects the classes differ as seen from the drivers:

* `normalizeKw`: `update` accepts `normalize` (`mps_gen.py:310`, `tdvp_gen.py:450`, `mps_sandwich.py:231`,
  `tdvp_sandwich.py:711`; not `mps_uniform.py:1050`, `tdvp_uniform.py:596`);
* `scalarD`: `sys.D` is a number (`mps_uniform.py:273`; an array in `mps_gen.py:107`, `mps_sandwich.py:76`, whose
  truth value raises `ValueError`);
* `cgCall`: `calc_B_CG` accepts the call of `opt_conj_grad` (`tdvp_uniform.py:1392`; not `tdvp_gen.py:1102`).
-/

namespace EvoMPS.Dyn

/-- What the drivers call on the object `sys`; `σ` is its state, `β` the type of tangent vectors. -/
structure Sys (σ β : Type) where
  /-- `update(restore_CF, normalize, auto_truncate)` -/
  update : Bool → Bool → Bool → σ → σ
  /-- `calc_B()` -/
  calcB : σ → β × σ
  /-- `calc_B_CG(B_CG, B_grad, BgdotBg, h, tau_init=, reset=)` -/
  calcBCG : Option β → Option β → ℝ → ℝ → ℝ → Bool → σ → (β × β × ℝ × ℝ) × σ
  /-- `take_step(dtau, B=, dynexp=, D_max=, dD_max=, sv_tol=)` -/
  takeStep : ℂ → β → Bool → ℤ → ℤ → ℝ → σ → σ
  /-- `take_step_RK4(dtau, B_i=)` -/
  takeStepRK4 : ℂ → Option β → σ → σ
  /-- `maxD_is_less_than(D_max)` -/
  maxDLess : ℤ → σ → Bool
  /-- `update` accepts the keyword `normalize` -/
  normalizeKw : Bool
  /-- `sys.D` is a number -/
  scalarD : Bool
  /-- `calc_B_CG` accepts the arguments `opt_conj_grad` passes -/
  cgCall : Bool
  /-- `sys.D`, meaningful if `scalarD` -/
  D : σ → ℤ
  /-- `sys.eta` (its real part) -/
  eta : σ → ℝ
  /-- `sys.h_expect.real` -/
  h : σ → ℝ

/-- A call made by a driver.  For the callback, the index, the value passed as keyword argument `tau` or `h` and
the state of the object at that time. -/
inductive Call (σ β : Type)
  | update (restoreCF normalize autoTruncate : Bool)
  | calcB
  | calcBCG (B_CG B_grad : Option β) (dot h tauInit : ℝ) (reset : Bool)
  | cb (i : ℤ) (kw : ℝ) (s : σ)
  | euler (dtau : ℂ) (B : β) (dynexp : Bool) (Dmax dDmax : ℤ) (svTol : ℝ)
  | rk4 (dtau : ℂ) (B : Option β)

/-- The state of the object and the calls made so far. -/
structure World (σ β : Type) where
  s : σ
  log : List (Call σ β)

variable {σ β : Type}

/-- The object after `update`. -/
def World.update (S : Sys σ β) (r n a : Bool) (w : World σ β) : World σ β :=
  ⟨S.update r n a w.s, w.log ++ [.update r n a]⟩

/-- The object after `calc_B`. -/
def World.calcB (S : Sys σ β) (w : World σ β) : World σ β := ⟨(S.calcB w.s).2, w.log ++ [.calcB]⟩

/-- The callback, if there is one.  Callbacks do not change the object. -/
def World.cb (has : Bool) (i : ℤ) (kw : ℝ) (w : World σ β) : World σ β :=
  if has then ⟨w.s, w.log ++ [.cb i kw w.s]⟩ else w

/-- The object after an Euler step. -/
def World.euler (S : Sys σ β) (dtau : ℂ) (B : β) (dynexp : Bool) (Dmax dDmax : ℤ) (svTol : ℝ) (w : World σ β) :
    World σ β :=
  ⟨S.takeStep dtau B dynexp Dmax dDmax svTol w.s, w.log ++ [.euler dtau B dynexp Dmax dDmax svTol]⟩

/-- The object after a Runge-Kutta step. -/
def World.rk4 (S : Sys σ β) (dtau : ℂ) (B : Option β) (w : World σ β) : World σ β :=
  ⟨S.takeStepRK4 dtau B w.s, w.log ++ [.rk4 dtau B]⟩

/-! ## `evolve` -/

/-- `int(x)`. -/
noncomputable def pyInt (x : ℝ) : ℤ := if 0 ≤ x then ⌊x⌋ else ⌈x⌉

/-- The outcome of the comparisons with `integ.lower()`. -/
inductive Integ | euler | rk4 | other
  deriving DecidableEq

/-- The step of `dynamics.py:26-37`.  `dt_e` is a complex number when `dt` is negative. -/
noncomputable def evolveStep (S : Sys σ β) (dt : ℝ) (integ : Integ) (dynexp : Bool) (Dmax dDmax : ℤ) (svTol : ℝ)
    (autoTruncate : Bool) (B : β) (w : World σ β) : Option (World σ β) :=
  match integ with
  | .euler => some (w.euler S (dt * Complex.I) B (dynexp && S.maxDLess Dmax w.s) Dmax dDmax svTol)
  | .rk4 =>
    if (dynexp && S.maxDLess Dmax w.s) = true then
      let dte : ℂ := (dt : ℂ) ^ (5 / 2 : ℂ)
      let dtr : ℂ := dt - dte
      let w := w.euler S (dte * Complex.I) B dynexp Dmax dDmax svTol
      if S.normalizeKw = true then
        some ((w.update S autoTruncate autoTruncate autoTruncate).rk4 S (dtr * Complex.I) none)
      else none
    else some (w.rk4 S (dt * Complex.I) (some B))
  | .other => some w

/-- `dynamics.py:17-21`: the part of an iteration before the test.  The callback gets no time; 0 is a
placeholder. -/
def evolveBefore (S : Sys σ β) (hasCb autoTruncate : Bool) (i : ℕ) (w : World σ β) : World σ β :=
  ((w.update S true true autoTruncate).calcB S).cb hasCb i 0

/-- The loop of `dynamics.py:16-37` from iteration `i` on, `m` iterations before the last one. -/
noncomputable def evolveLoop (S : Sys σ β) (dt : ℝ) (integ : Integ) (dynexp : Bool) (Dmax dDmax : ℤ) (svTol : ℝ)
    (hasCb autoTruncate : Bool) : ℕ → ℕ → World σ β → Option (World σ β)
  | 0, i, w => some (evolveBefore S hasCb autoTruncate i w)
  | m + 1, i, w =>
    let B := (S.calcB (S.update true true autoTruncate w.s)).1
    (evolveStep S dt integ dynexp Dmax dDmax svTol autoTruncate B (evolveBefore S hasCb autoTruncate i w)).bind
      (evolveLoop S dt integ dynexp Dmax dDmax svTol hasCb autoTruncate m (i + 1))

/-- `dynamics.py:12-39` `evolve`.  `restore_CF` and `normalize` are `True` by default. -/
noncomputable def evolve (S : Sys σ β) (t dt : ℝ) (integ : Integ) (dynexp : Bool) (Dmax dDmax : ℤ) (svTol : ℝ)
    (hasCb autoTruncate : Bool) (w : World σ β) : Option (World σ β) :=
  if dt = 0 then none
  else
    let n := pyInt (t / dt)
    if 0 ≤ n then evolveLoop S dt integ dynexp Dmax dDmax svTol hasCb autoTruncate n.toNat 0 w else some w

/-! ## Imaginary time -/

/-- `dynamics.py:83-113` `_im_time_autostep`: the new step and the prediction of the next change. -/
noncomputable def autostep (dtau base eta dh dhPred : ℝ) : ℝ × ℝ :=
  let fac := if |dh| < 5 / 10 ^ 13 then 0 else dhPred / dh
  let next := eta ^ 2 * dtau
  let dtau :=
    if fac = 0 then
      if dhPred ≠ 0 then
        if dh > 1 / 10 ^ 13 then max (dtau * (95 / 100)) (base * (1 / 10)) else min (dtau * (1005 / 1000)) (base * 1)
      else dtau
    else if fac < 0 then base * (1 / 100)
    else if |fac| > 3 then max (dtau * (1 - 1 / 100 * (fac - 3))) (base * (1 / 100))
    else if 2 / 10 < fac ∧ fac < 2 then min (dtau * (1 + 1 / 1000 * Real.sqrt (2 - fac))) (base * 2)
    else dtau
  (dtau, next)

/-- The variables of the loop of `opt_im_time`. -/
structure ImState (σ β : Type) where
  w : World σ β
  dtau : ℝ
  tau : ℝ
  h : ℝ
  dhPred : ℝ
  wait : ℤ

/-- The arguments of `opt_im_time`; `j` is added to the index by the wrapped callback of the drivers that call
it. -/
structure ImArgs where
  tol : ℝ
  base : ℝ
  hasCb : Bool
  autoTrunc : Bool
  autoDtau : Bool
  expandTo : ℤ
  expandTol : ℝ
  expandStep : ℤ
  expandWait : ℤ
  j : ℤ

/-- `dynamics.py:133-137`: the part of an iteration before the test. -/
def imBefore (S : Sys σ β) (a : ImArgs) (i : ℕ) (st : ImState σ β) : World σ β :=
  ((st.w.update S true true a.autoTrunc).calcB S).cb a.hasCb (a.j + i) st.tau

/-- `dynamics.py:143`: the test without the comparison with `max_itr`. -/
noncomputable def imDone (S : Sys σ β) (a : ImArgs) (wait : ℤ) (s : σ) : Prop :=
  S.eta s < a.tol ∧ S.D s = a.expandTo ∧ wait = 0

/-- `dynamics.py:139-141, 146-159`: the part of an iteration after the test. -/
noncomputable def imAfter (S : Sys σ β) (a : ImArgs) (B : β) (st : ImState σ β) (w : World σ β) : ImState σ β :=
  let eta := S.eta w.s
  let dh := st.h - S.h w.s
  let h := S.h w.s
  let p := if a.autoDtau = true then autostep st.dtau a.base eta dh st.dhPred else (st.dtau, st.dhPred)
  let dynexp : Bool := @decide (S.D w.s < a.expandTo ∧ eta < a.expandTol ∧ st.wait = 0) (Classical.dec _)
  let wait := max (st.wait - 1) 0
  ⟨w.euler S p.1 B dynexp a.expandTo a.expandStep (1 / 10 ^ 14), p.1, st.tau + p.1, h, p.2,
    if dynexp then a.expandWait else wait⟩

open Classical in
/-- The loop of `dynamics.py:132-159` from iteration `i` on, `m` iterations before the last one; the result is
the last index and the variables.  If `D` is an array, line 143, 147 or 151 raises in every iteration but the
last. -/
noncomputable def imLoop (S : Sys σ β) (a : ImArgs) : ℕ → ℕ → ImState σ β → Option (ℕ × ImState σ β)
  | 0, i, st => some (i, { st with w := imBefore S a i st })
  | m + 1, i, st =>
    let w := imBefore S a i st
    let B := (S.calcB (S.update true true a.autoTrunc st.w.s)).1
    if S.scalarD = true then
      if imDone S a st.wait w.s then some (i, { st with w := w })
      else imLoop S a m (i + 1) (imAfter S a B st w)
    else none

/-- `dynamics.py:116-161` `opt_im_time`: the object, the number of iterations, the total and the last step.
`dtau0` is `dtau_base` and `expand_to_D` is `sys.D` if not given. -/
noncomputable def optImTime (S : Sys σ β) (a : ImArgs) (dtau0 : ℝ) (maxItr : ℤ) (w : World σ β) :
    Option (World σ β × ℤ × ℝ × ℝ) :=
  if 0 ≤ maxItr then
    (imLoop S a maxItr.toNat 0 ⟨w, dtau0, 0, 0, 0, 0⟩).map fun out =>
      (out.2.w, (out.1 : ℤ) + 1, out.2.tau, out.2.dtau)
  else some (w, 0, 0, dtau0)

/-! ## Conjugate gradient -/

/-- The variables of the loop of `opt_conj_grad`. -/
structure CgState (σ β : Type) where
  w : World σ β
  bCG : Option β
  bGrad : Option β
  dot : ℝ
  h : ℝ
  h0 : ℝ

/-- The arguments of `opt_conj_grad`; negative `reset_every` are left out. -/
structure CgArgs where
  tol : ℝ
  hInit : ℝ
  resetEvery : ℕ
  hasCb : Bool
  j : ℤ

/-- `dynamics.py:176-187` in an iteration before the last: the part before the test, and the direction.  In
`update(restore_CF=reset)` the other arguments have their default values `normalize=True, auto_truncate=False`. -/
def cgBefore (S : Sys σ β) (a : CgArgs) (i : ℕ) (st : CgState σ β) : β × CgState σ β :=
  let reset : Bool := decide (i % a.resetEvery = 0)
  let w := st.w.update S reset true false
  let r := S.calcBCG st.bCG st.bGrad st.dot st.h a.hInit reset w.s
  let w : World σ β := ⟨r.2, w.log ++ [.calcBCG st.bCG st.bGrad st.dot st.h a.hInit reset]⟩
  (r.1.1, ⟨w.cb a.hasCb (a.j + i) r.1.2.2.2, some r.1.1, some r.1.2.1, r.1.2.2.1, r.1.2.2.2, st.h0⟩)

/-- `dynamics.py:176-187` in the last iteration. -/
def cgLast (S : Sys σ β) (a : CgArgs) (i : ℕ) (st : CgState σ β) : CgState σ β :=
  let w := st.w.update S true true false
  ⟨(w.calcB S).cb a.hasCb (a.j + i) st.h, st.bCG, some (S.calcB w.s).1, st.dot, st.h, st.h0⟩

/-- `dynamics.py:192-196`.  The limits of `take_step` have default values depending on the class; they are not
used without `dynexp` and 0 is a placeholder. -/
noncomputable def cgAfter (S : Sys σ β) (a : CgArgs) (i : ℕ) (B : β) (st : CgState σ β) : CgState σ β :=
  ⟨st.w.euler S st.h B false 0 0 (1 / 10 ^ 14), st.bCG, st.bGrad, st.dot, if i = 0 then a.hInit else st.h,
    if i = 0 then st.h else st.h0⟩

open Classical in
/-- The loop of `dynamics.py:175-196`. -/
noncomputable def cgLoop (S : Sys σ β) (a : CgArgs) : ℕ → ℕ → CgState σ β → Option (ℕ × CgState σ β)
  | 0, i, st => some (i, cgLast S a i st)
  | m + 1, i, st =>
    if S.cgCall = true then
      let r := cgBefore S a i st
      if S.eta r.2.w.s < a.tol then some (i, r.2)
      else cgLoop S a m (i + 1) (cgAfter S a i r.1 r.2)
    else none

/-- `dynamics.py:163-201` `opt_conj_grad`: the object, the number of iterations, the first step size.
`reset_every = 0` is `ZeroDivisionError`. -/
noncomputable def optConjGrad (S : Sys σ β) (a : CgArgs) (h0prev : Option ℝ) (maxItr : ℤ) (w : World σ β) :
    Option (World σ β × ℤ × ℝ) :=
  let h := h0prev.elim (a.hInit * 15) fun h0 => min (max h0 (a.hInit * 5)) (a.hInit * 15)
  if 0 ≤ maxItr then
    if a.resetEvery = 0 then none
    else
      (cgLoop S a maxItr.toNat 0 ⟨w, none, none, 0, h, h⟩).map fun out => (out.2.w, (out.1 : ℤ) + 1, out.2.h0)
  else some (w, 0, h)

/-! ## Combined drivers -/

open Classical in
/-- The loop of `dynamics.py:214-227`; cut off after `fuel` rounds (`none`). -/
noncomputable def gdLoop (S : Sys σ β) (tol hInit : ℝ) (maxItr imGap gapEvery : ℤ) (hasCb : Bool) :
    ℕ → ℤ → ℝ → Option ℝ → World σ β → Option (World σ β × ℤ)
  | 0, _, _, _, _ => none
  | fuel + 1, j, dtau, h0, w =>
    if j < maxItr then
      (optImTime S ⟨tol, hInit, hasCb, true, true, S.D w.s, 1 / 100, 2, 5, j⟩ dtau (min imGap (maxItr - j)) w).bind
        fun r =>
      (optConjGrad S ⟨tol, hInit, 1, hasCb, j + r.2.1⟩ h0 (min gapEvery (maxItr - (j + r.2.1))) r.1).bind fun c =>
      if S.eta c.1.s < tol then some (c.1, j + r.2.1 + c.2.1)
      else gdLoop S tol hInit maxItr imGap gapEvery hasCb fuel (j + r.2.1 + c.2.1) r.2.2.2 (some c.2.2) c.1
    else some (w, j)

/-- `dynamics.py:203-228` `opt_grad_descent`: the object and the number of iterations. -/
noncomputable def optGradDescent (S : Sys σ β) (tol hInit : ℝ) (maxItr imGap gapEvery : ℤ) (hasCb : Bool)
    (fuel : ℕ) (w : World σ β) : Option (World σ β × ℤ) :=
  gdLoop S tol hInit maxItr imGap gapEvery hasCb fuel 0 hInit none w

/-- The loop of `dynamics.py:63-76` and the last optimisation (`78-79`) of `find_ground`; `resetEvery` comes from
the keyword arguments.  The number returned beside the object is `j + dj`, which python drops. -/
noncomputable def fgLoop (S : Sys σ β) (tol hInit : ℝ) (maxItr expandTo expandStep : ℤ) (expandTol : ℝ)
    (hasCb : Bool) (resetEvery : ℕ) : ℕ → ℤ → World σ β → Option (World σ β × ℤ)
  | 0, _, _ => none
  | fuel + 1, j, w =>
    if S.scalarD = true then
      if S.D w.s < expandTo then
        (optConjGrad S ⟨expandTol, hInit, resetEvery, hasCb, j⟩ none maxItr w).bind fun c =>
        (optImTime S ⟨100, hInit, hasCb, true, true, min (S.D c.1.s + expandStep) expandTo, 100, expandStep, 5,
          j + c.2.1⟩ hInit maxItr c.1).bind fun r =>
        fgLoop S tol hInit maxItr expandTo expandStep expandTol hasCb resetEvery fuel (j + c.2.1 + r.2.1) r.1
      else
        (optConjGrad S ⟨tol, hInit, resetEvery, hasCb, j⟩ none maxItr w).map fun c => (c.1, j + c.2.1)
    else none

/-- `dynamics.py:41-81` `find_ground`; `expand_to_D` is `sys.D` and `expand_tol` is `tol` if not given. -/
noncomputable def findGround (S : Sys σ β) (tol hInit : ℝ) (maxItr expandTo expandStep : ℤ) (expandTol cgTol : ℝ)
    (hasCb : Bool) (resetEvery fuel : ℕ) (w : World σ β) : Option (World σ β × ℤ) :=
  (optImTime S ⟨cgTol, hInit, hasCb, true, true, S.D w.s, 1 / 100, 2, 5, 0⟩ hInit maxItr w).bind fun r =>
    fgLoop S tol hInit maxItr expandTo expandStep expandTol hasCb resetEvery fuel r.2.1 r.1

/-! ## `evolve_scipy_ode` -/

/-- The object the name `is_first_call_in_step` is bound to. -/
inductive Cell | list (b : Bool) | bool (b : Bool)
  deriving DecidableEq

/-- `dynamics.py:278-287` (and `332-341`): what `ifunc` does with it; `none` is `TypeError: 'bool' object is not subscriptable`. -/
def ifunc : Cell → Option Cell
  | .list true => some (.list false)
  | .list false => some (.list false)
  | .bool _ => none

/-- Several calls. -/
def ifuncs : ℕ → Cell → Option Cell
  | 0, c => some c
  | n + 1, c => (ifunc c).bind (ifuncs n)

/-- The loop of `dynamics.py:301-314` (and `359-372`): `calls i` is the number of evaluations of the right-hand side in step `i`,
`running i` the status before it; the result is the number of steps made. -/
def odeLoop (calls : ℕ → ℕ) (running : ℕ → Bool) : ℕ → ℕ → Cell → Option ℕ
  | 0, i, _ => some i
  | m + 1, i, _ =>
    if running i = true then (ifuncs (calls i) (.bool true)).bind fun c => odeLoop calls running m (i + 1) c
    else some i

/-- `dynamics.py:263-314` `evolve_scipy_ode` and `316-372` `evolve_scipy_ode_old`; `calls0` is the number of evaluations when the integrator is
made.  The model follows the name `is_first_call_in_step` and the number of steps only. -/
def scipyOde (calls0 : ℕ) (calls : ℕ → ℕ) (running : ℕ → Bool) (maxSteps : ℕ) : Option ℕ :=
  (ifuncs calls0 (.list true)).bind fun c => odeLoop calls running maxSteps 0 c

end EvoMPS.Dyn
