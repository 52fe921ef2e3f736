import Verif.Drivers
import Mathlib.Analysis.SpecialFunctions.Log.Base
import Mathlib.Data.Matrix.Mul

/-!
# `gexpmv` (`sexpmv.py`)

The Krylov exponential with its step size control.  Numbers are exact.  `scipy.linalg.expm` is the parameter
`expm`, the operator is the parameter `matvec`.  `none` is an exception or a run that needs more than `fuel`
rounds of one of its loops.  The times are real.
-/

namespace EvoMPS.Krylov

open Dyn (pyInt)

/-- `la.norm`. -/
noncomputable def vnorm {n : ℕ} (x : Fin n → ℂ) : ℝ := Real.sqrt (∑ i, ‖x i‖ ^ 2)

/-- `sp.vdot`. -/
noncomputable def vdot {n : ℕ} (x y : Fin n → ℂ) : ℂ := ∑ i, star (x i) * y i

/-- Python's `round`: to the nearest integer, ties to even. -/
noncomputable def pyRound (x : ℝ) : ℤ :=
  if x - ⌊x⌋ < 1 / 2 then ⌊x⌋ else if 1 / 2 < x - ⌊x⌋ then ⌊x⌋ + 1 else if Even ⌊x⌋ then ⌊x⌋ else ⌊x⌋ + 1

/-- `sexpmv.py:83-84` (and `172-173`, `200-201`): a number with two significant digits near `x`; `log10` raises
unless `x` is positive.  `SQR1` is `sqrt(0.1)` (line 79), `trunc` is `pyInt`. -/
noncomputable def twoDigits (x : ℝ) : Option ℝ :=
  if 0 < x then
    let p1 : ℝ := (10 : ℝ) ^ (pyRound (Real.logb 10 x - Real.sqrt (1 / 10)) - 1)
    some (pyInt (x / p1 + 55 / 100) * p1)
  else none

/-- The rows of `vs` and the Hessenberg matrix. -/
structure Arn (n : ℕ) where
  vs : ℕ → Fin n → ℂ
  H : ℕ → ℕ → ℂ

variable {n : ℕ}

/-- `sexpmv.py:107-112`: the new vector orthogonalised against the first `j` and the overlaps.  The call of the
BLAS routine `axpy` changes the row of `vs` in place. -/
noncomputable def orth (vs : ℕ → Fin n → ℂ) (j : ℕ) (x : Fin n → ℂ) : (Fin n → ℂ) × (ℕ → ℂ) :=
  (List.range j).foldl (fun p i => (p.1 - vdot (vs i) p.1 • vs i, Function.update p.2 i (vdot (vs i) p.1)))
    (x, fun _ => 0)

/-- `sexpmv.py:103-127`: the Arnoldi loop from `j` on, `k` rounds left.  The second component is `j` if the loop was
left by the breakdown test.  A zero vector that does not pass the test (`break_tol < 0`) gives `nan`, counted as
an exception. -/
noncomputable def arnoldi (matvec : (Fin n → ℂ) → Fin n → ℂ) (breakTol : ℝ) : ℕ → ℕ → Arn n → Option (Arn n × Option ℕ)
  | 0, _, a => some (a, none)
  | k + 1, j, a =>
    let o := orth a.vs j (matvec (a.vs (j - 1)))
    let h := vnorm o.1
    let col : ℕ → ℕ → ℂ := fun r c => if c = j - 1 then o.2 r else a.H r c
    if h ≤ breakTol then some (⟨Function.update a.vs j o.1, col⟩, some j)
    else if h = 0 then none
    else
      arnoldi matvec breakTol k (j + 1)
        ⟨Function.update a.vs j ((1 / h : ℂ) • o.1), fun r c => if r = j ∧ c = j - 1 then (h : ℂ) else col r c⟩

/-- An entry of a square matrix. -/
def entry {k : ℕ} (M : Matrix (Fin k) (Fin k) ℂ) (a b : ℕ) : ℂ :=
  if h : a < k ∧ b < k then M ⟨a, h.1⟩ ⟨b, h.2⟩ else 0

/-- `H[:mx,:mx]`, scaled. -/
def slice (H : ℕ → ℕ → ℂ) (k : ℕ) (z : ℂ) : Matrix (Fin k) (Fin k) ℂ := Matrix.of fun a b => z * H a b

/-- `sexpmv.py:154-164`: the error estimate and the exponent; `1.0/(m-1)` raises for `m = 1`. -/
noncomputable def estimate (m : ℕ) (p1 p2 : ℝ) : Option (ℝ × ℝ) :=
  if p1 > 10 * p2 then some (p2, 1 / (m : ℝ))
  else if p1 > p2 then some (p1 * p2 / (p1 - p2), 1 / (m : ℝ))
  else if m = 1 then none else some (p1, 1 / ((m : ℝ) - 1))

/-- What does not change within a call. -/
structure Pars (n : ℕ) where
  matvec : (Fin n → ℂ) → Fin n → ℂ
  expm : ∀ k : ℕ, Matrix (Fin k) (Fin k) ℂ → Matrix (Fin k) (Fin k) ℂ
  m : ℕ
  tol : ℝ
  breakTol : ℝ
  sgn : ℝ
  tOut : ℝ
  rndoff : ℝ
  mxstep : ℤ

/-- `sexpmv.py:143-189`: the loop that reduces the step until the error estimate is acceptable; the step, the
estimate, the exponent and the exponential.  `mxreject` is 0, so there is no bound on the rejections. -/
noncomputable def rejectLoop (P : Pars n) (H : ℕ → ℕ → ℂ) (mb k1 : ℕ) (beta avnorm : ℝ) :
    ℕ → ℝ → ℝ → Option (ℝ × ℝ × ℝ × (ℕ → ℂ))
  | 0, _, _ => none
  | fuel + 1, tStep, xm =>
    let E := P.expm (mb + k1) (slice H (mb + k1) ((P.sgn * tStep : ℝ) : ℂ))
    if k1 = 0 then some (tStep, P.tol, xm, fun a => entry E a 0)
    else
      (estimate P.m (‖entry E P.m 0‖ * beta) (‖entry E (P.m + 1) 0‖ * beta * avnorm)).bind fun r =>
      if r.1 > 12 / 10 * tStep * P.tol then
        (twoDigits (9 / 10 * tStep * (tStep * P.tol / r.1) ^ r.2)).bind fun t =>
          rejectLoop P H mb k1 beta avnorm fuel t r.2
      else some (tStep, r.1, r.2, fun a => entry E a 0)

/-- The variables of the main loop.  `steps` are the step sizes so far, latest first (printed as `step_size` with
`verbose=True`). -/
structure GState (n : ℕ) where
  w : Fin n → ℂ
  beta : ℝ
  tNow : ℝ
  tNew : ℝ
  nstep : ℕ
  k1 : ℕ
  brk : Bool
  mb : ℕ
  xm : ℝ
  xErr : ℝ
  sErr : ℝ
  steps : List ℝ

/-- `sexpmv.py:93-221`: one round of the main loop.  Dividing by `beta = 0` fills the arrays with `nan`, counted
as an exception; so is the `inf` resulting from an error estimate 0. -/
noncomputable def gStep (P : Pars n) (fuel : ℕ) (g : GState n) : Option (GState n) :=
  if g.beta = 0 then none
  else
    (arnoldi P.matvec P.breakTol P.m 1
      ⟨Function.update (fun _ => 0) 0 fun i => g.w i / g.beta, fun _ _ => 0⟩).bind fun ar =>
    let k1 := if ar.2 = none then g.k1 else 0
    let brk := g.brk || ar.2.isSome
    let mb := ar.2.getD g.mb
    let tStep := if ar.2 = none then min (P.tOut - g.tNow) g.tNew else P.tOut - g.tNow
    let avnorm := vnorm (P.matvec (ar.1.vs P.m))
    let H : ℕ → ℕ → ℂ := fun r c => if r = P.m + 1 ∧ c = P.m then 1 else ar.1.H r c
    (rejectLoop P H mb k1 g.beta avnorm fuel tStep g.xm).bind fun e =>
    let w : Fin n → ℂ := fun i => g.beta * ((List.range (mb + (k1 - 1))).map fun a => ar.1.vs a i * e.2.2.2 a).sum
    if e.2.1 ≤ 0 then none
    else
      (twoDigits (9 / 10 * e.1 * (e.1 * P.tol / e.2.1) ^ e.2.2.1)).map fun tNew =>
        ⟨w, vnorm w, g.tNow + e.1, tNew, g.nstep + 1, k1, brk, mb, e.2.2.1, max g.xErr (max e.2.1 P.rndoff),
          g.sErr + max e.2.1 P.rndoff, e.1 :: g.steps⟩

/-- `sexpmv.py:91-226`: the main loop. -/
noncomputable def gLoop (P : Pars n) (fuel : ℕ) : ℕ → GState n → Option (GState n)
  | 0, _ => none
  | k + 1, g =>
    if g.tNow < P.tOut then
      (gStep P fuel g).bind fun g =>
        if P.mxstep = 0 ∨ (g.nstep : ℤ) < P.mxstep then gLoop P fuel k g else some g
    else some g

/-- What `gexpmv` returns, and the step sizes in order. -/
structure GResult (n : ℕ) where
  w : Fin n → ℂ
  conv : Bool
  nstep : ℕ
  brk : Bool
  mb : ℕ
  errs : ℝ × ℝ
  steps : List ℝ

/-- `sexpmv.py:18-228` `gexpmv`.  `m = None` is `min(20, n-1)`, `break_tol = None` is `anorm*tol`; `eps` is the
machine precision.  The first step size needs a positive number under the root. -/
noncomputable def gexpmv (matvec : (Fin n → ℂ) → Fin n → ℂ)
    (expm : ∀ k : ℕ, Matrix (Fin k) (Fin k) ℂ → Matrix (Fin k) (Fin k) ℂ) (eps : ℝ) (v : Fin n → ℂ) (t anorm : ℝ)
    (m : Option ℤ) (tol : ℝ) (mxstep : ℤ) (breakTol : Option ℝ) (fuel : ℕ) : Option (GResult n) :=
  let m : ℤ := m.getD (min 20 ((n : ℤ) - 1))
  if m ≥ n ∨ m ≤ 0 then none
  else
    let beta := vnorm v
    let m := m.toNat
    let p2 := tol * (((m : ℝ) + 1) / Real.exp 1) ^ (m + 1) * Real.sqrt (2 * Real.pi * (m + 1))
    if anorm = 0 ∨ p2 / (4 * beta * anorm) ≤ 0 then none
    else
      (twoDigits (1 / anorm * (p2 / (4 * beta * anorm)) ^ (1 / (m : ℝ)))).bind fun tNew =>
      let P : Pars n := ⟨matvec, expm, m, tol, breakTol.getD (anorm * tol), SignType.sign t, |t|, eps * anorm, mxstep⟩
      (gLoop P fuel fuel ⟨v, beta, 0, tNew, 0, 2, false, m, 1 / (m : ℝ), 0, 0, []⟩).map fun g =>
        ⟨g.w, decide ((g.nstep : ℤ) < mxstep), g.nstep, g.brk, g.mb, (g.xErr, g.sErr), g.steps.reverse⟩

end EvoMPS.Krylov
