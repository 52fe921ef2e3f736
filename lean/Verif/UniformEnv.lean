import Verif.Uniform
import Mathlib.Analysis.SpecialFunctions.Pow.Complex
import Mathlib.Analysis.Complex.Norm

/-!
# The uniform chain: environments

`calc_lr` of `mps_uniform.py` with its eigenvalue back ends.  The eigenvalue solvers are parameters.
-/

namespace EvoMPS.Uni

open Matrix

/-- The part of a uniform state (`mps_uniform.py:272-291` `_init_arrays`) the model needs: lists
of length `L` are functions on `0 .. L-1`; `lL`, `rL` are `lL_before_CF`, `rL_before_CF`. -/
structure UMPS (R : Type*) (q D : ℕ) where
  L : ℕ
  A : ℕ → Ten R q D D
  AA : ℕ → Ten2 R q q D D
  l : ℕ → Matrix (Fin D) (Fin D) R
  r : ℕ → Matrix (Fin D) (Fin D) R
  lL : Matrix (Fin D) (Fin D) R
  rL : Matrix (Fin D) (Fin D) R

variable {q D : ℕ}

/-- The python list `self.A`. -/
def UMPS.list {R : Type*} (S : UMPS R q D) : List (Ten R q D D) := (List.range S.L).map S.A

/-- Index `k` of a python list of length `L` for `k = -1` (here `prev L 0`) and `k >= 0`: `l[k - 1]`
is `l (prev L k)`. -/
def prev (L k : ℕ) : ℕ := if k = 0 then L - 1 else k - 1

/-- `sp.sqrt` of a complex number. -/
noncomputable def csqrt (z : ℂ) : ℂ := z ^ (1 / 2 : ℂ)

/-- One column of the result of `la.eig(E, left=True, right=True)`. -/
structure EigTriple (n : ℕ) where
  ev : ℂ
  vl : Fin n → ℂ
  vr : Fin n → ℂ

/-- `i = np.argmax(abs(ev))`: the first entry of largest modulus; `none` (error) for an empty array. -/
noncomputable def argmaxAbs {n : ℕ} : List (EigTriple n) → Option (EigTriple n)
  | [] => none
  | e :: es => some (es.foldl (fun b e => if ‖b.ev‖ < ‖e.ev‖ then e else b) e)

/-- The eigenvalue solver of `_calc_lr_brute`. -/
abbrev EigFn (D : ℕ) := Matrix (Fin (D * D)) (Fin (D * D)) ℂ → Option (List (EigTriple (D * D)))

/-- `mps_uniform.py:318-334` `_calc_lr_brute`: the state with rescaled `A[0]` and the two end
matrices. -/
noncomputable def calcLrBrute (eig : EigFn D) (S : UMPS ℂ q D) :
    Option (UMPS ℂ q D × Matrix (Fin D) (Fin D) ℂ × Matrix (Fin D) (Fin D) ℂ) :=
  (denseBlock S.list S.list 0).bind fun E =>
  (eig E).bind fun w =>
  (argmaxAbs w).bind fun e =>
  let S := { S with A := Function.update S.A 0 fun s => (1 / csqrt e.ev) • S.A 0 s }
  let lL : Matrix (Fin D) (Fin D) ℂ := reshape e.vl
  let rL : Matrix (Fin D) (Fin D) ℂ := reshape e.vr
  let norm := adot lL rL
  some (S, (1 / csqrt norm) • lL, (1 / csqrt norm) • rL)

/-- `v.mean()`. -/
noncomputable def mean {n : ℕ} (v : Fin n → ℂ) : ℂ := (forSum n v) / (n : ℂ)

/-- `mps_uniform.py:387-392`: remove the phase factor.  The comparison of complex numbers is
numpy's, by real part first. -/
noncomputable def removePhase {n : ℕ} (v : Fin n → ℂ) : Fin n → ℂ :=
  let eVmean := mean v
  let v : Fin n → ℂ := csqrt (star eVmean / eVmean) • v
  if (mean v).re < 0 ∨ (mean v).re = 0 ∧ (mean v).im < 0 then (-1 : ℂ) • v else v

/-- The solver of `_calc_lr_ARPACK` (`las.eigs` with its retry loop `mps_uniform.py:362-385`, which is modelled in
`Retry.lean`): it sees the operator and the start vector and returns the eigenvalue of largest modulus and
its eigenvector, or fails. -/
abbrev EigsFn (D : ℕ) := ((Fin (D * D) → ℂ) → Option (Fin (D * D) → ℂ)) →
  Matrix (Fin D) (Fin D) ℂ → Option (ℂ × (Fin (D * D) → ℂ))

/-- `mps_uniform.py:345-411` `_calc_lr_ARPACK` with `A1 = A2 = self.A`: the vector and the rescaled
tensors.  The scaling of the start vector (line 360) is left to the solver; the sanity checks
only print. -/
noncomputable def calcLrArpack (eigs : EigsFn D) (calcL rescale : Bool) (S : UMPS ℂ q D)
    (x : Matrix (Fin D) (Fin D) ℂ) : Option (UMPS ℂ q D × Matrix (Fin D) (Fin D) ℂ) :=
  (eigs (EOp.matvec ⟨S.list, S.list, calcL⟩ 0) x).bind fun p =>
  let eV : Matrix (Fin D) (Fin D) ℂ := reshape (removePhase p.2)
  let fac := (1 / csqrt p.1) ^ (1 / (S.L : ℂ))
  let S := if rescale then { S with A := fun k s => fac • S.A k s } else S
  some (S, eV)

/-- An eigenvalue back end of `calc_lr`.  `aliased`: the returned matrices are the arrays
`lL_before_CF`, `rL_before_CF` themselves (lines 396, 576 return the argument). -/
structure Backend (q D : ℕ) where
  run : Bool → UMPS ℂ q D →
    Option (UMPS ℂ q D × Matrix (Fin D) (Fin D) ℂ × Matrix (Fin D) (Fin D) ℂ)
  aliased : Bool

/-- `mps_uniform.py:614-615`.  The argument `rescale` is not passed on. -/
noncomputable def bruteBackend (eig : EigFn D) : Backend q D where
  run := fun _ S => calcLrBrute eig S
  aliased := false

/-- `mps_uniform.py:617-627`: first `l`, rescaling the tensors, then `r`.  `eigsL`, `eigsR`: `which='LM'` and
`which='LR'`. -/
noncomputable def arpackBackend (eigsL eigsR : EigsFn D) : Backend q D where
  run := fun rescale S =>
    (calcLrArpack eigsL true rescale S S.lL).bind fun p =>
    (calcLrArpack eigsR false false p.1 p.1.rL).bind fun p' =>
    some (p'.1, p.2, p'.2)
  aliased := true

/-- `mps_uniform.py:614-640`: which back end is used.  `power` is the power iteration `_calc_lr`. -/
noncomputable def backend (evBrute evUseArpack : Bool) (eig : EigFn D) (eigsL eigsR : EigsFn D)
    (power : Backend q D) : Backend q D :=
  if evBrute = true ∨ D ≤ 3 then bruteBackend eig
  else if evUseArpack then arpackBackend eigsL eigsR else power

/-- `x.fill(1)`. -/
def ones : Matrix (Fin D) (Fin D) ℂ := Matrix.of fun _ _ => 1

/-- Assign `self.l[-1]`, `self.r[-1]`. -/
def setEnds (S : UMPS ℂ q D) (l r : Matrix (Fin D) (Fin D) ℂ) : UMPS ℂ q D :=
  { S with l := Function.update S.l (S.L - 1) l, r := Function.update S.r (S.L - 1) r }

/-- `self.lL_before_CF`, `self.rL_before_CF`. -/
def setBefore (S : UMPS ℂ q D) (l r : Matrix (Fin D) (Fin D) ℂ) : UMPS ℂ q D :=
  { S with lL := l, rL := r }

/-- `mps_uniform.py:642` `norm`. -/
noncomputable def endNorm (S : UMPS ℂ q D) : ℝ := (adot (S.l (S.L - 1)) (S.r (S.L - 1))).re

/-- `mps_uniform.py:613-648`: `n` attempts are left; the state and the variable `norm` after the loop.
Overwriting the start vectors by ones overwrites the end matrices too if they are the same arrays. -/
noncomputable def lrTries (be : Backend q D) (rescale : Bool) :
    ℕ → UMPS ℂ q D → ℝ → Option (UMPS ℂ q D × ℝ)
  | 0, S, norm => some (S, norm)
  | n + 1, S, _ => (be.run rescale S).bind fun p =>
    let S := setEnds p.1 p.2.1 p.2.2
    let norm := endNorm S
    if |norm| < 1e-10 then
      let S := setBefore S ones ones
      let S := if be.aliased then setEnds S ones ones else S
      lrTries be rescale n S norm
    else some (S, norm)

/-- `mps_uniform.py:663-664`: `for k in range(L - 1, 0, -1): r[k - 1] = eps_r(r[k], A[k], A[k])`. -/
noncomputable def fillR (S : UMPS ℂ q D) : UMPS ℂ q D :=
  { S with r := (List.range' 1 (S.L - 1)).reverse.foldl (fun r k =>
      Function.update r (k - 1) (epsR (r k) (S.A k) (S.A k))) S.r }

/-- `mps_uniform.py:666-667`: `for k in range(0, L - 1): l[k] = eps_l(l[k - 1], A[k], A[k])`. -/
noncomputable def fillL (S : UMPS ℂ q D) : UMPS ℂ q D :=
  { S with l := (List.range (S.L - 1)).foldl (fun l k =>
      Function.update l k (epsL (l (prev S.L k)) (S.A k) (S.A k))) S.l }

/-- `mps_uniform.py:653-660`: normalise the end matrices.  `ma.sqrt` raises for a negative argument, the
division for zero. -/
noncomputable def normEnds (symmGauge : Bool) (S : UMPS ℂ q D) (norm : ℝ) : Option (UMPS ℂ q D) :=
  if norm ≤ 0 then none else
  let c : ℂ := ((1 / Real.sqrt norm : ℝ) : ℂ)
  let S := setEnds S (c • S.l (S.L - 1)) (c • S.r (S.L - 1))
  if symmGauge then some S else
  let fac : ℂ := (((D : ℝ) / (S.r (S.L - 1)).trace.re : ℝ) : ℂ)
  some (setEnds S ((1 / fac) • S.l (S.L - 1)) (fac • S.r (S.L - 1)))

/-- `mps_uniform.py:593-711` `calc_lr(rescale)` without the sanity checks (which only print).
`none`: an exception. -/
noncomputable def calcLr (be : Backend q D) (symmGauge rescale : Bool) (S : UMPS ℂ q D) :
    Option (UMPS ℂ q D) :=
  (lrTries be rescale 2 S 0).bind fun p =>
  let S := setBefore p.1 (p.1.l (p.1.L - 1)) (p.1.r (p.1.L - 1))
  (normEnds symmGauge S p.2).bind fun S =>
  some (fillL (fillR S))

end EvoMPS.Uni
