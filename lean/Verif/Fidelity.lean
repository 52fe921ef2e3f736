import Verif.UniformEnv
import Mathlib.Analysis.SpecialFunctions.Pow.Real
import Mathlib.Data.EReal.Basic

/-!
# The uniform chain: fidelity per site, phase alignment, spectrum of the transfer operator

`fidelity_per_site`, `phase_align`, `calc_E_gap` and `correlation_length` of `mps_uniform.py`.  The eigenvalue solvers are
parameters.
-/

namespace EvoMPS.Uni

open Matrix

variable {q D D1 D2 : ℕ}

/-- Eigenvalues with eigenvectors as the solvers return them. -/
abbrev EigPairs (n : ℕ) := List (ℂ × (Fin n → ℂ))

/-- The solvers of `_calc_E_largest_eigenvalues`: `eig E left` is `la.eig(E, left=left, right=not left)` (and `la.eigvals(E)`, if only
the eigenvalues are used), `eigs` is `las.eigs` with `which='LM'` and the retry loop `mps_uniform.py:447-459`, which is
modelled in `Retry.lean`. -/
structure SpecLib (n : ℕ) where
  eig : Matrix (Fin n) (Fin n) ℂ → Bool → Option (EigPairs n)
  eigs : ((Fin n → ℂ) → Option (Fin n → ℂ)) → Option (EigPairs n)

/-- The behaviour assumed of the solvers, if they return: pairs of eigenvalues and eigenvectors (`la.eig` with `left=True` returns
`v` with `vᴴ E = ev vᴴ`), all eigenvalues for `la.eig`, one of largest modulus among them for `las.eigs`. -/
structure SpecLib.Ok {n : ℕ} (lib : SpecLib n) : Prop where
  eig : ∀ E left ps, lib.eig E left = some ps →
    (∀ p ∈ ps, p.2 ≠ 0 ∧ if left then Eᴴ *ᵥ p.2 = star p.1 • p.2 else E *ᵥ p.2 = p.1 • p.2) ∧
    ∀ (μ : ℂ) v, v ≠ 0 → (if left then Eᴴ *ᵥ v = star μ • v else E *ᵥ v = μ • v) → ∃ p ∈ ps, p.1 = μ
  eigs : ∀ T ps, lib.eigs T = some ps →
    (∀ p ∈ ps, p.2 ≠ 0 ∧ T p.2 = some (p.1 • p.2)) ∧
    ∀ (μ : ℂ) v, v ≠ 0 → T v = some (μ • v) → ∃ p ∈ ps, ‖μ‖ ≤ ‖p.1‖

/-- The arguments `force_dense`, `force_sparse`, `dense_cutoff`. -/
structure SpecOpts where
  forceDense : Bool
  forceSparse : Bool
  cutoff : ℕ

/-- `mps_uniform.py:413-461` `_calc_E_largest_eigenvalues(left=left, other=other)` for `k = 0`. -/
def largestEigs (lib : SpecLib (D1 * D2)) (o : SpecOpts) (left : Bool) (S : UMPS ℂ q D1) (S' : UMPS ℂ q D2) :
    Option (EigPairs (D1 * D2)) :=
  if (D1 * D2 ≤ o.cutoff ∨ o.forceDense) ∧ ¬ o.forceSparse then
    (denseBlock S.list S'.list 0).bind fun E => lib.eig E left
  else if S.L = 0 ∨ S'.L = 0 then none
  else lib.eigs ((largestOp S.list S'.list 0 left).matvec 0)

/-- `ind = abs(ev).argmax()`: the first entry of largest modulus; an error for an empty array. -/
noncomputable def argmaxPair {n : ℕ} : EigPairs n → Option (ℂ × (Fin n → ℂ))
  | [] => none
  | e :: es => some (es.foldl (fun b e => if ‖b.1‖ < ‖e.1‖ then e else b) e)

/-- `mps_uniform.py:1081-1134` `fidelity_per_site`: `d`, `w` and the eigenvector (returned with `full_output`). -/
noncomputable def fidelity (lib : SpecLib (D1 * D2)) (o : SpecOpts) (left : Bool) (S : UMPS ℂ q D1) (S' : UMPS ℂ q D2) :
    Option (ℝ × ℂ × (Fin (D1 * D2) → ℂ)) :=
  (largestEigs lib o left S S').bind fun ps =>
  (argmaxPair ps).bind fun p =>
  let L_ := S.L * S'.L / Nat.gcd S.L S'.L
  some (‖p.1‖ ^ (1 / (L_ : ℝ)), p.1, p.2)

/-- `mps_uniform.py:1136-1156` `phase_align(other)` with the default options of `fidelity_per_site`; the state afterwards and `phi`. -/
noncomputable def phaseAlign (lib : SpecLib (D1 * D2)) (S : UMPS ℂ q D1) (S' : UMPS ℂ q D2) : Option (UMPS ℂ q D1 × ℂ) :=
  (fidelity lib ⟨false, false, 64⟩ false S S').bind fun f =>
  let phi := f.2.1
  let fac := star phi / (‖phi‖ : ℂ)
  some ({ S with A := Function.update S.A 0 fun s => fac • S.A 0 s }, phi)

/-- `ev.sort()` on an array of real numbers. -/
noncomputable def sortReal (l : List ℝ) : List ℝ := l.mergeSort fun a b => decide (a ≤ b)

/-- `mps_uniform.py:463-492` `calc_E_gap()` (the options are those of `_calc_E_largest_eigenvalues`): `some none` is `NaN`. -/
noncomputable def gapE (lib : SpecLib (D * D)) (S : UMPS ℂ q D) : Option (Option ℝ) :=
  (largestEigs lib ⟨false, false, 64⟩ false S S).bind fun ps =>
  if ps.length = 1 then some none else
  match (sortReal (ps.map fun p => ‖p.1‖)).reverse with
  | ev1 :: ev2 :: _ => some (some ((ev1 - ev2) / ev1))
  | _ => none

/-- `mps_uniform.py:530-535`: drop the entries that differ by less than `tol` from the largest one, keeping the last entry.  The list is in
descending order. -/
noncomputable def dropDegenerate (tol ev1 : ℝ) : List ℝ → List ℝ
  | a :: b :: es => if ev1 - a < tol then dropDegenerate tol ev1 (b :: es) else a :: b :: es
  | es => es

/-- `mps_uniform.py:494-542` `correlation_length(tol)`; `some none` is `NaN`.  The logarithm of zero is
`-inf`, which makes the result 0; the logarithm of one is zero, which makes the result `-inf`. -/
noncomputable def corrLength (lib : SpecLib (D * D)) (tol : ℝ) (S : UMPS ℂ q D) : Option (Option EReal) :=
  if D = 1 then some (some 0) else
  (largestEigs lib ⟨false, false, 64⟩ false S S).bind fun ps =>
  match (sortReal (ps.map fun p => ‖p.1‖)).reverse with
  | [] => none
  | ev1 :: evs =>
    match dropDegenerate tol ev1 evs with
    | [] => some none
    | ev2 :: _ => some (some (if ev2 = 0 then 0 else if ev2 = 1 then ⊥ else ((-(S.L : ℝ) / Real.log ev2 : ℝ) : EReal)))

end EvoMPS.Uni
