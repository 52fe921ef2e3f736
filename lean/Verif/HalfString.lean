import Verif.HalfChain
import Mathlib.Analysis.SpecialFunctions.Pow.Complex

/-!
# The uniform chain: string operators acting on the Schmidt vectors of a half chain

`expect_string_1s_density_hc` and `expect_string_per_site_1s` of `mps_uniform.py`.  The eigenvalue solvers are parameters.
-/

namespace EvoMPS.Uni

open Matrix

variable {q D : ℕ}

/-- `las.eigs(op, which='LM', k=1)`: one eigenvalue and its eigenvector. -/
abbrev Eigs1 (n : ℕ) := ((Fin n → ℂ) → Option (Fin n → ℂ)) → Option (ℂ × (Fin n → ℂ))

/-- The behaviour assumed of `las.eigs`, if it returns: a unit eigenvector of an eigenvalue of largest modulus. -/
def Eigs1.Ok {n : ℕ} (eigs : Eigs1 n) : Prop :=
  ∀ T e v, eigs T = some (e, v) → T v = some (e • v) ∧ ∑ i, ‖v i‖ ^ 2 = 1 ∧ ∀ (μ : ℂ) x, x ≠ 0 → T x = some (μ • x) → ‖μ‖ ≤ ‖e‖

/-- The array that `op` stands for; `mps_uniform.py:1616-1618`, `1777-1779` (a function is evaluated for all pairs of indices). -/
def OpArg.array : OpArg q → Fin q → Fin q → ℂ
  | .arr o => o
  | .fn o => o

/-- `np.tensordot(op, A, axes=([1],[0]))`. -/
def opTen (op : Fin q → Fin q → ℂ) (A : Ten ℂ q D D) : Ten ℂ q D D := fun s => ∑ t, op s t • A t

/-- `mps_uniform.py:1625-1631`, `1783-1790`: the product for `D = 1`. -/
noncomputable def stringD1 (Aop A : List (Ten ℂ q D D)) (i : Fin D) : ℂ :=
  (List.range A.length).foldl (fun ev j => ev * ∑ s, (Aop.getD j 0) s i i * star ((A.getD j 0) s i i)) 1

/-- `mps_uniform.py:1224-1247` `schmidt_sq`: `l.dot(r).diag`, or `la.eigvals` if this has no attribute `diag`. -/
def uSchmidtSq (eigvals : Matrix (Fin D) (Fin D) ℂ → Fin D → ℂ) (l r : MM ℂ D D) : Fin D → ℂ :=
  let lr := l.dot r
  match lr with
  | .diag d => d
  | x => eigvals x.toArray

/-- `ssq.real.argmax()`: the first largest entry. -/
noncomputable def argmaxRe (f : Fin D → ℂ) : Option (Fin D) :=
  match List.finRange D with
  | [] => none
  | i :: is => some (is.foldl (fun b j => if (f b).re < (f j).re then j else b) i)

/-- `mps_uniform.py:1577-1664` `expect_string_1s_density_hc(op, k)`: `expvals`, `ol_per_site` and `virtop`, the last one is returned if
`return_g` is set.  `none` is a raised exception, `none` in place of an array is an array of NaN: the phase is `0 / 0` if `expvals[ind]` is
zero.  `lm`, `rm` are the objects in the lists `l`, `r`, `symm` is `self.symm_gauge`, `junk` what the buffer of the
solver's operator holds.  For `D = 1` the second value is really an array with one entry. -/
noncomputable def UMPS.strHc (S : UMPS ℂ q D) (eigs : Eigs1 (D * D)) (eigvals : Matrix (Fin D) (Fin D) ℂ → Fin D → ℂ) (junk : Matrix (Fin D) (Fin D) ℂ)
    (lm rm : ℕ → MM ℂ D D) (symm : Bool) (op : OpArg q) (k : ℕ) : Option (Option (Fin D → ℂ) × ℂ × Option (Matrix (Fin D) (Fin D) ℂ)) :=
  let op := op.array
  let Ashift := rotList k S.list
  let Aop := Ashift.map (opTen op)
  (if h : D = 1 then some (stringD1 Aop Ashift ⟨0, by omega⟩, fun _ => 1)
    else eigs ((EOp.mk Aop Ashift false).matvec junk)).bind fun e =>
  let virtop : Matrix (Fin D) (Fin D) ℂ := reshape e.2
  let kp := (k + S.L - 1) % S.L
  (if symm then (rm kp).inv.map fun ri => (ri.dot (.dense virtop)).toArray else some (((Real.sqrt D : ℝ) : ℂ) • virtop)).bind fun virtop =>
  let expvals := virtop.diag
  let ssq := uSchmidtSq eigvals (lm kp) (rm kp)
  (argmaxRe ssq).map fun ind =>
  let ol := e.1 ^ (1 / (S.L : ℂ))
  if expvals ind = 0 then (none, ol, none) else
  let phase := star (expvals ind) / (‖expvals ind‖ : ℂ)
  (some (phase • expvals), ol, some (phase • virtop))

/-- `mps_uniform.py:1752-1794` `expect_string_per_site_1s(op)`; the result is really an array with one entry. -/
noncomputable def UMPS.strPerSite (S : UMPS ℂ q D) (eigs : Eigs1 (D * D)) (junk : Matrix (Fin D) (Fin D) ℂ) (op : OpArg q) : Option ℂ :=
  let op := op.array
  let Aop := S.list.map (opTen op)
  if h : D = 1 then some (stringD1 Aop S.list ⟨0, by omega⟩ ^ (1 / (S.L : ℂ))) else
  (eigs ((EOp.mk Aop S.list false).matvec junk)).map fun e => e.1 ^ (1 / (S.L : ℂ))

end EvoMPS.Uni
