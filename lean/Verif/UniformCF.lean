import Verif.UniformEnv
import Verif.Canon
import Verif.DynExp
import Mathlib.LinearAlgebra.Matrix.PosDef
import Mathlib.Analysis.Complex.Order
import Mathlib.LinearAlgebra.Matrix.NonsingularInverse

/-!
# The uniform chain: canonical forms

`restore_SCF`, `restore_RCF`, `restore_LCF` of `mps_uniform.py` and the factorisation of Hermitian
matrices `herm_fac_with_inv` they use.  The sanity checks only write warnings and are left out.
Environments are matrices whatever class (`eyemat`, `simple_diag_matrix`, array) they have in python.
-/

namespace EvoMPS

open Matrix
open scoped ComplexOrder

/-- `scipy.linalg.cholesky(A, lower)` with its contract (`tdvp_common.py:645`): for a Hermitian
matrix it succeeds if and only if the matrix is positive definite, and then returns the
triangular factor with positive diagonal.  `none` is `LinAlgError`. -/
structure Chol where
  fac : Bool → ∀ {n : ℕ}, Matrix (Fin n) (Fin n) ℂ → Option (Matrix (Fin n) (Fin n) ℂ)
  ok : ∀ (b : Bool) {n : ℕ} (A : Matrix (Fin n) (Fin n) ℂ), A.PosDef → ∃ x, fac b A = some x
  fail : ∀ (b : Bool) {n : ℕ} (A : Matrix (Fin n) (Fin n) ℂ), A.IsHermitian → ¬ A.PosDef → fac b A = none
  lower : ∀ {n : ℕ} (A x : Matrix (Fin n) (Fin n) ℂ), A.PosDef → fac true A = some x →
    x * xᴴ = A ∧ (∀ i j, i < j → x i j = 0) ∧ ∀ i, 0 < x i i
  upper : ∀ {n : ℕ} (A x : Matrix (Fin n) (Fin n) ℂ), A.PosDef → fac false A = some x →
    xᴴ * x = A ∧ (∀ i j, j < i → x i j = 0) ∧ ∀ i, 0 < x i i

/-- The library routines `herm_fac_with_inv` calls.  `la.eigh` returns the eigenvalues in
ascending order (comment at `tdvp_common.py:656`). -/
structure HermLib where
  chol : Chol
  eigh : Eigh ℂ
  asc : ∀ {n : ℕ} (M : Matrix (Fin n) (Fin n) ℂ), M.IsHermitian → ∀ i j, i ≤ j →
    (eigh.ev M i).re ≤ (eigh.ev M j).re

namespace Uni

variable {q D : ℕ}

/-- The indices selected by the python slice `[-m:]` of an array of length `n`, for `m <= n`.  For `m = 0`
this is `[0:]`, the whole array. -/
def lastSlice (n m i : ℕ) : Prop := m = 0 ∨ n ≤ i + m

instance (n m i : ℕ) : Decidable (lastSlice n m i) := inferInstanceAs (Decidable (_ ∨ _))

/-- `z = zeros(n); z[-m:] = f(y[-m:])` -/
def lastOnly {n : ℕ} (m : ℕ) (y : Fin n → ℂ) (i : Fin n) : ℂ := if lastSlice n m i then y i else 0

open Classical in
/-- `z = zeros(n); z[-m:] = 1. / y[-m:]`.  A division by zero puts `inf` or `nan` into the array (numpy
does not raise); that is `none` here. -/
noncomputable def lastRecip {n : ℕ} (m : ℕ) (y : Fin n → ℂ) : Option (Fin n → ℂ) :=
  if ∃ i : Fin n, lastSlice n m i ∧ y i = 0 then none
  else some fun i => if lastSlice n m i then 1 / y i else 0

/-- `np.count_nonzero(ev > zero_tol)`. -/
noncomputable def countAbove {n : ℕ} (tol : ℝ) (ev : Fin n → ℝ) : ℕ :=
  (Finset.univ.filter fun i => tol < ev i).card

/-- The result of `herm_fac_with_inv(..., return_rank=True)`. -/
structure HermFac (n : ℕ) where
  x : Matrix (Fin n) (Fin n) ℂ
  xi : Matrix (Fin n) (Fin n) ℂ
  rank : ℕ

/-- `tdvp_common.py:655-686`: the branch with the eigenvalue decomposition.  With
`calc_inv = false` the second matrix is not computed (0 here). -/
noncomputable def hermFacEvd (eigh : Eigh ℂ) (lower calcInv : Bool) (tol : ℝ) {n : ℕ}
    (A : Matrix (Fin n) (Fin n) ℂ) : Option (HermFac n) :=
  let ev := eigh.ev A
  let EV := eigh.vec A
  let nonzeros := countAbove tol fun i => (ev i).re
  let evSq := lastOnly nonzeros fun i => csqrt (ev i)
  (if calcInv then lastRecip nonzeros evSq else some 0).bind fun evSqI =>
  some <| if lower then
    ⟨EV * diagonal evSq, if calcInv then diagonal evSqI * EVᴴ else 0, nonzeros⟩
  else
    ⟨diagonal evSq * EVᴴ, if calcInv then EV * diagonal evSqI else 0, nonzeros⟩

/-- `tdvp_common.py:614-733` `herm_fac_with_inv(A, lower, zero_tol, calc_inv, force_evd)`.  `mm.invtr` (the
LAPACK routine `trtri`) inverts the triangular factor. -/
noncomputable def hermFac (P : HermLib) (lower calcInv forceEvd : Bool) (tol : ℝ) {n : ℕ}
    (A : Matrix (Fin n) (Fin n) ℂ) : Option (HermFac n) :=
  if forceEvd then hermFacEvd P.eigh lower calcInv tol A
  else match P.chol.fac lower A with
    | some x => some ⟨x, if calcInv then x⁻¹ else 0, n⟩
    | none => hermFacEvd P.eigh lower calcInv tol A

/-- `mps_uniform.py:849-852` (and `944-947`, `751-754`), the same loop in all three routines:
`A[j][s] = gi.dot(A[j][s]); A[k][s] = A[k][s].dot(g)` with `j = (k + 1) % L`.  For `L = 1` both
assignments change the same tensor. -/
def gaugeCut (L k : ℕ) (g gi : Matrix (Fin D) (Fin D) ℂ) (A : ℕ → Ten ℂ q D D) : ℕ → Ten ℂ q D D :=
  let j := (k + 1) % L
  let A := Function.update A j fun s => gi * A j s
  Function.update A k fun s => A k s * g

/-- `mps_uniform.py:856-861` (`951-956`): identity, or a diagonal of zeros with `[-rank:]` set to 1. -/
def rankEye (D rank : ℕ) : Matrix (Fin D) (Fin D) ℂ :=
  if rank = D then 1 else diagonal fun i => if lastSlice D rank i then 1 else 0

/-- The lists `G`, `G_i` (entries `None` where a cut is not in `ks`). -/
abbrev GList (D : ℕ) := ℕ → Option (Matrix (Fin D) (Fin D) ℂ)

/-- One pass of the loop of `restore_RCF`, `mps_uniform.py:830-861`. -/
noncomputable def rcfCut (P : HermLib) (tol : ℝ) (diagL : Bool) (S : UMPS ℂ q D × GList D × GList D) (k : ℕ) :
    Option (UMPS ℂ q D × GList D × GList D) :=
  let (S, Gs, Gis) := S
  (hermFac P true true false tol (S.r k)).bind fun f =>
  let G := f.x
  let Gi := f.xi
  let l := Gᴴ * (S.l k * G)
  let EV := P.eigh.vec l
  let G' := if diagL then G * EV else G
  let Gi' := if diagL then EVᴴ * Gi else Gi
  let l' := if diagL then diagonal (P.eigh.ev l) else l
  some ({ S with
      A := gaugeCut S.L k G' Gi' S.A
      l := Function.update S.l k l'
      r := Function.update S.r k (rankEye D f.rank) },
    Function.update Gs k (some G'), Function.update Gis k (some Gi'))

/-- `mps_uniform.py:796-892` `restore_RCF(zero_tol, diag_l, ks)` for cuts `ks` in `0 .. L-1` (others:
`IndexError`); the state and the lists `G`, `G_i` returned with `ret_g=True`. -/
noncomputable def restoreRCF (P : HermLib) (tol : ℝ) (diagL : Bool) (ks : List ℕ) (S : UMPS ℂ q D) :
    Option (UMPS ℂ q D × GList D × GList D) :=
  ks.foldl (fun st k => st.bind fun st => if k < S.L then rcfCut P tol diagL st k else none)
    (some (S, fun _ => none, fun _ => none))

/-- One pass of the loop of `restore_LCF`, `mps_uniform.py:928-956`.  Lines 939-940 multiply the
eigenvectors on the outer side: `G = EV.dot(G)`, `G_i = G_i.dot(EV.conj().T)`. -/
noncomputable def lcfCut (P : HermLib) (tol : ℝ) (diagR : Bool) (S : UMPS ℂ q D × GList D × GList D) (k : ℕ) :
    Option (UMPS ℂ q D × GList D × GList D) :=
  let (S, Gs, Gis) := S
  (hermFac P false true false tol (S.l k)).bind fun f =>
  let Gi := f.x
  let G := f.xi
  let r := Gi * (S.r k * Giᴴ)
  let EV := P.eigh.vec r
  let G' := if diagR then EV * G else G
  let Gi' := if diagR then Gi * EVᴴ else Gi
  let r' := if diagR then diagonal (P.eigh.ev r) else r
  some ({ S with
      A := gaugeCut S.L k G' Gi' S.A
      r := Function.update S.r k r'
      l := Function.update S.l k (rankEye D f.rank) },
    Function.update Gs k (some G'), Function.update Gis k (some Gi'))

/-- `mps_uniform.py:894-986` `restore_LCF(zero_tol, diag_r, ks)`, see `restoreRCF`. -/
noncomputable def restoreLCF (P : HermLib) (tol : ℝ) (diagR : Bool) (ks : List ℕ) (S : UMPS ℂ q D) :
    Option (UMPS ℂ q D × GList D × GList D) :=
  ks.foldl (fun st k => st.bind fun st => if k < S.L then lcfCut P tol diagR st k else none)
    (some (S, fun _ => none, fun _ => none))

/-- One pass of the loop of `restore_SCF`, `mps_uniform.py:723-792`.  The singular values of a square matrix;
`none` also when an inverse square root is not finite (see `lastRecip`). -/
noncomputable def scfCut (P : HermLib) (svd : Svd) (tol : ℝ) (forceEvd : Bool) (S : UMPS ℂ q D) (k : ℕ) :
    Option (UMPS ℂ q D) :=
  (hermFac P true false forceEvd tol (S.r k)).bind fun fX =>
  (hermFac P false false forceEvd tol (S.l k)).bind fun fY =>
  let X := fX.x
  let Y := fY.x
  (svd (Y * X)).bind fun f =>
  let sv : Fin D → ℝ := fun i => f.sv (Fin.cast (Nat.min_self D).symm i)
  let Srt : Fin D → ℂ := fun i => csqrt (sv i : ℂ)
  let nonzeros := countAbove tol sv
  (lastRecip nonzeros Srt).bind fun Srti =>
  let g := diagonal Srti * f.Uᴴ * Y
  let gi := X * f.Vhᴴ * diagonal Srti
  some { S with
    A := gaugeCut S.L k gi g S.A
    l := Function.update S.l k (diagonal fun i => (sv i : ℂ))
    r := Function.update S.r k (diagonal fun i => (sv i : ℂ)) }

/-- `mps_uniform.py:713-794` `restore_SCF(zero_tol, force_evd)`. -/
noncomputable def restoreSCF (P : HermLib) (svd : Svd) (tol : ℝ) (forceEvd : Bool) (S : UMPS ℂ q D) :
    Option (UMPS ℂ q D) :=
  (List.range S.L).foldl (fun st k => st.bind fun st => scfCut P svd tol forceEvd st k) (some S)

/-- `mps_uniform.py:988-997` `restore_CF`: `restore_SCF()` or `restore_RCF()` with default arguments. -/
noncomputable def restoreCF (P : HermLib) (svd : Svd) (tol : ℝ) (symmGauge : Bool) (S : UMPS ℂ q D) :
    Option (UMPS ℂ q D) :=
  if symmGauge then restoreSCF P svd tol true S
  else (restoreRCF P tol true (List.range S.L) S).map (·.1)

end Uni

end EvoMPS
