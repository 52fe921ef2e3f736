import Verif.EffOps
import Verif.Canon
import Verif.SplitStep
import Mathlib.Analysis.Complex.Basic
import Mathlib.Analysis.Normed.Algebra.MatrixExponential

/-!
# The local operations of `evolve_split` on the tensors

The schedule of `evolve_split` is modelled in `SplitStep.lean` for arbitrary local operations.  Here are the operations
themselves for one-site sweeps (`two_site=False`, the only mode that works for a finite chain, see
`C35_two_site_finite_violated`).

The bond dimensions are fixed: a chain with `D[n] ≤ q[n] D[n-1]` and `D[n-1] ≤ q[n] D[n]` for all sites (the constructor
of the chain enforces this, `mps_gen.py:121`, `_correct_bond_dimension`) keeps its dimensions in one-site sweeps, because
the reduced QR decompositions then have as many columns as the matrices.  Where this does not hold, the operations below
have the value `none` (not modelled).  The same is true of the two-site operations.  The exact square root, exponential
and eigenvectors are those of exact arithmetic; whether the Krylov routine and ARPACK return anything is left open.
-/

namespace EvoMPS

open Matrix Split

namespace Sweep

/-- `gexpmv` (`split_step.py:509`, `591`) and `scipy.sparse.linalg.eigsh` with `k=1, which='SA'` (`split_step.py:612`), on
the flattened tensors; the operator may raise (`none`), the routines as well. -/
structure Solvers where
  expmv : ∀ {ι : Type} [Fintype ι] [DecidableEq ι], ((ι → ℂ) → Option (ι → ℂ)) → ℝ → (ι → ℂ) → Option (ι → ℂ)
  eigsh : ∀ {ι : Type} [Fintype ι] [DecidableEq ι], ((ι → ℂ) → Option (ι → ℂ)) → (ι → ℂ) → Option (ι → ℂ)

/-- What is assumed of the routines: they raise if the operator does; if the operator is multiplication with a matrix `M`,
a returned vector is `exp(step M) v`, or an eigenvector for the smallest eigenvalue of the Hermitian `M`. -/
structure Solvers.Ok (L : Solvers) : Prop where
  expmv_none : ∀ {ι : Type} [Fintype ι] [DecidableEq ι] (f : (ι → ℂ) → Option (ι → ℂ)) (h : ℝ) (v : ι → ℂ),
    (∀ x, f x = none) → L.expmv f h v = none
  expmv_eq : ∀ {ι : Type} [Fintype ι] [DecidableEq ι] (f : (ι → ℂ) → Option (ι → ℂ)) (M : Matrix ι ι ℂ) (h : ℝ)
    (v w : ι → ℂ), (∀ x, f x = some (M *ᵥ x)) → L.expmv f h v = some w → w = NormedSpace.exp ((h : ℂ) • M) *ᵥ v
  eigsh_none : ∀ {ι : Type} [Fintype ι] [DecidableEq ι] (f : (ι → ℂ) → Option (ι → ℂ)) (v : ι → ℂ),
    (∀ x, f x = none) → L.eigsh f v = none
  eigsh_eq : ∀ {ι : Type} [Fintype ι] [DecidableEq ι] (f : (ι → ℂ) → Option (ι → ℂ)) (M : Matrix ι ι ℂ) (v w : ι → ℂ),
    M.IsHermitian → (∀ x, f x = some (M *ᵥ x)) → L.eigsh f v = some w →
    w ≠ 0 ∧ ∃ e : ℝ, M *ᵥ w = (e : ℂ) • w ∧ ∀ x : ι → ℂ, e * (star x ⬝ᵥ x).re ≤ (star x ⬝ᵥ (M *ᵥ x)).re

/-- The routines return for nonzero vectors with at least two components. -/
structure Solvers.Returns (L : Solvers) : Prop where
  expmv : ∀ {ι : Type} [Fintype ι] [DecidableEq ι] (f : (ι → ℂ) → Option (ι → ℂ)) (M : Matrix ι ι ℂ) (h : ℝ)
    (v : ι → ℂ), 2 ≤ Fintype.card ι → v ≠ 0 → (∀ x, f x = some (M *ᵥ x)) → (L.expmv f h v).isSome
  eigsh : ∀ {ι : Type} [Fintype ι] [DecidableEq ι] (f : (ι → ℂ) → Option (ι → ℂ)) (M : Matrix ι ι ℂ) (v : ι → ℂ),
    2 ≤ Fintype.card ι → v ≠ 0 → M.IsHermitian → (∀ x, f x = some (M *ᵥ x)) → (L.eigsh f v).isSome

/-- `A[n].ravel()`. -/
def flatT {p a b : ℕ} (X : Ten ℂ p a b) : Fin p × Fin a × Fin b → ℂ := fun x => X x.1 x.2.1 x.2.2

/-- `v.reshape((q, D, D'))`. -/
def tens {p a b : ℕ} (v : Fin p × Fin a × Fin b → ℂ) : Ten ℂ p a b := fun s => Matrix.of fun i j => v (s, i, j)

/-- `G.ravel()`. -/
def flatM {a b : ℕ} (X : Matrix (Fin a) (Fin b) ℂ) : Fin a × Fin b → ℂ := fun x => X x.1 x.2

/-- `v.reshape(Gshp)`. -/
def mat {a b : ℕ} (v : Fin a × Fin b → ℂ) : Matrix (Fin a) (Fin b) ℂ := Matrix.of fun i j => v (i, j)

/-- `v / sp.sqrt(mm.adot(v, v))`. -/
noncomputable def normed {ι : Type} [Fintype ι] (v : ι → ℂ) : ι → ℂ :=
  ((Real.sqrt (star v ⬝ᵥ v).re : ℝ) : ℂ)⁻¹ • v

variable {q D : ℕ → ℕ}

/-- The tensors `mps.A`, the arrays `KL` and `KR`, and the local variables `G`, `Gi` of the moves (the matrix for bond `n`
is `G n`).  Site `k` is python's site `k + 1`; see `EffOps.lean` for the indices of `KR`. -/
structure St (q D : ℕ → ℕ) where
  A : Tensors ℂ q D
  KL : OptEnvs ℂ D
  KR : OptEnvs ℂ D
  G : Envs ℂ D

/-- `restore_LCF_l_seq` for one site (`tdvp_common.py:997-1013`): the tensor with `Q` and the matrix `G`. -/
def orthLeft (qr : QR ℂ) {p a b : ℕ} (X : Ten ℂ p a b) : Option (Ten ℂ p a b × Matrix (Fin b) (Fin b) ℂ) :=
  if h : b ≤ p * a then
    let GA : Matrix (Fin (p * a)) (Fin b) ℂ := Matrix.of fun i j => X i.divNat i.modNat j
    have e : b = min (p * a) b := (min_eq_right h).symm
    some (fun s => Matrix.of fun i j => qr.Q GA (flat s i) (Fin.cast e j), (qr.fac GA).submatrix (Fin.cast e) id)
  else none

/-- `restore_RCF_r_seq` for one site (`tdvp_common.py:760-785`): the tensor with `Q` and the matrix `Gi`. -/
def orthRight (qr : QR ℂ) {p a b : ℕ} (X : Ten ℂ p a b) : Option (Ten ℂ p a b × Matrix (Fin a) (Fin a) ℂ) :=
  if h : a ≤ p * b then
    let AG : Matrix (Fin (p * b)) (Fin a) ℂ := Matrix.of fun i j => (X i.divNat)ᴴ i.modNat j
    have e : a = min (p * b) a := (min_eq_right h).symm
    some (fun s => Matrix.of fun i j => star (qr.Q AG (flat s j) (Fin.cast e i)),
      ((qr.fac AG).submatrix (Fin.cast e) id)ᴴ)
  else none

/-- The operations of `Split.Op` without matrix product operator.  `fac` is the factor of the operators (1 for DMRG). -/
noncomputable def act (qr : QR ℂ) (L : Solvers) (N : ℕ) (ham : Ham ℂ q) (fac : ℂ) : Op → St q D → Option (St q D)
  -- `split_step.py:487-523`; `norm_est` concerns the inner workings of `gexpmv`
  | .site (k + 1) h, S =>
    (L.expmv (fun v => (Eff.siteMatvec N ham S.A k (S.KL k) (S.KR (k + 1)) fac (tens v)).map flatT) h
      (flatT (S.A k))).map fun w => { S with A := Function.update S.A k (tens (normed w)) }
  -- `split_step.py:574-602`
  | .bond (k + 1) h, S =>
    (L.expmv (fun v => (Eff.bondMatvec N ham S.A k (S.KL (k + 1)) (S.KR (k + 1)) fac (mat v)).map flatM) h
      (flatM (S.G (k + 1)))).map fun w => { S with G := Function.update S.G (k + 1) (mat (normed w)) }
  -- `split_step.py:604-620`, Hermitian `ham`
  | .optSite (k + 1), S =>
    (L.eigsh (fun v => (Eff.siteMatvec N ham S.A k (S.KL k) (S.KR (k + 1)) 1 (tens v)).map flatT)
      (flatT (S.A k))).map fun w => { S with A := Function.update S.A k (tens (normed w)) }
  -- `split_step.py:745-746`
  | .orthL (k + 1), S => (orthLeft qr (S.A k)).map fun QG =>
    { S with A := Function.update S.A k QG.1, G := Function.update S.G (k + 1) QG.2 }
  -- `split_step.py:793-794`
  | .orthR (k + 1), S => (orthRight qr (S.A k)).map fun QG =>
    { S with A := Function.update S.A k QG.1, G := Function.update S.G k QG.2 }
  -- `split_step.py:754-755`, `A[n] = G A[n]`
  | .mulL (k + 1), S => some { S with A := Function.update S.A k fun s => S.G k * S.A k s }
  -- `split_step.py:803-804`, `A[n] = A[n] Gi`
  | .mulR (k + 1), S => some { S with A := Function.update S.A k fun s => S.A k s * S.G (k + 1) }
  -- `split_step.py:677-702`, `704-730`
  | .heffL (k + 1), S => (Eff.heffLeft ham S.A S.KL k).map fun KL => { S with KL := KL }
  | .heffR (k + 1), S => (Eff.heffRight N ham S.A S.KR k).map fun KR => { S with KR := KR }
  -- `split_step.py:896-908`; the callback must not modify the tensors
  | .cb _, S => some S
  | _, _ => none

/-- The chain as an object of `evolve_split`. -/
noncomputable def obj (qr : QR ℂ) (L : Solvers) (N : ℕ) (ham : Ham ℂ q) (fac : ℂ) : Obj (St q D) :=
  ⟨N, N + 1, fun n => q (n - 1), fun _ n => D n, act qr L N ham fac⟩

/-- `KL = [None] * (N + 1)`, `KR = [None] * (N + 2)` (`split_step.py:836-840`). -/
def start (A : Tensors ℂ q D) : St q D := ⟨A, fun _ => none, fun _ => none, 0⟩

/-- `evolve_split(mps, ham, .., DMRG=False, two_site=False)`: the tensors of `mps` afterwards and the operations. -/
noncomputable def evolve (qr : QR ℂ) (L : Solvers) (N : ℕ) (ham : Ham ℂ q) (dtau : ℂ) (numSteps : ℕ) (hasCb : Bool)
    (A : Tensors ℂ q D) : Option (Tensors ℂ q D × List Op) :=
  (evolveSplit (obj qr L N ham (splitTime dtau).1) dtau numSteps false false false none hasCb ⟨start A, []⟩).map
    fun w => (w.s.A, w.log)

/-- `evolve_split(mps, ham, .., DMRG=True, two_site=False)` for a Hermitian Hamiltonian. -/
noncomputable def dmrg (qr : QR ℂ) (L : Solvers) (N : ℕ) (ham : Ham ℂ q) (numSteps : ℕ) (hasCb : Bool)
    (A : Tensors ℂ q D) : Option (Tensors ℂ q D × List Op) :=
  (evolveSplit (obj qr L N ham 1) 0 numSteps true false false none hasCb ⟨start A, []⟩).map fun w => (w.s.A, w.log)

end Sweep

end EvoMPS
