import Verif.MpsGen
import Mathlib.LinearAlgebra.Matrix.Hermitian
import Mathlib.Data.Matrix.Diagonal
import Mathlib.Analysis.Complex.Norm

/-!
# Canonical forms (`restore_RCF`, `restore_LCF` and their sweeps)

A sweep that uses the reduced QR decomposition changes the bond dimensions.  The new ones
only depend on shapes, so they are a function (`rcfD`, `lcfD`) of the old shapes, and the
tensors after the sweep are again an array `Tensors R q D'`.  Local variables of the python
loop that change shape are arrays over the bonds.
-/

namespace EvoMPS

open Matrix

/-- `scipy.linalg.qr(A, mode='economic')` for an `m x n` matrix with its contract
(`tdvp_common.py:773`, `1009`): `A = Q R` with orthonormal columns of `Q`; `Q` has
`min(m, n)` columns.  Nothing is assumed about phases. -/
structure QR (R : Type*) [CommRing R] [StarRing R] where
  Q : ∀ {m n : ℕ}, Matrix (Fin m) (Fin n) R → Matrix (Fin m) (Fin (min m n)) R
  fac : ∀ {m n : ℕ}, Matrix (Fin m) (Fin n) R → Matrix (Fin (min m n)) (Fin n) R
  mul_eq : ∀ {m n : ℕ} (A : Matrix (Fin m) (Fin n) R), Q A * fac A = A
  iso : ∀ {m n : ℕ} (A : Matrix (Fin m) (Fin n) R), (Q A)ᴴ * Q A = 1

/-- `scipy.linalg.eigh(M)` with its contract for Hermitian `M` (`tdvp_common.py:943`, `1106`):
real eigenvalues and a unitary matrix of eigenvectors.  For a `1 x 1` matrix LAPACK returns
the eigenvector 1 without computing anything; otherwise nothing is assumed about phases or
about the basis chosen in a degenerate eigenspace. -/
structure Eigh (R : Type*) [CommRing R] [StarRing R] where
  ev : ∀ {n : ℕ}, Matrix (Fin n) (Fin n) R → Fin n → R
  vec : ∀ {n : ℕ}, Matrix (Fin n) (Fin n) R → Matrix (Fin n) (Fin n) R
  real : ∀ {n : ℕ} (M : Matrix (Fin n) (Fin n) R), M.IsHermitian → ∀ i, star (ev M i) = ev M i
  unit : ∀ {n : ℕ} (M : Matrix (Fin n) (Fin n) R), M.IsHermitian → (vec M)ᴴ * vec M = 1
  eig : ∀ {n : ℕ} (M : Matrix (Fin n) (Fin n) R), M.IsHermitian →
    M * vec M = vec M * diagonal (ev M)
  one : ∀ {n : ℕ} (M : Matrix (Fin n) (Fin n) R), n = 1 → M.IsHermitian → vec M = 1

variable {R : Type*} [CommRing R] [StarRing R] {q D : ℕ → ℕ}

/-- The bond dimensions after `restore_RCF_r_seq`: `Dm1_new = min(q * Dnew, Dm1)`
(`tdvp_common.py:770-775`), going from the right end to the left. -/
def rcfD (q D : ℕ → ℕ) (N n : ℕ) : ℕ :=
  if n < N then min (q n * rcfD q D N (n + 1)) (D n) else D n
termination_by N - n

theorem rcfD_lt {N n : ℕ} (h : n < N) :
    rcfD q D N n = min (q n * rcfD q D N (n + 1)) (D n) := by
  rw [rcfD, if_pos h]

theorem rcfD_ge {N n : ℕ} (h : N ≤ n) : rcfD q D N n = D n := by
  rw [rcfD, if_neg (by omega)]

/-- The bond dimensions after `restore_LCF_l_seq`: `D_new = min(q * Dm1_new, D)`
(`tdvp_common.py:1003-1011`). -/
def lcfD (q D : ℕ → ℕ) (N : ℕ) : ℕ → ℕ
  | 0 => D 0
  | n + 1 => if n < N then min (q n * lcfD q D N n) (D (n + 1)) else D (n + 1)

theorem lcfD_succ {N n : ℕ} (h : n < N) :
    lcfD q D N (n + 1) = min (q n * lcfD q D N n) (D (n + 1)) := by
  rw [lcfD, if_pos h]

/-- A square matrix of one size seen as one of another, equal size. -/
def castEnv {m n : ℕ} (h : m = n) (M : Matrix (Fin n) (Fin n) R) : Matrix (Fin m) (Fin m) R :=
  M.submatrix (Fin.cast h) (Fin.cast h)

/-- The variables of the loop of `restore_RCF_r_seq`: tensors, `Gh` and `r`. -/
structure RcfSt (R : Type*) (q D D' : ℕ → ℕ) where
  A : Tensors R q D'
  Gh : ∀ n, Matrix (Fin (D' n)) (Fin (D n)) R
  r : Envs R D'

/-- One iteration of the loop `tdvp_common.py:765-782`.  `AG` has the rows `(s, i)` in
row-major order; `sp.transpose(Q.conj().reshape((q, Dnew, Dm1_new)), axes=(0, 2, 1))`. -/
def rcfStep (qr : QR R) {N : ℕ} (A : Tensors R q D) (S : RcfSt R q D (rcfD q D N)) (n : Fin N) :
    RcfSt R q D (rcfD q D N) :=
  let AG : Matrix (Fin (q n * rcfD q D N (n + 1))) (Fin (D n)) R :=
    Matrix.of fun k j => (S.Gh (n + 1) * (A n k.divNat)ᴴ) k.modNat j
  let Q := qr.Q AG
  let Rf := qr.fac AG
  ⟨Function.update S.A n (fun s => Matrix.of fun a b => star (Q (flat s b) (Fin.cast (rcfD_lt n.2) a))),
   Function.update S.Gh n (Rf.submatrix (Fin.cast (rcfD_lt n.2)) id),
   Function.update S.r n 1⟩

/-- `tdvp_common.py:735-785` `restore_RCF_r_seq(A, r)` without initial gauge matrix.
Entries of the tensors that are not assigned (there are none below `N`) are 0. -/
def restoreRCFrSeq (qr : QR R) (N : ℕ) (A : Tensors R q D) (r : Envs R D) :
    RcfSt R q D (rcfD q D N) :=
  (List.finRange N).reverse.foldl (rcfStep qr A)
    ⟨0, fun n => if h : n < N then 0 else (1 : Matrix (Fin (D n)) (Fin (D n)) R).submatrix
        (Fin.cast (rcfD_ge (by omega))) id,
     fun n => if h : n < N then 0 else castEnv (rcfD_ge (by omega)) (r n)⟩

/-- The variables of the loop of `restore_RCF_l_seq` and `restore_LCF_r_seq`: tensors, gauge
matrix `G` (`Gi`) and environment. -/
structure DiagSt (R : Type*) (q D : ℕ → ℕ) where
  A : Tensors R q D
  G : Envs R D
  e : Envs R D

/-- One iteration of `restore_RCF_l_seq` (`tdvp_common.py:815-816`), that is
`restore_RCF_l(A[n], l[n - 1], G)` (lines 908-972 with `Gm1` given). -/
def rcfDiagStep (eigh : Eigh R) (S : DiagSt R q D) (n : ℕ) : DiagSt R q D :=
  let x := (S.G n)ᴴ * (S.e n * S.G n)
  let M := epsL x (S.A n) (S.A n)
  let EV := eigh.vec M
  ⟨Function.update S.A n (fun s => S.G n * (S.A n s * EV)),
   Function.update S.G (n + 1) EVᴴ,
   Function.update S.e (n + 1) (diagonal (eigh.ev M))⟩

/-- `tdvp_common.py:787-818` `restore_RCF_l_seq(A, l)` without initial gauge matrix. -/
def restoreRCFlSeq (eigh : Eigh R) (N : ℕ) (A : Tensors R q D) (l : Envs R D) : DiagSt R q D :=
  (List.range' 0 N).foldl (rcfDiagStep eigh) ⟨A, fun n => if n = 0 then 1 else 0, l⟩

/-- `mps_gen.py:432-497` `restore_RCF(use_QR=True, update_l=True, diag_l, normalize_mps)`.
`scaleA g`, `scaleR g` are the factors for `A[1]` and `r[0]` computed from `g = G0[0, 0]`
(lines 471-477, see `restoreRCFKeep` and `restoreRCFNorm`).  `l'` is the array of left
environments before it is recomputed: the old one, or the one created by
`set_state_from_tensors` if a bond dimension has changed (lines 455-460); all entries except
`l[0]` are overwritten.  `hz` says that `G0[0, 0]` exists. -/
def restoreRCF (qr : QR R) (eigh : Eigh R) (N : ℕ) (scaleA scaleR : R → R) (diagL : Bool)
    (h0 : 0 < D 0) (hz : 0 < rcfD q D N 0) (S : MPS R q D) (l' : Envs R (rcfD q D N)) :
    MPS R q (rcfD q D N) :=
  let T := restoreRCFrSeq qr N S.A S.r
  let g := ((T.Gh 0)ᴴ) ⟨0, h0⟩ ⟨0, hz⟩
  let A := Function.update T.A 0 (fun s => scaleA g • T.A 0 s)
  let r := Function.update T.r 0 (scaleR g • T.r 0)
  if diagL then
    let U := restoreRCFlSeq eigh N A l'
    ⟨U.A, U.e, r⟩
  else calcL N ⟨A, l', r⟩

/-- `restore_RCF(normalize_mps=False)`: `A[1] *= G0[0,0]; r[0] *= abs(G0[0,0])**2`
(`mps_gen.py:475-476`). -/
def restoreRCFKeep (qr : QR R) (eigh : Eigh R) (N : ℕ) (diagL : Bool) (h0 : 0 < D 0)
    (hz : 0 < rcfD q D N 0) (S : MPS R q D) (l' : Envs R (rcfD q D N)) :
    MPS R q (rcfD q D N) :=
  restoreRCF qr eigh N (fun g => g) (fun g => g * star g) diagL h0 hz S l'

/-- `restore_RCF(normalize_mps=True)`: `A[1] *= G0[0,0]/abs(G0[0,0])`, `r[0]` unchanged
(`mps_gen.py:472`). -/
noncomputable def restoreRCFNorm (qr : QR ℂ) (eigh : Eigh ℂ) (N : ℕ) (diagL : Bool) (h0 : 0 < D 0)
    (hz : 0 < rcfD q D N 0) (S : MPS ℂ q D) (l' : Envs ℂ (rcfD q D N)) :
    MPS ℂ q (rcfD q D N) :=
  restoreRCF qr eigh N (fun g => g / (‖g‖ : ℂ)) (fun _ => 1) diagL h0 hz S l'

end EvoMPS
