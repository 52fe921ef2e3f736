import Verif.Canon

/-!
# Left canonical form (`restore_LCF` and its sweeps)
-/

namespace EvoMPS

open Matrix

variable {R : Type*} [CommRing R] [StarRing R] {q D : ℕ → ℕ}

/-- A square matrix with its size: an element of python's list `self.l`, whose size need not
be the one that fits the neighbouring tensors. -/
abbrev AnySq (R : Type*) := Σ m : ℕ, Matrix (Fin m) (Fin m) R

/-- The variables of the loop of `restore_LCF_l_seq`: tensors, `G` and the list `l`. -/
structure LcfSt (R : Type*) (q D D' : ℕ → ℕ) where
  A : Tensors R q D'
  G : ∀ n, Matrix (Fin (D' n)) (Fin (D n)) R
  l : ℕ → AnySq R

/-- One iteration of the loop `tdvp_common.py:1002-1021`.  Line 1015 stores the identity of
size `D`, the bond dimension before the factorisation. -/
def lcfStep (qr : QR R) {N : ℕ} (A : Tensors R q D) (S : LcfSt R q D (lcfD q D N)) (n : Fin N) :
    LcfSt R q D (lcfD q D N) :=
  let GA : Matrix (Fin (q n * lcfD q D N n)) (Fin (D (n + 1))) R :=
    Matrix.of fun k j => (S.G n * A n k.divNat) k.modNat j
  let Q := qr.Q GA
  let Rf := qr.fac GA
  ⟨Function.update S.A n (fun s => Matrix.of fun a b => Q (flat s a) (Fin.cast (lcfD_succ n.2) b)),
   Function.update S.G (n + 1) (Rf.submatrix (Fin.cast (lcfD_succ n.2)) id),
   Function.update S.l (n + 1) ⟨D (n + 1), 1⟩⟩

/-- `tdvp_common.py:974-1023` `restore_LCF_l_seq(A, l)` without initial gauge matrix. -/
def restoreLCFlSeq (qr : QR R) (N : ℕ) (A : Tensors R q D) (l : Envs R D) :
    LcfSt R q D (lcfD q D N) :=
  (List.finRange N).foldl (lcfStep qr A)
    ⟨0, fun n => if h : n = 0 then (1 : Matrix (Fin (D n)) (Fin (D n)) R).submatrix
        (Fin.cast (by subst h; rfl)) id else 0,
     fun n => ⟨D n, l n⟩⟩

/-- One iteration of `restore_LCF_r_seq` (`tdvp_common.py:1051-1052`), that is
`restore_LCF_r(A[n], r[n], Gi)` (lines 1098-1128 with `Gi` given). -/
def lcfDiagStep (eigh : Eigh R) (S : DiagSt R q D) (n : ℕ) : DiagSt R q D :=
  let x := S.G (n + 1) * (S.e (n + 1) * (S.G (n + 1))ᴴ)
  let M := epsR x (S.A n) (S.A n)
  let EV := eigh.vec M
  ⟨Function.update S.A n (fun s => EVᴴ * (S.A n s * S.G (n + 1))),
   Function.update S.G n EV,
   Function.update S.e n (diagonal (eigh.ev M))⟩

/-- `tdvp_common.py:1025-1054` `restore_LCF_r_seq(A, r)` without initial gauge matrix. -/
def restoreLCFrSeq (eigh : Eigh R) (N : ℕ) (A : Tensors R q D) (r : Envs R D) : DiagSt R q D :=
  (List.range' 0 N).reverse.foldl (lcfDiagStep eigh) ⟨A, fun n => if n = N then 1 else 0, r⟩

/-- The object's arrays after `restore_LCF`. -/
structure LcfRes (R : Type*) (q D' : ℕ → ℕ) where
  A : Tensors R q D'
  l : ℕ → AnySq R
  r : Envs R D'

/-- `mps_gen.py:499-549` `restore_LCF(use_QR=True, update_r=True, diag_r, normalize_mps)`.
As in `restoreRCF`, `scaleA g`, `scaleL g` are the factors for `A[N]` and `l[N]` computed from
`g = GN[0, 0]` (lines 522-528); `r'` is the array of right environments before it is
recomputed.  `set_state_from_tensors` followed by `self.l = l` (lines 510-513) keeps the list
`l` as the sweep left it. -/
def restoreLCF (qr : QR R) (eigh : Eigh R) (N : ℕ) (scaleA scaleL : R → R) (diagR : Bool)
    (hN : 0 < D N) (hz : 0 < lcfD q D N N) (S : MPS R q D) (r' : Envs R (lcfD q D N)) :
    LcfRes R q (lcfD q D N) :=
  let T := restoreLCFlSeq qr N S.A S.l
  let g := T.G N ⟨0, hz⟩ ⟨0, hN⟩
  let A := Function.update T.A (N - 1) (fun s => scaleA g • T.A (N - 1) s)
  let l := Function.update T.l N ⟨(T.l N).1, scaleL g • (T.l N).2⟩
  if diagR then
    let U := restoreLCFrSeq eigh N A r'
    ⟨U.A, l, U.e⟩
  else
    let U := calcR N ⟨A, 0, r'⟩
    ⟨U.A, l, U.r⟩

/-- `restore_LCF(normalize_mps=False)`: `A[N] *= GN[0,0]; l[N] *= abs(GN[0,0])**2`. -/
def restoreLCFKeep (qr : QR R) (eigh : Eigh R) (N : ℕ) (diagR : Bool) (hN : 0 < D N)
    (hz : 0 < lcfD q D N N) (S : MPS R q D) (r' : Envs R (lcfD q D N)) :
    LcfRes R q (lcfD q D N) :=
  restoreLCF qr eigh N (fun g => g) (fun g => star g * g) diagR hN hz S r'

/-- `restore_LCF(normalize_mps=True)`: `A[N] *= GN[0,0]/abs(GN[0,0])`, `l[N]` unchanged. -/
noncomputable def restoreLCFNorm (qr : QR ℂ) (eigh : Eigh ℂ) (N : ℕ) (diagR : Bool) (hN : 0 < D N)
    (hz : 0 < lcfD q D N N) (S : MPS ℂ q D) (r' : Envs ℂ (lcfD q D N)) :
    LcfRes ℂ q (lcfD q D N) :=
  restoreLCF qr eigh N (fun g => g / (‖g‖ : ℂ)) (fun _ => 1) diagR hN hz S r'

end EvoMPS
