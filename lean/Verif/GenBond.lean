import Verif.GenSweep
import Verif.Uniform

/-!
# `Vari_Opt_SC_op` of `tdvp_gen.py`

The operator for the matrix on a bond, with the stored data of the object, see `GenSweep.lean` for the conventions.  The
bond is the one between the sites `k` and `k + 1`, python's `n` is `k + 1`.
-/

namespace EvoMPS

open Matrix

namespace GenSweep

variable {q D M : ℕ → ℕ}

/-- `tdvp_gen.py:180-185`: the term on the sites `k`, `k + 1`. -/
def bond2 (h : Ham2 ℂ q) (S : St q D M) (k : ℕ) (G : Matrix (Fin (D (k + 1))) (Fin (D (k + 1))) ℂ) :
    Option (Matrix (Fin (D (k + 1))) (Fin (D (k + 1))) ℂ) :=
  (h k).map fun op =>
    let Ap1 : Ten ℂ (q (k + 1)) (D (k + 1)) (D (k + 1 + 1)) := fun s => G * S.A (k + 1) s
    let C := calcC op (calcAA (S.A k) Ap1)
    forSum (q k) fun s => (S.A k s)ᴴ * (S.l k * epsR (S.r (k + 1 + 1)) (C s) (S.A (k + 1)))

/-- `tdvp_gen.py:187-193`: the term on the sites `k`, `k + 1`, `k + 2`. -/
def bondR3 (N : ℕ) (h : Ham3 ℂ q) (S : St q D M) (k : ℕ) (G : Matrix (Fin (D (k + 1))) (Fin (D (k + 1))) ℂ) :
    Option (Matrix (Fin (D (k + 1))) (Fin (D (k + 1))) ℂ) :=
  if k + 2 < N then (h k).map fun op =>
      let Ap1 : Ten ℂ (q (k + 1)) (D (k + 1)) (D (k + 1 + 1)) := fun s => G * S.A (k + 1) s
      let C := calcC3 op (calcAAA_AA (calcAA (S.A k) Ap1) (S.A (k + 2)))
      forSum (q k) fun s => (S.A k s)ᴴ * epsR2 (S.r (k + 2 + 1)) (C s) (S.AA (k + 1))
  else some 0

/-- `tdvp_gen.py:194-199`: the term on the sites `k - 1`, `k`, `k + 1`. -/
def bondL3 (h : Ham3 ℂ q) (S : St q D M) :
    ∀ k, Matrix (Fin (D (k + 1))) (Fin (D (k + 1))) ℂ → Option (Matrix (Fin (D (k + 1))) (Fin (D (k + 1))) ℂ)
  | 0, _ => some 0
  | k + 1, G => (h k).map fun op =>
      let Ap1 : Ten ℂ (q (k + 2)) (D (k + 2)) (D (k + 2 + 1)) := fun s => G * S.A (k + 2) s
      let C := calcC3 op (calcAAA_AA (S.AA k) Ap1)
      forSum (q (k + 2)) fun s => epsL2 (S.l k) (S.AA k) (fun t u => C t u s) * (S.A (k + 2) s)ᴴ

/-- `tdvp_gen.py:172-199` `apply_ham_local` with `res` zero on entry.  Multiplication with `None` raises. -/
def bondLocal (N : ℕ) (ham : Ham ℂ q) (S : St q D M) (k : ℕ) (G : Matrix (Fin (D (k + 1))) (Fin (D (k + 1))) ℂ) :
    Option (Matrix (Fin (D (k + 1))) (Fin (D (k + 1))) ℂ) :=
  (S.KL (k + 1)).bind fun KLn =>
    let res := KLn * G + G * S.K (k + 1)
    match ham with
    | .two h => (bond2 h S k G).map fun a => res + a
    | .three h => (bondR3 N h S k G).bind fun a => (bondL3 h S k G).map fun b => res + a + b

/-- `tdvp_gen.py:168-170` (and `split_step.py:374-376`) `apply_ham_MPO` with `res` zero on entry.  The size of the identity
matrix, `HMR.shape[0] // D[n]`, is `(D[n] M[n]) // D[n]`, that is `M[n]`. -/
def bondMpo (k : ℕ) (HML HMR : Matrix (Fin (D (k + 1) * M (k + 1))) (Fin (D (k + 1))) ℂ)
    (G : Matrix (Fin (D (k + 1))) (Fin (D (k + 1))) ℂ) : Matrix (Fin (D (k + 1))) (Fin (D (k + 1))) ℂ :=
  let HMG := Uni.kron G (1 : Matrix (Fin (M (k + 1))) (Fin (M (k + 1))) ℂ)
  HMLᴴ * HMG * HMR

/-- `tdvp_gen.py:201-217` `matvec`; `ham_MPO` (line 166) is true if `HML[n]` is not `None`.  The flattening of the argument and
of the result is left out. -/
def bondMatvec (N : ℕ) (ham : Ham ℂ q) (useLocal : Bool) (S : St q D M) (k : ℕ) (tau : ℂ)
    (G : Matrix (Fin (D (k + 1))) (Fin (D (k + 1))) ℂ) : Option (Matrix (Fin (D (k + 1))) (Fin (D (k + 1))) ℂ) :=
  (if useLocal then bondLocal N ham S k G else some 0).bind fun a =>
    ((S.HML (k + 1)).elim (some 0) fun HML => (S.HMR (k + 1)).map fun HMR => bondMpo k HML HMR G).map fun b =>
      tau • (a + b)

end GenSweep

end EvoMPS
