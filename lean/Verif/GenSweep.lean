import Verif.Sweep
import Verif.MpoTangent

/-!
# `vari_opt_ss_sweep` of `tdvp_gen.py`

The ground state search of the class `EvoMPS_TDVP_Generic`: `take_step_split(.., DMRG=True)` (`tdvp_gen.py:1178-1390`) with
the operator `Vari_Opt_Single_Site_Op` of the same file (lines 25-137).  In contrast to `split_step.py` (`Sweep.lean`) the
stored environments `self.l`, `self.r`, products `self.AA` and matrices `self.K` of the object are used, the Hamiltonian
may have a matrix product operator as an additional (or the only) part, and the mean energy is stored at the end.

Index convention as in `EffOps.lean`: python's site `n` is `k = n - 1`, bonds are numbered as in python, `self.K[n]` is
`K (n - 1)`.  `none` is a raised exception or python's `None` in an array.  `self.C` and `self.AAA` are only used right
after they have been assigned and are local here; `self.h_expect` is not modelled.  The bond dimensions are fixed, see
`Sweep.lean`.  The time evolution (`DMRG=False`) always raises, see `C35_take_step_split_violated`.
-/

namespace EvoMPS

open Matrix Sweep

namespace GenSweep

variable {q D M : ℕ → ℕ}

/-- `HMPO`: one tensor for each site. -/
abbrev Mpo (q M : ℕ → ℕ) := ∀ n, Fin (M n) → Fin (M (n + 1)) → Fin (q n) → Fin (q n) → ℂ

/-- The attributes of the object that are used, and the local variables `KL`, `HML`, `HMR` (`tdvp_gen.py:1222-1229`). -/
structure St (q D M : ℕ → ℕ) where
  A : Tensors ℂ q D
  l : Envs ℂ D
  r : Envs ℂ D
  AA : ∀ k, Ten2 ℂ (q k) (q (k + 1)) (D k) (D (k + 1 + 1))
  K : Envs ℂ D
  KL : OptEnvs ℂ D
  HML : ∀ n, Option (Matrix (Fin (D n * M n)) (Fin (D n)) ℂ)
  HMR : ∀ n, Option (Matrix (Fin (D n * M n)) (Fin (D n)) ℂ)

/-! ## `Vari_Opt_Single_Site_Op` -/

/-- `tdvp_gen.py:63-68`: the term on the sites `k - 1`, `k`. -/
def siteL2 (h : Ham2 ℂ q) (S : St q D M) :
    ∀ k, Ten ℂ (q k) (D k) (D (k + 1)) → Option (Ten ℂ (q k) (D k) (D (k + 1)))
  | 0, _ => some 0
  | k + 1, X => (h k).map fun op =>
      let C := calcC op (calcAA (S.A k) X)
      fun s => epsL (S.l k) (S.A k) (fun t => C t s)

/-- `tdvp_gen.py:69-73`: the term on the sites `k`, `k + 1`. -/
def siteR2 (N : ℕ) (h : Ham2 ℂ q) (S : St q D M) (k : ℕ) (X : Ten ℂ (q k) (D k) (D (k + 1))) :
    Option (Ten ℂ (q k) (D k) (D (k + 1))) :=
  if k + 1 < N then (h k).map fun op =>
      let C := calcC op (calcAA X (S.A (k + 1)))
      fun s => epsR (S.r (k + 1 + 1)) (C s) (S.A (k + 1))
  else some 0

/-- `tdvp_gen.py:76-81`: the term on the sites `k - 2`, `k - 1`, `k`. -/
def siteL3 (h : Ham3 ℂ q) (S : St q D M) :
    ∀ k, Ten ℂ (q k) (D k) (D (k + 1)) → Option (Ten ℂ (q k) (D k) (D (k + 1)))
  | 0, _ => some 0
  | 1, _ => some 0
  | k + 2, X => (h k).map fun op =>
      let C := calcC3 op (calcAAA_AA (S.AA k) X)
      fun s => epsL2 (S.l k) (S.AA k) (fun t u => C t u s)

/-- `tdvp_gen.py:83-90`: the term on the sites `k - 1`, `k`, `k + 1`. -/
def siteM3 (N : ℕ) (h : Ham3 ℂ q) (S : St q D M) :
    ∀ k, Ten ℂ (q k) (D k) (D (k + 1)) → Option (Ten ℂ (q k) (D k) (D (k + 1)))
  | 0, _ => some 0
  | k + 1, X =>
    if k + 2 < N then (h k).map fun op =>
      let C := calcC3 op (calcAAA_AA (calcAA (S.A k) X) (S.A (k + 2)))
      fun s => forSum (q k) fun u => (S.A k u)ᴴ * (S.l k * epsR (S.r (k + 2 + 1)) (C u s) (S.A (k + 2)))
    else some 0

/-- `tdvp_gen.py:92-97`: the term on the sites `k`, `k + 1`, `k + 2`. -/
def siteR3 (N : ℕ) (h : Ham3 ℂ q) (S : St q D M) (k : ℕ) (X : Ten ℂ (q k) (D k) (D (k + 1))) :
    Option (Ten ℂ (q k) (D k) (D (k + 1))) :=
  if k + 2 < N then (h k).map fun op =>
      let C := calcC3 op (calcAAA_AA (calcAA X (S.A (k + 1))) (S.A (k + 2)))
      fun s => epsR2 (S.r (k + 2 + 1)) (C s) (S.AA (k + 1))
  else some 0

/-- `tdvp_gen.py:57-105` `apply_ham_local` with `res` zero on entry.  `KLnm1` is `KL[n-1]`; multiplication with `None`
raises. -/
def siteLocal (N : ℕ) (ham : Ham ℂ q) (S : St q D M) (k : ℕ) (X : Ten ℂ (q k) (D k) (D (k + 1))) :
    Option (Ten ℂ (q k) (D k) (D (k + 1))) :=
  let res : Option (Ten ℂ (q k) (D k) (D (k + 1))) := match ham with
    | .two h => (siteL2 h S k X).bind fun a => (siteR2 N h S k X).map fun b => a + b
    | .three h => (siteL3 h S k X).bind fun a => (siteM3 N h S k X).bind fun b =>
        (siteR3 N h S k X).map fun c => a + b + c
  let res := res.bind fun res => if 0 < k then (S.KL k).map fun K s => res s + K * X s else some res
  res.map fun res => if k + 1 < N then fun s => res s + X s * S.K (k + 1) else res

/-- `tdvp_gen.py:107-114` `apply_ham_MPO` with `res` zero on entry. -/
def siteMpo (W : Mpo q M) (S : St q D M) (k : ℕ) (X : Ten ℂ (q k) (D k) (D (k + 1))) :
    Option (Ten ℂ (q k) (D k) (D (k + 1))) :=
  let HMA := applyMPOLocal (W k) X
  (S.HML k).bind fun HML => (S.HMR (k + 1)).map fun HMR s => HMLᴴ * HMA s * HMR

/-- `tdvp_gen.py:116-137` `matvec` with `tau = 1`. -/
def matvec (N : ℕ) (ham : Ham ℂ q) (useLocal : Bool) (W : Option (Mpo q M)) (S : St q D M) (k : ℕ)
    (X : Ten ℂ (q k) (D k) (D (k + 1))) : Option (Ten ℂ (q k) (D k) (D (k + 1))) :=
  (if useLocal then siteLocal N ham S k X else some 0).bind fun a =>
    (W.elim (some 0) fun W => siteMpo W S k X).map fun b => a + b

/-! ## The sweep -/

/-- `tdvp_gen.py:1276-1286` `opt_A(n)`. -/
noncomputable def optA (L : Solvers) (N : ℕ) (ham : Ham ℂ q) (useLocal : Bool) (W : Option (Mpo q M)) (k : ℕ)
    (S : St q D M) : Option (St q D M) :=
  (L.eigsh (fun v => (matvec N ham useLocal W S k (tens v)).map flatT) (flatT (S.A k))).map fun w =>
    { S with A := Function.update S.A k (tens (normed w)) }

/-- `tdvp_gen.py:1288-1302`: the local Hamiltonian in `update_Heff_left(n)`. -/
def heffLocalL (ham : Ham ℂ q) (k : ℕ) (S : St q D M) : Option (St q D M) :=
  match ham, k with
  | .two _, 0 => some S
  | .two h, k + 1 =>
    let S := { S with AA := Function.update S.AA k (calcAA (S.A k) (S.A (k + 1))) }
    (h k).bind fun op => (S.KL (k + 1)).map fun Km1 =>
      let C := calcC op (S.AA k)
      { S with KL := Function.update S.KL (k + 1 + 1)
                 (some (epsL Km1 (S.A (k + 1)) (S.A (k + 1)) + epsL2 (S.l k) (S.AA k) C)) }
  | .three _, 0 => some S
  | .three _, 1 => some { S with AA := Function.update S.AA 0 (calcAA (S.A 0) (S.A 1)) }
  | .three h, k + 2 =>
    let S := { S with AA := Function.update S.AA (k + 1) (calcAA (S.A (k + 1)) (S.A (k + 2))) }
    (h k).bind fun op => (S.KL (k + 2)).map fun Km1 =>
      let AAA := calcAAA_AA (S.AA k) (S.A (k + 2))
      let C := calcC3 op AAA
      { S with KL := Function.update S.KL (k + 2 + 1)
                 (some (epsL Km1 (S.A (k + 2)) (S.A (k + 2)) + epsL3 (S.l k) AAA C)) }

/-- `tdvp_gen.py:1304-1306`: the matrix product operator in `update_Heff_left(n)`. -/
def heffMpoL (W : Option (Mpo q M)) (k : ℕ) (S : St q D M) : Option (St q D M) :=
  match W with
  | none => some S
  | some W => (S.HML k).map fun ML =>
    { S with HML := Function.update S.HML (k + 1) (some (calcMPOl S.A k (applyMPOLocal (W k) (S.A k)) ML)) }

/-- `tdvp_gen.py:1308-1321`: the local Hamiltonian in `update_Heff_right(n)`, including `calc_K(n_low=n, n_high=n)`
(lines 397-413). -/
def heffLocalR (N : ℕ) (ham : Ham ℂ q) (k : ℕ) (S : St q D M) : Option (St q D M) :=
  match ham with
  | .two h => if k + 1 < N then
      let S := { S with AA := Function.update S.AA k (calcAA (S.A k) (S.A (k + 1))) }
      (h k).map fun op =>
        let C := calcC op (S.AA k)
        { S with K := Function.update S.K k
                   (epsR (S.K (k + 1)) (S.A k) (S.A k) + epsR2 (S.r (k + 1 + 1)) C (S.AA k)) }
    else some S
  | .three h => if k + 1 < N then
      let S := { S with AA := Function.update S.AA k (calcAA (S.A k) (S.A (k + 1))) }
      if k + 2 < N then (h k).map fun op =>
        let AAA := calcAAA_AA (S.AA k) (S.A (k + 2))
        let C := calcC3 op AAA
        { S with K := Function.update S.K k
                   (epsR (S.K (k + 1)) (S.A k) (S.A k) + epsR3 (S.r (k + 2 + 1)) C AAA) }
      else some { S with K := Function.update S.K k 0 }
    else some S

/-- `tdvp_gen.py:1323-1325`: the matrix product operator in `update_Heff_right(n)`. -/
def heffMpoR (N : ℕ) (W : Option (Mpo q M)) (k : ℕ) (S : St q D M) : Option (St q D M) :=
  match W with
  | none => some S
  | some W => (S.HMR (k + 1)).map fun MR =>
    { S with HMR := Function.update S.HMR k (some (calcMPOrm1 N S.A k (applyMPOLocal (W k) (S.A k)) MR)) }

/-- `tdvp_gen.py:1329-1349`: an iteration of the sweep to the right.  The last matrix `G` is not used. -/
noncomputable def rightIter (qr : QR ℂ) (L : Solvers) (N : ℕ) (ham : Ham ℂ q) (useLocal : Bool) (W : Option (Mpo q M))
    (S : St q D M) (k : ℕ) : Option (St q D M) :=
  (optA L N ham useLocal W k S).bind fun S =>
  (orthLeft qr (S.A k)).bind fun QG =>
  let S := { S with A := Function.update S.A k QG.1, l := Function.update S.l (k + 1) 1 }
  (heffLocalL ham k S).bind fun S =>
  (heffMpoL W k S).map fun S =>
  if k + 1 < N then { S with A := Function.update S.A (k + 1) fun s => QG.2 * S.A (k + 1) s } else S

/-- The tensor in front of site `k`, multiplied from the right. -/
def mulBefore (A : Tensors ℂ q D) : ∀ k, Matrix (Fin (D k)) (Fin (D k)) ℂ → Tensors ℂ q D
  | 0, _ => A
  | k + 1, G => Function.update A k fun s => A k s * G

/-- `tdvp_gen.py:1353-1373`: an iteration of the sweep to the left.  The last matrix `Gi` is not used. -/
noncomputable def leftIter (qr : QR ℂ) (L : Solvers) (N : ℕ) (ham : Ham ℂ q) (useLocal : Bool) (W : Option (Mpo q M))
    (S : St q D M) (k : ℕ) : Option (St q D M) :=
  (optA L N ham useLocal W k S).bind fun S =>
  (orthRight qr (S.A k)).bind fun QG =>
  let S := { S with A := Function.update S.A k QG.1, r := Function.update S.r k 1 }
  (heffLocalR N ham k S).bind fun S =>
  (heffMpoR N W k S).map fun S => { S with A := mulBefore S.A k QG.2 }

/-- `tdvp_gen.py:1222-1235`: the local variables at the start.  `KL` has `N + 1` entries, so that `KL[2] = ..` raises for
a single site; an operator whose first or last index has more than one value does not fit to `eye(1)`. -/
def start (N : ℕ) (W : Option (Mpo q M)) (S : TDVP ℂ q D) : Option (St q D M) :=
  if N < 2 then none else
  let S : St q D M :=
    { A := S.A, l := S.l, r := S.r, AA := S.AA, K := S.K
      KL := Function.update (Function.update (fun _ => none) 1 (some 0)) 2 (some 0)
      HML := Function.update (fun _ => none) 0 (some oneEntry)
      HMR := Function.update (fun _ => none) N (some oneEntry) }
  match W with
  | none => some S
  | some W => if M 0 = 1 ∧ M N = 1 then
      (List.range' 0 N).reverse.foldlM (fun S k => heffMpoR N (some W) k S) S
    else none

/-- `tdvp_gen.py:1168-1175` `vari_opt_ss_sweep(HMPO=.., use_local_ham=..)`, that is `take_step_split(1., .., DMRG=True)` for
an object in right canonical form (otherwise an assertion fails) with a Hamiltonian given by arrays.  The value is the
object afterwards and `self.H_expect`.  The arguments `ncv` and `tol` are ignored by the code. -/
noncomputable def variOptSsSweep (qr : QR ℂ) (L : Solvers) (N : ℕ) (ham : Ham ℂ q) (useLocal : Bool)
    (W : Option (Mpo q M)) (h0 : D 0 = 1) (S : TDVP ℂ q D) : Option (St q D M × ℂ) :=
  (start N W S).bind fun S =>
  ((List.range' 0 N).foldlM (rightIter qr L N ham useLocal W) S).bind fun S =>
  ((List.range' 0 N).reverse.foldlM (leftIter qr L N ham useLocal W) S).bind fun S =>
  -- `tdvp_gen.py:1386-1390`
  let H : ℂ := if useLocal then S.K 0 ⟨0, by omega⟩ ⟨0, by omega⟩ else 0
  match W with
  | none => some (S, H)
  | some _ => if hM : M 0 = 1 then
      (S.HMR 0).map fun MR => (S, H + MR ⟨0, by rw [h0, hM]; omega⟩ ⟨0, by omega⟩)
    else none

end GenSweep

end EvoMPS
