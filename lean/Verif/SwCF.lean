import Verif.CanonLeft
import Verif.UniformCF

/-!
# The sandwich state: canonical form and normalisation

`restore_CF`, `simple_renorm` and `update` of `mps_sandwich.py`.  Bond dimensions of the finite part are arbitrary, the bulk
chains have the dimension of the bond they are attached to.  Python's `A[n + 1]` is `A n` here, `l`, `r` are numbered as
in python.  Sanity checks and the `dbg` output are left out.
-/

namespace EvoMPS.SW

open Matrix Uni

variable {q D : ℕ → ℕ} {qL qR N : ℕ}

/-- The attributes of `EvoMPS_MPS_Sandwich`, `mps_sandwich.py:58-114`.  `nc` is `N_centre`, `lEnd`, `rEnd` are
`l[N + 1]`, `r[N + 1]`; `A[0]` and `A[N + 1]` are `None`.  `q[0]` is `qL`. -/
structure Sw (q D : ℕ → ℕ) (qL qR N : ℕ) where
  nc : ℕ
  A : Tensors ℂ q D
  l : Envs ℂ D
  r : Envs ℂ D
  lEnd : Matrix (Fin (D N)) (Fin (D N)) ℂ
  rEnd : Matrix (Fin (D N)) (Fin (D N)) ℂ
  uniL : UMPS ℂ qL (D 0)
  uniR : UMPS ℂ qR (D N)

/-- `tdvp_common.py:821-906` `restore_RCF_r(A[n + 1], r[n + 1], G_n_i)` with given gauge matrix, as called in the loop
`mps_sandwich.py:336-341`: tensors, `Gi` and `r`. -/
noncomputable def onrRStep (P : HermLib) (tol : ℝ) (S : DiagSt ℂ q D) (n : ℕ) : Option (DiagSt ℂ q D) :=
  let GGh := S.G (n + 1) * (S.e (n + 1) * (S.G (n + 1))ᴴ)
  let M := epsR GGh (S.A n) (S.A n)
  (hermFac P false true false tol M).bind fun f =>
  let G := f.xiᴴ
  some ⟨Function.update S.A n (fun s => G * S.A n s * S.G (n + 1)),
    Function.update S.G n f.xᴴ,
    Function.update S.e n (rankEye (D n) f.rank)⟩

/-- `np.append(np.zeros(D - rank), np.ones(rank))` on a diagonal, or the identity, `tdvp_common.py:1083-1087`. -/
def lastOnes (D rank : ℕ) : Matrix (Fin D) (Fin D) ℂ :=
  if rank = D then 1 else diagonal fun i => if i.val < D - rank then 0 else 1

/-- `tdvp_common.py:1056-1096` `restore_LCF_l(A[n + 1], l[n], Gm1)` with given gauge matrix, as called in the loop
`mps_sandwich.py:354-360`: tensors, `Gm1` and `l`. -/
noncomputable def onrLStep (P : HermLib) (tol : ℝ) (S : DiagSt ℂ q D) (n : ℕ) : Option (DiagSt ℂ q D) :=
  let GhG := (S.G n)ᴴ * (S.e n * S.G n)
  let M := epsL GhG (S.A n) (S.A n)
  (hermFac P false true false tol M).bind fun f =>
  some ⟨Function.update S.A n (fun s => S.G n * S.A n s * f.xi),
    Function.update S.G (n + 1) f.x,
    Function.update S.e (n + 1) (lastOnes (D (n + 1)) f.rank)⟩

/-- `mps_sandwich.py:326-364` `_restore_CF_ONR` for `N_centre = c + 1`.  A centre outside of `1..N` raises: `A[nc]` is
`None`.  The bulk gauge matrices are `uGs[-1]` and `uG_is[-1]`. -/
noncomputable def restoreONR (P : HermLib) (tol : ℝ) (c : ℕ) (S : Sw q D qL qR N) : Option (Sw q D qL qR N) :=
  (Uni.restoreRCF P tol false (List.range S.uniR.L) S.uniR).bind fun uR =>
  (uR.2.1 (S.uniR.L - 1)).bind fun GiN =>
  let r := Function.update S.r N (uR.1.r (S.uniR.L - 1))
  ((List.range' (c + 1) (N - (c + 1))).reverse.foldl (fun st n => st.bind fun st => onrRStep P tol st n)
    (some ⟨S.A, Function.update 0 N GiN, r⟩)).bind fun TR =>
  let rEnd := TR.e N
  if c < N then
    let A := Function.update TR.A c fun s => TR.A c s * TR.G (c + 1)
    (Uni.restoreLCF P tol false (List.range S.uniL.L) S.uniL).bind fun uL =>
    (uL.2.2 (S.uniL.L - 1)).bind fun Gm1 =>
    let l := Function.update S.l 0 (uL.1.l (S.uniL.L - 1))
    ((List.range' 0 c).foldl (fun st n => st.bind fun st => onrLStep P tol st n)
      (some ⟨A, Function.update 0 0 Gm1, l⟩)).bind fun TL =>
    some { S with
      A := Function.update TL.A c fun s => TL.G c * TL.A c s
      l := TL.e, r := TR.e, rEnd := rEnd, uniL := uL.1, uniR := uR.1 }
  else none

open Classical in
/-- The factor of `mps_sandwich.py:282-285`: `if abs(1 - norm) > 1E-15: A[nc] *= 1 / sp.sqrt(norm)`, with `eps` for
the literal. -/
noncomputable def renormFactor (eps : ℝ) (norm : ℂ) : ℂ := if eps < ‖1 - norm‖ then 1 / csqrt norm else 1

/-- `mps_sandwich.py:278-285` `simple_renorm(update_lr=False)` for `N_centre = c + 1`. -/
noncomputable def renormCentre (eps : ℝ) (c : ℕ) (S : Sw q D qL qR N) : Sw q D qL qR N :=
  let norm := adot (S.l c) (S.r c)
  { S with A := Function.update S.A c fun s => renormFactor eps norm • S.A c s }

/-- `for s in range(m): A[0][s] = U.dot(A[0][s]); A[-1][s] = A[-1][s].dot(Ui)`, `mps_sandwich.py:379-381` and `397-399`,
for a block of `L` tensors; `m` larger than the dimension of the sites raises an `IndexError`. -/
def gaugeEnds {p d : ℕ} (m L : ℕ) (U Ui : Matrix (Fin d) (Fin d) ℂ) (A : ℕ → Ten ℂ p d d) : Option (ℕ → Ten ℂ p d d) :=
  if m ≤ p then
    let A := Function.update A 0 fun s => if s.val < m then U * A 0 s else A 0 s
    some (Function.update A (L - 1) fun s => if s.val < m then A (L - 1) s * Ui else A (L - 1) s)
  else none

/-- `mps_sandwich.py:366-400` `_restore_CF_diag` for `N_centre = c + 1` (`1 ≤ N_centre ≤ N`; other values have raised
before).  The loops call `restore_LCF_r` and `restore_RCF_l` (`lcfDiagStep`, `rcfDiagStep`).  Line 397 runs
over `range(self.q[0])` although it changes the tensors of the right bulk. -/
noncomputable def restoreDiag (eigh : Eigh ℂ) (c : ℕ) (S : Sw q D qL qR N) : Option (Sw q D qL qR N) :=
  let T := (List.range' 0 (c + 1)).reverse.foldl (lcfDiagStep eigh)
    ⟨S.A, fun n => if n = c + 1 then 1 else 0, S.r⟩
  let Ui := T.G 0
  let U := Uiᴴ
  (gaugeEnds qL S.uniL.L U Ui S.uniL.A).bind fun AL =>
  let rL := Function.update S.uniL.r (S.uniL.L - 1) (U * (S.uniL.r (S.uniL.L - 1) * Uᴴ))
  let T' := (List.range' c (N - c)).foldl (rcfDiagStep eigh) ⟨T.A, fun n => if n = c then 1 else 0, S.l⟩
  let V := T'.G N
  let Vi := Vᴴ
  (gaugeEnds qL S.uniR.L V Vi S.uniR.A).bind fun AR =>
  let lR := Function.update S.uniR.l (S.uniR.L - 1) (Viᴴ * (S.uniR.l (S.uniR.L - 1) * Vi))
  some { S with
    A := T'.A, l := T'.e, r := T.e
    uniL := { S.uniL with A := AL, r := rL }
    uniR := { S.uniR with A := AR, l := lR } }

/-- `mps_sandwich.py:402-494` `restore_CF()`.  `clrL`, `clrR` are the `calc_lr()` of the two bulk chains. -/
noncomputable def restoreSwCF (P : HermLib) (tol eps : ℝ) (clrL : UMPS ℂ qL (D 0) → Option (UMPS ℂ qL (D 0)))
    (clrR : UMPS ℂ qR (D N) → Option (UMPS ℂ qR (D N))) (S : Sw q D qL qR N) : Option (Sw q D qL qR N) :=
  (clrL S.uniL).bind fun uniL =>
  (clrR S.uniR).bind fun uniR =>
  let S := { S with uniL := uniL, uniR := uniR }
  match S.nc with
  | 0 => none
  | c + 1 =>
    (restoreONR P tol c S).bind fun S =>
    let S := { S with r := Function.update S.r c (epsR (S.r (c + 1)) (S.A c) (S.A c)) }
    let S := renormCentre eps c S
    (restoreDiag P.eigh c S).bind fun S =>
    some { S with lEnd := epsL (S.l N) (S.uniR.A 0) (S.uniR.A 0) }

/-- `mps_sandwich.py:250-263` `calc_l(n_low, n_high)`: `l[0]` is set, then `l[n]` for `n_low <= n <= n_high`, then `l[N + 1]`. -/
def calcLSw (lo hi : ℕ) (S : Sw q D qL qR N) : Sw q D qL qR N :=
  let l := Function.update S.l 0 (S.uniL.l (S.uniL.L - 1))
  let l := (List.range' (lo - 1) (hi + 1 - lo)).foldl (fun (l : Envs ℂ D) n =>
    Function.update l (n + 1) (epsL (l n) (S.A n) (S.A n))) l
  { S with l := l, lEnd := epsL (l N) (S.uniR.A 0) (S.uniR.A 0) }

/-- `mps_sandwich.py:265-276` `calc_r(n_low, n_high)`: `r[N]` is set, then `r[n]` for `n_high >= n >= n_low`; `m` is
`n_high + 1`. -/
def calcRSw (lo m : ℕ) (S : Sw q D qL qR N) : Sw q D qL qR N :=
  let r := Function.update S.r N (S.uniR.r (S.uniR.L - 1))
  let r := (List.range' lo (m - lo)).reverse.foldl (fun (r : Envs ℂ D) n =>
    Function.update r n (epsR (r (n + 1)) (S.A n) (S.A n))) r
  { S with r := r }

/-- `mps_sandwich.py:231-248` `update(restore_CF=False, normalize)`.  With `normalize` the environments up to the centre are
computed, then `simple_renorm(update_lr=True)` (lines 278-289).  For `N_centre = 1` the argument `n_high = 0` of `calc_l`
means that no `l[n]` is computed; for `N_centre = 0` line 282 uses `l[-1]`, which is `None`: an exception. -/
noncomputable def updateSw (eps : ℝ) (normalize : Bool) (S : Sw q D qL qR N) : Option (Sw q D qL qR N) :=
  if normalize then
    match S.nc with
    | 0 => none
    | c + 1 =>
      if c < N then
        let S := calcLSw 1 c S
        let S := calcRSw c N S
        let S := renormCentre eps c S
        let S := calcLSw (c + 1) N S
        some (calcRSw 0 (c + 1) S)
      else none
  else some (calcRSw 0 N (calcLSw 1 N S))

end EvoMPS.SW
