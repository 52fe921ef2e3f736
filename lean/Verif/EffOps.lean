import Verif.Energy

/-!
# The effective operators of the split-step integrator (`split_step.py`, `tdvp_gen.py`)

Index convention: python's site `n` is `k = n - 1` here, bonds are numbered as in python.  `KL[n]` of python belongs to
bond `n` and is `KL n`; `KR[n]` of python (shape `D[n-1] x D[n-1]`) is `KR (n - 1)`.  `none` in one of these arrays is
python's `None`.  A function value `none` is a raised exception: the only one possible here is the use of a missing
Hamiltonian term (`None` has no `shape`).

The chain is a finite one: `get_A(n)` is `None` unless `1 <= n <= N` (`mps_gen.py:166-169`).  Left out are the flattening
of the argument and the result of `matvec` (`x.reshape(..)`, `res.reshape(x.shape)`) and the call counter; the matrix
product operator part (`ham_MPO`, off by default) is in `EffMpo.lean`.
-/

namespace EvoMPS

open Matrix

section
variable {R : Type*} [CommRing R] [StarRing R] {q D : ℕ → ℕ}

/-- The two-site Hamiltonian terms, `ham` for `ham_sites == 2`. -/
abbrev Ham2 (R : Type*) (q : ℕ → ℕ) :=
  ∀ k, Option (Fin (q k) → Fin (q (k + 1)) → Fin (q k) → Fin (q (k + 1)) → R)

/-- The three-site Hamiltonian terms, `ham` for `ham_sites == 3`. -/
abbrev Ham3 (R : Type*) (q : ℕ → ℕ) :=
  ∀ k, Option (Fin (q k) → Fin (q (k + 1)) → Fin (q (k + 2)) → Fin (q k) → Fin (q (k + 1)) → Fin (q (k + 2)) → R)

/-- The arrays `KL`, `KR` of `split_step.py:836-840`. -/
abbrev OptEnvs (R : Type*) (D : ℕ → ℕ) := ∀ n, Option (Matrix (Fin (D n)) (Fin (D n)) R)

namespace Eff

/-! ## One site -/

/-- `split_step.py:66-74`: the term on the sites `k - 1`, `k`. -/
def siteL2 (h : Ham2 R q) (A : Tensors R q D) :
    ∀ k, Ten R (q k) (D k) (D (k + 1)) → Option (Ten R (q k) (D k) (D (k + 1)))
  | 0, _ => some 0
  | k + 1, X => (h k).map fun op =>
      let C := calcC op (calcAA (A k) X)
      fun s => epsL 1 (A k) (fun t => C t s)

/-- `split_step.py:75-81`: the term on the sites `k`, `k + 1`. -/
def siteR2 (N : ℕ) (h : Ham2 R q) (A : Tensors R q D) (k : ℕ) (X : Ten R (q k) (D k) (D (k + 1))) :
    Option (Ten R (q k) (D k) (D (k + 1))) :=
  if k + 1 < N then (h k).map fun op =>
      let C := calcC op (calcAA X (A (k + 1)))
      fun s => epsR 1 (C s) (A (k + 1))
  else some 0

/-- `split_step.py:83-92`: the term on the sites `k - 2`, `k - 1`, `k`.  `self.AAnm2` is computed in the constructor
(lines 28-31; the callers pass `None`). -/
def siteL3 (h : Ham3 R q) (A : Tensors R q D) :
    ∀ k, Ten R (q k) (D k) (D (k + 1)) → Option (Ten R (q k) (D k) (D (k + 1)))
  | 0, _ => some 0
  | 1, _ => some 0
  | k + 2, X => (h k).map fun op =>
      let AAm2 := calcAA (A k) (A (k + 1))
      let C := calcC3 op (calcAAA_AA AAm2 X)
      fun s => epsL2 1 AAm2 (fun t u => C t u s)

/-- `split_step.py:94-103`: the term on the sites `k - 1`, `k`, `k + 1`. -/
def siteM3 (N : ℕ) (h : Ham3 R q) (A : Tensors R q D) :
    ∀ k, Ten R (q k) (D k) (D (k + 1)) → Option (Ten R (q k) (D k) (D (k + 1)))
  | 0, _ => some 0
  | k + 1, X =>
    if k + 2 < N then (h k).map fun op =>
      let C := calcC3 op (calcAAA_AA (calcAA (A k) X) (A (k + 2)))
      fun s => forSum (q k) fun u => (A k u)ᴴ * epsR 1 (C u s) (A (k + 2))
    else some 0

/-- `split_step.py:105-112`: the term on the sites `k`, `k + 1`, `k + 2`. -/
def siteR3 (N : ℕ) (h : Ham3 R q) (A : Tensors R q D) (k : ℕ) (X : Ten R (q k) (D k) (D (k + 1))) :
    Option (Ten R (q k) (D k) (D (k + 1))) :=
  if k + 2 < N then (h k).map fun op =>
      let C := calcC3 op (calcAAA_AA (calcAA X (A (k + 1))) (A (k + 2)))
      fun s => epsR2 1 (C s) (calcAA (A (k + 1)) (A (k + 2)))
  else some 0

/-- `split_step.py:61-120` `Vari_Opt_Single_Site_Op.apply_ham_local` with `res` zero on entry. -/
def siteLocal (N : ℕ) (ham : Ham R q) (A : Tensors R q D) (k : ℕ)
    (KL : Option (Matrix (Fin (D k)) (Fin (D k)) R)) (KR : Option (Matrix (Fin (D (k + 1))) (Fin (D (k + 1))) R))
    (X : Ten R (q k) (D k) (D (k + 1))) : Option (Ten R (q k) (D k) (D (k + 1))) :=
  let res : Option (Ten R (q k) (D k) (D (k + 1))) := match ham with
    | .two h => (siteL2 h A k X).bind fun a => (siteR2 N h A k X).map fun b => a + b
    | .three h => (siteL3 h A k X).bind fun a => (siteM3 N h A k X).bind fun b =>
        (siteR3 N h A k X).map fun c => a + b + c
  res.map fun res =>
    let res : Ten R (q k) (D k) (D (k + 1)) := KL.elim res fun K s => res s + K * X s
    KR.elim res fun K s => res s + X s * K

/-- `split_step.py:130-150` `Vari_Opt_Single_Site_Op.matvec`. -/
def siteMatvec (N : ℕ) (ham : Ham R q) (A : Tensors R q D) (k : ℕ)
    (KL : Option (Matrix (Fin (D k)) (Fin (D k)) R)) (KR : Option (Matrix (Fin (D (k + 1))) (Fin (D (k + 1))) R))
    (tau : R) (X : Ten R (q k) (D k) (D (k + 1))) : Option (Ten R (q k) (D k) (D (k + 1))) :=
  (siteLocal N ham A k KL KR X).map fun res s => tau • res s

/-! ## A bond -/

/-- `split_step.py:388-397`: the term on the sites `k`, `k + 1` next to the bond. -/
def bond2 (h : Ham2 R q) (A : Tensors R q D) (k : ℕ) (G : Matrix (Fin (D (k + 1))) (Fin (D (k + 1))) R) :
    Option (Matrix (Fin (D (k + 1))) (Fin (D (k + 1))) R) :=
  (h k).map fun op =>
    let GA : Ten R (q (k + 1)) (D (k + 1)) (D (k + 1 + 1)) := fun s => G * A (k + 1) s
    let C := calcC op (calcAA (A k) GA)
    forSum (q k) fun s => (A k s)ᴴ * epsR 1 (C s) (A (k + 1))

/-- `split_step.py:399-406`: the term on the sites `k`, `k + 1`, `k + 2`. -/
def bondR3 (N : ℕ) (h : Ham3 R q) (A : Tensors R q D) (k : ℕ) (G : Matrix (Fin (D (k + 1))) (Fin (D (k + 1))) R) :
    Option (Matrix (Fin (D (k + 1))) (Fin (D (k + 1))) R) :=
  if k + 2 < N then (h k).map fun op =>
      let GA : Ten R (q (k + 1)) (D (k + 1)) (D (k + 1 + 1)) := fun s => G * A (k + 1) s
      let C := calcC3 op (calcAAA_AAr (A k) (calcAA GA (A (k + 2))))
      forSum (q k) fun s => (A k s)ᴴ * epsR2 1 (C s) (calcAA (A (k + 1)) (A (k + 2)))
  else some 0

/-- `split_step.py:407-416`: the term on the sites `k - 1`, `k`, `k + 1`. -/
def bondL3 (h : Ham3 R q) (A : Tensors R q D) :
    ∀ k, Matrix (Fin (D (k + 1))) (Fin (D (k + 1))) R → Option (Matrix (Fin (D (k + 1))) (Fin (D (k + 1))) R)
  | 0, _ => some 0
  | k + 1, G => (h k).map fun op =>
      let GA : Ten R (q (k + 2)) (D (k + 2)) (D (k + 2 + 1)) := fun s => G * A (k + 2) s
      let AAm1 := calcAA (A k) (A (k + 1))
      let C := calcC3 op (calcAAA_AA AAm1 GA)
      forSum (q (k + 2)) fun s => epsL2 1 AAm1 (fun t u => C t u s) * (A (k + 2) s)ᴴ

/-- `split_step.py:378-416` `Vari_Opt_SC_op.apply_ham_local` with `res` zero on entry, for the bond between the sites
`k` and `k + 1`. -/
def bondLocal (N : ℕ) (ham : Ham R q) (A : Tensors R q D) (k : ℕ)
    (KL KR : Option (Matrix (Fin (D (k + 1))) (Fin (D (k + 1))) R))
    (G : Matrix (Fin (D (k + 1))) (Fin (D (k + 1))) R) : Option (Matrix (Fin (D (k + 1))) (Fin (D (k + 1))) R) :=
  let res : Matrix (Fin (D (k + 1))) (Fin (D (k + 1))) R := KL.elim 0 fun K => K * G
  let res := KR.elim res fun K => res + G * K
  match ham with
  | .two h => (bond2 h A k G).map fun a => res + a
  | .three h => (bondR3 N h A k G).bind fun a => (bondL3 h A k G).map fun b => res + a + b

/-- `split_step.py:418-434` `Vari_Opt_SC_op.matvec`. -/
def bondMatvec (N : ℕ) (ham : Ham R q) (A : Tensors R q D) (k : ℕ)
    (KL KR : Option (Matrix (Fin (D (k + 1))) (Fin (D (k + 1))) R)) (tau : R)
    (G : Matrix (Fin (D (k + 1))) (Fin (D (k + 1))) R) : Option (Matrix (Fin (D (k + 1))) (Fin (D (k + 1))) R) :=
  (bondLocal N ham A k KL KR G).map fun res => tau • res

/-! ## A pair of sites -/

section
variable [DecidableEq R]

/-- `sp.transpose(sp.tensordot(tmp, X, axes=((1,3),(0,2))), (0,2,1,3))`, `split_step.py:215-216`. -/
def dotLeft {p p' a c : ℕ} (tmp : Fin p → Fin p → Matrix (Fin a) (Fin a) R) (X : Ten2 R p p' a c) :
    Ten2 R p p' a c :=
  fun s t => Matrix.of fun i j => ∑ s', ∑ i', tmp s s' i i' * X s' t i' j

/-- `sp.transpose(sp.tensordot(X, tmp, axes=((1,3),(1,2))), (0,2,1,3))`, `split_step.py:241-242`. -/
def dotRight {p p' a c : ℕ} (tmp : Fin p' → Fin p' → Matrix (Fin c) (Fin c) R) (X : Ten2 R p p' a c) :
    Ten2 R p p' a c :=
  fun s t => Matrix.of fun i j => ∑ t', ∑ j', X s t' i j' * tmp t t' j' j

/-- `split_step.py:201-216`: the two-site term on the sites `k - 1`, `k`. -/
def pairL2 (h : Ham2 R q) (A : Tensors R q D) :
    ∀ k, Ten2 R (q k) (q (k + 1)) (D k) (D (k + 1 + 1)) → Option (Ten2 R (q k) (q (k + 1)) (D k) (D (k + 1 + 1)))
  | 0, _ => some 0
  | k + 1, X => (h k).map fun op =>
      dotLeft (fun s s' => (epsLOp1 1 (A k) (A k) (fun t t' => op t s t' s'))ᴴ) X

/-- `split_step.py:218-221`: the two-site term on the pair itself. -/
def pairM2 (h : Ham2 R q) (k : ℕ) (X : Ten2 R (q k) (q (k + 1)) (D k) (D (k + 1 + 1))) :
    Option (Ten2 R (q k) (q (k + 1)) (D k) (D (k + 1 + 1))) :=
  (h k).map fun op => calcC op X

/-- `split_step.py:224-242`: the two-site term on the sites `k + 1`, `k + 2`. -/
def pairR2 (N : ℕ) (h : Ham2 R q) (A : Tensors R q D) (k : ℕ)
    (X : Ten2 R (q k) (q (k + 1)) (D k) (D (k + 1 + 1))) :
    Option (Ten2 R (q k) (q (k + 1)) (D k) (D (k + 1 + 1))) :=
  if k + 2 < N then (h (k + 1)).map fun op =>
      dotRight (fun t t' => epsROp1 1 (A (k + 2)) (A (k + 2)) (fun u u' => op t u t' u')) X
  else some 0

/-- `split_step.py:245-255`: the three-site term on the sites `k - 2`, `k - 1`, `k`. -/
def pairLL3 (h : Ham3 R q) (A : Tensors R q D) :
    ∀ k, Ten2 R (q k) (q (k + 1)) (D k) (D (k + 1 + 1)) → Option (Ten2 R (q k) (q (k + 1)) (D k) (D (k + 1 + 1)))
  | 0, _ => some 0
  | 1, _ => some 0
  | k + 2, X => (h k).map fun op =>
      let AAm2 := calcAA (A k) (A (k + 1))
      dotLeft (fun s s' => epsL2 1 AAm2 (calcC (fun t u t' u' => op t u s t' u' s') AAm2)) X

/-- `split_step.py:257-268`: the three-site term on the sites `k - 1`, `k`, `k + 1`.  Line 266 does not conjugate the
result of `eps_l_op_1s`. -/
def pairL3 (h : Ham3 R q) (A : Tensors R q D) :
    ∀ k, Ten2 R (q k) (q (k + 1)) (D k) (D (k + 1 + 1)) → Option (Ten2 R (q k) (q (k + 1)) (D k) (D (k + 1 + 1)))
  | 0, _ => some 0
  | k + 1, X => (h k).map fun op => fun s t =>
      let tmp : Fin (q (k + 1)) → Fin (q (k + 2)) → Fin (q (k + 1)) → Fin (q (k + 2)) →
          Matrix (Fin (D (k + 1))) (Fin (D (k + 1))) R :=
        fun s t s' t' => epsLOp1 1 (A k) (A k) (fun u u' => op u s t u' s' t')
      Matrix.of fun i j => ∑ s', ∑ t', ∑ i', tmp s t s' t' i i' * X s' t' i' j

/-- `split_step.py:270-282`: the three-site term on the sites `k`, `k + 1`, `k + 2`. -/
def pairR3 (N : ℕ) (h : Ham3 R q) (A : Tensors R q D) (k : ℕ)
    (X : Ten2 R (q k) (q (k + 1)) (D k) (D (k + 1 + 1))) :
    Option (Ten2 R (q k) (q (k + 1)) (D k) (D (k + 1 + 1))) :=
  if k + 2 < N then (h k).map fun op => fun s t =>
      let tmp : Fin (q k) → Fin (q (k + 1)) → Fin (q k) → Fin (q (k + 1)) →
          Matrix (Fin (D (k + 2))) (Fin (D (k + 2))) R :=
        fun s t s' t' => epsROp1 1 (A (k + 2)) (A (k + 2)) (fun u u' => op s t u s' t' u')
      Matrix.of fun i j => ∑ s', ∑ t', ∑ j', tmp s t s' t' j' j * X s' t' i j'
  else some 0

/-- `split_step.py:284-295`: the three-site term on the sites `k + 1`, `k + 2`, `k + 3`.  Line 292 passes the pair of
tensors as ket and the pair with the operator as bra. -/
def pairRR3 (N : ℕ) (h : Ham3 R q) (A : Tensors R q D) (k : ℕ)
    (X : Ten2 R (q k) (q (k + 1)) (D k) (D (k + 1 + 1))) :
    Option (Ten2 R (q k) (q (k + 1)) (D k) (D (k + 1 + 1))) :=
  if k + 3 < N then (h (k + 1)).map fun op =>
      let AAp2 := calcAA (A (k + 2)) (A (k + 3))
      dotRight (fun t t' => epsR2 1 AAp2 (calcC (fun u v u' v' => op t u v t' u' v') AAp2)) X
  else some 0

/-- `split_step.py:195-307` `Vari_Opt_Two_Site_Op.apply_ham_local` with `res` zero on entry. -/
def pairLocal (N : ℕ) (ham : Ham R q) (A : Tensors R q D) (k : ℕ)
    (KL : Option (Matrix (Fin (D k)) (Fin (D k)) R))
    (KR : Option (Matrix (Fin (D (k + 1 + 1))) (Fin (D (k + 1 + 1))) R))
    (X : Ten2 R (q k) (q (k + 1)) (D k) (D (k + 1 + 1))) :
    Option (Ten2 R (q k) (q (k + 1)) (D k) (D (k + 1 + 1))) :=
  let res : Option (Ten2 R (q k) (q (k + 1)) (D k) (D (k + 1 + 1))) := match ham with
    | .two h => (pairL2 h A k X).bind fun a => (pairM2 h k X).bind fun b => (pairR2 N h A k X).map fun c => a + b + c
    | .three h => (pairLL3 h A k X).bind fun a => (pairL3 h A k X).bind fun b => (pairR3 N h A k X).bind fun c =>
        (pairRR3 N h A k X).map fun d => a + b + c + d
  res.map fun res =>
    let res : Ten2 R (q k) (q (k + 1)) (D k) (D (k + 1 + 1)) := KL.elim res fun K s t => res s t + K * X s t
    KR.elim res fun K s t => res s t + X s t * K

/-- `split_step.py:309-328` `Vari_Opt_Two_Site_Op.matvec`. -/
def pairMatvec (N : ℕ) (ham : Ham R q) (A : Tensors R q D) (k : ℕ)
    (KL : Option (Matrix (Fin (D k)) (Fin (D k)) R))
    (KR : Option (Matrix (Fin (D (k + 1 + 1))) (Fin (D (k + 1 + 1))) R)) (tau : R)
    (X : Ten2 R (q k) (q (k + 1)) (D k) (D (k + 1 + 1))) :
    Option (Ten2 R (q k) (q (k + 1)) (D k) (D (k + 1 + 1))) :=
  (pairLocal N ham A k KL KR X).map fun res s t => tau • res s t

end

/-! ## The accumulated terms to the left and to the right -/

/-- `split_step.py:677-698` `update_Heff_left(n)` for `n = k + 1`: the entry `KL[n]`.  `op_expect` is not used. -/
def heffLeft (ham : Ham R q) (A : Tensors R q D) (KL : OptEnvs R D) (k : ℕ) : Option (OptEnvs R D) :=
  match ham, k with
  | .two h, k + 1 => (h k).map fun op =>
      let AAm1 := calcAA (A k) (A (k + 1))
      let C := calcC op AAm1
      let Km1 := (KL (k + 1)).getD 0
      Function.update KL (k + 1 + 1) (some (epsL Km1 (A (k + 1)) (A (k + 1)) + epsL2 1 AAm1 C))
  | .three h, k + 2 => (h k).map fun op =>
      let AAA := calcAAA (A k) (A (k + 1)) (A (k + 2))
      let C := calcC3 op AAA
      let Km1 := (KL (k + 2)).getD 0
      Function.update KL (k + 2 + 1) (some (epsL Km1 (A (k + 2)) (A (k + 2)) + epsL3 1 AAA C))
  | _, _ => some KL

/-- `split_step.py:704-726` `update_Heff_right(n)` for `n = k + 1`: the entry `KR[n]`, here `KR k`. -/
def heffRight (N : ℕ) (ham : Ham R q) (A : Tensors R q D) (KR : OptEnvs R D) (k : ℕ) : Option (OptEnvs R D) :=
  match ham with
  | .two h => if k + 1 < N then (h k).map fun op =>
        let AA := calcAA (A k) (A (k + 1))
        let C := calcC op AA
        let Kp1 := (KR (k + 1)).getD 0
        Function.update KR k (some (epsR Kp1 (A k) (A k) + epsR2 1 C AA))
      else some KR
  | .three h => if k + 2 < N then (h k).map fun op =>
        let AAA := calcAAA (A k) (A (k + 1)) (A (k + 2))
        let C := calcC3 op AAA
        let Kp1 := (KR (k + 1)).getD 0
        Function.update KR k (some (epsR Kp1 (A k) (A k) + epsR3 1 C AAA))
      else some KR

/-- `update_Heff_left(n)` for `n = 1, .., k` on `KL = [None] * (N + 1)` (`split_step.py:836-837`, `KL_bulk` not given):
the array when the centre has arrived at site `k`. -/
def lefts (ham : Ham R q) (A : Tensors R q D) (k : ℕ) : Option (OptEnvs R D) :=
  (List.range' 0 k).foldl (fun (KL : Option (OptEnvs R D)) j => KL.bind fun KL => heffLeft ham A KL j)
    (some fun _ => none)

/-- `update_Heff_right(n)` for `n = N, .., k + 1` on `KR = [None] * (N + 2)` (`split_step.py:839-842`, `KR_bulk` not
given). -/
def rights (N : ℕ) (ham : Ham R q) (A : Tensors R q D) (k : ℕ) : Option (OptEnvs R D) :=
  (List.range' k (N - k)).reverse.foldl
    (fun (KR : Option (OptEnvs R D)) j => KR.bind fun KR => heffRight N ham A KR j) (some fun _ => none)

end Eff

end

end EvoMPS
