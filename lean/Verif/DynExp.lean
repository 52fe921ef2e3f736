import Verif.Step
import Verif.TwoSite
import Mathlib.Logic.Equiv.Fin.Basic
import Mathlib.Data.Matrix.Block

/-!
# Dynamical expansion of the bonds (`tdvp_gen.py`, `tdvp_common.py`)

Site `k` here is python's site `n = k + 1`; `none` stands for a raised exception unless said otherwise.
-/

namespace EvoMPS

open Matrix

/-- The result of `scipy.linalg.svd(Y)` with its contract: unitary factors, singular values in descending
order, none negative. -/
structure SvdOf {m n : ℕ} (Y : Matrix (Fin m) (Fin n) ℂ) where
  U : Matrix (Fin m) (Fin m) ℂ
  sv : Fin (min m n) → ℝ
  Vh : Matrix (Fin n) (Fin n) ℂ
  unitU : Uᴴ * U = 1
  unitV : Vh * Vhᴴ = 1
  nonneg : ∀ i, 0 ≤ sv i
  desc : ∀ i j, i ≤ j → sv j ≤ sv i
  eq : ∀ i j, Y i j = ∑ k : Fin (min m n), U i ⟨k, by omega⟩ * (sv k : ℂ) * Vh ⟨k, by omega⟩ j

/-- `scipy.linalg.svd`; `none` is `LinAlgError`. -/
abbrev Svd := ∀ ⦃m n : ℕ⦄ (Y : Matrix (Fin m) (Fin n) ℂ), Option (SvdOf Y)

/-- `sp.count_nonzero(sv > sv_tol)` (`tdvp_common.py:588`). -/
noncomputable def svCount {m : ℕ} (sv : Fin m → ℝ) (tol : ℝ) : ℕ :=
  (Finset.univ.filter fun i => tol < sv i).card

theorem svCount_le {m : ℕ} (sv : Fin m → ℝ) (tol : ℝ) : svCount sv tol ≤ m := by
  unfold svCount
  exact (Finset.card_filter_le _ _).trans (by simp)

/-- What `calc_BB_2s` returns for one bond. -/
structure BB (p p' a c : ℕ) where
  d : ℕ
  B12 : Option (Fin p → Matrix (Fin a) (Fin d) ℂ)
  B21 : Option (Fin p' → Matrix (Fin d) (Fin c) ℂ)

/-- The return value `None, None, 0`. -/
def BB.nothing {p p' a c : ℕ} : BB p p' a c := ⟨0, none, none⟩

/-- `tdvp_common.py:592-596`: `Z1 = U[:, :d] sqrt(sv[:d])`. -/
noncomputable def bbZ1 {m n : ℕ} {Y : Matrix (Fin m) (Fin n) ℂ} (f : SvdOf Y) (d : ℕ) (hd : d ≤ min m n) :
    Matrix (Fin m) (Fin d) ℂ :=
  mmulDiagL (fun k => ((Real.sqrt (f.sv ⟨k, by omega⟩) : ℝ) : ℂ)) (Matrix.of fun i k => f.U i ⟨k, by omega⟩)

/-- `tdvp_common.py:598`: `Z2 = sqrt(sv[:d]) Vh[:d, :]`. -/
noncomputable def bbZ2 {m n : ℕ} {Y : Matrix (Fin m) (Fin n) ℂ} (f : SvdOf Y) (d : ℕ) (hd : d ≤ min m n) :
    Matrix (Fin d) (Fin n) ℂ :=
  mmulDiagR (fun k => ((Real.sqrt (f.sv ⟨k, by omega⟩) : ℝ) : ℂ)) (Matrix.of fun k j => f.Vh ⟨k, by omega⟩ j)

/-- `tdvp_common.py:582-612` `calc_BB_2s(Y, Vlh, Vrh_p1, l_si_m1, r_si_p1, dD_max, sv_tol)`; `dD_max` is not
negative here (`tdvp_gen.py:641`). -/
noncomputable def calcBB2s (svd : Svd) {p p' a c v w : ℕ} (Y : Matrix (Fin v) (Fin w) ℂ)
    (Vlh : Fin p → Matrix (Fin v) (Fin a) ℂ) (Vrh : Fin p' → Matrix (Fin c) (Fin w) ℂ)
    (l_si : Matrix (Fin a) (Fin a) ℂ) (r_si : Matrix (Fin c) (Fin c) ℂ) (dDmax : ℕ) (svTol : ℝ) :
    BB p p' a c :=
  (svd Y).elim .nothing fun f =>
    let d := min (svCount f.sv svTol) dDmax
    have hd : d ≤ min v w := (Nat.min_le_left _ _).trans (svCount_le _ _)
    { d := d
      B12 := some fun s => l_si * (Vlh s)ᴴ * bbZ1 f d hd
      B21 := some fun s => bbZ2 f d hd * (Vrh s)ᴴ * r_si }

section
variable {R : Type*} [CommRing R] [StarRing R]

/-- `tdvp_common.py:543-552` `calc_BB_Y_2s(C, Vlh, Vrh_p1, l_s_m1, r_s_p1)`. -/
def calcBBY {p p' a c v w : ℕ} (C : Ten2 R p p' a c) (Vlh : Fin p → Matrix (Fin v) (Fin a) R)
    (Vrh : Fin p' → Matrix (Fin c) (Fin w) R) (l_s : Matrix (Fin a) (Fin a) R)
    (r_s : Matrix (Fin c) (Fin c) R) : Matrix (Fin v) (Fin w) R :=
  forSum p fun s => Vlh s * (l_s * epsR r_s (C s) fun t => (Vrh t)ᴴ)

/-- `tdvp_common.py:554-580` `calc_BB_Y_2s_ham_3s(A_m1, A_p2, C, C_m1, Vlh, Vrh_p1, l_m2, r_p2, l_s_m1,
l_si_m1, r_s_p1, r_si_p1)`.  `C.shape` with `C = None` raises. -/
def calcBBY3 {pm p p' p'' z a c d v w : ℕ} (Am1 : Option (Ten R pm z a)) (Ap2 : Option (Ten R p'' c d))
    (C : Option (Ten3 R p p' p'' a d)) (Cm1 : Option (Ten3 R pm p p' z c))
    (Vlh : Fin p → Matrix (Fin v) (Fin a) R) (Vrh : Fin p' → Matrix (Fin c) (Fin w) R)
    (lm2 : Matrix (Fin z) (Fin z) R) (rp2 : Matrix (Fin d) (Fin d) R) (l_s l_si : Matrix (Fin a) (Fin a) R)
    (r_s r_si : Matrix (Fin c) (Fin c) R) : Option (Matrix (Fin v) (Fin w) R) :=
  let Vrri : Ten R p' w c := fun s => (Vrh s)ᴴ * r_si
  let liVl : Ten R p a v := fun s => l_si * (Vlh s)ᴴ
  let Y : Matrix (Fin v) (Fin w) R := 0
  (Ap2.elim (some Y) fun Ap2 => C.map fun C =>
    Y + forSum p fun s => Vlh s * (l_s * epsR2C12 rp2 (C s) Vrri Ap2)).bind fun Y =>
  Am1.elim (some Y) fun Am1 => Cm1.map fun Cm1 =>
    Y + forSum p' fun u => epsL2A1A2C34 lm2 Am1 liVl (fun s t => Cm1 s t u) * (r_s * Vrh u)

end

variable {q D : ℕ → ℕ}

/-- The shape of `Y[n]`. -/
abbrev YMat (q D : ℕ → ℕ) (k : ℕ) :=
  Matrix (Fin (q k * D k - D (k + 1))) (Fin (D (k + 1 + 1) * q (k + 1) - D (k + 1))) ℂ

/-- The body of the loop of `tdvp_gen.py:614-628` (`calc_BB_Y_2s`) for the bond between the sites `k` and
`k + 1`; the inner `none` is an entry that stays `None`. -/
noncomputable def bbY (N : ℕ) (ham : Ham ℂ q) (S : TDVP ℂ q D) (pre : Pre q D) (k : ℕ) :
    Option (Option (YMat q D k)) :=
  match pre.Vlh k, pre.Vrh (k + 1) with
  | some Vlh, some Vrh =>
    match ham with
    | .two _ => (S.C2 k).map fun C => some (calcBBY C Vlh Vrh (pre.l_s k) (pre.r_s (k + 1 + 1)))
    | .three _ =>
      let Ap2 := if k + 3 ≤ N then some (S.A (k + 2)) else none
      match k, Vlh, Vrh, Ap2 with
      | 0, Vlh, Vrh, Ap2 => (calcBBY3 (pm := 0) (z := 0) none Ap2 (S.c3 N 0) none Vlh Vrh 0 (S.r 3)
          (pre.l_s 0) (pre.l_si 0) (pre.r_s 2) (pre.r_si 2)).map some
      | j + 1, Vlh, Vrh, Ap2 => (calcBBY3 (some (S.A j)) Ap2 (S.c3 N (j + 1)) (S.c3 N j) Vlh Vrh (S.l j)
          (S.r (j + 1 + 2 + 1)) (pre.l_s (j + 1)) (pre.l_si (j + 1)) (pre.r_s (j + 1 + 1 + 1))
          (pre.r_si (j + 1 + 1 + 1))).map some
  | _, _ => some none

/-- `tdvp_gen.py:611-629` `calc_BB_Y_2s`: the list `Y`.  The entries do not depend on each other; an exception
in one of them ends the call. -/
noncomputable def bbYs (N : ℕ) (ham : Ham ℂ q) (S : TDVP ℂ q D) (pre : Pre q D) :
    Option (∀ k, Option (YMat q D k)) :=
  (List.range' 0 (N - 1)).foldl (fun (Y : Option (∀ k, Option (YMat q D k))) k => Y.bind fun Y =>
    (bbY N ham S pre k).map fun y => Function.update Y k y) (some fun _ => none)

/-- `tdvp_gen.py:617`, `622`: `etaBB_sq[n] = adot(Y[n], Y[n])`. -/
def etaBBSq (Y : ∀ k, Option (YMat q D k)) (k : ℕ) : ℂ := (Y k).elim 0 fun y => adot y y

/-- `tdvp_gen.py:636-638`: the largest allowed increase of bond `n`. -/
def dDmaxes (D : ℕ → ℕ) (dDmax Dmax : ℤ) (n : ℕ) : ℤ :=
  if 0 < Dmax then min (Dmax - D n) dDmax else dDmax

/-- The body of the loop of `tdvp_gen.py:640-647` (`calc_BB_2s`) for the bond `k + 1`: what is written into
`BB12[n]`, `BB21[n + 1]` and `dD[n]`. -/
noncomputable def bbAt (svd : Svd) (N : ℕ) (Y : ∀ k, Option (YMat q D k)) (pre : Pre q D) (svTol : ℝ)
    (dDmax Dmax : ℤ) (k : ℕ) : BB (q k) (q (k + 1)) (D k) (D (k + 1 + 1)) :=
  if k + 1 < N then
    match Y k, pre.Vlh k, pre.Vrh (k + 1) with
    | some y, some Vlh, some Vrh =>
      if 0 < dDmaxes D dDmax Dmax (k + 1) then
        calcBB2s svd y Vlh Vrh (pre.l_si k) (pre.r_si (k + 1 + 1)) (dDmaxes D dDmax Dmax (k + 1)).toNat svTol
      else .nothing
    | _, _, _ => .nothing
  else .nothing

/-- The array `dD`. -/
def dDOf (bb : ∀ k, BB (q k) (q (k + 1)) (D k) (D (k + 1 + 1))) : ℕ → ℕ
  | 0 => 0
  | k + 1 => (bb k).d

/-- The array `BB12`. -/
def bb12 (bb : ∀ k, BB (q k) (q (k + 1)) (D k) (D (k + 1 + 1))) (k : ℕ) :
    Option (Fin (q k) → Matrix (Fin (D k)) (Fin (dDOf bb (k + 1))) ℂ) := (bb k).B12

/-- The array `BB21`; entry 1 in python, 0 here, stays `None`. -/
def bb21 (bb : ∀ k, BB (q k) (q (k + 1)) (D k) (D (k + 1 + 1))) :
    ∀ k : ℕ, Option (Fin (q k) → Matrix (Fin (dDOf bb k)) (Fin (D (k + 1))) ℂ)
  | 0 => none
  | k + 1 => (bb k).B21

/-- An array of shape `(a + da, b + db)` filled block by block. -/
def blocks {a b da db : ℕ} (X11 : Matrix (Fin a) (Fin b) ℂ) (X12 : Matrix (Fin a) (Fin db) ℂ)
    (X21 : Matrix (Fin da) (Fin b) ℂ) (X22 : Matrix (Fin da) (Fin db) ℂ) :
    Matrix (Fin (a + da)) (Fin (b + db)) ℂ :=
  (fromBlocks X11 X12 X21 X22).submatrix finSumFinEquiv.symm finSumFinEquiv.symm

/-- The object after a step with `dynexp=True`: the increases of the bond dimensions, tensors and
environments.  The fields computed by `update` are reset to their initial values and are left out. -/
structure Grown (q D : ℕ → ℕ) where
  dD : ℕ → ℕ
  mps : MPS ℂ q fun n => D n + dD n
  etaSq : ℕ → ℂ
  etaBBSq : ℕ → ℂ
  etaBB : ℂ

/-- `tdvp_gen.py:905-919`: the enlarged tensors; `c` is `-1.j * sqrt(dtau)`. -/
def grownA (bb : ∀ k, BB (q k) (q (k + 1)) (D k) (D (k + 1 + 1))) (c : ℂ) (A : Tensors ℂ q D) :
    Tensors ℂ q fun n => D n + dDOf bb n :=
  fun k s => blocks (A k s) ((bb12 bb k).elim 0 fun b => c • b s) ((bb21 bb k).elim 0 fun b => c • b s) 0

/-- `tdvp_gen.py:813-930` `take_step(dtau, B, dynexp=True, dD_max, D_max, sv_tol)`.  `self.eta_sq` is kept when
`B` is given. -/
noncomputable def takeStepDyn (P : Num) (svd : Svd) (g : Gauge) (N : ℕ) (ham : Ham ℂ q) (S : TDVP ℂ q D)
    (etaSq0 : ℕ → ℂ) (lm rm : ∀ n, MM ℂ (D n) (D n)) (dtau : ℂ) (B : Option (BList q D)) (dDmax Dmax : ℤ)
    (svTol : ℝ) : Option (Grown q D) :=
  let pre := precompute P g true S lm rm
  (B.elim ((calcBPre P g N ham S pre).map fun out => (out.B, out.etaSq)) fun B => some (B, etaSq0)).bind
  fun X => (bbYs N ham S pre).map fun Y =>
    let bb := bbAt svd N Y pre svTol dDmax Dmax
    let A := eulerLoop N dtau X.1 S.A
    let etaBB := P.sq (∑ k ∈ Finset.range (N - 1), etaBBSq Y k)
    if ((List.range' 0 (N + 1)).any fun n => decide (0 < dDOf bb n)) = true then
      { dD := dDOf bb
        mps := ⟨grownA bb (-Complex.I * P.sq dtau) A, fun n => if n = 0 then 1 else 0,
          fun n => if n = N then 1 else 0⟩
        etaSq := X.2
        etaBBSq := etaBBSq Y
        etaBB := etaBB }
    else
      { dD := fun _ => 0, mps := ⟨A, S.l, S.r⟩, etaSq := X.2, etaBBSq := etaBBSq Y, etaBB := etaBB }

end EvoMPS
