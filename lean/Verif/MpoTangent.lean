import Verif.Mpo
import Verif.Tangent

/-!
# The tangent vector for a Hamiltonian in matrix product form (`tdvp_gen.py`)

The MPO has one tensor per site; python's `H[n]` is `W (n - 1)` here, with the MPO bond dimensions
`M`.
-/

namespace EvoMPS

open Matrix

section
variable {R : Type*} [CommRing R] [StarRing R] {q D M : ℕ → ℕ}

/-- `sp.array([[1.]])`, and `m.eyemat(1)`, where one entry is expected. -/
def oneEntry {a b : ℕ} : Matrix (Fin a) (Fin b) R := Matrix.of fun _ _ => 1

/-- `tdvp_gen.py:758-761` `calc_MPO_l(MAn, n, MLm1)`, python's `n` is `k + 1`. -/
def calcMPOl (A : Tensors R q D) (k : ℕ) (MA : Ten R (q k) (D k * M k) (D (k + 1) * M (k + 1)))
    (ML : Matrix (Fin (D k * M k)) (Fin (D k)) R) :
    Matrix (Fin (D (k + 1) * M (k + 1))) (Fin (D (k + 1))) R :=
  let ML := if k = 0 then oneEntry else ML
  epsL ML MA (A k)

/-- `tdvp_gen.py:763-766` `calc_MPO_rm1(MAn, n, MRn)`, python's `n` is `k + 1`. -/
def calcMPOrm1 (N : ℕ) (A : Tensors R q D) (k : ℕ)
    (MA : Ten R (q k) (D k * M k) (D (k + 1) * M (k + 1)))
    (MR : Matrix (Fin (D (k + 1) * M (k + 1))) (Fin (D (k + 1))) R) :
    Matrix (Fin (D k * M k)) (Fin (D k)) R :=
  let MR := if k + 1 = N then oneEntry else MR
  epsR MR MA (A k)

/-- `tdvp_gen.py:773-775`: the list `AH`. -/
def mpoAH (W : ∀ n, Fin (M n) → Fin (M (n + 1)) → Fin (q n) → Fin (q n) → R) (A : Tensors R q D) :
    Tensors R q (fun n => D n * M n) :=
  fun n => applyMPOLocal (W n) (A n)

/-- `tdvp_gen.py:777-779`: the list `HR`. -/
def mpoHR (N : ℕ) (W : ∀ n, Fin (M n) → Fin (M (n + 1)) → Fin (q n) → Fin (q n) → R)
    (A : Tensors R q D) : ∀ n, Matrix (Fin (D n * M n)) (Fin (D n)) R :=
  (List.range' 0 N).reverse.foldl
    (fun HR n => Function.update HR n (calcMPOrm1 N A n (mpoAH W A n) (HR (n + 1))))
    (Function.update (fun _ => 0) N oneEntry)

/-- `tdvp_gen.py:781-783`: the list `HL`. -/
def mpoHL (N : ℕ) (W : ∀ n, Fin (M n) → Fin (M (n + 1)) → Fin (q n) → Fin (q n) → R)
    (A : Tensors R q D) : ∀ n, Matrix (Fin (D n * M n)) (Fin (D n)) R :=
  (List.range' 0 N).foldl
    (fun HL n => Function.update HL (n + 1) (calcMPOl A n (mpoAH W A n) (HL n)))
    (Function.update (fun _ => 0) 0 oneEntry)

end

variable {q D M : ℕ → ℕ}

/-- What `calc_B_MPO(H)` leaves: the list it returns, `self.eta_sq` (python's index), `self.eta` and
`self.H_expect`. -/
structure MpoTangentOut (q D : ℕ → ℕ) where
  B : ∀ k, Option (Ten ℂ (q k) (D k) (D (k + 1)))
  etaSq : ℕ → ℂ
  eta : ℂ
  Hexpect : ℂ

/-- `tdvp_gen.py:793-805`: one iteration of the loop over the sites, python's `n` is `k + 1`. -/
noncomputable def calcBMPOIter (P : Num) (N : ℕ)
    (W : ∀ n, Fin (M n) → Fin (M (n + 1)) → Fin (q n) → Fin (q n) → ℂ) (A : Tensors ℂ q D)
    (lm rm : ∀ n, MM ℂ (D n) (D n)) (T : MpoTangentOut q D) (k : ℕ) : MpoTangentOut q D :=
  let (_, lsi) := P.roots (lm k)
  let (rs, rsi) := P.roots (rm (k + 1))
  match calcVsh P.qr (A k) rs with
  | none => T
  | some Vh =>
    let Vrsi : Fin (q k) → Matrix _ _ ℂ := fun s => (rsi * Vh s)ᴴ
    let x := lsi * (mpoHL N W A k)ᴴ * epsR (mpoHR N W A (k + 1)) (mpoAH W A k) Vrsi
    { T with
      B := Function.update T.B k (some fun s => lsi * x * Vrsi s)
      etaSq := Function.update T.etaSq (k + 1) ((adot x x).re : ℂ) }

/-- `tdvp_gen.py:768-811` `calc_B_MPO(H)`; `etaSq0` is `self.eta_sq` before the call.  `none` is the
`ValueError` of a matrix product with an MPO (or a state) whose outer dimensions are not one. -/
noncomputable def calcBMPO (P : Num) (N : ℕ)
    (W : ∀ n, Fin (M n) → Fin (M (n + 1)) → Fin (q n) → Fin (q n) → ℂ) (S : MPS ℂ q D)
    (lm rm : ∀ n, MM ℂ (D n) (D n)) (etaSq0 : ℕ → ℂ) : Option (MpoTangentOut q D) :=
  if D 0 = 1 ∧ M 0 = 1 ∧ D N = 1 ∧ M N = 1 then
    let T0 : MpoTangentOut q D :=
      { B := fun _ => none, etaSq := etaSq0, eta := 0
        Hexpect := adot (mpoHL N W S.A N) (mpoHR N W S.A N) }
    let T := (List.range' 0 N).foldl (calcBMPOIter P N W S.A lm rm) T0
    some { T with eta := P.sq (∑ n ∈ Finset.range (N + 1), T.etaSq n) }
  else none

end EvoMPS
