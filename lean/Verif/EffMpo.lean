import Verif.EffOps
import Verif.GenBond

/-!
# The matrix product operator in `split_step.py`

The operators of `EffOps.lean` with a matrix product operator (`HMPO`), and the beginning of `evolve_split`.  Conventions as
there; the bond dimensions of the operator are `M`, and `HML[n]`, `HMR[n]` belong to bond `n`.
-/

namespace EvoMPS.Eff

open Matrix

variable {q D M : ℕ → ℕ}

/-- `split_step.py:122-128` `apply_ham_MPO` of `Vari_Opt_Single_Site_Op` with `res` zero on entry. -/
def siteMpo (k : ℕ) (W : Fin (M k) → Fin (M (k + 1)) → Fin (q k) → Fin (q k) → ℂ)
    (HML : Matrix (Fin (D k * M k)) (Fin (D k)) ℂ) (HMR : Matrix (Fin (D (k + 1) * M (k + 1))) (Fin (D (k + 1))) ℂ)
    (X : Ten ℂ (q k) (D k) (D (k + 1))) : Ten ℂ (q k) (D k) (D (k + 1)) :=
  let HMA := applyMPOLocal W X
  fun s => HMLᴴ * HMA s * HMR

/-- `split_step.py:130-150` `Vari_Opt_Single_Site_Op.matvec`; `HMn` is `none` for `None` (line 59). -/
def siteMatvecMpo (N : ℕ) (ham : Ham ℂ q) (useLocal : Bool) (A : Tensors ℂ q D) (k : ℕ)
    (KL : Option (Matrix (Fin (D k)) (Fin (D k)) ℂ)) (KR : Option (Matrix (Fin (D (k + 1))) (Fin (D (k + 1))) ℂ))
    (HMn : Option (Fin (M k) → Fin (M (k + 1)) → Fin (q k) → Fin (q k) → ℂ))
    (HML : Matrix (Fin (D k * M k)) (Fin (D k)) ℂ) (HMR : Matrix (Fin (D (k + 1) * M (k + 1))) (Fin (D (k + 1))) ℂ)
    (tau : ℂ) (X : Ten ℂ (q k) (D k) (D (k + 1))) : Option (Ten ℂ (q k) (D k) (D (k + 1))) :=
  (if useLocal then siteLocal N ham A k KL KR X else some 0).map fun res s =>
    tau • (res s + (HMn.elim 0 fun W => siteMpo k W HML HMR X) s)

/-- `split_step.py:418-434` `Vari_Opt_SC_op.matvec`; the matrix product operator is used if `HML` is not `None` (line 372), its
part is that of `tdvp_gen.py` (`GenSweep.bondMpo`). -/
def bondMatvecMpo (N : ℕ) (ham : Ham ℂ q) (useLocal : Bool) (A : Tensors ℂ q D) (k : ℕ)
    (KL KR : Option (Matrix (Fin (D (k + 1))) (Fin (D (k + 1))) ℂ))
    (HML : Option (Matrix (Fin (D (k + 1) * M (k + 1))) (Fin (D (k + 1))) ℂ))
    (HMR : Matrix (Fin (D (k + 1) * M (k + 1))) (Fin (D (k + 1))) ℂ) (tau : ℂ)
    (G : Matrix (Fin (D (k + 1))) (Fin (D (k + 1))) ℂ) : Option (Matrix (Fin (D (k + 1))) (Fin (D (k + 1))) ℂ) :=
  (if useLocal then bondLocal N ham A k KL KR G else some 0).map fun res =>
    tau • (res + HML.elim 0 fun HML => GenSweep.bondMpo k HML HMR G)

/-- `split_step.py:309-328` `Vari_Opt_Two_Site_Op.matvec`: with a matrix product operator a `NotImplementedError` is raised. -/
noncomputable def pairMatvecMpo (N : ℕ) (ham : Ham ℂ q) (useLocal : Bool) (A : Tensors ℂ q D) (k : ℕ)
    (KL : Option (Matrix (Fin (D k)) (Fin (D k)) ℂ))
    (KR : Option (Matrix (Fin (D (k + 1 + 1))) (Fin (D (k + 1 + 1))) ℂ))
    (HMn : Option (Fin (M k) → Fin (M (k + 1)) → Fin (q k) → Fin (q k) → ℂ)) (tau : ℂ)
    (X : Ten2 ℂ (q k) (q (k + 1)) (D k) (D (k + 1 + 1))) : Option (Ten2 ℂ (q k) (q (k + 1)) (D k) (D (k + 1 + 1))) :=
  (if useLocal then pairLocal N ham A k KL KR X else some 0).bind fun res =>
    if HMn.isSome then none else some fun s t => tau • res s t

/-! ## The beginning of `evolve_split` -/

/-- The local variables of `evolve_split` that its inner functions use for the matrix product operator: `HM` and `HMR` (`HMA` only
holds intermediate results). -/
structure MpoVars (q D M : ℕ → ℕ) where
  HM : Option (GenSweep.Mpo q M)
  HMR : ∀ n, Option (Matrix (Fin (D n * M n)) (Fin (D n)) ℂ)

/-- `split_step.py:728-730` and `852-853`: `HMR[n - 1]` from `HMR[n]`, for `n = k + 1`. -/
def mpoRight (N : ℕ) (A : Tensors ℂ q D) (V : MpoVars q D M) (k : ℕ) : Option (MpoVars q D M) :=
  V.HM.bind fun HM => (V.HMR (k + 1)).map fun HR =>
    { V with HMR := Function.update V.HMR k (some (calcMPOrm1 N A k (applyMPOLocal (HM k) (A k)) HR)) }

/-- `split_step.py:704-730` `update_Heff_right(n)` for `n = k + 1`.  `vars` is `none` as long as the variables `HMA`, `HM`, `HMR`
have not been assigned: reading them raises a `NameError`. -/
def updateHeffRight (N : ℕ) (ham : Ham ℂ q) (A : Tensors ℂ q D) (HMPO : Option (GenSweep.Mpo q M))
    (vars : Option (MpoVars q D M)) (KR : OptEnvs ℂ D) (k : ℕ) : Option (OptEnvs ℂ D × Option (MpoVars q D M)) :=
  (heffRight N ham A KR k).bind fun KR =>
    if HMPO.isSome then vars.bind fun V => (mpoRight N A V k).map fun V => (KR, some V) else some (KR, vars)

/-- `split_step.py:836-853`: the beginning of `evolve_split`, without `KL_bulk`, `KR_bulk`.  The first loop runs before the variables
for the matrix product operator are assigned. -/
def setup (N : ℕ) (ham : Ham ℂ q) (A : Tensors ℂ q D) (HMPO : Option (GenSweep.Mpo q M)) :
    Option (OptEnvs ℂ D × MpoVars q D M) :=
  ((List.range' 0 N).reverse.foldlM (fun (p : OptEnvs ℂ D × Option (MpoVars q D M)) k =>
    updateHeffRight N ham A HMPO p.2 p.1 k) (fun _ => none, none)).bind fun p =>
  let V : MpoVars q D M := ⟨HMPO, Function.update (fun _ => none) N (some oneEntry)⟩
  (if HMPO.isSome then (List.range' 0 N).reverse.foldlM (mpoRight N A) V else some V).map fun V => (p.1, V)

end EvoMPS.Eff
