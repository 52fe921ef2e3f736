import Verif.SwCF

/-!
# Canonical forms without QR decompositions

`restore_RCF(use_QR=False)` and `restore_LCF(use_QR=False)` of `mps_gen.py`.  The gauge matrices come from factorising the
environments, so no bond dimension changes.  The steps are the `restore_RCF_r` and `restore_LCF_l` of the sandwich states
(`SW.onrRStep`, `SW.onrLStep`).  `none` stands for an `inf` or `nan` in a gauge matrix (`Uni.lastRecip`).
-/

namespace EvoMPS

open Matrix Uni

variable {q D : ℕ → ℕ}

/-- `mps_gen.py:462-469`: the loop `for n in range(N, 0, -1)` with `G_n_i = eye(D[N])` at the start. -/
noncomputable def rcfEvdSeq (P : HermLib) (tol : ℝ) (N : ℕ) (S : MPS ℂ q D) : Option (DiagSt ℂ q D) :=
  (List.range' 0 N).reverse.foldl (fun st n => st.bind fun st => SW.onrRStep P tol st n)
    (some ⟨S.A, fun n => if n = N then 1 else 0, S.r⟩)

/-- `mps_gen.py:432-497` `restore_RCF(use_QR=False, update_l=True, diag_l, normalize_mps)`.  `scaleA`, `scaleR` as in
`restoreRCF`.  The sanity checks are left out. -/
noncomputable def restoreRCFEvd (P : HermLib) (tol : ℝ) (N : ℕ) (scaleA scaleR : ℂ → ℂ) (diagL : Bool) (h0 : 0 < D 0)
    (S : MPS ℂ q D) : Option (MPS ℂ q D) :=
  (rcfEvdSeq P tol N S).bind fun T =>
  let g := T.G 0 ⟨0, h0⟩ ⟨0, h0⟩
  let A := Function.update T.A 0 (fun s => scaleA g • T.A 0 s)
  let r := Function.update T.e 0 (scaleR g • T.e 0)
  some <| if diagL then
    let U := restoreRCFlSeq P.eigh N A S.l
    ⟨U.A, U.e, r⟩
  else calcL N ⟨A, S.l, r⟩

/-- `restore_RCF(use_QR=False, normalize_mps=False)`: `A[1] *= G0[0,0]; r[0] *= abs(G0[0,0])**2`
(`mps_gen.py:475-476`). -/
noncomputable def restoreRCFEvdKeep (P : HermLib) (tol : ℝ) (N : ℕ) (diagL : Bool) (h0 : 0 < D 0)
    (S : MPS ℂ q D) : Option (MPS ℂ q D) :=
  restoreRCFEvd P tol N (fun g => g) (fun g => ((‖g‖ ^ 2 : ℝ) : ℂ)) diagL h0 S

/-- `restore_RCF(use_QR=False, normalize_mps=True)`: `A[1] *= G0[0,0]/abs(G0[0,0])` (`mps_gen.py:472`). -/
noncomputable def restoreRCFEvdNorm (P : HermLib) (tol : ℝ) (N : ℕ) (diagL : Bool) (h0 : 0 < D 0)
    (S : MPS ℂ q D) : Option (MPS ℂ q D) :=
  restoreRCFEvd P tol N (fun g => g / (‖g‖ : ℂ)) (fun _ => 1) diagL h0 S

/-- `mps_gen.py:515-520`: the loop `for n in range(1, N + 1)` with `G = eye(D[0])` at the start. -/
noncomputable def lcfEvdSeq (P : HermLib) (tol : ℝ) (N : ℕ) (S : MPS ℂ q D) : Option (DiagSt ℂ q D) :=
  (List.range' 0 N).foldl (fun st n => st.bind fun st => SW.onrLStep P tol st n)
    (some ⟨S.A, fun n => if n = 0 then 1 else 0, S.l⟩)

/-- `mps_gen.py:499-549` `restore_LCF(use_QR=False, update_r=True, diag_r, normalize_mps)`. -/
noncomputable def restoreLCFEvd (P : HermLib) (tol : ℝ) (N : ℕ) (scaleA scaleL : ℂ → ℂ) (diagR : Bool) (hN : 0 < D N)
    (S : MPS ℂ q D) : Option (MPS ℂ q D) :=
  (lcfEvdSeq P tol N S).bind fun T =>
  let g := T.G N ⟨0, hN⟩ ⟨0, hN⟩
  let A := Function.update T.A (N - 1) (fun s => scaleA g • T.A (N - 1) s)
  let l := Function.update T.e N (scaleL g • T.e N)
  some <| if diagR then
    let U := restoreLCFrSeq P.eigh N A S.r
    ⟨U.A, l, U.e⟩
  else calcR N ⟨A, l, S.r⟩

/-- `restore_LCF(use_QR=False, normalize_mps=False)` (`mps_gen.py:526-527`). -/
noncomputable def restoreLCFEvdKeep (P : HermLib) (tol : ℝ) (N : ℕ) (diagR : Bool) (hN : 0 < D N)
    (S : MPS ℂ q D) : Option (MPS ℂ q D) :=
  restoreLCFEvd P tol N (fun g => g) (fun g => ((‖g‖ ^ 2 : ℝ) : ℂ)) diagR hN S

/-- `restore_LCF(use_QR=False, normalize_mps=True)` (`mps_gen.py:523`). -/
noncomputable def restoreLCFEvdNorm (P : HermLib) (tol : ℝ) (N : ℕ) (diagR : Bool) (hN : 0 < D N)
    (S : MPS ℂ q D) : Option (MPS ℂ q D) :=
  restoreLCFEvd P tol N (fun g => g / (‖g‖ : ℂ)) (fun _ => 1) diagR hN S

end EvoMPS
