import Verif.EffMpo
import Verif.Props.GenBond

/-!
# C97: the split-step integrator with a matrix product operator

`evolve_split(.., HMPO=..)` should evolve with the sum of the local terms and the matrix product operator.  The operators for a site
and for a bond are right; the function itself raises before it uses them.
-/

namespace EvoMPS

open Matrix Sweep Eff

variable {q D M : ℕ → ℕ} {N : ℕ}

namespace Eff

theorem siteMpo_elem (h0 : D 0 = 1) (hN : D N = 1) {k : ℕ} (hk : k < N) (hM0 : M 0 = 1) (hMN : M N = 1)
    (w : GenSweep.Mpo q M) (A : Tensors ℂ q D) (X Y : Ten ℂ (q k) (D k) (D (k + 1))) :
    pair (siteMpo k (w k) (mpoHL N w A k) (mpoHR N w A (k + 1)) X) Y
      = matElem (oneSite A h0 hN k Y) (mpoOp (N := N) 0 N hM0 hMN w) (oneSite A h0 hN k X) := by
  have e1 : mpoHL N w (Function.update A k X) k = mpoHL N w A k := by
    rw [mpoHL_eq _ _ _ hk.le, mpoHL_eq _ _ _ hk.le]
    exact GenSweep.mixL_mpoT_congr w fun m hm => Function.update_of_ne (by omega) _ _
  have e2 : mpoHR N w (Function.update A k X) (k + 1) = mpoHR N w A (k + 1) :=
    GenSweep.mpoHR_congr w (by omega) fun m h1 h2 => Function.update_of_ne (by omega) _ _
  have e : siteMpo k (w k) (mpoHL N w A k) (mpoHR N w A (k + 1)) X = mpoGrad N w (Function.update A k X) k := by
    funext s
    have e3 : mpoT w (Function.update A k X) k s = applyMPOLocal (w k) X s := by rw [mpoT, Function.update_self]
    rw [mpoGrad, e1, e2, e3, siteMpo]
  rw [e, ← matElem_mpoGrad w (Function.update A k X) h0 hN hM0 hMN k hk Y, oneSite_upd]
  rfl

theorem mpoRm1_eq (w : GenSweep.Mpo q M) (A : Tensors ℂ q D) (m : ℕ) (hm : m < N) :
    calcMPOrm1 N A m (applyMPOLocal (w m) (A m)) (mpoHR N w A (m + 1)) = mpoHR N w A m := by
  rw [mpoHR_step w A m hm]
  unfold calcMPOrm1
  by_cases h : m + 1 = N
  · subst h
    simp only [if_true, mpoHR_last]
    rfl
  · simp only [if_neg h]
    rfl

end Eff

/-- **C97** (site).  In the gauge with its centre at site `k`, the operator for the tensor there is `tau` times the sum of the local
Hamiltonian (if it is used) and the matrix product operator (if there is one), between states that differ in this tensor. -/
theorem C97_site (ham : Ham ℂ q) (useLocal : Bool) (W : Option (GenSweep.Mpo q M)) (A : Tensors ℂ q D) (h0 : D 0 = 1)
    (hN : D N = 1) (hM0 : M 0 = 1) (hMN : M N = 1) (k : ℕ) (hk : k < N)
    (hL : ∀ n < k, LOrth (A n)) (hR : ∀ n, k < n → n < N → ROrth (A n)) (KL KR : OptEnvs ℂ D)
    (hKL : lefts ham A k = some KL) (hKR : rights N ham A (k + 1) = some KR) (HML HMR)
    (hHL : ∀ w ∈ W, HML = mpoHL N w A k) (hHR : ∀ w ∈ W, HMR = mpoHR N w A (k + 1)) (tau : ℂ)
    (X Y res : Fin (q k) → Matrix (Fin (D k)) (Fin (D (k + 1))) ℂ)
    (hres : siteMatvecMpo N ham useLocal A k (KL k) (KR (k + 1)) (W.map fun w => w k) HML HMR tau X = some res) :
    ∑ s, (res s * (Y s)ᴴ).trace
      = tau * matElem (oneSite (N := N) A h0 hN k Y) (sweepH N ham useLocal W hM0 hMN) (oneSite A h0 hN k X) := by
  obtain ⟨r, hr, rfl⟩ := Option.map_eq_some_iff.1 hres
  simp only [Matrix.smul_mul, Matrix.trace_smul, smul_eq_mul, Matrix.add_mul, Matrix.trace_add]
  rw [← Finset.mul_sum, Finset.sum_add_distrib, sweepH, GenSweep.matElem_addM]
  congr 2
  · cases useLocal with
    | false =>
      obtain rfl := Option.some.inj hr
      simp only [Pi.zero_apply, Matrix.zero_mul, Matrix.trace_zero, Finset.sum_const_zero]
      exact (GenSweep.matElem_zeroM _ _).symm
    | true =>
      have := C57_site ham A h0 hN k hk hL hR KL KR hKL hKR 1 X Y r (by
        rw [siteMatvec]
        rw [if_pos rfl] at hr
        rw [hr]
        simp)
      rw [one_mul] at this
      exact this
  · cases W with
    | none =>
      simp only [Option.map_none, Option.elim_none, Pi.zero_apply, Matrix.zero_mul, Matrix.trace_zero, Finset.sum_const_zero]
      exact (GenSweep.matElem_zeroM _ _).symm
    | some w =>
      rw [hHL w rfl, hHR w rfl]
      exact siteMpo_elem h0 hN hk hM0 hMN w A X Y

/-- **C97** (bond).  The same for the matrix on the bond between the sites `k` and `k + 1`. -/
theorem C97_bond (ham : Ham ℂ q) (useLocal : Bool) (W : Option (GenSweep.Mpo q M)) (A : Tensors ℂ q D) (h0 : D 0 = 1)
    (hN : D N = 1) (hM0 : M 0 = 1) (hMN : M N = 1) (k : ℕ) (hk : k + 1 < N)
    (hL : ∀ n ≤ k, LOrth (A n)) (hR : ∀ n, k < n → n < N → ROrth (A n)) (KL KR : OptEnvs ℂ D)
    (hKL : lefts ham A (k + 1) = some KL) (hKR : rights N ham A (k + 1) = some KR) (HMR)
    (hHR : ∀ w ∈ W, HMR = mpoHR N w A (k + 1)) (tau : ℂ)
    (G G' res : Matrix (Fin (D (k + 1))) (Fin (D (k + 1))) ℂ)
    (hres : bondMatvecMpo N ham useLocal A k (KL (k + 1)) (KR (k + 1)) (W.map fun w => mpoHL N w A (k + 1)) HMR tau G
      = some res) :
    (res * G'ᴴ).trace = tau * matElem (oneSite (N := N) A h0 hN k fun s => A k s * G') (sweepH N ham useLocal W hM0 hMN)
      (oneSite A h0 hN k fun s => A k s * G) := by
  obtain ⟨r, hr, rfl⟩ := Option.map_eq_some_iff.1 hres
  rw [Matrix.smul_mul, Matrix.trace_smul, smul_eq_mul, Matrix.add_mul, Matrix.trace_add, sweepH, GenSweep.matElem_addM]
  congr 2
  · cases useLocal with
    | false =>
      obtain rfl := Option.some.inj hr
      rw [Matrix.zero_mul, Matrix.trace_zero]
      exact (GenSweep.matElem_zeroM _ _).symm
    | true =>
      have := C57_bond ham A h0 hN k hk hL hR KL KR hKL hKR 1 G G' r (by
        rw [Eff.bondMatvec]
        rw [if_pos rfl] at hr
        rw [hr]
        simp)
      rw [one_mul] at this
      exact this
  · cases W with
    | none =>
      simp only [Option.map_none, Option.elim_none, Matrix.zero_mul, Matrix.trace_zero]
      exact (GenSweep.matElem_zeroM _ _).symm
    | some w =>
      rw [hHR w rfl]
      exact GenSweep.bondMpo_elem h0 hN hk hM0 hMN w A G G'

/-- **C97, violated** (pair of sites).  With a matrix product operator the two-site operator always raises. -/
theorem C97_pair_violated (ham : Ham ℂ q) (useLocal : Bool) (A : Tensors ℂ q D) (k : ℕ) (KL KR)
    (W : Fin (M k) → Fin (M (k + 1)) → Fin (q k) → Fin (q k) → ℂ) (tau X) :
    pairMatvecMpo N ham useLocal A k KL KR (some W) tau X = none := by
  unfold pairMatvecMpo
  cases (if useLocal then pairLocal N ham A k KL KR X else some 0) <;> rfl

/-- **C97** (two sites without an operator).  Without a matrix product operator the two-site matrix is the one of `C57_pair`, with the
factor `tau`, and zero if the local terms are not used. -/
theorem C97_pair (ham : Ham ℂ q) (useLocal : Bool) (A : Tensors ℂ q D) (k : ℕ) (KL KR) (tau X) :
    pairMatvecMpo (M := M) N ham useLocal A k KL KR none tau X
      = if useLocal then pairMatvec N ham A k KL KR tau X else some fun _ _ => 0 := by
  unfold pairMatvecMpo pairMatvec
  cases useLocal with
  | true => cases pairLocal N ham A k KL KR X <;> rfl
  | false =>
    simp only [Bool.false_eq_true, if_false, Option.bind_some, Option.isSome_none]
    congr 1
    funext s t
    exact smul_zero tau

/-- **C97** (environments).  The loop over the sites from the right gives the environments of the matrix product operator that the
operators above need. -/
theorem C97_right_environments (A : Tensors ℂ q D) (w : GenSweep.Mpo q M) :
    ∃ V, (List.range' 0 N).reverse.foldlM (mpoRight N A)
        (⟨some w, Function.update (fun _ => none) N (some oneEntry)⟩ : MpoVars q D M) = some V ∧ V.HM = some w ∧
      ∀ n ≤ N, V.HMR n = some (mpoHR N w A n) := by
  have key : ∀ j, j ≤ N → ∃ V, (List.range' (N - j) j).reverse.foldlM (mpoRight N A)
      (⟨some w, Function.update (fun _ => none) N (some oneEntry)⟩ : MpoVars q D M) = some V ∧ V.HM = some w ∧
      ∀ n, N - j ≤ n → n ≤ N → V.HMR n = some (mpoHR N w A n) := by
    intro j
    induction j with
    | zero =>
      intro _
      refine ⟨_, rfl, rfl, fun n h1 h2 => ?_⟩
      obtain rfl : n = N := by omega
      simp only [Function.update_self, mpoHR_last]
    | succ j ih =>
      intro hj
      obtain ⟨V, hV, hHM, hR⟩ := ih (by omega)
      have e : N - j = N - (j + 1) + 1 := by omega
      have hstep : mpoRight N A V (N - (j + 1)) = some ⟨some w, Function.update V.HMR (N - (j + 1))
          (some (mpoHR N w A (N - (j + 1))))⟩ := by
        unfold mpoRight
        rw [hHM, hR (N - (j + 1) + 1) (by omega) (by omega)]
        simp only [Option.bind_some, Option.map_some]
        rw [mpoRm1_eq w A (N - (j + 1)) (by omega)]
      refine ⟨⟨some w, Function.update V.HMR (N - (j + 1)) (some (mpoHR N w A (N - (j + 1))))⟩, ?_, rfl, ?_⟩
      · rw [List.range'_succ, List.reverse_cons, List.foldlM_append, ← e, hV]
        simp only [Option.bind_eq_bind, Option.bind_some, List.foldlM_cons, hstep, List.foldlM_nil]
        rfl
      · intro n h1 h2
        by_cases hn : n = N - (j + 1)
        · subst hn
          simp only [Function.update_self]
        · simp only [Function.update_of_ne hn]
          exact hR n (by omega) h2
  obtain ⟨V, h1, h2, h3⟩ := key N le_rfl
  rw [Nat.sub_self] at h1
  exact ⟨V, h1, h2, fun n hn => h3 n (by omega) hn⟩

/-- **C97** (`evolve_split`).  Without a matrix product operator the function gets past its beginning, if the Hamiltonian is complete, with
the accumulated terms of C57. -/
theorem C97_setup_partial (ham : Ham ℂ q) (A : Tensors ℂ q D) :
    (setup (M := M) N ham A none).map Prod.fst = rights N ham A 0 := by
  have key : ∀ (l : List ℕ) (KR : OptEnvs ℂ D), l.foldlM (fun (p : OptEnvs ℂ D × Option (MpoVars q D M)) k =>
      updateHeffRight N ham A none p.2 p.1 k) (KR, none)
      = (l.foldl (fun (KR : Option (OptEnvs ℂ D)) j => KR.bind fun KR => heffRight N ham A KR j) (some KR)).map
          fun KR => (KR, none) := by
    intro l
    induction l with
    | nil => intro KR; rfl
    | cons k l ih =>
      intro KR
      rw [List.foldlM_cons, List.foldl_cons, Option.bind_some]
      unfold updateHeffRight
      cases h : heffRight N ham A KR k with
      | none =>
        have hn : ∀ l : List ℕ, l.foldl (fun (KR : Option (OptEnvs ℂ D)) j => KR.bind fun KR => heffRight N ham A KR j) none
            = none := by
          intro l
          induction l with
          | nil => rfl
          | cons _ _ ih => exact ih
        rw [hn]
        rfl
      | some KR' => exact ih KR'
  unfold setup
  rw [key]
  unfold rights
  rw [Nat.sub_zero]
  cases (List.range' 0 N).reverse.foldl (fun (KR : Option (OptEnvs ℂ D)) j => KR.bind fun KR => heffRight N ham A KR j)
    (some fun _ => none) <;> rfl

/-- **C97, violated** (`evolve_split`).  With a matrix product operator it raises for every chain: the variables for the operator are read before
they are assigned. -/
theorem C97_evolve_split_violated (hN : 0 < N) (ham : Ham ℂ q) (A : Tensors ℂ q D) (w : GenSweep.Mpo q M) :
    setup N ham A (some w) = none := by
  have key : (List.range' 0 N).reverse.foldlM (fun (p : OptEnvs ℂ D × Option (MpoVars q D M)) k =>
      updateHeffRight N ham A (some w) p.2 p.1 k) (fun _ => none, none) = none := by
    obtain ⟨l, k, hl⟩ : ∃ l k, (List.range' 0 N).reverse = k :: l := by
      cases h : (List.range' 0 N).reverse with
      | nil =>
        have := congrArg List.length h
        simp at this
        omega
      | cons k l => exact ⟨l, k, rfl⟩
    rw [hl, List.foldlM_cons]
    unfold updateHeffRight
    cases heffRight N ham A (fun _ => none) k <;> rfl
  unfold setup
  rw [key]
  rfl

/-! ## The hypotheses are met -/

/-- For every chain in the gauge of a site and every complete Hamiltonian the operator returns. -/
theorem C97_site_returns (ham : Ham ℂ q) (useLocal : Bool) (W : Option (GenSweep.Mpo q M)) (A : Tensors ℂ q D)
    (k : ℕ) (hk : k < N) (hham : ∀ j, Has ham j) (HML HMR) (tau : ℂ) (X) :
    ∃ KL KR, lefts ham A k = some KL ∧ rights N ham A (k + 1) = some KR ∧
      (siteMatvecMpo N ham useLocal A k (KL k) (KR (k + 1)) (W.map fun w => w k) HML HMR tau X).isSome := by
  obtain ⟨KL, hKL⟩ := Option.isSome_iff_exists.1 ((C57_accumulated_returns (N := N) ham A k hk.le).1.2 fun j _ => hham j)
  obtain ⟨KR, hKR⟩ := Option.isSome_iff_exists.1 ((C57_accumulated_returns (N := N) ham A (k + 1) hk).2.2
    fun j _ _ => hham j)
  refine ⟨KL, KR, hKL, hKR, ?_⟩
  unfold siteMatvecMpo
  rw [Option.isSome_map]
  cases useLocal with
  | false => rfl
  | true =>
    have := (site_isSome ham A k hk (KL k) (KR (k + 1)) 1 X).2 fun j _ _ _ => hham j
    rw [siteMatvec, Option.isSome_map] at this
    exact this

namespace Ex97

/-- Four sites in the gauge of the second one, see `Ex94`. -/
theorem gauge : (∀ n < 1, LOrth (Ex94.chain n)) ∧ ∀ n, 1 < n → n < 4 → ROrth (Ex94.chain n) :=
  ⟨fun n hn => Ex94.chain_L n (by omega), Ex94.chain_R⟩

example (ham : Ham ℂ (fun _ => 2)) (hham : ∀ j, Has ham j) (w : GenSweep.Mpo (fun _ => 2) (fun _ => 1)) (X) :
    ∃ KL KR, lefts ham Ex94.chain 1 = some KL ∧ rights 4 ham Ex94.chain 2 = some KR ∧
      (siteMatvecMpo (M := fun _ => 1) 4 ham true Ex94.chain 1 (KL 1) (KR 2) (some (w 1)) (mpoHL 4 w Ex94.chain 1) (mpoHR 4 w Ex94.chain 2)
        1 X).isSome :=
  C97_site_returns ham true (some w) Ex94.chain 1 (by norm_num) hham _ _ 1 X

end Ex97

end EvoMPS
