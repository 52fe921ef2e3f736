import Verif.GenBond
import Verif.Props.GenSweep
import Verif.Props.EffOps

/-!
# C94: the operator for the matrix on a bond (`tdvp_gen.py`)
-/

set_option linter.unusedSectionVars false

namespace EvoMPS

open Matrix Sweep Eff

variable {q D M : ℕ → ℕ} {N : ℕ}

/-- The object is up to date, with the centre at the bond between the sites `k` and `k + 1`: the tensors in front of
the bond are left canonical, those behind it right canonical, the stored environments and products belong to them,
`KL[n]` and `K[n + 1]` are the accumulated terms of the two sides, and `HML[n]`, `HMR[n]` those of the matrix
product operator, if there is one. -/
structure BondReady (N : ℕ) (ham : Ham ℂ q) (W : Option (GenSweep.Mpo q M)) (k : ℕ) (S : GenSweep.St q D M) : Prop where
  gaugeL : ∀ n ≤ k, LOrth (S.A n)
  gaugeR : ∀ n, k < n → n < N → ROrth (S.A n)
  l : ∀ n ≤ k, S.l n = 1
  r : ∀ n, k + 1 < n → n ≤ N → S.r n = 1
  aa : ∀ n, n + 1 = k ∨ n = k + 1 → ∀ s t, S.AA n s t = S.A n s * S.A (n + 1) t
  left : ∃ L, lefts ham S.A (k + 1) = some L ∧ S.KL (k + 1) = some ((L (k + 1)).getD 0)
  right : ∃ K, rights N ham S.A (k + 1) = some K ∧ S.K (k + 1) = (K (k + 1)).getD 0
  hml : S.HML (k + 1) = W.map fun w => mpoHL N w S.A (k + 1)
  hmr : S.HMR (k + 1) = W.map fun w => mpoHR N w S.A (k + 1)

namespace GenSweep

variable {ham : Ham ℂ q} {W : Option (Mpo q M)}

theorem bondLocal_eff {k : ℕ} (hk : k + 1 < N) {S : St q D M} (h : BondReady N ham W k S)
    (G : Matrix (Fin (D (k + 1))) (Fin (D (k + 1))) ℂ) :
    bondLocal N ham S k G = Eff.bondLocal N ham S.A k (S.KL (k + 1)) (some (S.K (k + 1))) G := by
  obtain ⟨L, -, hL⟩ := h.left
  have haa : ∀ n, n + 1 = k ∨ n = k + 1 → S.AA n = calcAA (S.A n) (S.A (n + 1)) := fun n hn =>
    funext fun s => funext fun t => h.aa n hn s t
  unfold bondLocal Eff.bondLocal
  rw [hL, Option.bind_some]
  simp only [Option.elim_some]
  cases ham with
  | two hm =>
    dsimp only
    have e : bond2 hm S k G = Eff.bond2 hm S.A k G := by
      unfold bond2 Eff.bond2
      rw [h.l k le_rfl, h.r (k + 1 + 1) (by omega) (by omega)]
      simp only [Matrix.one_mul]
    rw [e]
  | three hm =>
    dsimp only
    have e1 : bondR3 N hm S k G = Eff.bondR3 N hm S.A k G := by
      unfold bondR3 Eff.bondR3
      split
      · rw [h.r (k + 2 + 1) (by omega) (by omega), haa (k + 1) (by omega)]
        have e : ∀ (A : Ten ℂ (q k) (D k) (D (k + 1))) (B : Ten ℂ (q (k + 1)) (D (k + 1)) (D (k + 1 + 1)))
            (C : Ten ℂ (q (k + 2)) (D (k + 2)) (D (k + 2 + 1))),
            calcAAA_AA (calcAA A B) C = calcAAA_AAr A (calcAA B C) := by
          intro A B C
          funext s t u
          simp only [calcAAA_AA, calcAAA_AAr, calcAA, Matrix.mul_assoc]
        simp only [e]
      · rfl
    have e2 : bondL3 hm S k G = Eff.bondL3 hm S.A k G := by
      cases k with
      | zero => rfl
      | succ k => simp only [bondL3, Eff.bondL3, h.l k (by omega), haa k (by omega)]
    rw [e1, e2]

theorem mpoT_kron {p a b m1 m2 : ℕ} (W : Fin m1 → Fin m2 → Fin p → Fin p → ℂ) (A : Ten ℂ p a b)
    (G : Matrix (Fin b) (Fin b) ℂ) (s : Fin p) :
    applyMPOLocal W (fun s => A s * G) s = applyMPOLocal W A s * Uni.kron G (1 : Matrix (Fin m2) (Fin m2) ℂ) := by
  ext I J
  rw [Matrix.mul_apply, ← finProdFinEquiv.sum_comp, Fintype.sum_prod_type]
  have hd : ∀ (x : Fin b) (y : Fin m2), (finProdFinEquiv (x, y)).divNat = x := fun x y =>
    congrArg Prod.fst (finProdFinEquiv.symm_apply_apply (x, y))
  have hm : ∀ (x : Fin b) (y : Fin m2), (finProdFinEquiv (x, y)).modNat = y := fun x y =>
    congrArg Prod.snd (finProdFinEquiv.symm_apply_apply (x, y))
  simp only [applyMPOLocal, Uni.kron, Matrix.of_apply, hd, hm, forSum_eq, Matrix.one_apply, mul_ite, mul_one, mul_zero,
    Finset.sum_ite_eq', Finset.mem_univ, if_true, Matrix.mul_apply, Finset.mul_sum, Finset.sum_mul]
  rw [Finset.sum_comm]
  simp only [mul_assoc]

variable (h0 : D 0 = 1) (hN : D N = 1)

theorem bondMpo_elem {k : ℕ} (hk : k + 1 < N) (hM0 : M 0 = 1) (hMN : M N = 1) (w : Mpo q M) (A : Tensors ℂ q D)
    (G G' : Matrix (Fin (D (k + 1))) (Fin (D (k + 1))) ℂ) :
    (bondMpo k (mpoHL N w A (k + 1)) (mpoHR N w A (k + 1)) G * G'ᴴ).trace
      = matElem (oneSite A h0 hN k fun s => A k s * G') (mpoOp (N := N) 0 N hM0 hMN w)
          (oneSite A h0 hN k fun s => A k s * G) := by
  have key := matElem_mpoGrad w (Function.update A k fun s => A k s * G) h0 hN hM0 hMN k (by omega) fun s => A k s * G'
  rw [oneSite_upd] at key
  rw [show oneSite (N := N) A h0 hN k (fun s => A k s * G) = psi (Function.update A k fun s => A k s * G) h0 hN from rfl,
    key, pair_contract]
  congr 2
  have e1 : mpoHL N w (Function.update A k fun s => A k s * G) k = mpoHL N w A k := by
    rw [mpoHL_eq _ _ _ (by omega), mpoHL_eq _ _ _ (by omega)]
    exact mixL_mpoT_congr w fun m hm => Function.update_of_ne (by omega) _ _
  have e2 : mpoHR N w (Function.update A k fun s => A k s * G) (k + 1) = mpoHR N w A (k + 1) :=
    mpoHR_congr w (by omega) fun m h1 h2 => Function.update_of_ne (by omega) _ _
  have e3 : mpoHL N w A (k + 1) = ∑ s, (mpoT w A k s)ᴴ * mpoHL N w A k * A k s := by
    rw [mpoHL_eq _ _ _ (by omega), mpoHL_eq _ _ _ (by omega)]
    rfl
  have e4 : ∀ s, mpoT w (Function.update A k fun s => A k s * G) k s
      = mpoT w A k s * Uni.kron G (1 : Matrix (Fin (M (k + 1))) (Fin (M (k + 1))) ℂ) := by
    intro s
    rw [mpoT, Function.update_self]
    exact mpoT_kron (w k) (A k) G s
  simp only [mpoGrad, e1, e2, e4, bondMpo, e3]
  rw [Matrix.conjTranspose_sum, Matrix.sum_mul, Matrix.sum_mul]
  refine Finset.sum_congr rfl fun s _ => ?_
  simp only [Matrix.conjTranspose_mul, Matrix.conjTranspose_conjTranspose, Matrix.mul_assoc]

theorem bondLocal_elem {k : ℕ} (hk : k + 1 < N) {S : St q D M} (h : BondReady N ham W k S)
    (G G' : Matrix (Fin (D (k + 1))) (Fin (D (k + 1))) ℂ) {a} (ha : bondLocal N ham S k G = some a) :
    (a * G'ᴴ).trace = matElem (oneSite S.A h0 hN k fun s => S.A k s * G') (ham.total (N := N))
      (oneSite S.A h0 hN k fun s => S.A k s * G) := by
  rw [bondLocal_eff hk h] at ha
  obtain ⟨L, hL, hL'⟩ := h.left
  obtain ⟨K, hK, hK'⟩ := h.right
  have e : ∀ (x y : Option (Matrix (Fin (D (k + 1))) (Fin (D (k + 1))) ℂ)),
      Eff.bondLocal N ham S.A k (some (x.getD 0)) (some (y.getD 0)) G = Eff.bondLocal N ham S.A k x y G := by
    intro x y
    cases x <;> cases y <;> simp [Eff.bondLocal]
  rw [hL', hK', e] at ha
  have := C57_bond ham S.A h0 hN k hk h.gaugeL h.gaugeR L K hL hK 1 G G' a (by rw [Eff.bondMatvec, ha]; simp)
  simpa using this

end GenSweep

open GenSweep

/-- **C94** The operator applied by the time evolution to the matrix on a bond is `tau` times the Hamiltonian between states that
differ in the matrix there: the local Hamiltonian, if it is used, and the matrix product operator, if there is one. -/
theorem C94_bond (ham : Ham ℂ q) (useLocal : Bool) (W : Option (Mpo q M)) (h0 : D 0 = 1) (hDN : D N = 1) (hM0 : M 0 = 1)
    (hMN : M N = 1) (k : ℕ) (hk : k + 1 < N) (S : St q D M) (h : BondReady N ham W k S) (tau : ℂ)
    (G G' res : Matrix (Fin (D (k + 1))) (Fin (D (k + 1))) ℂ)
    (hres : GenSweep.bondMatvec N ham useLocal S k tau G = some res) :
    (res * G'ᴴ).trace = tau * matElem (oneSite (N := N) S.A h0 hDN k fun s => S.A k s * G')
      (sweepH N ham useLocal W hM0 hMN) (oneSite S.A h0 hDN k fun s => S.A k s * G) := by
  obtain ⟨a, ha, hm⟩ := Option.bind_eq_some_iff.1 hres
  obtain ⟨b, hb, rfl⟩ := Option.map_eq_some_iff.1 hm
  clear hres hm
  rw [Matrix.smul_mul, Matrix.trace_smul, smul_eq_mul, Matrix.add_mul, Matrix.trace_add, sweepH, matElem_addM]
  congr 2
  · cases useLocal with
    | false =>
      obtain rfl := Option.some.inj ha
      rw [Matrix.zero_mul, Matrix.trace_zero]
      exact (matElem_zeroM _ _).symm
    | true => exact bondLocal_elem h0 hDN hk h G G' ha
  · rw [h.hml, h.hmr] at hb
    cases W with
    | none =>
      obtain rfl := Option.some.inj hb
      rw [Matrix.zero_mul, Matrix.trace_zero]
      exact (matElem_zeroM _ _).symm
    | some w =>
      obtain rfl := Option.some.inj hb
      exact bondMpo_elem h0 hDN hk hM0 hMN w S.A G G'

/-- **C94** It raises if and only if the local Hamiltonian is used and a term that acts on both sides of the bond is missing. -/
theorem C94_returns (ham : Ham ℂ q) (useLocal : Bool) (W : Option (Mpo q M)) (k : ℕ) (hk : k + 1 < N) (S : St q D M)
    (h : BondReady N ham W k S) (tau : ℂ) (G : Matrix (Fin (D (k + 1))) (Fin (D (k + 1))) ℂ) :
    (GenSweep.bondMatvec N ham useLocal S k tau G).isSome
      ↔ (useLocal = true → ∀ j, j ≤ k → k + 1 < j + ham.sites → j + ham.sites ≤ N → Has ham j) := by
  have hm : ∃ b, ((S.HML (k + 1)).elim (some 0) fun HML => (S.HMR (k + 1)).map fun HMR => bondMpo k HML HMR G)
      = some b := by
    rw [h.hml, h.hmr]
    cases W <;> exact ⟨_, rfl⟩
  obtain ⟨b, hb⟩ := hm
  have hl : (bondLocal N ham S k G).isSome ↔ ∀ j, j ≤ k → k + 1 < j + ham.sites → j + ham.sites ≤ N → Has ham j := by
    rw [bondLocal_eff hk h, ← bond_isSome ham S.A k hk (S.KL (k + 1)) (some (S.K (k + 1))) 1 G, Eff.bondMatvec,
      Option.isSome_map]
  rw [GenSweep.bondMatvec]
  simp only [hb, Option.map_some]
  cases useLocal with
  | false => simp
  | true =>
    simp only [if_true, true_imp_iff]
    rw [← hl]
    cases bondLocal N ham S k G <;> simp

/-- **C94** For a Hermitian sum of both parts and `tau = 1` the operator is self-adjoint. -/
theorem C94_selfadjoint (ham : Ham ℂ q) (useLocal : Bool) (W : Option (Mpo q M)) (h0 : D 0 = 1) (hDN : D N = 1)
    (hM0 : M 0 = 1) (hMN : M N = 1) (hH : (sweepH N ham useLocal W hM0 hMN).IsHermitian) (k : ℕ) (hk : k + 1 < N)
    (S : St q D M) (h : BondReady N ham W k S) (G G' res res' : Matrix (Fin (D (k + 1))) (Fin (D (k + 1))) ℂ)
    (hres : GenSweep.bondMatvec N ham useLocal S k 1 G = some res)
    (hres' : GenSweep.bondMatvec N ham useLocal S k 1 G' = some res') :
    (res * G'ᴴ).trace = star (res' * Gᴴ).trace := by
  rw [C94_bond ham useLocal W h0 hDN hM0 hMN k hk S h 1 G G' res hres,
    C94_bond ham useLocal W h0 hDN hM0 hMN k hk S h 1 G' G res' hres', one_mul, one_mul]
  simp only [matElem, star_sum, star_mul', star_star]
  rw [Finset.sum_comm]
  refine Finset.sum_congr rfl fun s _ => Finset.sum_congr rfl fun t _ => ?_
  rw [show star (sweepH N ham useLocal W hM0 hMN s t) = sweepH N ham useLocal W hM0 hMN t s from hH.apply t s]
  ring

/-! ### The hypotheses can be met -/

/-- Every chain in the gauge of the bond can be completed to an object that is up to date. -/
theorem C94_ready (ham : Ham ℂ q) (W : Option (Mpo q M)) (k : ℕ) (hk : k + 1 < N) (A : Tensors ℂ q D)
    (hL : ∀ n ≤ k, LOrth (A n)) (hR : ∀ n, k < n → n < N → ROrth (A n)) (hham : ∀ j, Has ham j) :
    ∃ S : St q D M, S.A = A ∧ BondReady N ham W k S := by
  obtain ⟨KL, hKL⟩ := Option.isSome_iff_exists.1 ((C57_accumulated_returns (N := N) ham A (k + 1) hk.le).1.2
    fun j _ => hham j)
  obtain ⟨KR, hKR⟩ := Option.isSome_iff_exists.1 ((C57_accumulated_returns (N := N) ham A (k + 1) hk.le).2.2
    fun j _ _ => hham j)
  exact ⟨⟨A, fun _ => 1, fun _ => 1, fun n => calcAA (A n) (A (n + 1)), fun n => (KR n).getD 0,
    fun n => some ((KL n).getD 0), fun n => W.map fun w => mpoHL N w A n, fun n => W.map fun w => mpoHR N w A n⟩, rfl,
    hL, hR, fun _ _ => rfl, fun _ _ _ => rfl, fun _ _ _ _ => rfl, ⟨KL, hKL, rfl⟩, ⟨KR, hKR, rfl⟩, rfl, rfl⟩

namespace Ex94

/-- The bond dimensions 1, 1, 2, 1, 1. -/
def dims (n : ℕ) : ℕ := if n = 2 then 2 else 1

/-- A spin up, two spins in a singlet-like state `|00⟩ + |11⟩`, a spin up. -/
def chain : Tensors ℂ (fun _ => 2) dims
  | 1 => fun s => Matrix.of fun _ j => if j.val = s.val then 1 else 0
  | 2 => fun s => Matrix.of fun i _ => if i.val = s.val then 1 else 0
  | _ => fun s => Matrix.of fun _ _ => if s = 0 then 1 else 0

theorem up_L : ∑ s : Fin 2, (Matrix.of fun (_ : Fin 1) (_ : Fin 1) => if s = 0 then (1 : ℂ) else 0)ᴴ
    * (Matrix.of fun (_ : Fin 1) (_ : Fin 1) => if s = 0 then (1 : ℂ) else 0) = 1 := by
  ext i j
  fin_cases i; fin_cases j
  simp [Fin.sum_univ_two, Matrix.add_apply, Matrix.mul_apply]

theorem chain_L : ∀ n ≤ 1, LOrth (chain n) := by
  intro n hn
  interval_cases n
  · exact up_L
  · change ∑ s : Fin 2, (Matrix.of fun (_ : Fin 1) (j : Fin 2) => if j.val = s.val then (1 : ℂ) else 0)ᴴ
      * (Matrix.of fun (_ : Fin 1) (j : Fin 2) => if j.val = s.val then (1 : ℂ) else 0) = 1
    ext i j
    fin_cases i <;> fin_cases j <;> simp [Fin.sum_univ_two, Matrix.add_apply, Matrix.mul_apply]

theorem chain_R : ∀ n, 1 < n → n < 4 → ROrth (chain n) := by
  intro n h1 h2
  interval_cases n
  · change ∑ s : Fin 2, (Matrix.of fun (i : Fin 2) (_ : Fin 1) => if i.val = s.val then (1 : ℂ) else 0)
      * (Matrix.of fun (i : Fin 2) (_ : Fin 1) => if i.val = s.val then (1 : ℂ) else 0)ᴴ = 1
    ext i j
    fin_cases i <;> fin_cases j <;> simp [Fin.sum_univ_two, Matrix.add_apply, Matrix.mul_apply]
  · change ∑ s : Fin 2, (Matrix.of fun (_ : Fin 1) (_ : Fin 1) => if s = 0 then (1 : ℂ) else 0)
      * (Matrix.of fun (_ : Fin 1) (_ : Fin 1) => if s = 0 then (1 : ℂ) else 0)ᴴ = 1
    ext i j
    fin_cases i; fin_cases j
    simp [Fin.sum_univ_two, Matrix.add_apply, Matrix.mul_apply]

/-- Four sites with a bond of dimension two in the middle, any Hamiltonian without missing terms and any matrix product
operator: the operator returns. -/
example (ham : Ham ℂ (fun _ => 2)) (hham : ∀ j, Has ham j) (W : Option (Mpo (fun _ => 2) (fun _ => 1))) (tau : ℂ)
    (G : Matrix (Fin (dims 2)) (Fin (dims 2)) ℂ) : ∃ (S : St (fun _ => 2) dims (fun _ => 1)) (res : _),
    S.A = chain ∧ BondReady 4 ham W 1 S ∧ GenSweep.bondMatvec 4 ham true S 1 tau G = some res := by
  obtain ⟨S, hA, hS⟩ := C94_ready (N := 4) ham W 1 (by omega) chain chain_L chain_R hham
  obtain ⟨res, hres⟩ := Option.isSome_iff_exists.1 ((C94_returns ham true W 1 (by omega) S hS tau G).2
    fun _ j _ _ _ => hham j)
  exact ⟨S, res, hA, hS, hres⟩

end Ex94

end EvoMPS
