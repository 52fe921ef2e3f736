import Verif.GenSweep
import Verif.GenSweepSpec
import Verif.SweepPath
import Verif.MpoTangentLemmas

/-!
# Ground state search of `tdvp_gen.py` (helper lemmas)
-/

set_option linter.unusedSectionVars false

namespace EvoMPS

open Matrix Sweep Eff

namespace GenSweep

variable {q D M : ℕ → ℕ} {N : ℕ}

/-- The matrices `self.K`; there is no entry behind the last site. -/
def kr (N : ℕ) (K : Envs ℂ D) : OptEnvs ℂ D := fun n => if n < N then some (K n) else none

/-- The entries of `KL` that are used. -/
def kl (KL : OptEnvs ℂ D) : OptEnvs ℂ D := fun n => if 0 < n then KL n else none

/-- The stored data is right for the bonds up to `a` and from `b` on. -/
structure Inv (N : ℕ) (ham : Ham ℂ q) (W : Option (Mpo q M)) (a b : ℕ) (S : St q D M) : Prop where
  gaugeL : ∀ n < a, LOrth (S.A n)
  gaugeR : ∀ n, b ≤ n → n < N → ROrth (S.A n)
  l : ∀ n ≤ a, S.l n = 1
  r : ∀ n, b ≤ n → n ≤ N → S.r n = 1
  aa : ham.sites = 3 → ∀ n, n + 1 < a ∨ b ≤ n ∧ n + 1 < N → S.AA n = calcAA (S.A n) (S.A (n + 1))
  left : IsLeft ham S.A a fun n => (S.KL n).getD 0
  isSome : ∀ n, 1 ≤ n → n ≤ max a 2 → (S.KL n).isSome
  right : IsRight N ham S.A b fun n => (kr N S.K n).getD 0
  last : S.K (N - 1) = 0
  hml : ∀ w, W = some w → ∀ n ≤ a, S.HML n = some (mixL (D := fun n => D n * M n) (D' := D) (mpoT w S.A) S.A oneEntry n)
  hmr : ∀ w, W = some w → ∀ n, b ≤ n → n ≤ N → S.HMR n = some (mpoHR N w S.A n)

theorem mpoHR_congr (w : Mpo q M) {A B : Tensors ℂ q D} {n : ℕ} (hn : n ≤ N) (h : ∀ m, n ≤ m → m < N → B m = A m) :
    mpoHR N w B n = mpoHR N w A n := by
  obtain ⟨j, hj⟩ := Nat.exists_eq_add_of_le hn
  induction j generalizing n with
  | zero =>
    obtain rfl : N = n := hj
    rw [mpoHR_last, mpoHR_last]
  | succ j ih =>
    rw [mpoHR_step w B n (by omega), mpoHR_step w A n (by omega),
      ih (by omega) (fun m h1 h2 => h m (by omega) h2) (by omega), mpoT, mpoT, h n le_rfl (by omega)]

theorem mixL_mpoT_congr (w : Mpo q M) {A B : Tensors ℂ q D} {n : ℕ} (h : ∀ m < n, B m = A m) :
    mixL (D := fun n => D n * M n) (D' := D) (mpoT w B) B oneEntry n
      = mixL (D := fun n => D n * M n) (D' := D) (mpoT w A) A oneEntry n :=
  mixL_congr (fun m hm => by rw [mpoT, mpoT, h m hm]) h

variable {ham : Ham ℂ q} {W : Option (Mpo q M)}

theorem Inv.weaken {a b a' b' : ℕ} {S : St q D M} (h : Inv N ham W a b S) (ha : a' ≤ a) (hb : b ≤ b') :
    Inv N ham W a' b' S where
  gaugeL n hn := h.gaugeL n (by omega)
  gaugeR n hn := h.gaugeR n (by omega)
  l n hn := h.l n (by omega)
  r n hn := h.r n (by omega)
  aa h3 n hn := h.aa h3 n (by omega)
  left := IsLeft.congr h.left ha fun _ _ => rfl
  isSome n h1 h2 := h.isSome n h1 (by omega)
  right := IsRight.congr h.right hb fun _ _ _ => rfl
  last := h.last
  hml w hw n hn := h.hml w hw n (by omega)
  hmr w hw n hn := h.hmr w hw n (by omega)

theorem Inv.touch {a b j : ℕ} {S : St q D M} (h : Inv N ham W a b S) (ha : a ≤ j) (hb : j < b)
    (X : Ten ℂ (q j) (D j) (D (j + 1))) : Inv N ham W a b { S with A := Function.update S.A j X } := by
  have e : ∀ n, n ≠ j → Function.update S.A j X n = S.A n := fun n hn => Function.update_of_ne hn _ _
  refine ⟨fun n hn => ?_, fun n h1 h2 => ?_, h.l, h.r, fun h3 n hn => ?_, ?_, h.isSome, ?_, h.last, fun w hw n hn => ?_,
    fun w hw n h1 h2 => ?_⟩
  · dsimp only
    rw [e n (by omega)]
    exact h.gaugeL n hn
  · dsimp only
    rw [e n (by omega)]
    exact h.gaugeR n h1 h2
  · dsimp only
    rw [e n (by omega), e (n + 1) (by omega)]
    exact h.aa h3 n hn
  · exact IsLeft.congr h.left le_rfl fun n hn => e n (by omega)
  · exact IsRight.congr h.right le_rfl fun n hn _ => e n (by omega)
  · exact (h.hml w hw n hn).trans (congrArg some (mixL_mpoT_congr w fun m hm => e m (by omega)).symm)
  · exact (h.hmr w hw n h1 h2).trans (congrArg some (mpoHR_congr w h2 fun m hm _ => e m (by omega)).symm)

theorem Inv.central {k : ℕ} {S : St q D M} (h : Inv N ham W k (k + 1) S) : Central N S.A k :=
  ⟨h.gaugeL, fun n h1 h2 => h.gaugeR n h1 h2⟩

/-! ## The operator -/

theorem local_eq {k : ℕ} (hk : k < N) {S : St q D M} (h : Inv N ham W k (k + 1) S) (X : Ten ℂ (q k) (D k) (D (k + 1))) :
    siteLocal N ham S k X = Eff.siteLocal N ham S.A k (kl S.KL k) (kr N S.K (k + 1)) X := by
  have hK : ∀ res : Option (Ten ℂ (q k) (D k) (D (k + 1))),
      ((res.bind fun res => if 0 < k then (S.KL k).map fun K s => res s + K * X s else some res).map
        fun res => if k + 1 < N then fun s => res s + X s * S.K (k + 1) else res)
      = res.map fun res =>
          let res : Ten ℂ (q k) (D k) (D (k + 1)) := (kl S.KL k).elim res fun K s => res s + K * X s
          (kr N S.K (k + 1)).elim res fun K s => res s + X s * K := by
    intro res
    cases res with
    | none => rfl
    | some res =>
      by_cases h0 : 0 < k
      · obtain ⟨K, hK⟩ := Option.isSome_iff_exists.1 (h.isSome k h0 (by omega))
        by_cases h1 : k + 1 < N <;> simp [kl, kr, h0, h1, hK]
      · by_cases h1 : k + 1 < N <;> simp [kl, kr, h0, h1]
  simp only [siteLocal]
  rw [hK]
  simp only [Eff.siteLocal]
  congr 1
  cases ham with
  | two hm =>
    dsimp only
    have e1 : siteL2 hm S k X = Eff.siteL2 hm S.A k X := by
      cases k with
      | zero => rfl
      | succ k => simp only [siteL2, Eff.siteL2, h.l k (by omega)]
    have e2 : siteR2 N hm S k X = Eff.siteR2 N hm S.A k X := by
      unfold siteR2 Eff.siteR2
      split
      · rw [h.r (k + 1 + 1) (by omega) (by omega)]
      · rfl
    rw [e1, e2]
  | three hm =>
    dsimp only
    have e1 : siteL3 hm S k X = Eff.siteL3 hm S.A k X := by
      rcases k with _ | _ | k
      · rfl
      · rfl
      · simp only [siteL3, Eff.siteL3, h.l k (by omega), h.aa rfl k (by omega)]
    have e2 : siteM3 N hm S k X = Eff.siteM3 N hm S.A k X := by
      cases k with
      | zero => rfl
      | succ k =>
        unfold siteM3 Eff.siteM3
        dsimp only
        split
        · rw [h.r (k + 2 + 1) (by omega) (by omega), h.l k (by omega)]
          simp only [Matrix.one_mul]
        · rfl
    have e3 : siteR3 N hm S k X = Eff.siteR3 N hm S.A k X := by
      unfold siteR3 Eff.siteR3
      split
      · rw [h.r (k + 2 + 1) (by omega) (by omega), h.aa rfl (k + 1) (by omega)]
      · rfl
    rw [e1, e2, e3]

variable (h0 : D 0 = 1) (hN : D N = 1)

theorem matElem_addM (φ ψ : Cfg q N → ℂ) (O P : Matrix (Cfg q N) (Cfg q N) ℂ) :
    matElem φ (O + P) ψ = matElem φ O ψ + matElem φ P ψ := by
  rw [matElem_dot, matElem_dot, matElem_dot, Matrix.add_mulVec, dotProduct_add]

theorem matElem_zeroM (φ ψ : Cfg q N → ℂ) : matElem φ (0 : Matrix (Cfg q N) (Cfg q N) ℂ) ψ = 0 := by
  rw [matElem_dot, Matrix.zero_mulVec, dotProduct_zero]

theorem mpo_elem {k : ℕ} (hk : k < N) (hM0 : M 0 = 1) (hMN : M N = 1) {w : Mpo q M} {S : St q D M}
    (h : Inv N ham (some w) k (k + 1) S) (X Y : Ten ℂ (q k) (D k) (D (k + 1))) :
    ∃ b, siteMpo w S k X = some b ∧
      pair b Y = matElem (oneSite S.A h0 hN k Y) (mpoOp (N := N) 0 N hM0 hMN w) (oneSite S.A h0 hN k X) := by
  have e1 := h.hml w rfl k le_rfl
  have e2 := h.hmr w rfl (k + 1) le_rfl hk
  refine ⟨_, by simp only [siteMpo, e1, e2, Option.bind_some, Option.map_some]; rfl, ?_⟩
  have key := matElem_mpoGrad w (Function.update S.A k X) h0 hN hM0 hMN k hk Y
  rw [oneSite_upd] at key
  rw [show oneSite (N := N) S.A h0 hN k X = psi (Function.update S.A k X) h0 hN from rfl, key]
  congr 1
  funext s
  rw [mpoGrad, mpoHL_eq _ _ _ hk.le, mpoHR_congr (A := S.A) (B := Function.update S.A k X) (n := k + 1) w (by omega) fun m h1 h2 =>
    Function.update_of_ne (by omega) _ _, mpoT, Function.update_self]
  rw [mixL_mpoT_congr (A := S.A) (B := Function.update S.A k X) w fun m hm => Function.update_of_ne (by omega) _ _]

theorem local_elem {k : ℕ} (hk : k < N) {S : St q D M} (h : Inv N ham W k (k + 1) S)
    (X Y : Ten ℂ (q k) (D k) (D (k + 1))) {a} (ha : siteLocal N ham S k X = some a) :
    pair a Y = matElem (oneSite S.A h0 hN k Y) (ham.total (N := N)) (oneSite S.A h0 hN k X) := by
  rw [local_eq hk h] at ha
  have hl : IsLeft ham S.A k fun n => (kl S.KL n).getD 0 := by
    have : ∀ n, (kl S.KL n).getD 0 = (S.KL n).getD 0 := by
      intro n
      unfold kl
      split
      · rfl
      · obtain rfl : n = 0 := by omega
        exact (h.left.small 0 (by have := sites_pos ham; omega)).symm
    simpa only [this] using h.left
  exact (siteLocal_eq h0 hN ham k hk X Y h.central.1 h.central.2 hl h.right ha).symm

/-- Either a term is missing, or the operator is the Hamiltonian between the tensors of site `k`. -/
theorem op {k : ℕ} (hk : k < N) (hM0 : M 0 = 1) (hMN : M N = 1) (ul : Bool) {S : St q D M}
    (h : Inv N ham W k (k + 1) S) :
    (¬ (∀ j, j + ham.sites ≤ N → Has ham j) ∧ ∀ v, (matvec N ham ul W S k (tens v)).map flatT = none) ∨
    ∀ v, (matvec N ham ul W S k (tens v)).map flatT
      = some (effM (siteT S.A h0 hN k hk) (sweepH N ham ul W hM0 hMN) *ᵥ v) := by
  have hmpo : ∀ X, ∃ b, (W.elim (some 0) fun W => siteMpo W S k X) = some b ∧ ∀ Y,
      pair b Y = matElem (oneSite S.A h0 hN k Y) (W.elim 0 fun W => Matrix.of (mpoOp (N := N) 0 N hM0 hMN W))
        (oneSite S.A h0 hN k X) := by
    intro X
    cases W with
    | none => exact ⟨0, rfl, fun Y => by rw [pair_zero]; exact (matElem_zeroM _ _).symm⟩
    | some w =>
      obtain ⟨b, hb, -⟩ := mpo_elem h0 hN hk hM0 hMN h X X
      refine ⟨b, hb, fun Y => ?_⟩
      obtain ⟨b', hb', he⟩ := mpo_elem h0 hN hk hM0 hMN h X Y
      obtain rfl : b = b' := Option.some.inj (hb.symm.trans hb')
      exact he
  by_cases hex : ul = true → ∀ j, j ≤ k → k < j + ham.sites → j + ham.sites ≤ N → Has ham j
  · right
    have := op_eq (T := siteT S.A h0 hN k hk) (sweepH N ham ul W hM0 hMN) 1
      (fun v => (matvec N ham ul W S k (tens v)).map flatT) (fun x => ?_) fun x y r hr => ?_
    · simpa using this
    · obtain ⟨b, hb, -⟩ := hmpo (tens x)
      simp only [matvec, hb, Option.map_some, Option.isSome_map, Option.isSome_bind]
      cases ul with
      | false => rfl
      | true =>
        have := (site_isSome ham S.A k hk (kl S.KL k) (kr N S.K (k + 1)) 1 (tens x)).2 (hex rfl)
        rw [siteMatvec, Option.isSome_map, ← local_eq hk h] at this
        obtain ⟨a, ha⟩ := Option.isSome_iff_exists.1 this
        simp [ha]
    · obtain ⟨res, hres, rfl⟩ := Option.map_eq_some_iff.1 hr
      obtain ⟨a, ha, hres⟩ := Option.bind_eq_some_iff.1 hres
      obtain ⟨b, hb, rfl⟩ := Option.map_eq_some_iff.1 hres
      obtain ⟨b', hb', he⟩ := hmpo (tens x)
      obtain rfl : b = b' := Option.some.inj (hb.symm.trans hb')
      have h1 : star y ⬝ᵥ flatT (a + b) = pair a (tens y) + pair b (tens y) := by
        rw [← pair_add, pair_flat, flatT_tens]
      rw [h1, he, one_mul, sweepH, matElem_addM]
      congr 1
      cases ul with
      | false =>
        obtain rfl := Option.some.inj ha
        rw [pair_zero]
        exact (matElem_zeroM _ _).symm
      | true => exact local_elem h0 hN hk h (tens x) (tens y) ha
  · left
    obtain ⟨rfl, hex'⟩ : ul = true ∧ ¬ ∀ j, j ≤ k → k < j + ham.sites → j + ham.sites ≤ N → Has ham j := by
      by_contra hc
      exact hex fun hu => by
        by_contra hh
        exact hc ⟨hu, hh⟩
    refine ⟨fun hh => hex' fun j _ _ hj => hh j hj, fun v => ?_⟩
    have : siteLocal N ham S k (tens v) = none := by
      rw [← Option.not_isSome_iff_eq_none, local_eq hk h]
      have := site_isSome ham S.A k hk (kl S.KL k) (kr N S.K (k + 1)) 1 (tens v)
      rw [siteMatvec, Option.isSome_map] at this
      rw [this]
      exact hex'
    simp [matvec, this]

theorem optA_spec {L : Solvers} (hL : L.Ok) {k : ℕ} (hk : k < N) (hM0 : M 0 = 1) (hMN : M N = 1) {ul : Bool}
    (hH : (sweepH N ham ul W hM0 hMN).IsHermitian) {S S' : St q D M}
    (h : Inv N ham W k (k + 1) S) (ho : optA L N ham ul W k S = some S') :
    Inv N ham W k (k + 1) S' ∧ Optimal (sweepH N ham ul W hM0 hMN) (siteSpace S.A h0 hN k) (psi S'.A h0 hN) ∧
      ∃ X, S'.A = Function.update S.A k X := by
  obtain ⟨w, hw, rfl⟩ := Option.map_eq_some_iff.1 ho
  refine ⟨h.touch le_rfl (by omega) _, ?_, _, rfl⟩
  rcases op h0 hN hk hM0 hMN ul h with ⟨-, hop⟩ | hop
  · rw [hL.eigsh_none _ _ hop] at hw
    exact absurd hw (by simp)
  · obtain ⟨hw0, ev, hev, hmin⟩ := hL.eigsh_eq _ _ _ _ (effM_herm _ hH) hop hw
    have := (siteT_iso h0 hN k hk h.central).optimal (sweepH N ham ul W hM0 hMN) w hw0 ev hev hmin
    rw [siteT_range] at this
    exact this

theorem optA_returns {L : Solvers} (hR : L.Returns) (hD : Dims q D N) {k : ℕ} (hk : k < N) (h2 : 2 ≤ N) (hM0 : M 0 = 1)
    (hMN : M N = 1) {ul : Bool} (hham : ∀ j, j + ham.sites ≤ N → Has ham j)
    (hH : (sweepH N ham ul W hM0 hMN).IsHermitian) {S : St q D M}
    (h : Inv N ham W k (k + 1) S) (hψ : psi (N := N) S.A h0 hN ≠ 0) : (optA L N ham ul W k S).isSome := by
  rw [optA, Option.isSome_map]
  rcases op h0 hN hk hM0 hMN ul h with ⟨hop, -⟩ | hop
  · exact absurd hham hop
  · refine hR.eigsh _ _ _ ?_ ?_ (effM_herm _ hH) hop
    · simp only [Fintype.card_prod, Fintype.card_fin]
      have hDpos : ∀ n ≤ N, 0 < D n := by
        intro n hn
        rcases Nat.eq_zero_or_pos n with rfl | hp
        · omega
        rcases Nat.lt_or_ge n N with hlt | hge
        · have := hD.bond n hp hlt
          omega
        · obtain rfl : n = N := by omega
          omega
      have h1 := hDpos k (by omega)
      have h2 := hDpos (k + 1) (by omega)
      have h3 := hD.site k hk
      have h4 : 1 ≤ D k * D (k + 1) := Nat.mul_pos h1 h2
      calc 2 ≤ q k := h3
        _ ≤ q k * (D k * D (k + 1)) := Nat.le_mul_of_pos_right _ h4
    · intro hz
      apply hψ
      rw [← oneSite_same (A := S.A) h0 hN k]
      have := (siteT S.A h0 hN k hk).map_zero
      rw [← hz] at this
      exact this

end GenSweep

end EvoMPS
