import Verif.EffOpsBond
import Verif.EffOpsPair

/-!
# Inner products in the central gauge, and when the effective operators return (helper lemmas)
-/

set_option linter.unusedSectionVars false

namespace EvoMPS

open Matrix

namespace Eff

section
variable {R : Type*} [CommRing R] [StarRing R] {q D : ℕ → ℕ} {N : ℕ}

/-- The identity. -/
def oneOp : Cfg q N → Cfg q N → R := fun s t => if s = t then 1 else 0

theorem braket_oneOp (φ ψ : Cfg q N → R) : matElem φ oneOp ψ = braket φ ψ := by
  simp [matElem, braket, oneOp]

theorem Mixed.braket {B B' : Tensors R q D} {rr : Envs R D} (h : Mixed N B B' rr) (h0 : D 0 = 1) (hN : D N = 1) (e : ℕ)
    (he : e ≤ N) : EvoMPS.braket (psi (N := N) B' h0 hN) (psi B h0 hN) = adot (mixL B B' 1 e) (rr e) := by
  have := h.elem h0 hN (fun n => idOp (q n)) e he (fun _ _ _ => rfl)
  rw [mixL_opT_id B B' 1 e _ (fun n _ => rfl), matElem_prodOp] at this
  rw [← this]
  congr 1
  have hB : opT (fun n => idOp (q n)) B = B := by
    funext n
    exact opT_id B rfl
  rw [hB]

section
variable {A : Tensors R q D} (h0 : D 0 = 1) (hN : D N = 1)

theorem site_inner (k : ℕ) (hk : k < N) (X Y : Ten R (q k) (D k) (D (k + 1)))
    (hL : ∀ n < k, LOrth (A n)) (hR : ∀ n, k < n → n < N → ROrth (A n)) :
    braket (oneSite (N := N) A h0 hN k Y) (oneSite A h0 hN k X) = pair X Y := by
  obtain ⟨rr, h⟩ := exists_mixed N (Function.update A k X) (Function.update A k Y)
  rw [oneSite, oneSite, h.braket h0 hN k hk.le, mix_front hL k le_rfl, adot_one_left, h.pred k hk,
    rr_behind hR h _ (by omega) (by omega), epsR_eq, pair]
  simp [Matrix.trace_sum]

theorem pair_inner (k : ℕ) (hk : k + 1 < N) (hD : 0 < D (k + 1)) (X Y : Pairs R q D)
    (hL : ∀ n < k, LOrth (A n)) (hR : ∀ n, k + 1 < n → n < N → ROrth (A n)) :
    braket (twoSite (N := N) A h0 hN Y k) (twoSite A h0 hN X k) = pair2 (X k) (Y k) := by
  rw [← braket_oneOp]
  refine bilin1 h0 hN k hk hD oneOp (fun X => X) (fun _ _ => rfl) (fun x y x' y' => ?_) X Y
  obtain ⟨rr, h⟩ := exists_mixed N (upd2 A k x y) (upd2 A k x' y')
  rw [braket_oneOp, h.braket h0 hN k (by omega), mix_front2 hL k le_rfl, adot_one_left, rr_before hR h hk, pair2]
  simp only [Matrix.trace_sum]

theorem bond_inner (k : ℕ) (hk : k + 1 < N) (G G' : Matrix (Fin (D (k + 1))) (Fin (D (k + 1))) R)
    (hL : ∀ n < k + 1, LOrth (A n)) (hR : ∀ n, k < n → n < N → ROrth (A n)) :
    braket (oneSite (N := N) A h0 hN k fun s => A k s * G') (oneSite A h0 hN k fun s => A k s * G)
      = (G * G'ᴴ).trace := by
  rw [site_inner h0 hN k (by omega) _ _ (fun n hn => hL n (by omega)) hR, pair_contract]
  have : ∑ s, (A k s)ᴴ * (A k s * G) = G := by
    simp only [← Matrix.mul_assoc]
    rw [← Matrix.sum_mul, show ∑ s, (A k s)ᴴ * A k s = 1 from hL k (by omega), Matrix.one_mul]
  rw [this]

end

/-! ## When the operators return -/

theorem lefts_isSome (ham : Ham R q) (A : Tensors R q D) (k : ℕ) :
    (lefts ham A k).isSome ↔ ∀ j, j + ham.sites ≤ k → Has ham j := by
  have hs := sites_pos ham
  induction k with
  | zero => exact ⟨fun _ j hj => by omega, fun _ => rfl⟩
  | succ k ih =>
    have hstep : ∀ KL, (heffLeft ham A KL k).isSome ↔ ∀ j, j + ham.sites = k + 1 → Has ham j := by
      intro KL
      cases ham with
      | two hm =>
        cases k with
        | zero => exact ⟨fun _ j hj => by simp only [Ham.sites] at hj; omega, fun _ => rfl⟩
        | succ k =>
          simp only [heffLeft, Option.isSome_map, Ham.sites, Has]
          exact ⟨fun h j hj => by obtain rfl : j = k := by omega
                                  exact h, fun h => h k rfl⟩
      | three hm =>
        match k with
        | 0 => exact ⟨fun _ j hj => by simp only [Ham.sites] at hj; omega, fun _ => rfl⟩
        | 1 => exact ⟨fun _ j hj => by simp only [Ham.sites] at hj; omega, fun _ => rfl⟩
        | k + 2 =>
          simp only [heffLeft, Option.isSome_map, Ham.sites, Has]
          exact ⟨fun h j hj => by obtain rfl : j = k := by omega
                                  exact h, fun h => h k rfl⟩
    rw [lefts_succ]
    constructor
    · intro h j hj
      obtain ⟨KL', h⟩ := Option.isSome_iff_exists.1 h
      obtain ⟨KL, h1, h2⟩ := Option.bind_eq_some_iff.1 h
      rcases Nat.lt_or_ge (j + ham.sites) (k + 1) with hlt | hge
      · exact ih.1 (by rw [h1]; rfl) j (by omega)
      · exact (hstep KL).1 (by rw [h2]; rfl) j (by omega)
    · intro h
      obtain ⟨KL, h1⟩ := Option.isSome_iff_exists.1 (ih.2 fun j hj => h j (by omega))
      rw [h1]
      exact (hstep KL).2 fun j hj => h j (by omega)

theorem rights_isSome (ham : Ham R q) (A : Tensors R q D) (k : ℕ) (hk : k ≤ N) :
    (rights N ham A k).isSome ↔ ∀ j, k ≤ j → j + ham.sites ≤ N → Has ham j := by
  have hs := sites_pos ham
  obtain ⟨d, hd⟩ : ∃ d, k + d = N := ⟨N - k, by omega⟩
  induction d generalizing k with
  | zero =>
    obtain rfl : k = N := by omega
    refine ⟨fun _ j h1 h2 => by omega, fun _ => ?_⟩
    simp [rights]
  | succ d ih =>
    have hstep : ∀ KR, (heffRight N ham A KR k).isSome ↔ (k + ham.sites ≤ N → Has ham k) := by
      intro KR
      cases ham with
      | two hm =>
        simp only [heffRight, Ham.sites, Has]
        split
        · next h => simp [show k + 2 ≤ N by omega]
        · next h => simp [show ¬ k + 2 ≤ N by omega]
      | three hm =>
        simp only [heffRight, Ham.sites, Has]
        split
        · next h => simp [show k + 3 ≤ N by omega]
        · next h => simp [show ¬ k + 3 ≤ N by omega]
    rw [rights_pred ham A k (by omega)]
    constructor
    · intro h j h1 h2
      obtain ⟨KL', h⟩ := Option.isSome_iff_exists.1 h
      obtain ⟨KL, e1, e2⟩ := Option.bind_eq_some_iff.1 h
      rcases Nat.lt_or_ge k j with hlt | hge
      · exact (ih (k + 1) (by omega) (by omega)).1 (by rw [e1]; rfl) j (by omega) h2
      · obtain rfl : j = k := by omega
        exact (hstep KL).1 (by rw [e2]; rfl) h2
    · intro h
      obtain ⟨KL, h1⟩ := Option.isSome_iff_exists.1 ((ih (k + 1) (by omega) (by omega)).2 fun j a b => h j (by omega) b)
      rw [h1]
      exact (hstep KL).2 fun hj => h k le_rfl hj

theorem isSome_bind {α β : Type*} (x : Option α) (f : α → Option β) :
    (x.bind f).isSome ↔ ∃ a, x = some a ∧ (f a).isSome := by
  cases x <;> simp

theorem site_isSome (ham : Ham R q) (A : Tensors R q D) (k : ℕ) (hk : k < N) (KL KR tau X) :
    (siteMatvec N ham A k KL KR tau X).isSome
      ↔ ∀ j, j ≤ k → k < j + ham.sites → j + ham.sites ≤ N → Has ham j := by
  rw [siteMatvec, Option.isSome_map]
  cases ham with
  | two hm =>
    simp only [siteLocal, Option.isSome_map, Ham.sites, Has]
    have e : ((siteL2 hm A k X).bind fun a => (siteR2 N hm A k X).map fun b => a + b).isSome
        ↔ (siteL2 hm A k X).isSome ∧ (siteR2 N hm A k X).isSome := by
      cases siteL2 hm A k X <;> cases siteR2 N hm A k X <;> simp
    rw [e]
    have eL : (siteL2 hm A k X).isSome ↔ ∀ j, j + 1 = k → (hm j).isSome := by
      cases k with
      | zero => simp [siteL2]
      | succ k => simp [siteL2]
    have eR : (siteR2 N hm A k X).isSome ↔ (k + 1 < N → (hm k).isSome) := by
      rw [siteR2]
      split <;> simp_all
    rw [eL, eR]
    constructor
    · rintro ⟨h1, h2⟩ j a b c
      rcases Nat.lt_or_ge j k with hlt | hge
      · exact h1 j (by omega)
      · obtain rfl : j = k := by omega
        exact h2 (by omega)
    · exact fun h => ⟨fun j hj => h j (by omega) (by omega) (by omega), fun hj => h k le_rfl (by omega) (by omega)⟩
  | three hm =>
    simp only [siteLocal, Option.isSome_map, Ham.sites, Has]
    have e : ((siteL3 hm A k X).bind fun a => (siteM3 N hm A k X).bind fun b => (siteR3 N hm A k X).map fun c =>
        a + b + c).isSome ↔ (siteL3 hm A k X).isSome ∧ (siteM3 N hm A k X).isSome ∧ (siteR3 N hm A k X).isSome := by
      cases siteL3 hm A k X <;> cases siteM3 N hm A k X <;> cases siteR3 N hm A k X <;> simp
    rw [e]
    have eL : (siteL3 hm A k X).isSome ↔ ∀ j, j + 2 = k → (hm j).isSome := by
      match k with
      | 0 => simp [siteL3]
      | 1 => simp [siteL3]
      | k + 2 => simp [siteL3]
    have eM : (siteM3 N hm A k X).isSome ↔ ∀ j, j + 1 = k → k + 1 < N → (hm j).isSome := by
      cases k with
      | zero => simp [siteM3]
      | succ k =>
        rw [siteM3]
        split <;> simp_all
    have eR : (siteR3 N hm A k X).isSome ↔ (k + 2 < N → (hm k).isSome) := by
      rw [siteR3]
      split <;> simp_all
    rw [eL, eM, eR]
    constructor
    · rintro ⟨h1, h2, h3⟩ j a b c
      obtain h | h | h : j = k ∨ j + 1 = k ∨ j + 2 = k := by omega
      · subst h
        exact h3 (by omega)
      · exact h2 j h (by omega)
      · exact h1 j h
    · exact fun h => ⟨fun j hj => h j (by omega) (by omega) (by omega),
        fun j hj _ => h j (by omega) (by omega) (by omega), fun hj => h k le_rfl (by omega) (by omega)⟩

theorem bond_isSome (ham : Ham R q) (A : Tensors R q D) (k : ℕ) (hk : k + 1 < N) (KL KR tau G) :
    (bondMatvec N ham A k KL KR tau G).isSome
      ↔ ∀ j, j ≤ k → k + 1 < j + ham.sites → j + ham.sites ≤ N → Has ham j := by
  rw [bondMatvec, Option.isSome_map]
  cases ham with
  | two hm =>
    simp only [bondLocal, Option.isSome_map, Ham.sites, Has, bond2]
    exact ⟨fun h j a b c => by obtain rfl : j = k := by omega
                               exact h, fun h => h k le_rfl (by omega) (by omega)⟩
  | three hm =>
    simp only [bondLocal, Ham.sites, Has]
    have e : ∀ c, ((bondR3 N hm A k G).bind fun a => (bondL3 hm A k G).map fun b => c + a + b).isSome
        ↔ (bondR3 N hm A k G).isSome ∧ (bondL3 hm A k G).isSome := by
      intro c
      cases bondR3 N hm A k G <;> cases bondL3 hm A k G <;> simp
    rw [e]
    have eL : (bondL3 hm A k G).isSome ↔ ∀ j, j + 1 = k → (hm j).isSome := by
      cases k with
      | zero => simp [bondL3]
      | succ k => simp [bondL3]
    have eR : (bondR3 N hm A k G).isSome ↔ (k + 2 < N → (hm k).isSome) := by
      rw [bondR3]
      split <;> simp_all
    rw [eL, eR]
    constructor
    · rintro ⟨h1, h2⟩ j a b c
      rcases Nat.lt_or_ge j k with hlt | hge
      · exact h2 j (by omega)
      · obtain rfl : j = k := by omega
        exact h1 (by omega)
    · exact fun h => ⟨fun hj => h k le_rfl (by omega) (by omega), fun j hj => h j (by omega) (by omega) (by omega)⟩

theorem pair_isSome [DecidableEq R] (ham : Ham R q) (A : Tensors R q D) (k : ℕ) (hk : k + 1 < N) (KL KR tau X) :
    (pairMatvec N ham A k KL KR tau X).isSome
      ↔ ∀ j, j ≤ k + 1 → k < j + ham.sites → j + ham.sites ≤ N → Has ham j := by
  rw [pairMatvec, Option.isSome_map]
  cases ham with
  | two hm =>
    simp only [pairLocal, Option.isSome_map, Ham.sites, Has]
    have e : ((pairL2 hm A k X).bind fun a => (pairM2 hm k X).bind fun b => (pairR2 N hm A k X).map fun c =>
        a + b + c).isSome ↔ (pairL2 hm A k X).isSome ∧ (pairM2 hm k X).isSome ∧ (pairR2 N hm A k X).isSome := by
      cases pairL2 hm A k X <;> cases pairM2 hm k X <;> cases pairR2 N hm A k X <;> simp
    rw [e]
    have eL : (pairL2 hm A k X).isSome ↔ ∀ j, j + 1 = k → (hm j).isSome := by
      cases k with
      | zero => simp [pairL2]
      | succ k => simp [pairL2]
    have eM : (pairM2 hm k X).isSome ↔ (hm k).isSome := by simp [pairM2]
    have eR : (pairR2 N hm A k X).isSome ↔ (k + 2 < N → (hm (k + 1)).isSome) := by
      rw [pairR2]
      split <;> simp_all
    rw [eL, eM, eR]
    constructor
    · rintro ⟨h1, h2, h3⟩ j a b c
      obtain h | h | h : j = k ∨ j + 1 = k ∨ j = k + 1 := by omega
      · subst h
        exact h2
      · exact h1 j h
      · subst h
        exact h3 (by omega)
    · exact fun h => ⟨fun j hj => h j (by omega) (by omega) (by omega), h k (by omega) (by omega) (by omega),
        fun hj => h (k + 1) le_rfl (by omega) (by omega)⟩
  | three hm =>
    simp only [pairLocal, Option.isSome_map, Ham.sites, Has]
    have e : ((pairLL3 hm A k X).bind fun a => (pairL3 hm A k X).bind fun b => (pairR3 N hm A k X).bind fun c =>
        (pairRR3 N hm A k X).map fun d => a + b + c + d).isSome ↔ (pairLL3 hm A k X).isSome ∧
          (pairL3 hm A k X).isSome ∧ (pairR3 N hm A k X).isSome ∧ (pairRR3 N hm A k X).isSome := by
      cases pairLL3 hm A k X <;> cases pairL3 hm A k X <;> cases pairR3 N hm A k X <;> cases pairRR3 N hm A k X <;> simp
    rw [e]
    have eLL : (pairLL3 hm A k X).isSome ↔ ∀ j, j + 2 = k → (hm j).isSome := by
      match k with
      | 0 => simp [pairLL3]
      | 1 => simp [pairLL3]
      | k + 2 => simp [pairLL3]
    have eL : (pairL3 hm A k X).isSome ↔ ∀ j, j + 1 = k → (hm j).isSome := by
      cases k with
      | zero => simp [pairL3]
      | succ k => simp [pairL3]
    have eR : (pairR3 N hm A k X).isSome ↔ (k + 2 < N → (hm k).isSome) := by
      rw [pairR3]
      split <;> simp_all
    have eRR : (pairRR3 N hm A k X).isSome ↔ (k + 3 < N → (hm (k + 1)).isSome) := by
      rw [pairRR3]
      split <;> simp_all
    rw [eLL, eL, eR, eRR]
    constructor
    · rintro ⟨h1, h2, h3, h4⟩ j a b c
      obtain h | h | h | h : j = k ∨ j + 1 = k ∨ j + 2 = k ∨ j = k + 1 := by omega
      · subst h
        exact h3 (by omega)
      · exact h2 j h
      · exact h1 j h
      · subst h
        exact h4 (by omega)
    · exact fun h => ⟨fun j hj => h j (by omega) (by omega) (by omega), fun j hj => h j (by omega) (by omega) (by omega),
        fun hj => h k (by omega) (by omega) (by omega), fun hj => h (k + 1) le_rfl (by omega) (by omega)⟩

end

end Eff

end EvoMPS
