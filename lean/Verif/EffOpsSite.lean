import Verif.EffOpsLemmas

/-!
# The one-site operator and the bond operator (helper lemmas)
-/

set_option linter.unusedSectionVars false

namespace EvoMPS

open Matrix

namespace Eff

section
variable {R : Type*} [CommRing R] [StarRing R] {q D : ℕ → ℕ} {N : ℕ}

theorem adot_one_left {m : ℕ} (x : Matrix (Fin m) (Fin m) R) : adot 1 x = x.trace := by
  simp [adot_eq_trace]

section
variable {A : Tensors R q D} {k : ℕ} {X Y : Ten R (q k) (D k) (D (k + 1))} {rr : Envs R D}

/-- The matrix element between the states with the tensors `Y` and `X` at site `k`. -/
def elem1 (N : ℕ) (A : Tensors R q D) (h0 : D 0 = 1) (hN : D N = 1) (k : ℕ) (Y X : Ten R (q k) (D k) (D (k + 1)))
    (O : Cfg q N → Cfg q N → R) : R :=
  matElem (oneSite (N := N) A h0 hN k Y) O (oneSite A h0 hN k X)

variable (hL : ∀ n < k, LOrth (A n)) (hR : ∀ n, k < n → n < N → ROrth (A n))
  (h : Mixed N (Function.update A k X) (Function.update A k Y) rr)

include hR h in
theorem rr_behind (n : ℕ) (h1 : k < n) (h2 : n ≤ N) : rr n = 1 :=
  h.one (m := k + 1) (A := A) (fun n _ _ => Function.update_of_ne (by omega) _ _)
    (fun n _ _ => Function.update_of_ne (by omega) _ _) (fun n a b => hR n (by omega) b) n h1 h2

include hL in
theorem mix_front (j : ℕ) (hj : j ≤ k) : mixL (Function.update A k X) (Function.update A k Y) 1 j = 1 :=
  mixL_one (A := A) (fun n _ => Function.update_of_ne (by omega) _ _)
    (fun n _ => Function.update_of_ne (by omega) _ _) hL j hj

end

section
variable {A : Tensors R q D} (h0 : D 0 = 1) (hN : D N = 1)

theorem site_R2 (hm : Ham2 R q) (k : ℕ) (X Y : Ten R (q k) (D k) (D (k + 1))) (hL : ∀ n < k, LOrth (A n))
    (hR : ∀ n, k < n → n < N → ROrth (A n)) {a} (ha : siteR2 N hm A k X = some a) :
    elem1 N A h0 hN k Y X ((Ham.two hm).term (N := N) k) = pair a Y := by
  obtain ⟨rr, h⟩ := exists_mixed N (Function.update A k X) (Function.update A k Y)
  rw [siteR2] at ha
  split at ha
  · next hk =>
    obtain ⟨op, ho, rfl⟩ := Option.map_eq_some_iff.1 ha
    rw [elem1, oneSite, oneSite, h.term h0 hN _ k (by simp only [Ham.sites]; omega), mix_front hL k le_rfl,
      adot_one_left, termBra]
    simp only [ho, Option.elim_some, bra2, Function.update_self]
    rw [Function.update_of_ne (by omega), Function.update_of_ne (by omega), rr_behind hR h _ (by omega) (by omega),
      pair, Matrix.trace_sum]
    refine Finset.sum_congr rfl fun s _ => ?_
    rw [epsR_eq]
    simp only [Matrix.conjTranspose_mul, Matrix.sum_mul, Matrix.mul_assoc]
  · next hk =>
    obtain rfl := Option.some.inj ha
    rw [elem1, term_zero _ k (by simp only [Ham.sites]; omega), pair_zero]

theorem site_L2 (hm : Ham2 R q) (k : ℕ) (hk : k + 1 < N) (X Y : Ten R (q (k + 1)) (D (k + 1)) (D (k + 1 + 1)))
    (hL : ∀ n < k + 1, LOrth (A n)) (hR : ∀ n, k + 1 < n → n < N → ROrth (A n)) {a}
    (ha : siteL2 hm A (k + 1) X = some a) :
    elem1 N A h0 hN (k + 1) Y X ((Ham.two hm).term (N := N) k) = pair a Y := by
  obtain ⟨rr, h⟩ := exists_mixed N (Function.update A (k + 1) X) (Function.update A (k + 1) Y)
  rw [siteL2] at ha
  obtain ⟨op, ho, rfl⟩ := Option.map_eq_some_iff.1 ha
  rw [elem1, oneSite, oneSite, h.term h0 hN _ k (by simp only [Ham.sites]; omega), mix_front hL k (by omega),
    adot_one_left, termBra]
  simp only [ho, Option.elim_some, bra2, Function.update_self]
  rw [Function.update_of_ne (by omega), Function.update_of_ne (by omega), rr_behind hR h _ (by omega) (by omega),
    pair, Finset.sum_comm, Matrix.trace_sum]
  refine Finset.sum_congr rfl fun s _ => ?_
  rw [epsL_eq, Matrix.sum_mul, Matrix.trace_sum, Matrix.trace_sum]
  refine Finset.sum_congr rfl fun t _ => ?_
  rw [Matrix.conjTranspose_mul, Matrix.mul_assoc, Matrix.mul_assoc, Matrix.trace_mul_comm]
  simp only [Matrix.mul_assoc, Matrix.mul_one, Matrix.one_mul]
  rw [Matrix.trace_mul_comm]
  simp only [Matrix.mul_assoc]

theorem site_R3 (hm : Ham3 R q) (k : ℕ) (X Y : Ten R (q k) (D k) (D (k + 1))) (hL : ∀ n < k, LOrth (A n))
    (hR : ∀ n, k < n → n < N → ROrth (A n)) {a} (ha : siteR3 N hm A k X = some a) :
    elem1 N A h0 hN k Y X ((Ham.three hm).term (N := N) k) = pair a Y := by
  obtain ⟨rr, h⟩ := exists_mixed N (Function.update A k X) (Function.update A k Y)
  rw [siteR3] at ha
  split at ha
  · next hk =>
    obtain ⟨op, ho, rfl⟩ := Option.map_eq_some_iff.1 ha
    rw [elem1, oneSite, oneSite, h.term h0 hN _ k (by simp only [Ham.sites]; omega), mix_front hL k le_rfl,
      adot_one_left, termBra]
    simp only [ho, Option.elim_some, bra3, Function.update_self]
    rw [Function.update_of_ne (by omega), Function.update_of_ne (by omega), Function.update_of_ne (by omega),
      Function.update_of_ne (by omega), rr_behind hR h _ (by omega) (by omega), pair, Matrix.trace_sum]
    refine Finset.sum_congr rfl fun s _ => ?_
    rw [epsR2_eq]
    simp only [calcAA, Matrix.conjTranspose_mul, Matrix.sum_mul, Matrix.mul_assoc]
    rfl
  · next hk =>
    obtain rfl := Option.some.inj ha
    rw [elem1, term_zero _ k (by simp only [Ham.sites]; omega), pair_zero]

theorem site_M3 (hm : Ham3 R q) (k : ℕ) (X Y : Ten R (q (k + 1)) (D (k + 1)) (D (k + 1 + 1)))
    (hL : ∀ n < k + 1, LOrth (A n)) (hR : ∀ n, k + 1 < n → n < N → ROrth (A n)) {a}
    (ha : siteM3 N hm A (k + 1) X = some a) :
    elem1 N A h0 hN (k + 1) Y X ((Ham.three hm).term (N := N) k) = pair a Y := by
  obtain ⟨rr, h⟩ := exists_mixed N (Function.update A (k + 1) X) (Function.update A (k + 1) Y)
  rw [siteM3] at ha
  split at ha
  · next hk =>
    obtain ⟨op, ho, rfl⟩ := Option.map_eq_some_iff.1 ha
    rw [elem1, oneSite, oneSite, h.term h0 hN _ k (by simp only [Ham.sites]; omega), mix_front hL k (by omega),
      adot_one_left, termBra]
    simp only [ho, Option.elim_some, bra3, Function.update_self]
    rw [Function.update_of_ne (by omega), Function.update_of_ne (by omega), Function.update_of_ne (by omega),
      Function.update_of_ne (by omega), rr_behind hR h _ (by omega) (by omega), pair, Finset.sum_comm,
      Matrix.trace_sum]
    refine Finset.sum_congr rfl fun s _ => ?_
    rw [forSum_eq, Matrix.sum_mul, Matrix.trace_sum, Matrix.trace_sum]
    refine Finset.sum_congr rfl fun t _ => ?_
    rw [epsR_eq, Matrix.mul_sum, Matrix.sum_mul, Matrix.trace_sum, Matrix.trace_sum]
    refine Finset.sum_congr rfl fun u _ => ?_
    rw [Matrix.conjTranspose_mul, Matrix.conjTranspose_mul]
    simp only [Matrix.mul_assoc, Matrix.mul_one]
    rw [Matrix.trace_mul_comm ((A k t)ᴴ)]
    simp only [Matrix.mul_assoc]
    rfl
  · next hk =>
    obtain rfl := Option.some.inj ha
    rw [elem1, term_zero _ k (by simp only [Ham.sites]; omega), pair_zero]

theorem site_L3 (hm : Ham3 R q) (k : ℕ) (hk : k + 2 < N) (X Y : Ten R (q (k + 2)) (D (k + 2)) (D (k + 2 + 1)))
    (hL : ∀ n < k + 2, LOrth (A n)) (hR : ∀ n, k + 2 < n → n < N → ROrth (A n)) {a}
    (ha : siteL3 hm A (k + 2) X = some a) :
    elem1 N A h0 hN (k + 2) Y X ((Ham.three hm).term (N := N) k) = pair a Y := by
  obtain ⟨rr, h⟩ := exists_mixed N (Function.update A (k + 2) X) (Function.update A (k + 2) Y)
  rw [siteL3] at ha
  obtain ⟨op, ho, rfl⟩ := Option.map_eq_some_iff.1 ha
  rw [elem1, oneSite, oneSite, h.term h0 hN _ k (by simp only [Ham.sites]; omega), mix_front hL k (by omega),
    adot_one_left, termBra]
  simp only [ho, Option.elim_some, bra3, Function.update_self]
  rw [Function.update_of_ne (by omega), Function.update_of_ne (by omega), Function.update_of_ne (by omega),
    Function.update_of_ne (by omega), rr_behind hR h _ (by omega) (by omega), pair, sum_rot3, Matrix.trace_sum]
  refine Finset.sum_congr rfl fun s _ => ?_
  rw [epsL2_eq, Matrix.sum_mul, Matrix.trace_sum, Matrix.trace_sum]
  refine Finset.sum_congr rfl fun t _ => ?_
  rw [Matrix.sum_mul, Matrix.trace_sum, Matrix.trace_sum]
  refine Finset.sum_congr rfl fun u _ => ?_
  rw [Matrix.conjTranspose_mul]
  simp only [Matrix.mul_assoc, Matrix.mul_one]
  rw [← Matrix.mul_assoc, Matrix.trace_mul_comm]
  rfl

theorem pair_mulL {p a b : ℕ} (K : Matrix (Fin a) (Fin a) R) (X Y : Ten R p a b) :
    adotNoconj K (∑ s, X s * (Y s)ᴴ) = pair (fun s => K * X s) Y := by
  simp only [adotNoconj_eq_trace, pair, Matrix.mul_sum, Matrix.trace_sum, Matrix.mul_assoc]

theorem pair_mulR {p a b : ℕ} (K : Matrix (Fin b) (Fin b) R) (X Y : Ten R p a b) :
    adot (∑ s, (X s)ᴴ * Y s) K = pair (fun s => X s * K) Y := by
  simp only [adot_eq_trace, pair, Matrix.conjTranspose_sum, Matrix.sum_mul, Matrix.trace_sum]
  refine Finset.sum_congr rfl fun s _ => ?_
  rw [Matrix.conjTranspose_mul, Matrix.conjTranspose_conjTranspose, Matrix.mul_assoc, Matrix.trace_mul_comm]

theorem elem1_total (ham : Ham R q) (k : ℕ) (hk : k < N) (X Y : Ten R (q k) (D k) (D (k + 1)))
    (hL : ∀ n < k, LOrth (A n)) (hR : ∀ n, k < n → n < N → ROrth (A n)) {KL KR : Envs R D}
    (hKL : IsLeft ham A k KL) (hKR : IsRight N ham A (k + 1) KR) :
    elem1 N A h0 hN k Y X (ham.total (N := N)) = pair (fun s => KL k * X s) Y
      + ∑ j ∈ Finset.Ico (k + 1 - ham.sites) (k + 1), elem1 N A h0 hN k Y X (ham.term (N := N) j)
      + pair (fun s => X s * KR (k + 1)) Y := by
  obtain ⟨rr, h⟩ := exists_mixed N (Function.update A k X) (Function.update A k Y)
  have h1 := sum_left hKL h (fun n _ => Function.update_of_ne (by omega) _ _)
    (fun n _ => Function.update_of_ne (by omega) _ _) hL hk.le h0 hN
  have h2 := sum_right hKR h (fun n _ _ => Function.update_of_ne (by omega) _ _)
    (fun n _ _ => Function.update_of_ne (by omega) _ _) (fun n a b => hR n (by omega) b) hk h0 hN
  rw [h.pred k hk, rr_behind hR h _ (by omega) (by omega), epsR_eq] at h1
  simp only [Function.update_self, Matrix.mul_one] at h1
  rw [mixL_succ, mix_front hL k le_rfl] at h2
  simp only [Function.update_self, Matrix.mul_one] at h2
  rw [elem1, matElem_total, ← Finset.sum_range_add_sum_Ico _ (show k + 1 ≤ N by omega),
    ← Finset.sum_range_add_sum_Ico _ (show k + 1 - ham.sites ≤ k + 1 by omega)]
  rw [← pair_mulL, ← pair_mulR]
  erw [h1, h2]
  rfl

theorem pair_addK {p a b : ℕ} (KL : Option (Matrix (Fin a) (Fin a) R)) (KR : Option (Matrix (Fin b) (Fin b) R))
    (c X Y : Ten R p a b) :
    pair (KR.elim (KL.elim c fun K s => c s + K * X s) fun K s => (KL.elim c fun K s => c s + K * X s) s + X s * K) Y
      = pair (fun s => KL.getD 0 * X s) Y + pair c Y + pair (fun s => X s * KR.getD 0) Y := by
  have e : ∀ f g : Ten R p a b, pair (fun s => f s + g s) Y = pair f Y + pair g Y := fun f g => pair_add f g Y
  have z : pair (fun _ => 0 : Ten R p a b) Y = 0 := pair_zero Y
  cases KL <;> cases KR <;> simp only [Option.elim_none, Option.elim_some, Option.getD_none, Option.getD_some,
    Matrix.zero_mul, Matrix.mul_zero, e, z] <;> ring

theorem siteLocal_eq (ham : Ham R q) (k : ℕ) (hk : k < N) (X Y : Ten R (q k) (D k) (D (k + 1)))
    (hL : ∀ n < k, LOrth (A n)) (hR : ∀ n, k < n → n < N → ROrth (A n)) {KL KR : OptEnvs R D}
    (hKL : IsLeft ham A k fun n => (KL n).getD 0) (hKR : IsRight N ham A (k + 1) fun n => (KR n).getD 0) {res}
    (hres : siteLocal N ham A k (KL k) (KR (k + 1)) X = some res) :
    elem1 N A h0 hN k Y X (ham.total (N := N)) = pair res Y := by
  rw [elem1_total h0 hN ham k hk X Y hL hR hKL hKR]
  cases ham with
  | two hm =>
    simp only [siteLocal] at hres
    obtain ⟨c, hc, hres⟩ := Option.map_eq_some_iff.1 hres
    obtain ⟨a, ha, hc⟩ := Option.bind_eq_some_iff.1 hc
    obtain ⟨b, hb, rfl⟩ := Option.map_eq_some_iff.1 hc
    rw [← hres, pair_addK, add_left_inj, add_right_inj]
    rw [Finset.sum_Ico_succ_top (by simp only [Ham.sites]; omega), site_R2 h0 hN hm k X Y hL hR hb, pair_add]
    congr 1
    cases k with
    | zero =>
      obtain rfl := Option.some.inj ha
      simp [pair_zero]
    | succ k =>
      simp only [Ham.sites]
      rw [show k + 1 + 1 - 2 = k by omega, Nat.Ico_succ_singleton, Finset.sum_singleton,
        site_L2 h0 hN hm k hk X Y hL hR ha]
  | three hm =>
    simp only [siteLocal] at hres
    obtain ⟨c, hc, hres⟩ := Option.map_eq_some_iff.1 hres
    obtain ⟨a, ha, hc⟩ := Option.bind_eq_some_iff.1 hc
    obtain ⟨a', ha', hc⟩ := Option.bind_eq_some_iff.1 hc
    obtain ⟨b, hb, rfl⟩ := Option.map_eq_some_iff.1 hc
    rw [← hres, pair_addK, add_left_inj, add_right_inj]
    rw [Finset.sum_Ico_succ_top (by simp only [Ham.sites]; omega), site_R3 h0 hN hm k X Y hL hR hb, pair_add]
    congr 1
    match k with
    | 0 =>
      obtain rfl := Option.some.inj ha
      obtain rfl := Option.some.inj ha'
      simp [pair_zero]
    | 1 =>
      obtain rfl := Option.some.inj ha
      simp only [Ham.sites]
      rw [show 1 + 1 - 3 = 0 by omega, Nat.Ico_succ_singleton, Finset.sum_singleton,
        site_M3 h0 hN hm 0 X Y hL hR ha', pair_add, pair_zero]
      exact (zero_add _).symm
    | k + 2 =>
      simp only [Ham.sites]
      rw [show k + 2 + 1 - 3 = k by omega, Finset.sum_Ico_succ_top (by omega), Nat.Ico_succ_singleton,
        Finset.sum_singleton, site_M3 h0 hN hm (k + 1) X Y hL hR ha', site_L3 h0 hN hm k hk X Y hL hR ha, pair_add]

end

/-! ## The accumulated matrices -/

theorem lefts_succ (ham : Ham R q) (A : Tensors R q D) (k : ℕ) :
    lefts ham A (k + 1) = (lefts ham A k).bind fun KL => heffLeft ham A KL k := by
  rw [lefts, List.range'_1_concat, List.foldl_append]
  simp [lefts]

theorem lefts_spec (ham : Ham R q) (A : Tensors R q D) (k : ℕ) {KL} (h : lefts ham A k = some KL) :
    IsLeft ham A k (fun n => (KL n).getD 0) ∧ ∀ n, k < n → KL n = none := by
  induction k generalizing KL with
  | zero =>
    have : KL = fun _ => none := (Option.some.inj h).symm
    subst this
    exact ⟨⟨fun _ _ => rfl, fun j hj => by have := sites_pos ham; omega⟩, fun _ _ => rfl⟩
  | succ k ih =>
    rw [lefts_succ] at h
    obtain ⟨K0, h1, h2⟩ := Option.bind_eq_some_iff.1 h
    obtain ⟨i1, i2⟩ := ih h1
    cases ham with
    | two hm =>
      cases k with
      | zero =>
        obtain rfl := Option.some.inj h2
        exact ⟨⟨i1.small, fun j hj => by simp only [Ham.sites] at hj; omega⟩, fun n hn => i2 n (by omega)⟩
      | succ k =>
        obtain ⟨op, ho, rfl⟩ := Option.map_eq_some_iff.1 h2
        refine ⟨⟨fun n hn => ?_, fun j hj => ?_⟩, fun n hn => ?_⟩
        · simp only [Ham.sites] at hn
          rw [Function.update_of_ne (by omega)]
          exact i1.small n hn
        · simp only [Ham.sites] at hj ⊢
          rcases Nat.lt_or_ge j k with hlt | hge
          · rw [Function.update_of_ne (by omega), Function.update_of_ne (by omega)]
            exact i1.step j (by simp only [Ham.sites]; omega)
          · obtain rfl : j = k := by omega
            rw [Function.update_self, Function.update_of_ne (by omega)]
            simp only [hl, ho]
            rfl
        · rw [Function.update_of_ne (by omega)]
          exact i2 n (by omega)
    | three hm =>
      match k with
      | 0 =>
        obtain rfl := Option.some.inj h2
        exact ⟨⟨i1.small, fun j hj => by simp only [Ham.sites] at hj; omega⟩, fun n hn => i2 n (by omega)⟩
      | 1 =>
        obtain rfl := Option.some.inj h2
        exact ⟨⟨i1.small, fun j hj => by simp only [Ham.sites] at hj; omega⟩, fun n hn => i2 n (by omega)⟩
      | k + 2 =>
        obtain ⟨op, ho, rfl⟩ := Option.map_eq_some_iff.1 h2
        refine ⟨⟨fun n hn => ?_, fun j hj => ?_⟩, fun n hn => ?_⟩
        · simp only [Ham.sites] at hn
          rw [Function.update_of_ne (by omega)]
          exact i1.small n hn
        · simp only [Ham.sites] at hj ⊢
          rcases Nat.lt_or_ge j k with hlt | hge
          · rw [Function.update_of_ne (by omega), Function.update_of_ne (by omega)]
            exact i1.step j (by simp only [Ham.sites]; omega)
          · obtain rfl : j = k := by omega
            rw [Function.update_self, Function.update_of_ne (by omega)]
            simp only [hl, ho]
            rfl
        · rw [Function.update_of_ne (by omega)]
          exact i2 n (by omega)

theorem rights_pred (ham : Ham R q) (A : Tensors R q D) (k : ℕ) (hk : k < N) :
    rights N ham A k = (rights N ham A (k + 1)).bind fun KR => heffRight N ham A KR k := by
  rw [rights, show N - k = N - (k + 1) + 1 by omega, List.range'_succ, List.reverse_cons, List.foldl_append]
  simp [rights]

theorem rights_spec (ham : Ham R q) (A : Tensors R q D) (k : ℕ) (hk : k ≤ N) {KR} (h : rights N ham A k = some KR) :
    IsRight N ham A k (fun n => (KR n).getD 0) ∧ ∀ n, n < k ∨ N ≤ n → KR n = none := by
  have hs := sites_pos ham
  obtain ⟨d, hd⟩ : ∃ d, k + d = N := ⟨N - k, by omega⟩
  induction d generalizing k KR with
  | zero =>
    obtain rfl : k = N := by omega
    have : KR = fun _ => none := by
      simp only [rights, Nat.sub_self, List.range'_zero, List.reverse_nil, List.foldl_nil] at h
      exact (Option.some.inj h).symm
    subst this
    refine ⟨fun n h1 h2 => ?_, fun _ _ => rfl⟩
    rw [if_neg (by omega)]
    rfl
  | succ d ih =>
    rw [rights_pred ham A k (by omega)] at h
    obtain ⟨K0, h1, h2⟩ := Option.bind_eq_some_iff.1 h
    obtain ⟨i1, i2⟩ := ih (k + 1) (by omega) h1 (by omega)
    have hsame : (∀ n, k < n → KR n = K0 n) → (KR k).getD 0
        = (if k + ham.sites ≤ N then epsR ((K0 (k + 1)).getD 0) (A k) (A k) + hr ham A k else 0) →
        IsRight N ham A k (fun n => (KR n).getD 0) := by
      intro e1 e2 n a b
      dsimp only
      rcases Nat.lt_or_ge k n with hlt | hge
      · rw [e1 n hlt, e1 (n + 1) (by omega)]
        exact i1 n hlt b
      · obtain rfl : n = k := by omega
        rw [e2, e1 (n + 1) (by omega)]
    cases ham with
    | two hm =>
      simp only [heffRight] at h2
      split at h2
      · next hkN =>
        obtain ⟨op, ho, rfl⟩ := Option.map_eq_some_iff.1 h2
        refine ⟨hsame (fun n hn => Function.update_of_ne (by omega) _ _) ?_, fun n hn => ?_⟩
        · rw [Function.update_self, if_pos (by simp only [Ham.sites]; omega)]
          simp only [hr, ho]
          rfl
        · rw [Function.update_of_ne (by omega)]
          exact i2 n (by omega)
      · next hkN =>
        obtain rfl := Option.some.inj h2
        refine ⟨hsame (fun _ _ => rfl) ?_, fun n hn => i2 n (by omega)⟩
        rw [i2 k (by omega), if_neg (by simp only [Ham.sites]; omega)]
        rfl
    | three hm =>
      simp only [heffRight] at h2
      split at h2
      · next hkN =>
        obtain ⟨op, ho, rfl⟩ := Option.map_eq_some_iff.1 h2
        refine ⟨hsame (fun n hn => Function.update_of_ne (by omega) _ _) ?_, fun n hn => ?_⟩
        · rw [Function.update_self, if_pos (by simp only [Ham.sites]; omega)]
          simp only [hr, ho]
          rfl
        · rw [Function.update_of_ne (by omega)]
          exact i2 n (by omega)
      · next hkN =>
        obtain rfl := Option.some.inj h2
        refine ⟨hsame (fun _ _ => rfl) ?_, fun n hn => i2 n (by omega)⟩
        rw [i2 k (by omega), if_neg (by simp only [Ham.sites]; omega)]
        rfl

end

end Eff

end EvoMPS
