import Verif.BondDim
import Verif.Loops
import Verif.CanonLemmas

/-!
# Bond dimensions of open chains (helper lemmas)
-/

namespace EvoMPS

variable {N : ℕ} {q : ℕ → ℕ}

theorem le_maxD {D : ℕ → ℕ} {n : ℕ} (hn : n ≤ N) : D n ≤ maxD N D :=
  Finset.le_sup (f := D) (Finset.mem_range.mpr (by omega))

theorem maxD_mono {D D' : ℕ → ℕ} (h : ∀ n ≤ N, D n ≤ D' n) : maxD N D ≤ maxD N D' :=
  Finset.sup_le fun n hn => (h n (by rw [Finset.mem_range] at hn; omega)).trans
    (le_maxD (by rw [Finset.mem_range] at hn; omega))

theorem prod_pos_Ico (hq : ∀ n < N, 0 < q n) (a b : ℕ) (hb : b ≤ N) :
    0 < ∏ i ∈ Finset.Ico a b, q i :=
  Finset.prod_pos fun i hi => hq i (by rw [Finset.mem_Ico] at hi; omega)

/-- State of the running product when the true product is `P`. -/
def AccOk (N : ℕ) (P : ℕ) (S : (ℕ → ℕ) × ℕ) : Prop :=
  S.2 = P ∨ (maxD N S.1 ≤ S.2 ∧ S.2 ≤ P)

theorem corrStep_spec {P x n : ℕ} (hn : n ≤ N) (hx : 0 < x) (S : (ℕ → ℕ) × ℕ)
    (h : AccOk N P S) :
    (corrStep N x n S).1 = Function.update S.1 n (min (S.1 n) (P * x)) ∧
      AccOk N (P * x) (corrStep N x n S) := by
  have hle : S.1 n ≤ maxD N S.1 := le_maxD hn
  have hPx : P ≤ P * x := Nat.le_mul_of_pos_right P hx
  have hD : ∀ a, (if S.1 n > a then Function.update S.1 n a else S.1)
      = Function.update S.1 n (min (S.1 n) a) := by
    intro a
    split
    · rw [min_eq_right (by omega)]
    · rw [min_eq_left (by omega), Function.update_eq_self]
  have hmono : ∀ a, maxD N (Function.update S.1 n (min (S.1 n) a)) ≤ maxD N S.1 := by
    intro a
    refine maxD_mono fun m _ => ?_
    by_cases hm : m = n
    · subst hm; rw [Function.update_self]; exact min_le_left _ _
    · rw [Function.update_of_ne hm]
  simp only [corrStep, hD]
  rcases Nat.lt_or_ge S.2 (maxD N S.1) with hlt | hge
  · rw [if_pos hlt]
    rcases h with h | h
    · rw [h]; exact ⟨rfl, Or.inl rfl⟩
    · omega
  · rw [if_neg (by omega)]
    rcases h with h | ⟨h1, h2⟩
    · refine ⟨?_, Or.inr ⟨(hmono _).trans hge, by simp only; omega⟩⟩
      rw [min_eq_left (by omega), min_eq_left (by omega)]
    · refine ⟨?_, Or.inr ⟨(hmono _).trans hge, by simp only; omega⟩⟩
      rw [min_eq_left (by omega), min_eq_left (by omega)]

theorem corrBackward_spec (hq : ∀ n < N, 0 < q n) (D : ℕ → ℕ) (n : ℕ) :
    ((List.range' 0 N).reverse.foldl (fun S n => corrStep N (q n) n S) (D, 1)).1 n
      = if n < N then min (D n) (∏ i ∈ Finset.Ico n N, q i) else D n := by
  have := foldDown_inv (fun (S : (ℕ → ℕ) × ℕ) n => corrStep N (q n) n S)
    (fun k S => AccOk N (∏ i ∈ Finset.Ico k N, q i) S ∧ (∀ n, n < k ∨ N ≤ n → S.1 n = D n) ∧
      ∀ n, k ≤ n → n < N → S.1 n = min (D n) (∏ i ∈ Finset.Ico n N, q i)) 0 N (D, 1) ?_ ?_
  · by_cases hn : n < N
    · rw [if_pos hn]; exact this.2.2 n (by omega) hn
    · rw [if_neg hn]; exact this.2.1 n (by omega)
  · exact ⟨Or.inl (by simp), fun _ _ => rfl, fun n h1 h2 => by omega⟩
  · intro k _ hk S ⟨h1, h2, h3⟩
    have hP : ∏ i ∈ Finset.Ico k N, q i = (∏ i ∈ Finset.Ico (k + 1) N, q i) * q k := by
      rw [Finset.prod_eq_prod_Ico_succ_bot (by omega), mul_comm]
    obtain ⟨e1, e2⟩ := corrStep_spec (N := N) (n := k) (by omega) (hq k (by omega)) S h1
    rw [← hP] at e1 e2
    refine ⟨e2, fun n hn => ?_, fun n hn hn' => ?_⟩
    · rw [e1, Function.update_of_ne (by omega), h2 n (by omega)]
    · by_cases hnk : n = k
      · subst hnk
        rw [e1, Function.update_self, h2 n (by omega)]
      · rw [e1, Function.update_of_ne hnk, h3 n (by omega) hn']

theorem corrForward_spec (hq : ∀ n < N, 0 < q n) (D : ℕ → ℕ) (n : ℕ) (hn : n ≤ N) :
    ((List.range' 0 N).foldl (fun S j => corrStep N (q j) (j + 1) S) (D, 1)).1 n
      = if n = 0 then D 0 else min (D n) (∏ i ∈ Finset.range n, q i) := by
  have := foldUp_inv (fun (S : (ℕ → ℕ) × ℕ) j => corrStep N (q j) (j + 1) S)
    (fun k S => AccOk N (∏ i ∈ Finset.range k, q i) S ∧ (∀ n, n = 0 ∨ k < n → S.1 n = D n) ∧
      ∀ n, 0 < n → n ≤ k → S.1 n = min (D n) (∏ i ∈ Finset.range n, q i)) 0 N (D, 1) ?_ ?_
  · by_cases h : n = 0
    · subst h; rw [if_pos rfl]; exact this.2.1 0 (by omega)
    · rw [if_neg h]; exact this.2.2 n (by omega) (by omega)
  · exact ⟨Or.inl (by simp), fun _ _ => rfl, fun n h1 h2 => by omega⟩
  · intro k _ hk S ⟨h1, h2, h3⟩
    obtain ⟨e1, e2⟩ := corrStep_spec (N := N) (n := k + 1) (by omega) (hq k (by omega)) S h1
    rw [← Finset.prod_range_succ] at e1 e2
    refine ⟨e2, fun n hn => ?_, fun n hn hn' => ?_⟩
    · rw [e1, Function.update_of_ne (by omega), h2 n (by omega)]
    · by_cases hnk : n = k + 1
      · subst hnk
        rw [e1, Function.update_self, h2 (k + 1) (by omega)]
      · rw [e1, Function.update_of_ne hnk, h3 n (by omega) (by omega)]

theorem correctBondDim_eq (hq : ∀ n < N, 0 < q n) (D : ℕ → ℕ) (n : ℕ) (hn : n ≤ N) :
    correctBondDim N q D n = if n = 0 ∨ n = N then 1
      else min (D n) (min (∏ i ∈ Finset.range n, q i) (∏ i ∈ Finset.Ico n N, q i)) := by
  have p1 : ∀ n ≤ N, 1 ≤ ∏ i ∈ Finset.range n, q i := fun n hn => by
    rw [Finset.range_eq_Ico]; exact prod_pos_Ico hq 0 n hn
  have p2 : ∀ n, 1 ≤ ∏ i ∈ Finset.Ico n N, q i := fun n => prod_pos_Ico hq n N le_rfl
  rw [correctBondDim, corrForward_spec hq _ n hn]
  simp only [corrBackward_spec hq]
  rcases Nat.eq_zero_or_pos n with rfl | h0
  · rw [if_pos rfl, if_pos (Or.inl rfl)]
    by_cases hN : 0 < N
    · rw [if_pos hN, Function.update_of_ne (by omega), Function.update_self]
      exact min_eq_left (p2 0)
    · obtain rfl : N = 0 := by omega
      rw [if_neg hN, Function.update_self]
  · rw [if_neg h0.ne']
    by_cases hN : n < N
    · rw [if_pos hN, Function.update_of_ne (by omega), Function.update_of_ne (by omega),
        if_neg (by omega), min_assoc, min_comm (∏ i ∈ Finset.Ico n N, q i)]
    · obtain rfl : n = N := by omega
      rw [if_neg hN, Function.update_self, if_pos (Or.inr rfl)]
      exact min_eq_left (p1 n le_rfl)

theorem maxDForward_spec (Dm : ℕ → ℕ) (Dmax : ℕ) (hq : ∀ n < N, 0 < q n) (h0 : Dm 0 = 1)
    (hi : ∀ n, 0 < n → n < N → Dm n = Dmax) (hpos : 0 < N) :
    let y := (List.range' 0 (N - 1)).foldl
      (fun Dm j => Function.update Dm (j + 1) (min (Dm j * q j) (Dm (j + 1)))) Dm
    y 0 = 1 ∧ (∀ n, 0 < n → n < N → y n = min Dmax (∏ i ∈ Finset.range n, q i)) ∧ y N = Dm N := by
  intro y
  have := foldUp_inv (fun (Dm : ℕ → ℕ) j => Function.update Dm (j + 1) (min (Dm j * q j) (Dm (j + 1))))
    (fun k y => (∀ n, n = 0 ∨ k < n → y n = Dm n) ∧
      (∀ n, 0 < n → n ≤ k → y n = min Dmax (∏ i ∈ Finset.range n, q i))) 0 (N - 1) Dm ?_ ?_
  · refine ⟨?_, fun n h1 h2 => this.2 n h1 (by omega), this.1 N (by omega)⟩
    rw [← h0]; exact this.1 0 (Or.inl rfl)
  · exact ⟨fun _ _ => rfl, fun n h1 h2 => by omega⟩
  · intro k _ hk x ⟨h1, h2⟩
    refine ⟨fun n hn => ?_, fun n hn hn' => ?_⟩
    · rw [Function.update_of_ne (by omega), h1 n (by omega)]
    · by_cases hnk : n = k + 1
      · subst hnk
        rw [Function.update_self, h1 (k + 1) (by omega), hi (k + 1) (by omega) (by omega)]
        rcases Nat.eq_zero_or_pos k with rfl | hk0
        · rw [h1 0 (by omega), h0]
          simp [min_comm]
        · rw [h2 k hk0 le_rfl, Finset.prod_range_succ]
          have hqk := hq k (by omega)
          rw [min_mul_of_nonneg _ _ (Nat.zero_le _), min_comm, ← min_assoc,
            min_eq_left (Nat.le_mul_of_pos_right Dmax hqk)]
      · rw [Function.update_of_ne hnk, h2 n hn (by omega)]

theorem maxDBackward_spec (Dm : ℕ → ℕ) (Dmax : ℕ) (hq : ∀ n < N, 0 < q n) (hN : Dm N = 1)
    (hi : ∀ n, 0 < n → n < N → Dm n = min Dmax (∏ i ∈ Finset.range n, q i)) (hpos : 0 < N) :
    let y := (List.range' 1 (N - 1)).reverse.foldl
      (fun Dm n => Function.update Dm n (min (Dm (n + 1) * q n) (Dm n))) Dm
    y 0 = Dm 0 ∧ (∀ n, 0 < n → n < N → y n
      = min Dmax (min (∏ i ∈ Finset.range n, q i) (∏ i ∈ Finset.Ico n N, q i))) ∧ y N = 1 := by
  intro y
  have := foldDown_inv (fun (Dm : ℕ → ℕ) n => Function.update Dm n (min (Dm (n + 1) * q n) (Dm n)))
    (fun k y => (∀ n, n < k ∨ N ≤ n → y n = Dm n) ∧
      (∀ n, k ≤ n → n < N → y n
        = min Dmax (min (∏ i ∈ Finset.range n, q i) (∏ i ∈ Finset.Ico n N, q i)))) 1 (N - 1) Dm ?_ ?_
  · refine ⟨this.1 0 (by omega), fun n h1 h2 => this.2 n h1 h2, ?_⟩
    rw [← hN]; exact this.1 N (by omega)
  · exact ⟨fun _ _ => rfl, fun n h1 h2 => by omega⟩
  · intro k hk1 hk x ⟨h1, h2⟩
    refine ⟨fun n hn => ?_, fun n hn hn' => ?_⟩
    · rw [Function.update_of_ne (by omega), h1 n (by omega)]
    · by_cases hnk : n = k
      · subst hnk
        rw [Function.update_self, h1 n (by omega), hi n (by omega) (by omega)]
        have hqk := hq n (by omega)
        rw [Finset.prod_eq_prod_Ico_succ_bot (by omega)]
        rcases Nat.lt_or_ge (n + 1) N with hlt | hge
        · rw [h2 (n + 1) (by omega) (by omega), min_mul_of_nonneg _ _ (Nat.zero_le _), min_mul_of_nonneg _ _ (Nat.zero_le _),
            Finset.prod_range_succ]
          have e1 : Dmax ≤ Dmax * q n := Nat.le_mul_of_pos_right _ hqk
          have e2 : ∏ i ∈ Finset.range n, q i ≤ (∏ i ∈ Finset.range n, q i) * q n * q n := by
            rw [mul_assoc]; exact Nat.le_mul_of_pos_right _ (Nat.mul_pos hqk hqk)
          rw [mul_comm (q n)]
          omega
        · obtain rfl : N = n + 1 := by omega
          rw [h1 (n + 1) (by omega), hN]
          simp only [Finset.Ico_self, Finset.prod_empty, mul_one, one_mul]
          omega
      · rw [Function.update_of_ne hnk, h2 n (by omega) hn']

end EvoMPS
