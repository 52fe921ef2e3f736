import Verif.SetState
import Verif.InitStateLemmas

/-!
# Setting the state (helper lemmas)
-/

set_option linter.unusedSectionVars false

namespace EvoMPS

open Matrix

variable {R : Type*} [CommRing R]

/-- Tensors with the same entries have the same matrix products. -/
theorem amp_reshape {N : ℕ} {q D D' : ℕ → ℕ} (A : Tensors R q D) (A' : Tensors R q D')
    (hD : ∀ n ≤ N, D n = D' n)
    (h : ∀ n < N, ∀ (s : Fin (q n)) (i : Fin (D n)) (j : Fin (D (n + 1))) (i' : Fin (D' n))
      (j' : Fin (D' (n + 1))), i.val = i'.val → j.val = j'.val → A n s i j = A' n s i' j')
    (k : ℕ) (hk : k ≤ N) (s : Cfg q k) (i : Fin (D 0)) (j : Fin (D k)) (i' : Fin (D' 0))
    (j' : Fin (D' k)) (hi : i.val = i'.val) (hj : j.val = j'.val) :
    amp A k s i j = amp A' k s i' j' := by
  induction k with
  | zero =>
    have e : (i = j) = (i' = j') := by
      rw [Fin.ext_iff, Fin.ext_iff, hi, hj]
    simp only [amp, one_apply, e]
  | succ k ih =>
    rw [amp, amp, mul_apply, mul_apply]
    refine Fintype.sum_equiv (finCongr (hD k (by omega))) _ _ fun x => ?_
    rw [ih (by omega) _ x (finCongr (hD k (by omega)) x) rfl,
      h k (by omega) _ x j (finCongr (hD k (by omega)) x) j' rfl hj]

theorem psi_reshape {N : ℕ} {q D D' : ℕ → ℕ} (A : Tensors R q D) (A' : Tensors R q D')
    (hD : ∀ n ≤ N, D n = D' n)
    (h : ∀ n < N, ∀ (s : Fin (q n)) (i : Fin (D n)) (j : Fin (D (n + 1))) (i' : Fin (D' n))
      (j' : Fin (D' (n + 1))), i.val = i'.val → j.val = j'.val → A n s i j = A' n s i' j')
    (h0 : D 0 = 1) (hN : D N = 1) (h0' : D' 0 = 1) (hN' : D' N = 1) (s : Cfg q N) :
    psi A h0 hN s = psi A' h0' hN' s :=
  amp_reshape A A' hD h N le_rfl s _ _ _ _ rfl rfl

section
variable {q a b : ℕ}

theorem prodSite_spec (cnt : ℕ) (v : List R) (hc : cnt ≤ q) (hv : cnt ≤ v.length) (ha : 0 < a)
    (hb : 0 < b) : ∃ t : Ten R q a b, prodSite q a b cnt v = some t ∧
      ∀ s x y, t s x y = if s.val < cnt ∧ x.val = 0 ∧ y.val = 0 then (v[s.val]?).getD 0 else 0 := by
  induction cnt with
  | zero => exact ⟨0, rfl, fun s x y => by simp⟩
  | succ c ih =>
    obtain ⟨t, ht, he⟩ := ih (by omega) (by omega)
    rw [prodSite, List.range_succ, List.foldl_append, List.foldl_cons, List.foldl_nil]
    rw [prodSite] at ht
    rw [ht, Option.bind_some, if_pos ⟨by omega, ha, hb⟩, List.getElem?_eq_getElem (by omega),
      Option.map_some]
    refine ⟨_, rfl, fun s x y => ?_⟩
    rw [of_apply, he]
    by_cases hs : s.val = c
    · have : ¬ s.val < c := by omega
      simp only [hs, lt_self_iff_false, false_and, if_false, true_and, Nat.lt_succ_self]
      rw [List.getElem?_eq_getElem (by omega)]
      rfl
    · have : (s.val < c + 1) = (s.val < c) := propext ⟨fun h => by omega, fun h => by omega⟩
      simp only [hs, false_and, if_false, this]

theorem prodSite_none (cnt : ℕ) (v : List R) (hc : q < cnt) :
    (prodSite q a b cnt v : Option (Ten R q a b)) = none := by
  obtain ⟨m, rfl⟩ : ∃ m, cnt = q + 1 + m := ⟨cnt - (q + 1), by omega⟩
  induction m with
  | zero =>
    rw [prodSite, add_zero, List.range_succ, List.foldl_append, List.foldl_cons, List.foldl_nil]
    cases h : List.foldl _ _ (List.range q) with
    | none => rfl
    | some A => rw [Option.bind_some, if_neg (by omega)]
  | succ m ih =>
    have := ih (by omega)
    rw [prodSite] at this
    rw [prodSite, ← add_assoc, List.range_succ, List.foldl_append, this]
    rfl

theorem assignTen_self {a' b' : ℕ} (t : Ten R q a b) (ha : a = a') (hb : b = b') :
    ∃ t' : Ten R q a' b', assignTen a' b' t = some t' ∧ ∀ s (i : Fin a') (j : Fin b') (i' : Fin a)
      (j' : Fin b), i.val = i'.val → j.val = j'.val → t' s i j = t s i' j' := by
  subst ha hb
  rw [assignTen, dif_pos ⟨Or.inl rfl, Or.inl rfl⟩]
  refine ⟨_, rfl, fun s i j i' j' hi hj => ?_⟩
  rw [of_apply]
  have e : ∀ (m : ℕ) (i i' : Fin m), i.val = i'.val → bcast m i = i'.val := by
    intro m i i' h
    unfold bcast
    split_ifs with hm
    · have := i'.isLt; omega
    · exact h
  congr 1 <;> exact Fin.ext (e _ _ _ ‹_›)

theorem assignTen_none {a' b' : ℕ} (t : Ten R q a b) (hb : b ≠ b') (hb1 : b ≠ 1) :
    assignTen a' b' t = none := by
  rw [assignTen, dif_neg]
  rintro ⟨_, h⟩
  rcases h with h | h <;> contradiction

end

/-- The amplitudes of tensors that only have a top-left entry. -/
theorem amp_prod {q D : ℕ → ℕ} (A : Tensors R q D) (v : ∀ n, Fin (q n) → R) (N : ℕ)
    (hD : ∀ n ≤ N, 0 < D n) (h0 : D 0 = 1)
    (h : ∀ n < N, ∀ s x y, A n s x y = if x.val = 0 ∧ y.val = 0 then v n s else 0)
    (k : ℕ) (hk : k ≤ N) (s : Cfg q k) (i : Fin (D 0)) (j : Fin (D k)) :
    amp A k s i j = if j.val = 0 then ∏ m : Fin k, v m (s m) else 0 := by
  induction k with
  | zero =>
    have : i = j := Fin.ext (by omega)
    have hj : j.val = 0 := by omega
    rw [amp, this, one_apply_eq, if_pos hj]
    simp
  | succ k ih =>
    rw [amp, mul_apply, Finset.sum_eq_single (⟨0, hD k (by omega)⟩ : Fin (D k))]
    · rw [ih (by omega), if_pos rfl, h k (by omega), Fin.prod_univ_castSucc]
      simp only [true_and, mul_ite, mul_zero]
      rfl
    · intro x _ hx
      rw [ih (by omega), if_neg (fun h => hx (Fin.ext h)), zero_mul]
    · intro h; exact absurd (Finset.mem_univ _) h

end EvoMPS
