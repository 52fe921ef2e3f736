import Verif.Measure

/-!
# Loops of the correlation functions (helper lemmas)
-/

set_option linter.unusedSectionVars false

namespace EvoMPS

open Matrix

variable {R : Type*} [CommRing R] [StarRing R] [DecidableEq R] {q D : ℕ → ℕ} {N : ℕ}

/-- The value written into `res[j]` of `expect_1s_1s`. -/
theorem pair_value {A : Tensors R q D} {l r : Envs R D} (h : UpToDate N A l r) (h0 : D 0 = 1)
    (hN : D N = 1) (k j : ℕ) (hj : 0 < j) (hk : k + j < N) (op1 : Fin (q k) → Fin (q k) → R)
    (op2 : Fin (q (k + j)) → Fin (q (k + j)) → R) :
    adot (epsLOp1 (mixL (opT (at1 k op1 fun n => idOp (q n)) A) A 1 (k + j)) (A (k + j))
      (A (k + j)) op2) (r (k + j + 1))
      = matElem (psi A h0 hN) (siteOpPair (N := N) k (k + j) (by omega) hk op1 op2)
        (psi A h0 hN) := by
  rw [siteOpPair_eq k (k + j) (by omega) hk (by omega)]
  have ho : ∀ n, n ≠ k → n ≠ k + j → at1 k op1 (at1 (k + j) op2 fun n => idOp (q n)) n
      = idOp (q n) := fun n h1 h2 => by
    rw [at1, Function.update_of_ne h1, at1, Function.update_of_ne h2]
  have hmix : mixL (opT (at1 k op1 fun n => idOp (q n)) A) A 1 (k + j)
      = mixL (opT (at1 k op1 (at1 (k + j) op2 fun n => idOp (q n))) A) A 1 (k + j) := by
    refine mixL_congr (fun m hm => ?_) fun _ _ => rfl
    funext s
    simp only [opT]
    by_cases hmk : m = k
    · subst hmk; simp [at1]
    · rw [at1, at1, at1, Function.update_of_ne hmk, Function.update_of_ne hmk,
        Function.update_of_ne (by omega)]
  rw [matElem_window h h0 hN _ (k + j + 1) hk (fun n h1 _ => ho n (by omega) (by omega)),
    epsLOp1_opSite, mixL, epsL_eq, hmix, opT_at A (k := k + j) (op := op2)
    (by rw [at1, Function.update_of_ne (by omega), at1, Function.update_self])]

/-- The loop of `expect_1s_1s`. -/
theorem expect1s1sRes_loop {S : MPS R q D} (h : UpToDate N S.A S.l S.r) (k d : ℕ)
    (hk : k + d < N) (op1 : Fin (q k) → Fin (q k) → R)
    (op2 : ∀ n, Fin (q n) → Fin (q n) → R) (retInt : Bool) (res0 : ℕ → R) (m : ℕ) (hm : m ≤ d) :
    let mix := mixL (opT (at1 k op1 fun n => idOp (q n)) S.A) S.A 1
    let p := (List.range' 1 m).foldl (fun (p : Envs R D × (ℕ → R)) j =>
      let lj := p.1
      let res := if retInt = true ∨ j = d then
          let ljOp := epsLOp1 (lj (k + j)) (S.A (k + j)) (S.A (k + j)) (op2 (k + j))
          Function.update p.2 j (adot ljOp (S.r (k + j + 1)))
        else p.2
      let lj := if j < d then
          Function.update lj (k + j + 1) (epsL (lj (k + j)) (S.A (k + j)) (S.A (k + j)))
        else lj
      (lj, res)) (Function.update 0 (k + 1) (epsLOp1 (S.l k) (S.A k) (S.A k) op1), res0)
    (∀ j, 1 ≤ j → j ≤ m + 1 → (j = 1 ∨ j ≤ d) → p.1 (k + j) = mix (k + j)) ∧
    (∀ j, p.2 j = if (1 ≤ j ∧ j ≤ m) ∧ (retInt = true ∨ j = d) then
      adot (epsLOp1 (mix (k + j)) (S.A (k + j)) (S.A (k + j)) (op2 (k + j))) (S.r (k + j + 1))
      else res0 j) := by
  intro mix
  have hat : ∀ n, n ≠ k → at1 k op1 (fun n => idOp (q n)) n = idOp (q n) := fun n hn => by
    rw [at1, Function.update_of_ne hn]
  have hstep : ∀ n, n ≠ k → mix (n + 1) = epsL (mix n) (S.A n) (S.A n) := fun n hn => by
    simp only [mix]
    rw [mixL, epsL_eq, opT_id S.A (hat n hn)]
  induction m with
  | zero =>
    refine ⟨fun j h1 h2 _ => ?_, fun j => ?_⟩
    · obtain rfl : j = 1 := by omega
      simp only [List.range'_zero, List.foldl_nil, Function.update_self]
      rw [epsLOp1_opSite]
      simp only [mix]
      rw [mixL, epsL_eq, mixL_window h _ k (by omega) (fun n hn => hat n (by omega)),
        opT_at S.A (k := k) (op := op1) (by rw [at1, Function.update_self])]
    · rw [if_neg (by omega)]; rfl
  | succ m ih =>
    specialize ih (by omega)
    rw [List.range'_concat, List.foldl_append]
    simp only [List.foldl_cons, List.foldl_nil, Nat.one_mul] at ih ⊢
    generalize (List.range' 1 m).foldl _ _ = p at ih ⊢
    obtain ⟨ih1, ih2⟩ := ih
    have e := ih1 (1 + m) (by omega) (by omega) (by omega)
    refine ⟨fun j h1 h2 h3 => ?_, fun j => ?_⟩
    · by_cases hj : j = m + 2
      · subst hj
        rw [if_pos (by omega)]
        have e2 : k + (m + 2) = k + (1 + m) + 1 := by omega
        rw [e2, Function.update_self, e, hstep _ (by omega)]
      · have := ih1 j h1 (by omega) h3
        split_ifs
        · rw [Function.update_of_ne (by omega), this]
        · exact this
    · by_cases hj : j = 1 + m
      · subst hj
        by_cases hc : retInt = true ∨ 1 + m = d
        · rw [if_pos hc, if_pos ⟨by omega, hc⟩, Function.update_self, e]
        · rw [if_neg hc, if_neg (by tauto), ih2, if_neg (by tauto)]
      · have : p.2 j = _ := ih2 j
        have e3 : (if retInt = true ∨ 1 + m = d then
            Function.update p.2 (1 + m) (adot (epsLOp1 (p.1 (k + (1 + m))) (S.A (k + (1 + m)))
              (S.A (k + (1 + m))) (op2 (k + (1 + m)))) (S.r (k + (1 + m) + 1)))
            else p.2) j = p.2 j := by
          split_ifs
          · rw [Function.update_of_ne hj]
          · rfl
        rw [e3, this]
        refine if_congr ?_ rfl rfl
        constructor <;> rintro ⟨⟨a, b⟩, c⟩ <;> exact ⟨⟨by omega, by omega⟩, c⟩

/-- `loopList` succeeds with the list of values if every iteration succeeds. -/
theorem loopList_some {α : Type*} (f : ℕ → Option α) (g : ℕ → α) (n : ℕ)
    (h : ∀ j < n, f j = some (g j)) : loopList f n = some ((List.range n).map g) := by
  induction n with
  | zero => rfl
  | succ n ih =>
    rw [loopList, ih (fun j hj => h j (by omega)), h n (by omega), List.range_succ]
    simp

/-! ## Strings -/

omit [DecidableEq R] in
theorem UpToDate.r_herm {A : Tensors R q D} {l r : Envs R D} (h : UpToDate N A l r) (n : ℕ)
    (hn : n ≤ N) : (r n)ᴴ = r n := by
  obtain ⟨j, rfl⟩ := Nat.exists_eq_add_of_le hn
  clear hn
  induction j generalizing n with
  | zero => rw [show r n = 1 from h.r_last, Matrix.conjTranspose_one]
  | succ j ih =>
    have e : n + 1 + j = n + (j + 1) := by omega
    have := ih (n + 1) (by rw [e]; exact h)
    rw [h.r_pred n (by omega), Matrix.conjTranspose_sum]
    refine Finset.sum_congr rfl fun s _ => ?_
    rw [Matrix.conjTranspose_mul, Matrix.conjTranspose_mul, Matrix.conjTranspose_conjTranspose,
      this, Matrix.mul_assoc]

omit [DecidableEq R] in
theorem UpToDate.l_herm {A : Tensors R q D} {l r : Envs R D} (h : UpToDate N A l r) (n : ℕ)
    (hn : n ≤ N) : (l n)ᴴ = l n := by
  rw [h.l_amp hn, Matrix.conjTranspose_sum]
  refine Finset.sum_congr rfl fun s _ => ?_
  rw [Matrix.conjTranspose_mul, Matrix.conjTranspose_conjTranspose]

omit [DecidableEq R] in
theorem mixL_conj {D' : ℕ → ℕ} (A : Tensors R q D) (B : Tensors R q D')
    (x : Matrix (Fin (D 0)) (Fin (D' 0)) R) (n : ℕ) :
    (mixL A B x n)ᴴ = mixL B A xᴴ n := by
  rw [mixL_amp, mixL_amp, Matrix.conjTranspose_sum]
  refine Finset.sum_congr rfl fun s _ => ?_
  simp only [Matrix.conjTranspose_mul, Matrix.conjTranspose_conjTranspose, Matrix.mul_assoc]

omit [DecidableEq R] in
theorem adot_conjTranspose {m : ℕ} (x r : Matrix (Fin m) (Fin m) R) (hr : rᴴ = r) :
    adot xᴴ r = star (adot x r) := by
  rw [adot_eq_trace, adot_eq_trace, ← Matrix.trace_conjTranspose, Matrix.conjTranspose_mul,
    Matrix.conjTranspose_conjTranspose, hr, Matrix.trace_mul_comm]

omit [DecidableEq R] in
theorem adot_conj_right {m : ℕ} (l x : Matrix (Fin m) (Fin m) R) (hl : lᴴ = l) :
    adot l xᴴ = star (adot l x) := by
  rw [adot_eq_trace, adot_eq_trace, ← Matrix.trace_conjTranspose, Matrix.conjTranspose_mul,
    Matrix.conjTranspose_conjTranspose, hl, Matrix.trace_mul_comm]

/-- The value `expect_string_1s` computes for the string of length `len`: the complex
conjugate of the expectation value. -/
theorem string_value {A : Tensors R q D} {l r : Envs R D} (h : UpToDate N A l r) (h0 : D 0 = 1)
    (hN : D N = 1) (k len : ℕ) (hk : k + len ≤ N) (op : ∀ n, Fin (q n) → Fin (q n) → R) :
    adot (mixL A (opT (fun n => if k ≤ n then op n else idOp (q n)) A) 1 (k + len)) (r (k + len))
      = star (matElem (psi A h0 hN) (stringOp (N := N) k len op) (psi A h0 hN)) := by
  rw [stringOp, matElem_window h h0 hN _ (k + len) hk (fun n h1 _ => by
    rw [if_neg (by omega)]; rfl)]
  rw [← adot_conjTranspose _ _ (h.r_herm _ hk), mixL_conj, Matrix.conjTranspose_one]
  congr 1
  refine mixL_congr (fun _ _ => rfl) fun m hm => ?_
  funext s
  simp only [opT]
  by_cases hkm : k ≤ m
  · rw [if_pos hkm, if_pos ⟨hkm, hm⟩]
  · rw [if_neg hkm, if_neg (by omega)]; rfl

theorem tensordotOp_eq {m a b : ℕ} (op : Fin m → Fin m → R) (A : Ten R m a b) :
    tensordotOp op A = opSite op A := by
  funext s
  rw [tensordotOp, forSum_eq, opSite]

/-- The loop of `expect_string_1s`. -/
theorem expectString1s_loop {S : MPS R q D} (h : UpToDate N S.A S.l S.r) (k d : ℕ) (hd : 0 < d)
    (hk : k + d < N) (op : ∀ n, Fin (q n) → Fin (q n) → R) (m : ℕ) (hm : m ≤ d + 1) :
    let mix := mixL S.A (opT (fun n => if k ≤ n then op n else idOp (q n)) S.A) 1
    ∃ p : Envs R D × (ℕ → R),
    (List.range m).foldl (fun (p : Option (Envs R D × (ℕ → R))) i =>
      p.bind fun p =>
      if k + i < N then
        let Aop := tensordotOp (op (k + i)) (S.A (k + i))
        let x := Function.update p.1 (k + i + 1) (epsL (p.1 (k + i)) (S.A (k + i)) Aop)
        (pyIndex d ((i : ℤ) - 1)).map fun idx =>
          (x, Function.update p.2 idx (adot (x (k + i + 1)) (S.r (k + i + 1))))
      else none) (some (S.l, 0)) = some p ∧
    (∀ i ≤ m, p.1 (k + i) = mix (k + i)) ∧
    (∀ j, j + 1 < m → p.2 j = adot (mix (k + (j + 2))) (S.r (k + (j + 2)))) := by
  intro mix
  induction m with
  | zero =>
    refine ⟨_, rfl, fun i hi => ?_, fun j hj => by omega⟩
    obtain rfl : i = 0 := by omega
    simp only [mix, Nat.add_zero]
    rw [h.l_eq k (by omega)]
    refine mixL_congr (fun _ _ => rfl) fun m hm => ?_
    rw [opT_id]
    exact if_neg (by omega)
  | succ m ih =>
    obtain ⟨p, h1, h2, h3⟩ := ih (by omega)
    rw [List.range_succ, List.foldl_append, h1]
    simp only [List.foldl_cons, List.foldl_nil, Option.bind_some]
    rw [if_pos (by omega)]
    have hmix : epsL (p.1 (k + m)) (S.A (k + m)) (tensordotOp (op (k + m)) (S.A (k + m)))
        = mix (k + m + 1) := by
      rw [h2 m le_rfl, tensordotOp_eq]
      simp only [mix]
      rw [mixL, epsL_eq, opT_at S.A (k := k + m) (op := op (k + m)) (if_pos (by omega))]
    rw [hmix]
    have hx : ∀ i ≤ m + 1, Function.update p.1 (k + m + 1) (mix (k + m + 1)) (k + i)
        = mix (k + i) := by
      intro i hi
      by_cases him : i = m + 1
      · subst him
        exact Function.update_self _ _ _
      · rw [Function.update_of_ne (by omega), h2 i (by omega)]
    rcases Nat.eq_zero_or_pos m with rfl | hmpos
    · have e : pyIndex d (((0 : ℕ) : ℤ) - 1) = some (d - 1) := by
        rw [pyIndex, if_neg (by omega), if_pos (by omega)]
        congr 1; omega
      rw [e]
      exact ⟨_, rfl, hx, fun j hj => by omega⟩
    · have e : pyIndex d ((m : ℤ) - 1) = some (m - 1) := by
        rw [pyIndex, if_pos (by omega)]
        congr 1; omega
      rw [e]
      refine ⟨_, rfl, hx, fun j hj => ?_⟩
      by_cases hjm : j = m - 1
      · subst hjm
        obtain ⟨m', rfl⟩ : ∃ m', m = m' + 1 := ⟨m - 1, by omega⟩
        simp only [Nat.add_sub_cancel, Function.update_self]
        rfl
      · simp only []
        rw [Function.update_of_ne hjm, h3 j (by omega)]

end EvoMPS
