import Verif.TruncUpdate
import Verif.TruncateLemmas
import Verif.RenormLemmas

/-!
# The short update after a truncation (helper lemmas)
-/

set_option linter.unusedSectionVars false

namespace EvoMPS

open Matrix

section
variable {N : ℕ} {D newD : ℕ → ℕ}

theorem lastTrunc_spec (hne : ∃ n ≤ N, newD n ≠ D n) :
    lastTrunc N D newD ≤ N ∧ newD (lastTrunc N D newD) ≠ D (lastTrunc N D newD) ∧ ∀ n ≤ N, lastTrunc N D newD < n → newD n = D n := by
  unfold lastTrunc
  cases h : (List.range (N + 1)).reverse.find? fun n => newD n != D n with
  | none =>
    obtain ⟨n, hn, h'⟩ := hne
    have := List.find?_eq_none.1 h n (by simp; omega)
    simp [h'] at this
  | some k =>
    have h1 := List.mem_of_find?_eq_some h
    have h2 := List.find?_some h
    rw [List.mem_reverse, List.mem_range] at h1
    rw [Option.getD_some]
    refine ⟨by omega, by simpa using h2, fun n hn hk => ?_⟩
    rw [List.find?_eq_some_iff_append] at h
    obtain ⟨-, as, bs, hab, has⟩ := h
    have hmem : n ∈ (List.range (N + 1)).reverse := by simp; omega
    rw [hab, List.mem_append, List.mem_cons] at hmem
    have hsort : ((List.range (N + 1)).reverse).Pairwise (· > ·) := by
      rw [List.pairwise_reverse]
      exact List.pairwise_lt_range
    rw [hab, List.pairwise_append, List.pairwise_cons] at hsort
    rcases hmem with hm | hm | hm
    · simpa using has n hm
    · omega
    · have := hsort.2.1.1 n hm
      omega

theorem firstTrunc_spec (hne : ∃ n ≤ N, newD n ≠ D n) :
    firstTrunc N D newD ≤ N ∧ newD (firstTrunc N D newD) ≠ D (firstTrunc N D newD) ∧ ∀ n < firstTrunc N D newD, newD n = D n := by
  unfold firstTrunc
  cases h : (List.range (N + 1)).find? fun n => newD n != D n with
  | none =>
    obtain ⟨n, hn, h'⟩ := hne
    have := List.find?_eq_none.1 h n (by simp; omega)
    simp [h'] at this
  | some k =>
    have h1 := List.mem_of_find?_eq_some h
    have h2 := List.find?_some h
    rw [List.mem_range] at h1
    rw [Option.getD_some]
    refine ⟨by omega, by simpa using h2, fun n hk => ?_⟩
    rw [List.find?_eq_some_iff_append] at h
    obtain ⟨-, as, bs, hab, has⟩ := h
    have hmem : n ∈ List.range (N + 1) := by simp; omega
    rw [hab, List.mem_append, List.mem_cons] at hmem
    have hsort : (List.range (N + 1)).Pairwise (· < ·) := List.pairwise_lt_range
    rw [hab, List.pairwise_append, List.pairwise_cons] at hsort
    rcases hmem with hm | hm | hm
    · simpa using has n hm
    · omega
    · have := hsort.2.1.1 n hm
      omega

end

theorem pick_self {m' m : ℕ} (h : m' ≤ m) : pick m' m * (pick m' m)ᵀ = 1 := by
  ext i j
  rw [pick_mul h, transpose_apply, pick, of_apply, one_apply]
  by_cases hij : i = j
  · rw [if_pos hij, if_pos (by simp [hij])]
  · rw [if_neg hij, if_neg (fun h' => hij (Fin.ext (by simpa using h')))]

theorem pick_full {m' m : ℕ} (h : m' = m) : (pick m' m)ᵀ * pick m' m = 1 := by
  subst h
  have : pick m' m' = 1 := by
    ext i j
    rw [pick, of_apply, one_apply]
    simp only [Nat.sub_self, Nat.zero_add, Fin.ext_iff]
    congr 1
    exact propext eq_comm
  rw [this, transpose_one, Matrix.mul_one]

theorem pick_conj (m' m : ℕ) : (pick m' m)ᴴ = (pick m' m)ᵀ := by
  ext i j
  rw [conjTranspose_apply, transpose_apply, pick, of_apply]
  split <;> simp

/-- The cut of a diagonal matrix. -/
theorem tailDiag_eq {m m' : ℕ} (h : m' ≤ m) {M : Matrix (Fin m) (Fin m) ℂ} (hM : ∃ d : Fin m → ℂ, M = diagonal d) :
    tailDiag m' M = pick m' m * M * (pick m' m)ᵀ := by
  obtain ⟨d, rfl⟩ := hM
  ext i j
  rw [Matrix.mul_assoc, pick_mul h, tailDiag, ← transpose_apply (diagonal d * (pick m' m)ᵀ), transpose_mul, transpose_transpose, pick_mul h]
  by_cases hij : i = j
  · subst hij
    rw [diagonal_apply_eq, dif_pos (by omega), transpose_apply, diagonal_apply_eq]
  · rw [diagonal_apply_ne _ hij, transpose_apply, diagonal_apply_ne]
    exact fun h' => hij (Fin.ext (by simpa using h'))

/-- A diagonal matrix whose cut entries vanish. -/
theorem tailDiag_back {m m' : ℕ} (h : m' ≤ m) {d : Fin m → ℂ} (hz : ∀ i : Fin m, i.val < m - m' → d i = 0) :
    (pick m' m)ᵀ * tailDiag m' (diagonal d) * pick m' m = diagonal d := by
  ext i j
  rw [mul_pick h]
  split
  · rename_i hj
    rw [← transpose_apply ((pick m' m)ᵀ * _), transpose_mul, transpose_transpose, mul_pick h]
    split
    · rename_i hi
      rw [transpose_apply, tailDiag]
      by_cases hij : i = j
      · subst hij
        rw [diagonal_apply_eq, diagonal_apply_eq, dif_pos (by simp only; omega), diagonal_apply_eq]
        congr 1
        ext
        simp only
        omega
      · rw [diagonal_apply_ne _ hij, diagonal_apply_ne]
        intro h'
        have := congrArg Fin.val h'
        simp only at this
        exact hij (Fin.ext (by omega))
    · rename_i hi
      by_cases hij : i = j
      · subst hij; omega
      · rw [diagonal_apply_ne _ hij]
  · rename_i hj
    by_cases hij : i = j
    · subst hij
      rw [diagonal_apply_eq, hz i (by omega)]
    · rw [diagonal_apply_ne _ hij]

section
variable {N : ℕ} {q D newD : ℕ → ℕ}

/-- The tensors are the last blocks of the old ones (what `truncate` does). -/
def Blocks (N : ℕ) (A : Tensors ℂ q D) (A' : Tensors ℂ q newD) : Prop :=
  ∀ n < N, ∀ s (i : Fin (newD n)) (j : Fin (newD (n + 1))) (i' : Fin (D n)) (j' : Fin (D (n + 1))),
    i'.val = D n - newD n + i.val → j'.val = D (n + 1) - newD (n + 1) + j.val → A' n s i j = A n s i' j'

theorem Blocks.eq {A : Tensors ℂ q D} {A' : Tensors ℂ q newD} (h : Blocks N A A') (hle : ∀ n ≤ N, newD n ≤ D n) {n : ℕ} (hn : n < N)
    (s : Fin (q n)) : A' n s = pick (newD n) (D n) * A n s * (pick (newD (n + 1)) (D (n + 1)))ᵀ := by
  ext i j
  rw [Matrix.mul_assoc, pick_mul (hle n hn.le), ← transpose_apply (A n s * _), transpose_mul, transpose_transpose, pick_mul (hle (n + 1) hn),
    transpose_apply]
  exact h n hn s i j _ _ rfl rfl

/-- The cut left environments belong to the cut tensors if the cut entries vanish. -/
theorem Blocks.l_succ {A : Tensors ℂ q D} {A' : Tensors ℂ q newD} (h : Blocks N A A') (hle : ∀ n ≤ N, newD n ≤ D n) {l : Envs ℂ D}
    (hl : ∀ n < N, l (n + 1) = ∑ s, (A n s)ᴴ * l n * A n s) (hd : ∀ n ≤ N, ∃ d : Fin (D n) → ℂ, l n = diagonal d)
    (hz : ∀ n ≤ N, ∀ i : Fin (D n), i.val < D n - newD n → l n i i = 0) {n : ℕ} (hn : n < N) :
    tailDiag (newD (n + 1)) (l (n + 1)) = ∑ s, (A' n s)ᴴ * tailDiag (newD n) (l n) * A' n s := by
  have hback : (pick (newD n) (D n))ᵀ * tailDiag (newD n) (l n) * pick (newD n) (D n) = l n := by
    obtain ⟨d, hd⟩ := hd n hn.le
    have := hz n hn.le
    rw [hd] at this ⊢
    exact tailDiag_back (hle n hn.le) fun i hi => by simpa using this i hi
  rw [tailDiag_eq (hle _ hn) (hd _ hn), hl n hn, Matrix.mul_sum, Matrix.sum_mul]
  refine Finset.sum_congr rfl fun s _ => ?_
  rw [h.eq hle hn]
  conv_lhs => rw [← hback]
  simp only [conjTranspose_mul, ← pick_conj, conjTranspose_conjTranspose, Matrix.mul_assoc]

/-- The cut right environments belong to the cut tensors if the cut entries vanish. -/
theorem Blocks.r_pred {A : Tensors ℂ q D} {A' : Tensors ℂ q newD} (h : Blocks N A A') (hle : ∀ n ≤ N, newD n ≤ D n) {r : Envs ℂ D}
    (hr : ∀ n < N, r n = ∑ s, A n s * r (n + 1) * (A n s)ᴴ) (hd : ∀ n ≤ N, ∃ d : Fin (D n) → ℂ, r n = diagonal d)
    (hz : ∀ n ≤ N, ∀ i : Fin (D n), i.val < D n - newD n → r n i i = 0) {n : ℕ} (hn : n < N) :
    tailDiag (newD n) (r n) = ∑ s, A' n s * tailDiag (newD (n + 1)) (r (n + 1)) * (A' n s)ᴴ := by
  have hback : (pick (newD (n + 1)) (D (n + 1)))ᵀ * tailDiag (newD (n + 1)) (r (n + 1)) * pick (newD (n + 1)) (D (n + 1)) = r (n + 1) := by
    obtain ⟨d, hd⟩ := hd (n + 1) hn
    have := hz (n + 1) hn
    rw [hd] at this ⊢
    exact tailDiag_back (hle _ hn) fun i hi => by simpa using this i hi
  rw [tailDiag_eq (hle _ hn.le) (hd _ hn.le), hr n hn, Matrix.mul_sum, Matrix.sum_mul]
  refine Finset.sum_congr rfl fun s _ => ?_
  rw [h.eq hle hn]
  conv_lhs => rw [← hback]
  simp only [conjTranspose_mul, ← pick_conj, conjTranspose_conjTranspose, Matrix.mul_assoc]

/-- Cutting rows only keeps right orthonormality. -/
theorem Blocks.r_one {A : Tensors ℂ q D} {A' : Tensors ℂ q newD} (h : Blocks N A A') (hle : ∀ n ≤ N, newD n ≤ D n) {n : ℕ} (hn : n < N)
    (hA : ∑ s, A n s * (A n s)ᴴ = 1) (hs : newD (n + 1) = D (n + 1)) : ∑ s, A' n s * (A' n s)ᴴ = 1 := by
  have : ∑ s, A' n s * (A' n s)ᴴ = pick (newD n) (D n) * (∑ s, A n s * (A n s)ᴴ) * (pick (newD n) (D n))ᵀ := by
    rw [Matrix.mul_sum, Matrix.sum_mul]
    refine Finset.sum_congr rfl fun s _ => ?_
    rw [h.eq hle hn]
    have e := pick_full hs
    simp only [conjTranspose_mul, ← pick_conj, conjTranspose_conjTranspose, Matrix.mul_assoc] at e ⊢
    rw [← Matrix.mul_assoc (pick (newD (n + 1)) (D (n + 1)))ᴴ, e, Matrix.one_mul]
  rw [this, hA, Matrix.mul_one, pick_self (hle n hn.le)]

/-- Cutting columns only keeps left orthonormality. -/
theorem Blocks.l_one {A : Tensors ℂ q D} {A' : Tensors ℂ q newD} (h : Blocks N A A') (hle : ∀ n ≤ N, newD n ≤ D n) {n : ℕ} (hn : n < N)
    (hA : ∑ s, (A n s)ᴴ * A n s = 1) (hs : newD n = D n) : ∑ s, (A' n s)ᴴ * A' n s = 1 := by
  have : ∑ s, (A' n s)ᴴ * A' n s = pick (newD (n + 1)) (D (n + 1)) * (∑ s, (A n s)ᴴ * A n s) * (pick (newD (n + 1)) (D (n + 1)))ᵀ := by
    rw [Matrix.mul_sum, Matrix.sum_mul]
    refine Finset.sum_congr rfl fun s _ => ?_
    rw [h.eq hle hn]
    have e := pick_full hs
    simp only [conjTranspose_mul, ← pick_conj, conjTranspose_conjTranspose, Matrix.mul_assoc] at e ⊢
    rw [← Matrix.mul_assoc (pick (newD n) (D n))ᴴ, e, Matrix.one_mul]
  rw [this, hA, Matrix.mul_one, pick_self (hle _ hn)]

/-! ## The loops -/

theorem fold_l (c : Envs ℂ newD) (S : MPS ℂ q newD) (a m : ℕ) :
    (List.range' a m).foldl (fun (S : MPS ℂ q newD) n => { S with l := Function.update S.l n (c n) }) S
      = ⟨S.A, fun n => if a ≤ n ∧ n < a + m then c n else S.l n, S.r⟩ := by
  induction m with
  | zero =>
    simp only [List.range'_zero, List.foldl_nil]
    cases S
    congr 1
    funext n
    rw [if_neg (by omega)]
  | succ m ih =>
    rw [List.range'_concat, List.foldl_append, ih, Nat.one_mul]
    simp only [List.foldl_cons, List.foldl_nil]
    congr 1
    funext n
    by_cases hn : n = a + m
    · subst hn
      rw [Function.update_self, if_pos (by omega)]
    · rw [Function.update_of_ne hn]
      by_cases h2 : a ≤ n ∧ n < a + m
      · rw [if_pos h2, if_pos (by omega)]
      · rw [if_neg h2, if_neg (by omega)]

theorem fold_r (c : Envs ℂ newD) (S : MPS ℂ q newD) (a m : ℕ) :
    (List.range' a m).foldl (fun (S : MPS ℂ q newD) n => { S with r := Function.update S.r n (c n) }) S
      = ⟨S.A, S.l, fun n => if a ≤ n ∧ n < a + m then c n else S.r n⟩ := by
  induction m with
  | zero =>
    simp only [List.range'_zero, List.foldl_nil]
    cases S
    congr 1
    funext n
    rw [if_neg (by omega)]
  | succ m ih =>
    rw [List.range'_concat, List.foldl_append, ih, Nat.one_mul]
    simp only [List.foldl_cons, List.foldl_nil]
    congr 1
    funext n
    by_cases hn : n = a + m
    · subst hn
      rw [Function.update_self, if_pos (by omega)]
    · rw [Function.update_of_ne hn]
      by_cases h2 : a ≤ n ∧ n < a + m
      · rw [if_pos h2, if_pos (by omega)]
      · rw [if_neg h2, if_neg (by omega)]

theorem fold_r_down (c : Envs ℂ newD) (S : MPS ℂ q newD) (a m : ℕ) :
    (List.range' a m).reverse.foldl (fun (S : MPS ℂ q newD) n => { S with r := Function.update S.r n (c n) }) S
      = ⟨S.A, S.l, fun n => if a ≤ n ∧ n < a + m then c n else S.r n⟩ := by
  induction m generalizing a with
  | zero =>
    simp only [List.range'_zero, List.reverse_nil, List.foldl_nil]
    cases S
    congr 1
    funext n
    rw [if_neg (by omega)]
  | succ m ih =>
    rw [List.range'_succ, List.reverse_cons, List.foldl_append, ih]
    simp only [List.foldl_cons, List.foldl_nil]
    congr 1
    funext n
    by_cases hn : n = a
    · subst hn
      rw [Function.update_self, if_pos (by omega)]
    · rw [Function.update_of_ne hn]
      by_cases h2 : a + 1 ≤ n ∧ n < a + 1 + m
      · rw [if_pos h2, if_pos (by omega)]
      · rw [if_neg h2, if_neg (by omega)]

/-- The environments before the normalisation, right canonical form. -/
theorem updateAfterTruncR_spec (hN : newD N = 1) (last : ℕ) (h1 : 1 ≤ last) (h2 : last < N) (oldL : Envs ℂ D) (A' : Tensors ℂ q newD) :
    let S := updateAfterTruncR N hN last oldL false (initTrunc N A')
    S.A = A' ∧ S.l 0 = 1 ∧ (∀ n, 1 ≤ n → n < N → S.l n = tailDiag (newD n) (oldL n)) ∧ S.l N = 1 ∧
      (∀ n, last ≤ n → n ≤ N → S.r n = 1) ∧ ∀ n < last, S.r n = ∑ s, A' n s * S.r (n + 1) * (A' n s)ᴴ := by
  unfold updateAfterTruncR initTrunc
  simp only []
  rw [fold_l (fun n => tailDiag (newD n) (oldL n)), fold_r_down (fun _ => 1), calcR_eq, if_neg (show ¬ last = 0 by omega)]
  simp only [Option.elim_some, Option.getD_none, Bool.false_eq_true, if_false]
  rw [show last - 1 + 1 - 0 = last by omega]
  obtain ⟨f1, f2⟩ := foldDown_spec (X := fun n => Matrix (Fin (newD n)) (Fin (newD n)) ℂ)
    (fun m x => epsR x (A' m) (A' m)) (fun n => if last ≤ n ∧ n < last + (N - last) then (1 : Matrix (Fin (newD n)) (Fin (newD n)) ℂ)
      else Function.update (Function.update (0 : Envs ℂ newD) N 1) 0 1 n) 0 last
  refine ⟨trivial, ?_, fun n h3 h4 => ?_, ?_, fun n h3 h4 => ?_, fun n h3 => ?_⟩
  · rw [Function.update_of_ne (by omega), if_neg (by omega), Function.update_self]
  · rw [Function.update_of_ne (by omega), if_pos (by omega)]
  · rw [Function.update_self]
  · rw [f1 n (by omega)]
    by_cases h5 : n < N
    · rw [if_pos (by omega)]
    · obtain rfl : n = N := by omega
      rw [if_neg (by omega), Function.update_of_ne (by omega), Function.update_self]
  · rw [f2 n (by omega) (by omega), epsR_eq]

/-- The environments before the normalisation, left canonical form. -/
theorem updateAfterTruncL_spec (hN : newD N = 1) (first : ℕ) (h1 : 1 ≤ first) (h2 : first < N) (oldR : Envs ℂ D) (A' : Tensors ℂ q newD) :
    let S := updateAfterTruncL N hN first oldR false (initTrunc N A')
    S.A = A' ∧ S.r N = 1 ∧ (∀ n, 1 ≤ n → n < N → S.r n = tailDiag (newD n) (oldR n)) ∧ S.r 0 = 1 ∧
      (∀ n < first, S.l n = 1) ∧ ∀ n, first ≤ n + 1 → n < N → S.l (n + 1) = ∑ s, (A' n s)ᴴ * S.l n * A' n s := by
  unfold updateAfterTruncL initTrunc
  simp only []
  rw [fold_r (fun n => tailDiag (newD n) (oldR n)), fold_l (fun _ => 1), calcL_eq]
  simp only [Option.getD_some, Option.getD_none, Bool.false_eq_true, if_false]
  obtain ⟨f1, f2⟩ := foldUp_spec (X := fun n => Matrix (Fin (newD n)) (Fin (newD n)) ℂ)
    (fun m x => epsL x (A' m) (A' m)) (fun n => if 1 ≤ n ∧ n < 1 + (first - 1) then (1 : Matrix (Fin (newD n)) (Fin (newD n)) ℂ)
      else Function.update (Function.update (0 : Envs ℂ newD) 0 1) 0 1 n) (first - 1) (N + 1 - first)
  refine ⟨trivial, ?_, fun n h3 h4 => ?_, ?_, fun n h3 => ?_, fun n h3 h4 => ?_⟩
  · rw [Function.update_of_ne (by omega), if_neg (by omega), Function.update_self]
  · rw [Function.update_of_ne (by omega), if_pos (by omega)]
  · rw [Function.update_self]
  · rw [f1 n (by omega)]
    by_cases h5 : 1 ≤ n
    · rw [if_pos (by omega)]
    · obtain rfl : n = 0 := by omega
      rw [if_neg (by omega), Function.update_self]
  · rw [f2 n (by omega) (by omega), epsL_eq]

theorem updateAfterTruncR_true (hN : newD N = 1) (last : ℕ) (oldL : Envs ℂ D) (S : MPS ℂ q newD) :
    updateAfterTruncR N hN last oldL true S = simpleRenorm N hN (updateAfterTruncR N hN last oldL false S) true := by
  unfold updateAfterTruncR
  rfl

theorem updateAfterTruncL_true (hN : newD N = 1) (first : ℕ) (oldR : Envs ℂ D) (S : MPS ℂ q newD) :
    updateAfterTruncL N hN first oldR true S = simpleRenorm N hN (updateAfterTruncL N hN first oldR false S) true := by
  unfold updateAfterTruncL
  rfl

/-- Normalising by one changes nothing. -/
theorem simpleRenorm_one (hN : newD N = 1) (S : MPS ℂ q newD) (h : S.l N = 1) : simpleRenorm N hN S true = S := by
  cases S with
  | mk A l r =>
  simp only at h
  unfold simpleRenorm
  simp only [h, one_apply_eq, Complex.one_re, Real.sqrt_one, div_one, Complex.ofReal_one, one_smul, ite_self]
  rw [Function.update_eq_self, ← h, Function.update_eq_self]

end

end EvoMPS
