import Verif.Truncate
import Verif.SetStateLemmas
import Verif.CanonLemmas
import Mathlib.Data.Complex.BigOperators

/-!
# Truncation (helper lemmas)
-/

set_option linter.unusedSectionVars false

namespace EvoMPS

open Matrix

section
variable {R : Type*} [CommRing R] {N : ℕ} {q D : ℕ → ℕ}

theorem sliceLen_eq {m k : ℕ} (h0 : 0 < k) (h : k ≤ m) : sliceLen m k = k := by
  rw [sliceLen, if_neg h0.ne', min_eq_left h]

theorem sameDims_iff {newD : ℕ → ℕ} : sameDims N newD D = true ↔ ∀ n ≤ N, newD n = D n := by
  simp [sameDims]

theorem leDims_iff {newD : ℕ → ℕ} : leDims N newD D = true ↔ ∀ n ≤ N, newD n ≤ D n := by
  simp [leDims]

theorem truncate_spec (A : Tensors R q D) (newD : ℕ → ℕ) (h1 : ∀ n ≤ N, 0 < newD n)
    (hle : ∀ n ≤ N, newD n ≤ D n) (hne : ∃ n ≤ N, newD n ≠ D n) :
    ∃ A', truncate N A newD = some A' ∧ ∀ n < N, ∀ s (i : Fin (newD n)) (j : Fin (newD (n + 1)))
      (i' : Fin (D n)) (j' : Fin (D (n + 1))), i'.val = D n - newD n + i.val →
      j'.val = D (n + 1) - newD (n + 1) + j.val → A' n s i j = A n s i' j' := by
  have hsl := fun n (hn : n ≤ N) => sliceLen_eq (h1 n hn) (hle n hn)
  obtain ⟨g1, g2⟩ := foldl_update_option
    (fun n => assignTen (newD n) (newD (n + 1)) (sliceTen (newD n) (newD (n + 1)) (A n))) N 0
  have hs := fun n (hn : n < N) => assignTen_self (sliceTen (newD n) (newD (n + 1)) (A n))
    (hsl n hn.le) (hsl (n + 1) hn)
  obtain ⟨A', hA'⟩ := g2 fun n hn => (hs n hn).imp fun t ht => ht.1
  refine ⟨A', ?_, fun n hn => ?_⟩
  · rw [truncate, if_neg, if_neg]
    · exact hA'
    · obtain ⟨n, hn, h⟩ := hne
      intro h'
      exact h (sameDims_iff.mp h' n hn)
    · rw [leDims_iff.mpr hle]
      simp
  · intro s i j i' j' hi hj
    obtain ⟨t, ht, he⟩ := hs n hn
    have : A' n = t := Option.some.inj ((g1 A' hA' n hn).symm.trans ht)
    rw [this, he s i j ⟨i, by rw [hsl n hn.le]; exact i.isLt⟩
      ⟨j, by rw [hsl (n + 1) hn]; exact j.isLt⟩ rfl rfl, sliceTen, of_apply]
    congr 1 <;> apply Fin.ext
    · simp only [hsl n hn.le]; omega
    · simp only [hsl (n + 1) hn]; omega

theorem truncate_none_of_assign (A : Tensors R q D) (newD : ℕ → ℕ) {n : ℕ} (hn : n < N)
    (h : assignTen (newD n) (newD (n + 1)) (sliceTen (newD n) (newD (n + 1)) (A n)) = none) :
    truncate N A newD = none := by
  cases hS : truncate N A newD with
  | none => rfl
  | some A' =>
    rw [truncate] at hS
    split_ifs at hS
    have := (foldl_update_option
      (fun n => assignTen (newD n) (newD (n + 1)) (sliceTen (newD n) (newD (n + 1)) (A n))) N 0).1
      A' hS n hn
    simp only [h] at this
    cases this

end

section
variable {N : ℕ} {q D : ℕ → ℕ}

theorem autoDims_spec (tol : ℝ) (env : Envs ℂ D) :
    autoDims N tol env 0 = D 0 ∧ ∀ n, 0 < n → n ≤ N → autoDims N tol env n =
      (Finset.univ.filter fun i : Fin (D n) => tol < ‖env n i i‖).card := by
  have := foldUp_inv (fun (newD : ℕ → ℕ) n => Function.update newD n
    (((List.finRange (D n)).filter fun i => decide (tol < ‖env n i i‖)).length))
    (fun k f => f 0 = D 0 ∧ ∀ n, 0 < n → n < k → f n =
      ((List.finRange (D n)).filter fun i => decide (tol < ‖env n i i‖)).length) 1 N D ?_ ?_
  · refine ⟨this.1, fun n h0 hn => ?_⟩
    rw [autoDims, this.2 n h0 (by omega)]
    rw [Finset.card_def, Finset.filter_val, ← Multiset.coe_card, ← Multiset.filter_coe]
    congr 1
  · exact ⟨rfl, fun n _ _ => by omega⟩
  · intro k f hk _ ⟨i1, i2⟩
    refine ⟨by rw [Function.update_of_ne (by omega)]; exact i1, fun n h0 hn => ?_⟩
    by_cases h : n = k
    · subst h; rw [Function.update_self]
    · rw [Function.update_of_ne h]; exact i2 n h0 (by omega)

/-- The entries of an ascending list of non-negative numbers that do not vanish are the last
ones. -/
theorem ne_zero_iff_of_monotone {m : ℕ} {d : Fin m → ℝ} (hmono : Monotone d) (hpos : ∀ i, 0 ≤ d i)
    (i : Fin m) : d i ≠ 0 ↔ m - (Finset.univ.filter fun i => d i ≠ 0).card ≤ i.val := by
  set Z := Finset.univ.filter fun i => d i = 0
  have hcard : (Finset.univ.filter fun i => d i ≠ 0).card + Z.card = m := by
    have := Finset.card_filter_add_card_filter_not (s := Finset.univ) (fun i : Fin m => d i ≠ 0)
    simpa [Z] using this
  have hsub : m - (Finset.univ.filter fun i => d i ≠ 0).card = Z.card := by omega
  rw [hsub]
  constructor
  · intro hi
    have : Z ⊆ Finset.Iio i := by
      intro j hj
      rw [Finset.mem_Iio]
      by_contra hlt
      have h1 := hmono (not_lt.mp hlt)
      have h2 : d j = 0 := (Finset.mem_filter.mp hj).2
      exact hi (le_antisymm (h2 ▸ h1) (hpos i))
    simpa using Finset.card_le_card this
  · intro hi h0
    have : Finset.Iic i ⊆ Z := by
      intro j hj
      refine Finset.mem_filter.mpr ⟨Finset.mem_univ _, le_antisymm ?_ (hpos j)⟩
      exact h0 ▸ hmono (Finset.mem_Iic.mp hj)
    have := Finset.card_le_card this
    rw [Fin.card_Iic] at this
    omega

/-- The environments are diagonal with ascending non-negative entries. -/
def AscDiag (N : ℕ) (env : Envs ℂ D) : Prop :=
  ∀ n ≤ N, ∃ d : Fin (D n) → ℝ, Monotone d ∧ (∀ i, 0 ≤ d i) ∧ env n = diagonal fun i => (d i : ℂ)

theorem sum_re_zero {ι : Type*} [Fintype ι] {f : ι → ℝ} (hf : ∀ i, 0 ≤ f i) (h : ∑ i, f i = 0)
    (i : ι) : f i = 0 :=
  (Finset.sum_eq_zero_iff_of_nonneg fun i _ => hf i).mp h i (Finset.mem_univ i)

/-- Columns that do not contribute to the next left environment vanish. -/
theorem block_left {q a b : ℕ} (t : Ten ℂ q a b) (d : Fin a → ℝ) (hd : ∀ i, 0 ≤ d i) (j : Fin b)
    (h : (∑ s, (t s)ᴴ * diagonal (fun i => (d i : ℂ)) * t s) j j = 0) (s : Fin q) (i : Fin a)
    (hi : d i ≠ 0) : t s i j = 0 := by
  rw [sum_diag_entry'] at h
  have e : ∀ s i, star (t s i j) * (d i : ℂ) * t s i j = ((d i * Complex.normSq (t s i j) : ℝ) : ℂ) := by
    intro s i
    push_cast
    rw [Complex.normSq_eq_conj_mul_self, Complex.star_def]
    ring
  simp only [e] at h
  rw [← Finset.sum_congr rfl fun s _ => Complex.ofReal_sum Finset.univ _, ← Complex.ofReal_sum] at h
  have h' := Complex.ofReal_eq_zero.mp h
  have hnn : ∀ s i, 0 ≤ d i * Complex.normSq (t s i j) := fun s i =>
    mul_nonneg (hd i) (Complex.normSq_nonneg _)
  have h1 := sum_re_zero (fun s => Finset.sum_nonneg fun i _ => hnn s i) h' s
  have h2 := sum_re_zero (fun i => hnn s i) h1 i
  rcases mul_eq_zero.mp h2 with h3 | h3
  · exact absurd h3 hi
  · exact Complex.normSq_eq_zero.mp h3

/-- Rows that do not contribute to the next right environment vanish. -/
theorem block_right {q a b : ℕ} (t : Ten ℂ q a b) (d : Fin b → ℝ) (hd : ∀ i, 0 ≤ d i) (i : Fin a)
    (h : (∑ s, t s * diagonal (fun i => (d i : ℂ)) * (t s)ᴴ) i i = 0) (s : Fin q) (j : Fin b)
    (hj : d j ≠ 0) : t s i j = 0 := by
  rw [sum_diag_entry] at h
  have e : ∀ s j, t s i j * (d j : ℂ) * star (t s i j) = ((d j * Complex.normSq (t s i j) : ℝ) : ℂ) := by
    intro s i
    push_cast
    rw [Complex.normSq_eq_conj_mul_self, Complex.star_def]
    ring
  simp only [e] at h
  rw [← Finset.sum_congr rfl fun s _ => Complex.ofReal_sum Finset.univ _, ← Complex.ofReal_sum] at h
  have h' := Complex.ofReal_eq_zero.mp h
  have hnn : ∀ s j, 0 ≤ d j * Complex.normSq (t s i j) := fun s j =>
    mul_nonneg (hd j) (Complex.normSq_nonneg _)
  have h1 := sum_re_zero (fun s => Finset.sum_nonneg fun j _ => hnn s j) h' s
  have h2 := sum_re_zero (fun j => hnn s j) h1 j
  rcases mul_eq_zero.mp h2 with h3 | h3
  · exact absurd h3 hj
  · exact Complex.normSq_eq_zero.mp h3

/-- The matrix that picks the last `m'` of `m` indices. -/
def pick (m' m : ℕ) : Matrix (Fin m') (Fin m) ℂ :=
  Matrix.of fun i j => if j.val = m - m' + i.val then 1 else 0

theorem pick_mul {m' m k : ℕ} (h : m' ≤ m) (M : Matrix (Fin m) (Fin k) ℂ) (i : Fin m') (j : Fin k) :
    (pick m' m * M) i j = M ⟨m - m' + i.val, by omega⟩ j := by
  rw [mul_apply, Finset.sum_eq_single (⟨m - m' + i.val, by omega⟩ : Fin m)]
  · rw [pick, of_apply, if_pos rfl, one_mul]
  · intro x _ hx
    rw [pick, of_apply, if_neg (fun h => hx (Fin.ext h)), zero_mul]
  · intro h; exact absurd (Finset.mem_univ _) h

theorem mul_pick {m' m k : ℕ} (h : m' ≤ m) (M : Matrix (Fin k) (Fin m') ℂ) (i : Fin k) (j : Fin m) :
    (M * pick m' m) i j = if hj : m - m' ≤ j.val then M i ⟨j.val - (m - m'), by omega⟩ else 0 := by
  rw [mul_apply]
  split_ifs with hj
  · rw [Finset.sum_eq_single (⟨j.val - (m - m'), by omega⟩ : Fin m')]
    · rw [pick, of_apply, if_pos (by simp only []; omega), mul_one]
    · intro x _ hx
      rw [pick, of_apply, if_neg (fun h => hx (Fin.ext (by simp only []; omega))), mul_zero]
    · intro h; exact absurd (Finset.mem_univ _) h
  · refine Finset.sum_eq_zero fun x _ => ?_
    rw [pick, of_apply, if_neg (by omega), mul_zero]

theorem autoDims_card {tol : ℝ} {env : Envs ℂ D} (htol : 0 ≤ tol)
    (hsep : ∀ n ≤ N, ∀ i, ‖env n i i‖ ≤ tol → env n i i = 0) (h0 : D 0 = 1)
    (he0 : env 0 ≠ 0) (hdiag : AscDiag N env) (n : ℕ) (hn : n ≤ N) :
    autoDims N tol env n = (Finset.univ.filter fun i : Fin (D n) => env n i i ≠ 0).card := by
  obtain ⟨a1, a2⟩ := autoDims_spec (N := N) tol env
  rcases Nat.eq_zero_or_pos n with rfl | hpos
  · rw [a1]
    have : (Finset.univ.filter fun i : Fin (D 0) => env 0 i i ≠ 0) = Finset.univ := by
      refine Finset.filter_true_of_mem fun i _ hi => he0 ?_
      obtain ⟨d, _, _, hd⟩ := hdiag 0 hn
      rw [hd] at hi ⊢
      ext x y
      have hx : x = i := Fin.ext (by omega)
      have hy : y = i := Fin.ext (by omega)
      rw [hx, hy, hi]; rfl
    rw [this]; simp
  · rw [a2 n hpos hn]
    congr 1
    refine Finset.filter_congr fun i _ => ?_
    constructor
    · intro h h'; rw [h', norm_zero] at h; linarith
    · intro h; by_contra h'; exact h (hsep n hn i (not_lt.mp h'))

theorem card_filter_diag {m : ℕ} {d : Fin m → ℝ} {M : Matrix (Fin m) (Fin m) ℂ}
    (h : M = diagonal fun i => (d i : ℂ)) :
    (Finset.univ.filter fun i => M i i ≠ 0).card = (Finset.univ.filter fun i => d i ≠ 0).card := by
  congr 1
  refine Finset.filter_congr fun i _ => ?_
  rw [h, diagonal_apply_eq, Ne, Complex.ofReal_eq_zero]

/-- Cutting off the indices on which the left environments vanish does not change the
amplitudes. -/
theorem cut_left {newD : ℕ → ℕ} (A : Tensors ℂ q D) (A' : Tensors ℂ q newD) (l : Envs ℂ D)
    (hl : ∀ n < N, l (n + 1) = ∑ s, (A n s)ᴴ * l n * A n s) (hdiag : AscDiag N l)
    (hnew : ∀ n ≤ N, newD n = (Finset.univ.filter fun i : Fin (D n) => l n i i ≠ 0).card)
    (hA' : ∀ n < N, ∀ s (i : Fin (newD n)) (j : Fin (newD (n + 1)))
      (i' : Fin (D n)) (j' : Fin (D (n + 1))), i'.val = D n - newD n + i.val →
      j'.val = D (n + 1) - newD (n + 1) + j.val → A' n s i j = A n s i' j')
    (h0 : D 0 = 1) (hN : D N = 1) (h0' : newD 0 = 1) (hN' : newD N = 1) (s : Cfg q N) :
    psi A' h0' hN' s = psi A h0 hN s := by
  have hle : ∀ n ≤ N, newD n ≤ D n := fun n hn => by
    rw [hnew n hn]
    exact (Finset.card_le_univ _).trans (by simp)
  have := psi_gauge A' A (fun n => pick (newD n) (D n)) (fun n hn s => ?_) h0' hN' h0 hN s
  · have e : ∀ n, D n = 1 → newD n = 1 → ∀ i j, pick (newD n) (D n) i j = 1 := by
      intro n h1 h2 i j
      rw [pick, of_apply, if_pos (by omega)]
    rwa [e N hN hN', e 0 h0 h0', mul_one, one_mul] at this
  · ext i j
    rw [pick_mul (hle n hn.le), mul_pick (hle (n + 1) hn)]
    split_ifs with hj
    · exact hA' n hn s i _ _ _ rfl (by simp only []; omega)
    · obtain ⟨d, m1, m2, m3⟩ := hdiag n hn.le
      obtain ⟨d', m1', m2', m3'⟩ := hdiag (n + 1) hn
      have c := hnew n hn.le
      have c' := hnew (n + 1) hn
      rw [card_filter_diag m3] at c
      rw [card_filter_diag m3'] at c'
      have hz : d' j = 0 := by
        by_contra hne
        rw [← Ne, ne_zero_iff_of_monotone m1' m2', ← c'] at hne
        exact hj hne
      refine (block_left (A n) d m2 j ?_ s _ ?_).symm
      · rw [← m3, ← hl n hn, m3', diagonal_apply_eq, hz, Complex.ofReal_zero]
      · rw [ne_zero_iff_of_monotone m1 m2, ← c]
        simp only []; omega

/-- Cutting off the indices on which the right environments vanish does not change the
amplitudes. -/
theorem cut_right {newD : ℕ → ℕ} (A : Tensors ℂ q D) (A' : Tensors ℂ q newD) (r : Envs ℂ D)
    (hr : ∀ n < N, r n = ∑ s, A n s * r (n + 1) * (A n s)ᴴ) (hdiag : AscDiag N r)
    (hnew : ∀ n ≤ N, newD n = (Finset.univ.filter fun i : Fin (D n) => r n i i ≠ 0).card)
    (hA' : ∀ n < N, ∀ s (i : Fin (newD n)) (j : Fin (newD (n + 1)))
      (i' : Fin (D n)) (j' : Fin (D (n + 1))), i'.val = D n - newD n + i.val →
      j'.val = D (n + 1) - newD (n + 1) + j.val → A' n s i j = A n s i' j')
    (h0 : D 0 = 1) (hN : D N = 1) (h0' : newD 0 = 1) (hN' : newD N = 1) (s : Cfg q N) :
    psi A' h0' hN' s = psi A h0 hN s := by
  have hle : ∀ n ≤ N, newD n ≤ D n := fun n hn => by
    rw [hnew n hn]
    exact (Finset.card_le_univ _).trans (by simp)
  have := psi_gauge A A' (fun n => (pick (newD n) (D n))ᵀ) (fun n hn s => ?_) h0 hN h0' hN' s
  · have e : ∀ n, D n = 1 → newD n = 1 → ∀ i j, (pick (newD n) (D n))ᵀ i j = 1 := by
      intro n h1 h2 i j
      rw [transpose_apply, pick, of_apply, if_pos (by omega)]
    rw [e N hN hN', e 0 h0 h0', mul_one, one_mul] at this
    exact this.symm
  · rw [← transpose_inj, transpose_mul, transpose_mul, transpose_transpose, transpose_transpose]
    ext j i
    rw [pick_mul (hle (n + 1) hn), mul_pick (hle n hn.le), transpose_apply]
    split_ifs with hi
    · rw [transpose_apply]
      exact (hA' n hn s _ j _ _ (by simp only []; omega) rfl).symm
    · obtain ⟨d, m1, m2, m3⟩ := hdiag n hn.le
      obtain ⟨d', m1', m2', m3'⟩ := hdiag (n + 1) hn
      have c := hnew n hn.le
      have c' := hnew (n + 1) hn
      rw [card_filter_diag m3] at c
      rw [card_filter_diag m3'] at c'
      have hz : d i = 0 := by
        by_contra hne
        rw [← Ne, ne_zero_iff_of_monotone m1 m2, ← c] at hne
        exact hi hne
      refine block_right (A n) d' m2' i ?_ s _ ?_
      · rw [← m3', ← hr n hn, m3, diagonal_apply_eq, hz, Complex.ofReal_zero]
      · rw [ne_zero_iff_of_monotone m1' m2', ← c']
        simp only []; omega

theorem card_pos_of_ne {m : ℕ} {d : Fin m → ℝ} {M : Matrix (Fin m) (Fin m) ℂ}
    (h : M = diagonal fun i => (d i : ℂ)) (hM : M ≠ 0) :
    0 < (Finset.univ.filter fun i => M i i ≠ 0).card := by
  rw [Finset.card_pos]
  by_contra hne
  rw [Finset.not_nonempty_iff_eq_empty, Finset.filter_eq_empty_iff] at hne
  apply hM
  ext i j
  by_cases hij : i = j
  · subst hij
    have := @hne i (Finset.mem_univ _)
    rw [not_not] at this
    rw [this]; rfl
  · rw [h, diagonal_apply_ne _ hij]; rfl

end

end EvoMPS
