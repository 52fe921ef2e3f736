import Verif.TruncUpdateLemmas
import Verif.Props.Truncate
import Verif.Props.Renorm

/-!
# C75: the short update after a truncation

`update(auto_truncate=True, restore_CF_after_trunc=False)` (`mps_gen.py:310-348`, `656-682`).
-/

set_option linter.unusedSectionVars false

namespace EvoMPS

open Matrix

section
variable {N : ℕ} {q D : ℕ → ℕ}

/-! ## Helpers -/

theorem autoTruncate_cases {A : Tensors ℂ q D} {env : Envs ℂ D} {tol : ℝ} (h0 : D 0 = 1)
    (hpos : ∀ n, 1 ≤ n → n ≤ N → ∃ i, tol < ‖env n i i‖) :
    (∀ n ≤ N, 0 < autoDims N tol env n) ∧ (∀ n ≤ N, autoDims N tol env n ≤ D n) ∧
      (autoTruncate N A env tol = some none ∨ ∃ A', autoTruncate N A env tol = some (some A') ∧ Blocks N A A' ∧
        ∃ n ≤ N, autoDims N tol env n ≠ D n) := by
  obtain ⟨a1, a2⟩ := autoDims_spec (N := N) tol env
  have hp : ∀ n ≤ N, 0 < autoDims N tol env n := by
    intro n hn
    rcases Nat.eq_zero_or_pos n with rfl | h1
    · rw [a1]; omega
    · obtain ⟨i, hi⟩ := hpos n h1 hn
      rw [a2 n h1 hn, Finset.card_pos]
      exact ⟨i, by simpa using hi⟩
  have hle : ∀ n ≤ N, autoDims N tol env n ≤ D n := by
    intro n hn
    rcases Nat.eq_zero_or_pos n with rfl | h1
    · rw [a1]
    · rw [a2 n h1 hn]
      exact (Finset.card_le_univ _).trans (by simp)
  refine ⟨hp, hle, ?_⟩
  by_cases hsame : ∀ n ≤ N, autoDims N tol env n = D n
  · left
    rw [autoTruncate, if_neg (by rw [sameDims_iff.mpr hsame]; simp)]
  · have hex : ∃ n ≤ N, autoDims N tol env n ≠ D n := by push Not at hsame; exact hsame
    obtain ⟨A', hA', hent⟩ := truncate_spec A (autoDims N tol env) hp hle hex
    refine Or.inr ⟨A', ?_, hent, hex⟩
    rw [autoTruncate, if_pos (by rw [← Bool.not_eq_true]; exact fun h => hsame (sameDims_iff.mp h)), hA']
    rfl

/-- The bonds that are cut are inside. -/
theorem trunc_inside {tol : ℝ} {env : Envs ℂ D} (hN : D N = 1) (hN' : autoDims N tol env N = 1)
    (hne : ∃ n ≤ N, autoDims N tol env n ≠ D n) :
    (1 ≤ lastTrunc N D (autoDims N tol env) ∧ lastTrunc N D (autoDims N tol env) < N) ∧
      1 ≤ firstTrunc N D (autoDims N tol env) ∧ firstTrunc N D (autoDims N tol env) < N := by
  obtain ⟨a1, -⟩ := autoDims_spec (N := N) tol env
  obtain ⟨b1, b2, -⟩ := lastTrunc_spec hne
  obtain ⟨c1, c2, -⟩ := firstTrunc_spec hne
  have e : ∀ k ≤ N, autoDims N tol env k ≠ D k → 1 ≤ k ∧ k < N := by
    intro k hk h
    constructor
    · by_contra hc
      obtain rfl : k = 0 := by omega
      exact h a1
    · by_contra hc
      obtain rfl : k = N := by omega
      exact h (hN'.trans hN.symm)
  exact ⟨e _ b1 b2, e _ c1 c2⟩

theorem mat_one_of_entry {m : ℕ} (hm : m = 1) {M : Matrix (Fin m) (Fin m) ℂ} (h : M ⟨0, by omega⟩ ⟨0, by omega⟩ = 1) : M = 1 := by
  subst hm
  ext i j
  obtain rfl : i = 0 := Fin.ext (by omega)
  obtain rfl : j = 0 := Fin.ext (by omega)
  rw [one_apply_eq]
  exact h

/-- Right environments of the short update. -/
theorem short_right {S : MPS ℂ q D} {tol : ℝ} (hN : D N = 1) (hr : ∀ n, 1 ≤ n → n ≤ N → S.r n = 1)
    (hrp : ∀ n < N, S.r n = ∑ s, S.A n s * S.r (n + 1) * (S.A n s)ᴴ) {A' : Tensors ℂ q (autoDims N tol S.l)}
    (hle : ∀ n ≤ N, autoDims N tol S.l n ≤ D n) (hb : Blocks N S.A A') (hne : ∃ n ≤ N, autoDims N tol S.l n ≠ D n)
    (hN' : autoDims N tol S.l N = 1) :
    ROk N A' (updateAfterTruncR N hN' (lastTrunc N D (autoDims N tol S.l)) S.l false (initTrunc N A')).r := by
  obtain ⟨⟨k1, k2⟩, -⟩ := trunc_inside hN hN' hne
  obtain ⟨-, -, b3⟩ := lastTrunc_spec hne
  obtain ⟨e1, e2, e3, e4, e5, e6⟩ := updateAfterTruncR_spec hN' _ k1 k2 S.l A'
  refine ⟨e5 N k2.le le_rfl, fun n hn => ?_⟩
  by_cases h : n < lastTrunc N D (autoDims N tol S.l)
  · exact e6 n h
  · rw [e5 n (by omega) hn.le, e5 (n + 1) (by omega) hn]
    simp only [Matrix.mul_one]
    refine (hb.r_one hle hn ?_ (b3 (n + 1) hn (by omega))).symm
    have := hrp n hn
    rw [hr (n + 1) (by omega) hn, hr n (by omega) hn.le] at this
    simpa only [Matrix.mul_one] using this.symm

/-- Left environments of the short update. -/
theorem short_left {S : MPS ℂ q D} {tol : ℝ} (hN : D N = 1) (hl : ∀ n < N, S.l n = 1)
    (hls : ∀ n < N, S.l (n + 1) = ∑ s, (S.A n s)ᴴ * S.l n * S.A n s) {A' : Tensors ℂ q (autoDims N tol S.r)}
    (hle : ∀ n ≤ N, autoDims N tol S.r n ≤ D n) (hb : Blocks N S.A A') (hne : ∃ n ≤ N, autoDims N tol S.r n ≠ D n)
    (hN' : autoDims N tol S.r N = 1) :
    LOk N A' (updateAfterTruncL N hN' (firstTrunc N D (autoDims N tol S.r)) S.r false (initTrunc N A')).l := by
  obtain ⟨-, ⟨k1, k2⟩⟩ := trunc_inside hN hN' hne
  obtain ⟨-, -, b3⟩ := firstTrunc_spec hne
  obtain ⟨e1, e2, e3, e4, e5, e6⟩ := updateAfterTruncL_spec hN' _ k1 k2 S.r A'
  refine ⟨e5 0 k1, fun n hn => ?_⟩
  by_cases h : firstTrunc N D (autoDims N tol S.r) ≤ n + 1
  · exact e6 n h hn
  · rw [e5 n (by omega), e5 (n + 1) (by omega)]
    simp only [Matrix.mul_one]
    refine (hb.l_one hle hn ?_ (b3 n (by omega))).symm
    have := hls n hn
    rw [hl (n + 1) (by omega), hl n hn] at this
    simpa only [Matrix.mul_one] using this.symm

/-- The entries that are cut vanish if all small entries do. -/
theorem cut_zero {env : Envs ℂ D} {tol : ℝ} (hdiag : AscDiag N env)
    (hcard : ∀ n ≤ N, autoDims N tol env n = (Finset.univ.filter fun i : Fin (D n) => env n i i ≠ 0).card) {n : ℕ} (hn : n ≤ N)
    (i : Fin (D n)) (hi : i.val < D n - autoDims N tol env n) : env n i i = 0 := by
  obtain ⟨d, m1, m2, m3⟩ := hdiag n hn
  have c := hcard n hn
  rw [card_filter_diag m3] at c
  rw [m3, diagonal_apply_eq]
  by_contra hne
  have : d i ≠ 0 := fun h => hne (by rw [h, Complex.ofReal_zero])
  rw [ne_zero_iff_of_monotone m1 m2, ← c] at this
  omega

theorem tailDiag_one {m m' : ℕ} (h : m' ≤ m) : tailDiag m' (1 : Matrix (Fin m) (Fin m) ℂ) = 1 := by
  rw [tailDiag_eq h ⟨fun _ => 1, diagonal_one.symm⟩, Matrix.mul_one, pick_self h]

/-- The tensors of the cut indices do not reach the kept ones, left environments. -/
theorem Blocks.push_left {newD : ℕ → ℕ} {A : Tensors ℂ q D} {A' : Tensors ℂ q newD} (h : Blocks N A A') (hle : ∀ n ≤ N, newD n ≤ D n)
    {l : Envs ℂ D} (hl : ∀ n < N, l (n + 1) = ∑ s, (A n s)ᴴ * l n * A n s) (hdiag : AscDiag N l)
    (hnew : ∀ n ≤ N, newD n = (Finset.univ.filter fun i : Fin (D n) => l n i i ≠ 0).card) {n : ℕ} (hn : n < N) (s : Fin (q n)) :
    A' n s * pick (newD (n + 1)) (D (n + 1)) = pick (newD n) (D n) * A n s := by
  ext i j
  rw [pick_mul (hle n hn.le), mul_pick (hle (n + 1) hn)]
  split_ifs with hj
  · exact h n hn s i _ _ _ rfl (by simp only []; omega)
  · obtain ⟨d, m1, m2, m3⟩ := hdiag n hn.le
    obtain ⟨d', m1', m2', m3'⟩ := hdiag (n + 1) hn
    have c := hnew n hn.le
    have c' := hnew (n + 1) hn
    rw [card_filter_diag m3] at c
    rw [card_filter_diag m3'] at c'
    have hz : d' j = 0 := by
      by_contra hne
      rw [← Ne, ne_zero_iff_of_monotone m1' m2', ← c'] at hne
      exact hj hne
    refine (block_left (A n) d m2 j ?_ s _ ?_).symm
    · rw [← m3, ← hl n hn, m3', diagonal_apply_eq, hz, Complex.ofReal_zero]
    · rw [ne_zero_iff_of_monotone m1 m2, ← c]
      simp only []; omega

/-- The tensors of the cut indices do not reach the kept ones, right environments. -/
theorem Blocks.push_right {newD : ℕ → ℕ} {A : Tensors ℂ q D} {A' : Tensors ℂ q newD} (h : Blocks N A A') (hle : ∀ n ≤ N, newD n ≤ D n)
    {r : Envs ℂ D} (hr : ∀ n < N, r n = ∑ s, A n s * r (n + 1) * (A n s)ᴴ) (hdiag : AscDiag N r)
    (hnew : ∀ n ≤ N, newD n = (Finset.univ.filter fun i : Fin (D n) => r n i i ≠ 0).card) {n : ℕ} (hn : n < N) (s : Fin (q n)) :
    (pick (newD n) (D n))ᵀ * A' n s = A n s * (pick (newD (n + 1)) (D (n + 1)))ᵀ := by
  rw [← transpose_inj, transpose_mul, transpose_mul, transpose_transpose, transpose_transpose]
  ext j i
  rw [pick_mul (hle (n + 1) hn), mul_pick (hle n hn.le), transpose_apply]
  split_ifs with hi
  · rw [transpose_apply]
    exact h n hn s _ j _ _ (by simp only []; omega) rfl
  · obtain ⟨d, m1, m2, m3⟩ := hdiag n hn.le
    obtain ⟨d', m1', m2', m3'⟩ := hdiag (n + 1) hn
    have c := hnew n hn.le
    have c' := hnew (n + 1) hn
    rw [card_filter_diag m3] at c
    rw [card_filter_diag m3'] at c'
    have hz : d i = 0 := by
      by_contra hne
      rw [← Ne, ne_zero_iff_of_monotone m1 m2, ← c] at hne
      exact hi hne
    refine (block_right (A n) d' m2' i ?_ s _ ?_).symm
    · rw [← m3', ← hr n hn, m3, diagonal_apply_eq, hz, Complex.ofReal_zero]
    · rw [ne_zero_iff_of_monotone m1' m2', ← c']
      simp only []; omega

theorem orth_of_push {p m m' k k' : ℕ} {A : Ten ℂ p m k} {A' : Ten ℂ p m' k'} (hP : pick m' m * (pick m' m)ᵀ = 1)
    (hQ : pick k' k * (pick k' k)ᵀ = 1) (hA : ∑ s, A s * (A s)ᴴ = 1) (h : ∀ s, A' s * pick k' k = pick m' m * A s) :
    ∑ s, A' s * (A' s)ᴴ = 1 := by
  have e : ∀ s, A' s * (A' s)ᴴ = pick m' m * (A s * (A s)ᴴ) * (pick m' m)ᵀ := by
    intro s
    have : A' s * (A' s)ᴴ = (A' s * pick k' k) * (A' s * pick k' k)ᴴ := by
      rw [conjTranspose_mul, pick_conj, Matrix.mul_assoc, ← Matrix.mul_assoc (pick k' k), hQ, Matrix.one_mul]
    rw [this, h s, conjTranspose_mul, pick_conj]
    simp only [Matrix.mul_assoc]
  rw [Finset.sum_congr rfl fun s _ => e s, ← Matrix.sum_mul, ← Matrix.mul_sum, hA, Matrix.mul_one, hP]

theorem orth_of_push' {p m m' k k' : ℕ} {A : Ten ℂ p m k} {A' : Ten ℂ p m' k'} (hP : pick m' m * (pick m' m)ᵀ = 1)
    (hQ : pick k' k * (pick k' k)ᵀ = 1) (hA : ∑ s, (A s)ᴴ * A s = 1) (h : ∀ s, (pick m' m)ᵀ * A' s = A s * (pick k' k)ᵀ) :
    ∑ s, (A' s)ᴴ * A' s = 1 := by
  have e : ∀ s, (A' s)ᴴ * A' s = pick k' k * ((A s)ᴴ * A s) * (pick k' k)ᵀ := by
    intro s
    have : (A' s)ᴴ * A' s = ((pick m' m)ᵀ * A' s)ᴴ * ((pick m' m)ᵀ * A' s) := by
      rw [conjTranspose_mul, ← pick_conj, conjTranspose_conjTranspose, pick_conj, Matrix.mul_assoc, ← Matrix.mul_assoc (pick m' m), hP,
        Matrix.one_mul]
    rw [this, h s, conjTranspose_mul, ← pick_conj, conjTranspose_conjTranspose]
    simp only [Matrix.mul_assoc]
  rw [Finset.sum_congr rfl fun s _ => e s, ← Matrix.sum_mul, ← Matrix.mul_sum, hA, Matrix.mul_one, hQ]

theorem right_ones {A : Tensors ℂ q D} {r : Envs ℂ D} (h : ROk N A r) (ho : ∀ n, 1 ≤ n → n < N → ∑ s, A n s * (A n s)ᴴ = 1) :
    ∀ n, 1 ≤ n → n ≤ N → r n = 1 := by
  have down : ∀ k, k < N → r (N - k) = 1 := by
    intro k hk
    induction k with
    | zero => exact h.r_last
    | succ k ih =>
      have ih := ih (by omega)
      generalize hm : N - (k + 1) = m
      have hk' : N - k = m + 1 := by omega
      rw [hk'] at ih
      rw [h.r_pred m (by omega), ih]
      simp only [Matrix.mul_one]
      exact ho m (by omega) (by omega)
  intro n h1 hn
  have := down (N - n) (by omega)
  rwa [show N - (N - n) = n by omega] at this

theorem left_ones {A : Tensors ℂ q D} {l : Envs ℂ D} (h : LOk N A l) (ho : ∀ n, n + 1 < N → ∑ s, (A n s)ᴴ * A n s = 1) :
    ∀ n < N, l n = 1 := by
  intro n
  induction n with
  | zero => exact fun _ => h.l_zero
  | succ n ih =>
    intro hn
    rw [h.l_succ n (by omega), ih (by omega)]
    simp only [Matrix.mul_one]
    exact ho n hn

/-! ## The properties -/

/-- **C75**, right canonical form: for a normalised state whose small Schmidt values all vanish the short update changes no amplitude and
leaves environments that belong to the new tensors, still in right canonical form with the Schmidt values that do not vanish. -/
theorem C75_right (S : MPS ℂ q D) (hu : UpToDate N S.A S.l S.r) (h0 : D 0 = 1) (hN : D N = 1)
    (hnorm : braket (psi (N := N) S.A h0 hN) (psi S.A h0 hN) = 1) (hr : ∀ n, 1 ≤ n → n ≤ N → S.r n = 1) (hdiag : AscDiag N S.l)
    (tol : ℝ) (htol : 0 ≤ tol) (hsep : ∀ n ≤ N, ∀ i, ‖S.l n i i‖ ≤ tol → S.l n i i = 0) (normalize : Bool) :
    ∃ res, updateTruncR N S tol normalize = some res ∧
      ∀ S', res = some S' → ∃ (h0' : autoDims N tol S.l 0 = 1) (hN' : autoDims N tol S.l N = 1),
        (∀ s : Cfg q N, psi S'.A h0' hN' s = psi S.A h0 hN s) ∧ UpToDate N S'.A S'.l S'.r ∧
          (∀ n ≤ N, S'.l n = tailDiag _ (S.l n)) ∧ ∀ n, 1 ≤ n → n ≤ N → S'.r n = 1 := by
  have hne : braket (psi (N := N) S.A h0 hN) (psi S.A h0 hN) ≠ 0 := by rw [hnorm]; exact one_ne_zero
  obtain ⟨hcard, res, hres, -, hpsi⟩ := C20_right S.A S.l S.r hu h0 hN hne hdiag tol htol hsep
  have hpos : ∀ n, 1 ≤ n → n ≤ N → ∃ i, tol < ‖S.l n i i‖ := by
    intro n _ hn
    by_contra hc
    push Not at hc
    obtain ⟨d, -, -, hd⟩ := hdiag n hn
    apply hne
    rw [← hu.norm_eq h0 hN n hn]
    have : S.l n = 0 := by
      ext i j
      by_cases hij : i = j
      · subst hij; exact hsep n hn i (hc i)
      · rw [hd, diagonal_apply_ne _ hij]; rfl
    rw [this, adot_eq_trace, conjTranspose_zero, zero_mul, trace_zero]
  obtain ⟨hp, hle, hc | ⟨A', hA', hb, hex⟩⟩ := autoTruncate_cases (A := S.A) h0 hpos
  · exact ⟨none, by unfold updateTruncR; rw [hc], by simp⟩
  · have hN' : autoDims N tol S.l N = 1 := by have := hp N le_rfl; have := hle N le_rfl; omega
    obtain ⟨⟨k1, k2⟩, -⟩ := trunc_inside hN hN' hex
    have hrok := short_right hN hr hu.r_pred hle hb hex hN'
    have hs := updateAfterTruncR_spec hN' _ k1 k2 S.l A'
    simp only at hs
    obtain ⟨e1, e2, e3, e4, e5, e6⟩ := hs
    have hlN : S.l N = 1 := mat_one_of_entry hN (by
      rw [LOk.last_entry ⟨hu.l_zero, hu.l_succ⟩ h0 hN]; exact hnorm)
    have same : updateAfterTruncR N hN' (lastTrunc N D (autoDims N tol S.l)) S.l normalize (initTrunc N A')
        = updateAfterTruncR N hN' (lastTrunc N D (autoDims N tol S.l)) S.l false (initTrunc N A') := by
      cases normalize
      · rfl
      · rw [updateAfterTruncR_true, simpleRenorm_one hN' _ e4]
    refine ⟨_, by unfold updateTruncR; rw [hA']; simp only []; rw [dif_pos hN'], ?_⟩
    rintro _ ⟨⟩
    rw [same]
    have hres' : res = some A' := by rw [hA'] at hres; exact (Option.some.inj hres).symm
    obtain ⟨h0', hN'', hps⟩ := hpsi A' hres'
    have htail : ∀ n ≤ N, (updateAfterTruncR N hN' (lastTrunc N D (autoDims N tol S.l)) S.l false (initTrunc N A')).l n
        = tailDiag _ (S.l n) := by
      intro n hn
      rcases Nat.eq_zero_or_pos n with rfl | h1
      · rw [e2, hu.l_zero, tailDiag_one (hle 0 hn)]
      · rcases Nat.lt_or_ge n N with h2 | h2
        · exact e3 n h1 h2
        · obtain rfl : n = N := by omega
          rw [e4, hlN, tailDiag_one (hle n hn)]
    refine ⟨h0', hN', fun s => ?_, ⟨e2, fun n hn => ?_, hrok.r_last, fun n hn => ?_⟩, htail, fun n h1 hn => ?_⟩
    · rw [← hps s, e1]
    · rw [htail n hn.le, htail (n + 1) hn, e1]
      exact hb.l_succ hle hu.l_succ (fun n hn => by obtain ⟨d, -, -, hd⟩ := hdiag n hn; exact ⟨_, hd⟩)
        (fun n hn => cut_zero hdiag hcard hn) hn
    · rw [e1]
      exact hrok.r_pred n hn
    · refine right_ones hrok (fun n h1 hn => ?_) n h1 hn
      have hA : ∑ s, S.A n s * (S.A n s)ᴴ = 1 := by
        have := hu.r_pred n hn
        rw [hr (n + 1) (by omega) hn, hr n h1 hn.le] at this
        simpa only [Matrix.mul_one] using this.symm
      exact orth_of_push (pick_self (hle n hn.le)) (pick_self (hle (n + 1) hn)) hA
        (fun s => hb.push_left hle hu.l_succ hdiag hcard hn s)

/-- **C75**, left canonical form: the same with the right environments. -/
theorem C75_left (S : MPS ℂ q D) (hu : UpToDate N S.A S.l S.r) (h0 : D 0 = 1) (hN : D N = 1)
    (hnorm : braket (psi (N := N) S.A h0 hN) (psi S.A h0 hN) = 1) (hl : ∀ n < N, S.l n = 1) (hdiag : AscDiag N S.r)
    (tol : ℝ) (htol : 0 ≤ tol) (hsep : ∀ n ≤ N, ∀ i, ‖S.r n i i‖ ≤ tol → S.r n i i = 0) (normalize : Bool) :
    ∃ res, updateTruncL N S tol normalize = some res ∧
      ∀ S', res = some S' → ∃ (h0' : autoDims N tol S.r 0 = 1) (hN' : autoDims N tol S.r N = 1),
        (∀ s : Cfg q N, psi S'.A h0' hN' s = psi S.A h0 hN s) ∧ UpToDate N S'.A S'.l S'.r ∧
          (∀ n ≤ N, S'.r n = tailDiag _ (S.r n)) ∧ ∀ n < N, S'.l n = 1 := by
  have hne : braket (psi (N := N) S.A h0 hN) (psi S.A h0 hN) ≠ 0 := by rw [hnorm]; exact one_ne_zero
  obtain ⟨hcard, res, hres, -, hpsi⟩ := C20_left S.A S.l S.r hu h0 hN hne hdiag tol htol hsep
  have hpos : ∀ n, 1 ≤ n → n ≤ N → ∃ i, tol < ‖S.r n i i‖ := by
    intro n _ hn
    by_contra hc
    push Not at hc
    obtain ⟨d, -, -, hd⟩ := hdiag n hn
    apply hne
    rw [← hu.norm_eq h0 hN n hn]
    have : S.r n = 0 := by
      ext i j
      by_cases hij : i = j
      · subst hij; exact hsep n hn i (hc i)
      · rw [hd, diagonal_apply_ne _ hij]; rfl
    rw [this, adot_eq_trace, mul_zero, trace_zero]
  obtain ⟨hp, hle, hc | ⟨A', hA', hb, hex⟩⟩ := autoTruncate_cases (A := S.A) h0 hpos
  · exact ⟨none, by unfold updateTruncL; rw [hc], by simp⟩
  · have hN' : autoDims N tol S.r N = 1 := by have := hp N le_rfl; have := hle N le_rfl; omega
    obtain ⟨-, ⟨k1, k2⟩⟩ := trunc_inside hN hN' hex
    have hlok := short_left hN hl hu.l_succ hle hb hex hN'
    have hs := updateAfterTruncL_spec hN' _ k1 k2 S.r A'
    simp only at hs
    obtain ⟨e1, e2, e3, e4, e5, e6⟩ := hs
    have hres' : res = some A' := by rw [hA'] at hres; exact (Option.some.inj hres).symm
    obtain ⟨h0', hN'', hps⟩ := hpsi A' hres'
    have hr0 : S.r 0 = 1 := by
      have hd : adot (S.l 0) (S.r 0) = 1 := by rw [hu.norm_eq h0 hN 0 (Nat.zero_le _), hnorm]
      refine mat_one_of_entry h0 ?_
      rw [hu.l_zero, adot_eq_trace, conjTranspose_one, Matrix.one_mul, trace, fin_sum_one h0] at hd
      exact hd
    have hlN : (updateAfterTruncL N hN' (firstTrunc N D (autoDims N tol S.r)) S.r false (initTrunc N A')).l N = 1 := by
      refine mat_one_of_entry hN' ?_
      rw [hlok.last_entry h0' hN', ← hnorm]
      have : (psi A' h0' hN' : Cfg q N → ℂ) = psi S.A h0 hN := funext hps
      rw [this]
    have same : updateAfterTruncL N hN' (firstTrunc N D (autoDims N tol S.r)) S.r normalize (initTrunc N A')
        = updateAfterTruncL N hN' (firstTrunc N D (autoDims N tol S.r)) S.r false (initTrunc N A') := by
      cases normalize
      · rfl
      · rw [updateAfterTruncL_true, simpleRenorm_one hN' _ hlN]
    refine ⟨_, by unfold updateTruncL; rw [hA']; simp only []; rw [dif_pos hN'], ?_⟩
    rintro _ ⟨⟩
    rw [same]
    have htail : ∀ n ≤ N, (updateAfterTruncL N hN' (firstTrunc N D (autoDims N tol S.r)) S.r false (initTrunc N A')).r n
        = tailDiag _ (S.r n) := by
      intro n hn
      rcases Nat.eq_zero_or_pos n with rfl | h1
      · rw [e4, hr0, tailDiag_one (hle 0 hn)]
      · rcases Nat.lt_or_ge n N with h2 | h2
        · exact e3 n h1 h2
        · obtain rfl : n = N := by omega
          rw [e2, hu.r_last, tailDiag_one (hle n hn)]
    refine ⟨h0', hN', fun s => ?_, ⟨hlok.l_zero, fun n hn => ?_, e2, fun n hn => ?_⟩, htail, fun n hn => ?_⟩
    · rw [← hps s, e1]
    · rw [e1]
      exact hlok.l_succ n hn
    · rw [htail n hn.le, htail (n + 1) hn, e1]
      exact hb.r_pred hle hu.r_pred (fun n hn => by obtain ⟨d, -, -, hd⟩ := hdiag n hn; exact ⟨_, hd⟩)
        (fun n hn => cut_zero hdiag hcard hn) hn
    · refine left_ones hlok (fun n hn => ?_) n hn
      have hA : ∑ s, (S.A n s)ᴴ * S.A n s = 1 := by
        have := hu.l_succ n (by omega)
        rw [hl (n + 1) hn, hl n (by omega)] at this
        simpa only [Matrix.mul_one] using this.symm
      exact orth_of_push' (pick_self (hle n (by omega))) (pick_self (hle (n + 1) (by omega))) hA
        (fun s => hb.push_right hle hu.r_pred hdiag hcard (by omega) s)

/-- **C75**, right canonical form, whatever is cut: the tensors are the last blocks of the old ones, whether or not the state is to be
normalised, the right environments belong to them, and `l[N]` is one. -/
theorem C75_right_any (S : MPS ℂ q D) (hu : UpToDate N S.A S.l S.r) (h0 : D 0 = 1) (hN : D N = 1) (hr : ∀ n, 1 ≤ n → n ≤ N → S.r n = 1)
    (tol : ℝ) (hpos : ∀ n, 1 ≤ n → n ≤ N → ∃ i, tol < ‖S.l n i i‖) (normalize : Bool) :
    ∃ res, updateTruncR N S tol normalize = some res ∧
      ∀ S', res = some S' → autoDims N tol S.l 0 = 1 ∧ autoDims N tol S.l N = 1 ∧ Blocks N S.A S'.A ∧ S'.l N = 1 ∧
        S'.r N = 1 ∧ ∀ n < N, S'.r n = ∑ s, S'.A n s * S'.r (n + 1) * (S'.A n s)ᴴ := by
  obtain ⟨hp, hle, hc | ⟨A', hA', hb, hex⟩⟩ := autoTruncate_cases (A := S.A) h0 hpos
  · exact ⟨none, by unfold updateTruncR; rw [hc], by simp⟩
  · have hN' : autoDims N tol S.l N = 1 := by have := hp N le_rfl; have := hle N le_rfl; omega
    have h0' : autoDims N tol S.l 0 = 1 := by have := hp 0 (Nat.zero_le _); have := hle 0 (Nat.zero_le _); omega
    obtain ⟨⟨k1, k2⟩, -⟩ := trunc_inside hN hN' hex
    have hrok := short_right hN hr hu.r_pred hle hb hex hN'
    have hs := updateAfterTruncR_spec hN' _ k1 k2 S.l A'
    simp only at hs
    obtain ⟨e1, e2, e3, e4, e5, e6⟩ := hs
    have same : updateAfterTruncR N hN' (lastTrunc N D (autoDims N tol S.l)) S.l normalize (initTrunc N A')
        = updateAfterTruncR N hN' (lastTrunc N D (autoDims N tol S.l)) S.l false (initTrunc N A') := by
      cases normalize
      · rfl
      · rw [updateAfterTruncR_true, simpleRenorm_one hN' _ e4]
    refine ⟨_, by unfold updateTruncR; rw [hA']; simp only []; rw [dif_pos hN'], ?_⟩
    rintro _ ⟨⟩
    rw [same, e1]
    exact ⟨h0', hN', hb, e4, hrok.r_last, hrok.r_pred⟩

/-- **C75**, left canonical form, whatever is cut: the left environments belong to the new tensors, and `normalize` makes the norm one. -/
theorem C75_left_any (S : MPS ℂ q D) (hu : UpToDate N S.A S.l S.r) (h0 : D 0 = 1) (hN : D N = 1) (hl : ∀ n < N, S.l n = 1)
    (tol : ℝ) (hpos : ∀ n, 1 ≤ n → n ≤ N → ∃ i, tol < ‖S.r n i i‖) (normalize : Bool) :
    ∃ res, updateTruncL N S tol normalize = some res ∧
      ∀ S', res = some S' → ∃ (h0' : autoDims N tol S.r 0 = 1) (hN' : autoDims N tol S.r N = 1) (A' : Tensors ℂ q (autoDims N tol S.r)),
        Blocks N S.A A' ∧ (normalize = false → S'.A = A') ∧
        (normalize = false ∨ braket (psi (N := N) A' h0' hN') (psi A' h0' hN') ≠ 0 →
          S'.l 0 = 1 ∧ (∀ n < N, S'.l (n + 1) = ∑ s, (S'.A n s)ᴴ * S'.l n * S'.A n s) ∧
          (∃ c : ℝ, 0 < c ∧ ∀ s : Cfg q N, psi S'.A h0' hN' s = (c : ℂ) * psi A' h0' hN' s)) ∧
        (normalize = true → braket (psi (N := N) A' h0' hN') (psi A' h0' hN') ≠ 0 →
          braket (psi (N := N) S'.A h0' hN') (psi S'.A h0' hN') = 1) := by
  obtain ⟨hp, hle, hc | ⟨A', hA', hb, hex⟩⟩ := autoTruncate_cases (A := S.A) h0 hpos
  · exact ⟨none, by unfold updateTruncL; rw [hc], by simp⟩
  · have hN' : autoDims N tol S.r N = 1 := by have := hp N le_rfl; have := hle N le_rfl; omega
    have h0' : autoDims N tol S.r 0 = 1 := by have := hp 0 (Nat.zero_le _); have := hle 0 (Nat.zero_le _); omega
    obtain ⟨-, ⟨k1, k2⟩⟩ := trunc_inside hN hN' hex
    have hlok := short_left hN hl hu.l_succ hle hb hex hN'
    have hs := updateAfterTruncL_spec hN' _ k1 k2 S.r A'
    simp only at hs
    obtain ⟨e1, e2, e3, e4, e5, e6⟩ := hs
    refine ⟨_, by unfold updateTruncL; rw [hA']; simp only []; rw [dif_pos hN'], ?_⟩
    rintro _ ⟨⟩
    refine ⟨h0', hN', A', hb, ?_, ?_, ?_⟩
    · rintro rfl
      exact e1
    · intro hcase
      cases normalize with
      | false =>
        refine ⟨hlok.l_zero, fun n hn => ?_, 1, one_pos, fun s => ?_⟩
        · rw [e1]; exact hlok.l_succ n hn
        · rw [e1, Complex.ofReal_one, one_mul]
      | true =>
        have hne := hcase.resolve_left (by simp)
        rw [updateAfterTruncL_true]
        generalize updateAfterTruncL N hN' (firstTrunc N D (autoDims N tol S.r)) S.r false (initTrunc N A') = T at *
        subst e1
        obtain ⟨M, rfl⟩ : ∃ M, N = M + 1 := ⟨N - 1, by omega⟩
        have hre : 0 < (braket (psi (N := M + 1) T.A h0' hN') (psi T.A h0' hN')).re := by
          obtain ⟨e1, e2⟩ := braket_self_re (psi (N := M + 1) T.A h0' hN')
          refine lt_of_le_of_ne e2 fun h => hne ?_
          rw [e1, ← h, Complex.ofReal_zero]
        have hx : 0 < (T.l (M + 1) ⟨0, by omega⟩ ⟨0, by omega⟩).re := by
          rw [hlok.last_entry h0' hN']; exact hre
        have hL := simpleRenorm_LOk M hN' T true hx hlok
        exact ⟨hL.l_zero, hL.l_succ, _, by positivity, (simpleRenorm_psi M hN' T true h0' hre hlok).1⟩
    · rintro rfl hne
      rw [updateAfterTruncL_true]
      generalize updateAfterTruncL N hN' (firstTrunc N D (autoDims N tol S.r)) S.r false (initTrunc N A') = T at *
      subst e1
      obtain ⟨M, rfl⟩ : ∃ M, N = M + 1 := ⟨N - 1, by omega⟩
      have hre : 0 < (braket (psi (N := M + 1) T.A h0' hN') (psi T.A h0' hN')).re := by
        obtain ⟨e1, e2⟩ := braket_self_re (psi (N := M + 1) T.A h0' hN')
        refine lt_of_le_of_ne e2 fun h => hne ?_
        rw [e1, ← h, Complex.ofReal_zero]
      exact (simpleRenorm_psi M hN' T true h0' hre hlok).2

end

/-! ## A state of two sites -/

/-- Bond dimensions 1, 2, 1. -/
def cutD : ℕ → ℕ
  | 1 => 2
  | _ => 1

/-- Two sites with two levels each: `a |00> + b |11>` in right canonical form. -/
noncomputable def cutA (a b : ℝ) : Tensors ℂ (fun _ => 2) cutD
  | 0 => fun s => (if s = 0 then !![(a : ℂ), 0] else !![0, (b : ℂ)] : Matrix (Fin 1) (Fin 2) ℂ)
  | 1 => fun s => (if s = 0 then !![1; 0] else !![0; 1] : Matrix (Fin 2) (Fin 1) ℂ)
  | _ => 0

noncomputable def cutL (a b : ℝ) : Envs ℂ cutD
  | 0 => (1 : Matrix (Fin 1) (Fin 1) ℂ)
  | 1 => diagonal fun i : Fin 2 => ((![a ^ 2, b ^ 2] i : ℝ) : ℂ)
  | 2 => diagonal fun _ : Fin 1 => ((a ^ 2 + b ^ 2 : ℝ) : ℂ)
  | _ => 0

noncomputable def cutR (a b : ℝ) : Envs ℂ cutD
  | 0 => diagonal fun _ : Fin 1 => ((a ^ 2 + b ^ 2 : ℝ) : ℂ)
  | 1 => (1 : Matrix (Fin 2) (Fin 2) ℂ)
  | 2 => (1 : Matrix (Fin 1) (Fin 1) ℂ)
  | _ => 0

theorem cut_upToDate (a b : ℝ) : UpToDate 2 (cutA a b) (cutL a b) (cutR a b) := by
  have e1 : (diagonal fun i : Fin 2 => ((![a ^ 2, b ^ 2] i : ℝ) : ℂ)) = ∑ s : Fin 2,
      (if s = 0 then !![(a : ℂ), 0] else !![0, (b : ℂ)] : Matrix (Fin 1) (Fin 2) ℂ)ᴴ * (1 : Matrix (Fin 1) (Fin 1) ℂ)
        * (if s = 0 then !![(a : ℂ), 0] else !![0, (b : ℂ)] : Matrix (Fin 1) (Fin 2) ℂ) := by
    ext i j
    fin_cases i <;> fin_cases j <;> simp [Fin.sum_univ_two, mul_apply, sq, diagonal]
  have e2 : (diagonal fun _ : Fin 1 => ((a ^ 2 + b ^ 2 : ℝ) : ℂ)) = ∑ s : Fin 2,
      (if s = 0 then !![1; 0] else !![0; 1] : Matrix (Fin 2) (Fin 1) ℂ)ᴴ * (diagonal fun i : Fin 2 => ((![a ^ 2, b ^ 2] i : ℝ) : ℂ))
        * (if s = 0 then !![1; 0] else !![0; 1] : Matrix (Fin 2) (Fin 1) ℂ) := by
    ext i j
    fin_cases i; fin_cases j
    simp [Fin.sum_univ_two, mul_apply, diagonal]
  have e3 : (diagonal fun _ : Fin 1 => ((a ^ 2 + b ^ 2 : ℝ) : ℂ)) = ∑ s : Fin 2,
      (if s = 0 then !![(a : ℂ), 0] else !![0, (b : ℂ)] : Matrix (Fin 1) (Fin 2) ℂ) * (1 : Matrix (Fin 2) (Fin 2) ℂ)
        * (if s = 0 then !![(a : ℂ), 0] else !![0, (b : ℂ)] : Matrix (Fin 1) (Fin 2) ℂ)ᴴ := by
    ext i j
    fin_cases i; fin_cases j
    simp [Fin.sum_univ_two, sq, vecMul, dotProduct, conjTranspose_apply]
  have e4 : (1 : Matrix (Fin 2) (Fin 2) ℂ) = ∑ s : Fin 2,
      (if s = 0 then !![1; 0] else !![0; 1] : Matrix (Fin 2) (Fin 1) ℂ) * (1 : Matrix (Fin 1) (Fin 1) ℂ)
        * (if s = 0 then !![1; 0] else !![0; 1] : Matrix (Fin 2) (Fin 1) ℂ)ᴴ := by
    ext i j
    fin_cases i <;> fin_cases j <;> simp [Fin.sum_univ_two, vecMul, dotProduct, conjTranspose_apply]
  refine ⟨rfl, ?_, rfl, ?_⟩
  · intro n hn
    interval_cases n
    · exact e1
    · exact e2
  · intro n hn
    interval_cases n
    · exact e3
    · exact e4

theorem cut_r (a b : ℝ) : ∀ n, 1 ≤ n → n ≤ 2 → cutR a b n = 1 := by
  intro n h1 hn
  interval_cases n <;> rfl

theorem cut_norm (a b : ℝ) : braket (psi (N := 2) (cutA a b) rfl rfl) (psi (cutA a b) rfl rfl) = ((a ^ 2 + b ^ 2 : ℝ) : ℂ) := by
  rw [← (cut_upToDate a b).norm_eq rfl rfl 0 (by omega), adot_eq_trace]
  change trace ((1 : Matrix (Fin 1) (Fin 1) ℂ)ᴴ * diagonal fun _ : Fin 1 => ((a ^ 2 + b ^ 2 : ℝ) : ℂ)) = _
  simp

theorem cut_asc {a b : ℝ} (h : a ^ 2 ≤ b ^ 2) : AscDiag 2 (cutL a b) := by
  intro n hn
  interval_cases n
  · exact ⟨fun _ => 1, fun _ _ _ => le_rfl, fun _ => zero_le_one, by
      change (1 : Matrix (Fin 1) (Fin 1) ℂ) = diagonal fun _ => (((1 : ℝ)) : ℂ)
      simp⟩
  · refine ⟨(![a ^ 2, b ^ 2] : Fin 2 → ℝ), ?_, ?_, rfl⟩
    · change Monotone (![a ^ 2, b ^ 2] : Fin 2 → ℝ)
      intro i j hij
      fin_cases i <;> fin_cases j <;> simp at hij ⊢
      exact h
    · change ∀ i : Fin 2, 0 ≤ (![a ^ 2, b ^ 2] : Fin 2 → ℝ) i
      intro i
      fin_cases i <;> simp <;> positivity
  · exact ⟨fun _ => a ^ 2 + b ^ 2, fun _ _ _ => le_rfl, fun _ => by positivity, rfl⟩

/-- The norm of the entries. -/
theorem cut_entries (a b : ℝ) : (∀ i : Fin 1, ‖cutL a b 0 i i‖ = 1) ∧ (∀ i : Fin 2, ‖cutL a b 1 i i‖ = (![a ^ 2, b ^ 2] : Fin 2 → ℝ) i) ∧
    ∀ i : Fin 1, ‖cutL a b 2 i i‖ = a ^ 2 + b ^ 2 := by
  refine ⟨fun i => ?_, fun i => ?_, fun i => ?_⟩
  · change ‖(1 : Matrix (Fin 1) (Fin 1) ℂ) i i‖ = 1
    rw [one_apply_eq, norm_one]
  · change ‖(diagonal fun i : Fin 2 => ((![a ^ 2, b ^ 2] i : ℝ) : ℂ)) i i‖ = _
    rw [diagonal_apply_eq, Complex.norm_real, Real.norm_eq_abs, abs_of_nonneg]
    fin_cases i <;> simp <;> positivity
  · change ‖(diagonal fun _ : Fin 1 => ((a ^ 2 + b ^ 2 : ℝ) : ℂ)) i i‖ = _
    rw [diagonal_apply_eq, Complex.norm_real, Real.norm_eq_abs, abs_of_nonneg (by positivity)]

/-- The squared norm of the cut tensors. -/
theorem cut_blocks_norm {a b : ℝ} {newD : ℕ → ℕ} (S' : MPS ℂ (fun _ => 2) newD) (h0' : newD 0 = 1) (hD1 : newD 1 = 1) (hN' : newD 2 = 1)
    (hbl : Blocks 2 (cutA a b) S'.A) (hrN : S'.r 2 = 1) (hrp : ∀ n < 2, S'.r n = ∑ s, S'.A n s * S'.r (n + 1) * (S'.A n s)ᴴ) :
    braket (psi (N := 2) S'.A h0' hN') (psi S'.A h0' hN') = ((b ^ 2 : ℝ) : ℂ) := by
  have hr1 : S'.r 1 = 1 := by
    refine mat_one_of_entry hD1 ?_
    rw [hrp 1 (by omega), hrN, Matrix.sum_apply]
    simp only [Matrix.mul_one, mul_apply, fin_sum_one hN', conjTranspose_apply]
    have : ∀ s : Fin 2, S'.A 1 s ⟨0, by omega⟩ ⟨0, by change 0 < newD 2; omega⟩ = if s = 0 then 0 else 1 := by
      intro s
      rw [hbl 1 (by omega) s ⟨0, by omega⟩ ⟨0, by change 0 < newD 2; omega⟩ (1 : Fin 2) (0 : Fin 1) (show 1 = 2 - newD 1 + 0 by omega) (show 0 = 1 - newD 2 + 0 by omega)]
      change (if s = 0 then !![1; 0] else !![0; 1] : Matrix (Fin 2) (Fin 1) ℂ) 1 0 = _
      split <;> rfl
    simp only [this]
    rw [Fin.sum_univ_two]
    simp
  have hr0 : S'.r 0 ⟨0, by omega⟩ ⟨0, by omega⟩ = ((b ^ 2 : ℝ) : ℂ) := by
    rw [hrp 0 (by omega), hr1, Matrix.sum_apply]
    simp only [Matrix.mul_one, mul_apply, fin_sum_one hD1, conjTranspose_apply]
    have : ∀ s : Fin 2, S'.A 0 s ⟨0, by omega⟩ ⟨0, by change 0 < newD 1; omega⟩ = if s = 0 then 0 else (b : ℂ) := by
      intro s
      rw [hbl 0 (by omega) s ⟨0, by omega⟩ ⟨0, by change 0 < newD 1; omega⟩ (0 : Fin 1) (1 : Fin 2) (show 0 = 1 - newD 0 + 0 by omega) (show 1 = 2 - newD 1 + 0 by omega)]
      change (if s = 0 then !![(a : ℂ), 0] else !![0, (b : ℂ)] : Matrix (Fin 1) (Fin 2) ℂ) 0 1 = _
      split <;> rfl
    simp only [this]
    rw [Fin.sum_univ_two]
    simp [sq]
  have hu : UpToDate 2 S'.A (mixL S'.A S'.A 1) S'.r := ⟨rfl, fun n _ => rfl, hrN, hrp⟩
  rw [← hu.norm_eq h0' hN' 0 (by omega), adot_eq_trace]
  have e : (mixL S'.A S'.A (1 : Matrix (Fin (newD 0)) (Fin (newD 0)) ℂ) 0) = 1 := rfl
  rw [e, conjTranspose_one, Matrix.one_mul, trace, fin_sum_one h0', diag_apply, hr0]

/-- Small values vanish if the smaller one is zero and the larger one is not small. -/
theorem cut_sep {b : ℝ} (hb : 1 ≤ b) : ∀ n ≤ 2, ∀ i, ‖cutL 0 b n i i‖ ≤ 1 / 2 → cutL 0 b n i i = 0 := by
  obtain ⟨t0, t1, t2⟩ := cut_entries 0 b
  have hb2 : 1 ≤ b ^ 2 := by nlinarith
  intro n hn
  interval_cases n
  · intro i h
    have := (t0 i).symm.trans_le h
    norm_num at this
  · change ∀ i : Fin 2, ‖cutL 0 b 1 i i‖ ≤ 1 / 2 → (diagonal fun i : Fin 2 => ((![(0 : ℝ) ^ 2, b ^ 2] i : ℝ) : ℂ)) i i = 0
    intro i h
    have := (t1 i).symm.trans_le h
    fin_cases i
    · simp
    · simp at this
      linarith
  · intro i h
    have := (t2 i).symm.trans_le h
    linarith

/-- Cutting the smaller one of the two values: `l[N]` is one and the squared norm is the larger value. -/
theorem cut_result {a b tol : ℝ} (ha : a ^ 2 ≤ tol) (hb : tol < b ^ 2) (normalize : Bool) :
    ∃ (S' : MPS ℂ (fun _ => 2) (autoDims 2 tol (cutL a b))) (h0' : autoDims 2 tol (cutL a b) 0 = 1) (hN' : autoDims 2 tol (cutL a b) 2 = 1),
      updateTruncR 2 ⟨cutA a b, cutL a b, cutR a b⟩ tol normalize = some (some S') ∧ S'.l 2 = 1 ∧
      braket (psi (N := 2) S'.A h0' hN') (psi S'.A h0' hN') = ((b ^ 2 : ℝ) : ℂ) := by
  obtain ⟨t0, t1, t2⟩ := cut_entries a b
  have hpos : ∀ n, 1 ≤ n → n ≤ 2 → ∃ i, tol < ‖cutL a b n i i‖ := by
    intro n h1 hn
    interval_cases n
    · exact ⟨(1 : Fin 2), by rw [t1]; exact hb⟩
    · refine ⟨(0 : Fin 1), ?_⟩
      rw [t2]
      have := sq_nonneg a
      linarith
  obtain ⟨a1, a2⟩ := autoDims_spec (N := 2) tol (cutL a b)
  have hD1 : autoDims 2 tol (cutL a b) 1 = 1 := by
    rw [a2 1 (by omega) (by omega), Finset.card_eq_one]
    refine ⟨(1 : Fin 2), ?_⟩
    have e : ∀ i : Fin 2, tol < ‖cutL a b 1 i i‖ ↔ i = (1 : Fin 2) := by
      intro i
      rw [t1]
      fin_cases i
      · simpa using ha
      · simpa using hb
    ext i
    rw [Finset.mem_filter]
    exact ⟨fun h => Finset.mem_singleton.2 ((e i).1 h.2), fun h => ⟨Finset.mem_univ _, (e i).2 (Finset.mem_singleton.1 h)⟩⟩
  obtain ⟨res, hres, hall⟩ := C75_right_any (⟨cutA a b, cutL a b, cutR a b⟩ : MPS ℂ (fun _ => 2) cutD) (cut_upToDate a b) rfl rfl
    (cut_r a b) tol hpos normalize
  cases res with
  | none =>
    exfalso
    unfold updateTruncR at hres
    obtain ⟨-, -, hc | ⟨A', hA', -⟩⟩ := autoTruncate_cases (N := 2) (A := cutA a b) (D := cutD) rfl hpos
    · unfold autoTruncate at hc
      split at hc
      · cases ht : truncate 2 (cutA a b) (autoDims 2 tol (cutL a b)) with
        | none => rw [ht] at hc; cases hc
        | some A' => rw [ht] at hc; cases hc
      · rename_i hne
        rw [Bool.not_eq_false, sameDims_iff] at hne
        have := hne 1 (by omega)
        rw [hD1] at this
        exact absurd this (by decide)
    · simp only [hA'] at hres
      split at hres
      · cases hres
      · cases hres
  | some S' =>
    obtain ⟨h0', hN', hbl, hl, hrN, hrp⟩ := hall S' rfl
    refine ⟨S', h0', hN', hres, hl, ?_⟩
    exact cut_blocks_norm S' h0' hD1 hN' hbl hrN hrp

/-- **C75 is violated** in the right canonical form if a value within the tolerance does not vanish: the normalised state
`3/5 |00> + 4/5 |11>`, cut with tolerance 1/2 and `normalize=True`, has squared norm 16/25. -/
theorem C75_normalised_violated : ∃ (S : MPS ℂ (fun _ => 2) cutD) (S' : MPS ℂ (fun _ => 2) (autoDims 2 (1 / 2) S.l))
    (h0' : autoDims 2 (1 / 2) S.l 0 = 1) (hN' : autoDims 2 (1 / 2) S.l 2 = 1),
    UpToDate 2 S.A S.l S.r ∧ (∀ n, 1 ≤ n → n ≤ 2 → S.r n = 1) ∧ AscDiag 2 S.l ∧
      braket (psi (N := 2) S.A rfl rfl) (psi S.A rfl rfl) = 1 ∧ updateTruncR 2 S (1 / 2) true = some (some S') ∧
      braket (psi (N := 2) S'.A h0' hN') (psi S'.A h0' hN') = 16 / 25 := by
  obtain ⟨S', h0', hN', h1, -, h3⟩ := cut_result (a := 3 / 5) (b := 4 / 5) (tol := 1 / 2) (by norm_num) (by norm_num) true
  refine ⟨⟨cutA (3 / 5) (4 / 5), cutL (3 / 5) (4 / 5), cutR (3 / 5) (4 / 5)⟩, S', h0', hN', cut_upToDate _ _, cut_r _ _,
    cut_asc (by norm_num), ?_, h1, ?_⟩
  · rw [cut_norm]; norm_num
  · rw [h3]; norm_num

/-- **C75 is violated** in the right canonical form for a state that is not normalised and shall stay so, even if only zeros are cut: the state
`2 |11>` has squared norm 4, but `l[N]` is one. -/
theorem C75_unnormalised_violated : ∃ (S : MPS ℂ (fun _ => 2) cutD) (S' : MPS ℂ (fun _ => 2) (autoDims 2 (1 / 2) S.l))
    (h0' : autoDims 2 (1 / 2) S.l 0 = 1) (hN' : autoDims 2 (1 / 2) S.l 2 = 1),
    UpToDate 2 S.A S.l S.r ∧ (∀ n, 1 ≤ n → n ≤ 2 → S.r n = 1) ∧ AscDiag 2 S.l ∧ (∀ n ≤ 2, ∀ i, ‖S.l n i i‖ ≤ 1 / 2 → S.l n i i = 0) ∧
      updateTruncR 2 S (1 / 2) false = some (some S') ∧
      braket (psi (N := 2) S'.A h0' hN') (psi S'.A h0' hN') = 4 ∧ S'.l 2 = 1 := by
  obtain ⟨S', h0', hN', h1, h2, h3⟩ := cut_result (a := 0) (b := 2) (tol := 1 / 2) (by norm_num) (by norm_num) false
  refine ⟨⟨cutA 0 2, cutL 0 2, cutR 0 2⟩, S', h0', hN', cut_upToDate _ _, cut_r _ _, cut_asc (by norm_num), ?_, h1, ?_, h2⟩
  · exact cut_sep (by norm_num)
  · rw [h3]; norm_num

/-- The hypotheses of `C75_right` are met by `|11>` with a redundant bond index, and something is cut. -/
example : ∃ (S : MPS ℂ (fun _ => 2) cutD) (S' : MPS ℂ (fun _ => 2) (autoDims 2 (1 / 2) S.l)),
    UpToDate 2 S.A S.l S.r ∧ braket (psi (N := 2) S.A rfl rfl) (psi S.A rfl rfl) = 1 ∧ (∀ n, 1 ≤ n → n ≤ 2 → S.r n = 1) ∧ AscDiag 2 S.l ∧
      (∀ n ≤ 2, ∀ i, ‖S.l n i i‖ ≤ 1 / 2 → S.l n i i = 0) ∧ updateTruncR 2 S (1 / 2) true = some (some S') := by
  obtain ⟨S', h0', hN', h1, h2, h3⟩ := cut_result (a := 0) (b := 1) (tol := 1 / 2) (by norm_num) (by norm_num) true
  refine ⟨⟨cutA 0 1, cutL 0 1, cutR 0 1⟩, S', cut_upToDate _ _, ?_, cut_r _ _, cut_asc (by norm_num), ?_, h1⟩
  · rw [cut_norm]; norm_num
  · exact cut_sep (by norm_num)

/-- `a |00> + b |11>` in left canonical form. -/
noncomputable def cutA' (a b : ℝ) : Tensors ℂ (fun _ => 2) cutD
  | 0 => fun s => (if s = 0 then !![1, 0] else !![0, 1] : Matrix (Fin 1) (Fin 2) ℂ)
  | 1 => fun s => (if s = 0 then !![(a : ℂ); 0] else !![0; (b : ℂ)] : Matrix (Fin 2) (Fin 1) ℂ)
  | _ => 0

/-- Left environments of the left canonical form. -/
noncomputable def cutL' (a b : ℝ) : Envs ℂ cutD
  | 0 => (1 : Matrix (Fin 1) (Fin 1) ℂ)
  | 1 => (1 : Matrix (Fin 2) (Fin 2) ℂ)
  | 2 => diagonal fun _ : Fin 1 => ((a ^ 2 + b ^ 2 : ℝ) : ℂ)
  | _ => 0

/-- Right environments of the left canonical form. -/
noncomputable def cutR' (a b : ℝ) : Envs ℂ cutD
  | 0 => diagonal fun _ : Fin 1 => ((a ^ 2 + b ^ 2 : ℝ) : ℂ)
  | 1 => diagonal fun i : Fin 2 => ((![a ^ 2, b ^ 2] i : ℝ) : ℂ)
  | 2 => (1 : Matrix (Fin 1) (Fin 1) ℂ)
  | _ => 0

theorem cut_upToDate' (a b : ℝ) : UpToDate 2 (cutA' a b) (cutL' a b) (cutR' a b) := by
  have e1 : (1 : Matrix (Fin 2) (Fin 2) ℂ) = ∑ s : Fin 2,
      (if s = 0 then !![1, 0] else !![0, 1] : Matrix (Fin 1) (Fin 2) ℂ)ᴴ * (1 : Matrix (Fin 1) (Fin 1) ℂ)
        * (if s = 0 then !![1, 0] else !![0, 1] : Matrix (Fin 1) (Fin 2) ℂ) := by
    ext i j
    fin_cases i <;> fin_cases j <;> simp [Fin.sum_univ_two, mul_apply]
  have e2 : (diagonal fun _ : Fin 1 => ((a ^ 2 + b ^ 2 : ℝ) : ℂ)) = ∑ s : Fin 2,
      (if s = 0 then !![(a : ℂ); 0] else !![0; (b : ℂ)] : Matrix (Fin 2) (Fin 1) ℂ)ᴴ * (1 : Matrix (Fin 2) (Fin 2) ℂ)
        * (if s = 0 then !![(a : ℂ); 0] else !![0; (b : ℂ)] : Matrix (Fin 2) (Fin 1) ℂ) := by
    ext i j
    fin_cases i; fin_cases j
    simp [Fin.sum_univ_two, mul_apply, sq]
  have e3 : (diagonal fun _ : Fin 1 => ((a ^ 2 + b ^ 2 : ℝ) : ℂ)) = ∑ s : Fin 2,
      (if s = 0 then !![1, 0] else !![0, 1] : Matrix (Fin 1) (Fin 2) ℂ) * (diagonal fun i : Fin 2 => ((![a ^ 2, b ^ 2] i : ℝ) : ℂ))
        * (if s = 0 then !![1, 0] else !![0, 1] : Matrix (Fin 1) (Fin 2) ℂ)ᴴ := by
    ext i j
    fin_cases i; fin_cases j
    simp [Fin.sum_univ_two, vecMul, dotProduct, conjTranspose_apply, diagonal, vecHead, vecTail]
  have e4 : (diagonal fun i : Fin 2 => ((![a ^ 2, b ^ 2] i : ℝ) : ℂ)) = ∑ s : Fin 2,
      (if s = 0 then !![(a : ℂ); 0] else !![0; (b : ℂ)] : Matrix (Fin 2) (Fin 1) ℂ) * (1 : Matrix (Fin 1) (Fin 1) ℂ)
        * (if s = 0 then !![(a : ℂ); 0] else !![0; (b : ℂ)] : Matrix (Fin 2) (Fin 1) ℂ)ᴴ := by
    ext i j
    fin_cases i <;> fin_cases j <;> simp [Fin.sum_univ_two, sq, vecMul, dotProduct, conjTranspose_apply, diagonal]
  refine ⟨rfl, ?_, rfl, ?_⟩
  · intro n hn
    interval_cases n
    · exact e1
    · exact e2
  · intro n hn
    interval_cases n
    · exact e3
    · exact e4

/-- The hypotheses of `C75_left` are met by `|11>` with a redundant bond index, and something is cut. -/
example : ∃ S : MPS ℂ (fun _ => 2) cutD,
    UpToDate 2 S.A S.l S.r ∧ braket (psi (N := 2) S.A rfl rfl) (psi S.A rfl rfl) = 1 ∧ (∀ n < 2, S.l n = 1) ∧ AscDiag 2 S.r ∧
      (∀ n ≤ 2, ∀ i, ‖S.r n i i‖ ≤ 1 / 2 → S.r n i i = 0) ∧ ∃ i : Fin 2, ‖S.r 1 i i‖ ≤ 1 / 2 := by
  have e : ∀ n ≤ 2, cutR' 0 1 n = cutL 0 1 n := by
    intro n hn
    interval_cases n
    · change (diagonal fun _ : Fin 1 => (((0 : ℝ) ^ 2 + (1 : ℝ) ^ 2 : ℝ) : ℂ)) = (1 : Matrix (Fin 1) (Fin 1) ℂ)
      simp
    · rfl
    · change (1 : Matrix (Fin 1) (Fin 1) ℂ) = diagonal fun _ : Fin 1 => (((0 : ℝ) ^ 2 + (1 : ℝ) ^ 2 : ℝ) : ℂ)
      simp
  refine ⟨⟨cutA' 0 1, cutL' 0 1, cutR' 0 1⟩, cut_upToDate' 0 1, ?_, fun n hn => ?_, fun n hn => ?_, fun n hn => ?_, ⟨0, ?_⟩⟩
  · rw [← (cut_upToDate' 0 1).norm_eq rfl rfl 0 (by omega), adot_eq_trace]
    change trace ((1 : Matrix (Fin 1) (Fin 1) ℂ)ᴴ * diagonal fun _ : Fin 1 => (((0 : ℝ) ^ 2 + (1 : ℝ) ^ 2 : ℝ) : ℂ)) = _
    simp
  · interval_cases n <;> rfl
  · simp only [e n hn]
    exact cut_asc (by norm_num) n hn
  · simp only [e n hn]
    exact cut_sep le_rfl n hn
  · change ‖(diagonal fun i : Fin 2 => ((![(0 : ℝ) ^ 2, (1 : ℝ) ^ 2] i : ℝ) : ℂ)) 0 0‖ ≤ 1 / 2
    simp

end EvoMPS
