import Verif.UniformEnv
import Verif.UniformLemmas
import Verif.Measure
import Mathlib.Tactic.LinearCombination

/-!
# Helper lemmas for the environments of the uniform chain
-/

set_option linter.unusedSectionVars false

namespace EvoMPS.Uni

open Matrix

variable {q D : ℕ}

theorem prev_eq (L k : ℕ) (hk : k < L) : prev L k = (k + L - 1) % L := by
  unfold prev
  by_cases h : k = 0
  · subst h
    rw [if_pos rfl, Nat.zero_add, Nat.mod_eq_of_lt (by omega)]
  · rw [if_neg h, show k + L - 1 = k - 1 + L by omega, Nat.add_mod_right, Nat.mod_eq_of_lt (by omega)]

/-! ## The loops over the block -/

theorem fillR_fold {M : Type*} (g : ℕ → M → M) (r0 : ℕ → M) (m : ℕ) :
    let r := (List.range' 1 m).reverse.foldl (fun r k => Function.update r (k - 1) (g k (r k))) r0
    (∀ k, m ≤ k → r k = r0 k) ∧ ∀ k, 1 ≤ k → k ≤ m → r (k - 1) = g k (r k) := by
  have key : ∀ (m a : ℕ), 1 ≤ a →
      let r := (List.range' a m).reverse.foldl (fun r k => Function.update r (k - 1) (g k (r k))) r0
      (∀ k, k + 1 < a ∨ a + m ≤ k + 1 → r k = r0 k) ∧
        ∀ k, a ≤ k → k < a + m → r (k - 1) = g k (r k) := by
    intro m
    induction m with
    | zero => exact fun a _ => ⟨fun _ _ => rfl, fun k h1 h2 => by omega⟩
    | succ m ih =>
      intro a ha
      obtain ⟨ih1, ih2⟩ := ih (a + 1) (by omega)
      rw [List.range'_succ, List.reverse_cons, List.foldl_append]
      simp only [List.foldl_cons, List.foldl_nil]
      refine ⟨fun k hk => ?_, fun k h1 h2 => ?_⟩
      · rw [Function.update_of_ne (by omega), ih1 k (by omega)]
      · rcases Nat.lt_or_ge a k with h | h
        · rw [Function.update_of_ne (by omega), Function.update_of_ne (by omega),
            ih2 k (by omega) (by omega)]
        · obtain rfl : k = a := by omega
          rw [Function.update_self, Function.update_of_ne (by omega)]
  obtain ⟨h1, h2⟩ := key m 1 le_rfl
  exact ⟨fun k hk => h1 k (by omega), fun k hk hk' => h2 k hk (by omega)⟩

theorem fillL_fold {M : Type*} (g : ℕ → M → M) (l0 : ℕ → M) (L m : ℕ) (hm : m + 1 ≤ L) :
    let l := (List.range m).foldl (fun l k => Function.update l k (g k (l (prev L k)))) l0
    (∀ k, m ≤ k → l k = l0 k) ∧ ∀ k < m, l k = g k (l (prev L k)) := by
  induction m with
  | zero => exact ⟨fun _ _ => rfl, fun k h => by omega⟩
  | succ m ih =>
    obtain ⟨ih1, ih2⟩ := ih (by omega)
    rw [List.range_succ, List.foldl_append]
    simp only [List.foldl_cons, List.foldl_nil]
    refine ⟨fun k hk => ?_, fun k hk => ?_⟩
    · rw [Function.update_of_ne (by omega), ih1 k (by omega)]
    · have hp : prev L k ≠ m := by unfold prev; split_ifs <;> omega
      rcases Nat.lt_or_ge k m with h | h
      · rw [Function.update_of_ne (by omega), Function.update_of_ne hp, ih2 k h]
      · obtain rfl : k = m := by omega
        rw [Function.update_self, Function.update_of_ne hp]

/-- The block map in terms of the environments after the loops. -/
theorem chainTransfer_fill (L : ℕ) (A : ℕ → Ten ℂ q D D) (r : ℕ → Matrix (Fin D) (Fin D) ℂ)
    (h : ∀ k, 1 ≤ k → k ≤ L - 1 → r (k - 1) = epsR (r k) (A k) (A k)) (n : ℕ) (hn : n < L) :
    chainTransfer L L A A (L - n) n (r (L - 1)) = r (L - 1 - n) := by
  induction n with
  | zero => rw [chainTransfer_zero, Nat.sub_zero]
  | succ n ih =>
    rw [show n + 1 = 1 + n by omega, chainTransfer_add, chainTransfer_one,
      show L - (1 + n) + 1 = L - n by omega, ih (by omega), Nat.mod_eq_of_lt (by omega),
      show L - (1 + n) = L - 1 - n by omega, ← h _ (by omega) (by omega)]
    congr 1
    omega

theorem chainTransferL_fill (L : ℕ) (A : ℕ → Ten ℂ q D D) (l : ℕ → Matrix (Fin D) (Fin D) ℂ)
    (h : ∀ k < L - 1, l k = epsL (l (prev L k)) (A k) (A k)) (n : ℕ) (hn : n < L) :
    chainTransferL L L A A 0 n (l (L - 1)) = l (prev L n) := by
  induction n with
  | zero => rw [chainTransferL_zero]; rfl
  | succ n ih =>
    rw [chainTransferL_succ, ih (by omega), Nat.zero_add, Nat.mod_eq_of_lt (by omega),
      ← h n (by omega)]
    rfl

/-- After the loops the transfer equations hold around the block if the end matrices are fixed
points of the block maps. -/
theorem fill_env (S : UMPS ℂ q D) (hL : 0 < S.L)
    (hr : chainTransfer S.L S.L S.A S.A 0 S.L (S.r (S.L - 1)) = S.r (S.L - 1))
    (hl : chainTransferL S.L S.L S.A S.A 0 S.L (S.l (S.L - 1)) = S.l (S.L - 1))
    (hn : adot (S.l (S.L - 1)) (S.r (S.L - 1)) = 1) :
    ChainEnv S.L S.A (fillL (fillR S)).l (fillL (fillR S)).r := by
  obtain ⟨r1, r2⟩ := fillR_fold (fun k x => epsR x (S.A k) (S.A k)) S.r (S.L - 1)
  obtain ⟨l1, l2⟩ := fillL_fold (fun k x => epsL x (S.A k) (S.A k)) S.l S.L (S.L - 1) (by omega)
  set r' := (fillL (fillR S)).r with hr'
  set l' := (fillL (fillR S)).l with hl'
  replace r1 : ∀ k, S.L - 1 ≤ k → r' k = S.r k := r1
  replace r2 : ∀ k, 1 ≤ k → k ≤ S.L - 1 → r' (k - 1) = epsR (r' k) (S.A k) (S.A k) := r2
  replace l1 : ∀ k, S.L - 1 ≤ k → l' k = S.l k := l1
  replace l2 : ∀ k < S.L - 1, l' k = epsL (l' (prev S.L k)) (S.A k) (S.A k) := l2
  have hR : ∀ k < S.L, r' (prev S.L k) = epsR (r' k) (S.A k) (S.A k) := by
    intro k hk
    by_cases h0 : k = 0
    · subst h0
      have h1 := chainTransfer_fill S.L S.A r' r2 (S.L - 1) (by omega)
      rw [show S.L - (S.L - 1) = 1 by omega, show S.L - 1 - (S.L - 1) = 0 by omega] at h1
      rw [prev, if_pos rfl, ← h1, r1 _ le_rfl]
      have h2 := chainTransfer_add S.L S.L S.A S.A 0 1 (S.L - 1) (S.r (S.L - 1))
      rw [show 1 + (S.L - 1) = S.L by omega, hr, chainTransfer_one, Nat.zero_mod] at h2
      exact h2
    · rw [prev, if_neg h0, r2 k (by omega) (by omega)]
  have hLl : ∀ k < S.L, l' k = epsL (l' (prev S.L k)) (S.A k) (S.A k) := by
    intro k hk
    by_cases h0 : k < S.L - 1
    · exact l2 k h0
    · obtain rfl : k = S.L - 1 := by omega
      rw [← chainTransferL_fill S.L S.A l' l2 (S.L - 1) (by omega), l1 _ le_rfl]
      have h2 := chainTransferL_succ S.L S.L S.A S.A 0 (S.L - 1) (S.l (S.L - 1))
      rw [show S.L - 1 + 1 = S.L by omega, hl, Nat.zero_add, Nat.mod_eq_of_lt (by omega)] at h2
      exact h2
  refine ⟨fun k hk => ?_, fun k hk => ?_, ?_⟩
  · rw [← prev_eq _ _ hk, ← epsL_eq]; exact hLl k hk
  · rw [← prev_eq _ _ hk, ← epsR_eq]; exact hR k hk
  · have key : ∀ k < S.L, adot (l' k) (r' k) = adot (l' (prev S.L k)) (r' (prev S.L k)) := by
      intro k hk
      rw [hLl k hk, adot_epsL, ← hR k hk]
    intro k hk
    rw [← adot_eq_trace]
    induction k with
    | zero => rw [key 0 hk, prev, if_pos rfl, r1 _ le_rfl, l1 _ le_rfl, hn]
    | succ k ih => rw [key _ hk, prev, if_neg (by omega)]; exact ih (by omega)

/-! ## Scaling -/

theorem adot_smul_left {m n : ℕ} (c : ℂ) (x y : Matrix (Fin m) (Fin n) ℂ) :
    adot (c • x) y = star c * adot x y := by
  simp [adot_eq_trace, Matrix.conjTranspose_smul]

theorem chainTransfer_smul (L : ℕ) (A : ℕ → Ten ℂ q D D) (k n : ℕ) (c : ℂ)
    (x : Matrix (Fin D) (Fin D) ℂ) :
    chainTransfer L L A A k n (c • x) = c • chainTransfer L L A A k n x := by
  simp [chainTransfer, Finset.smul_sum]

theorem chainTransferL_smul (L : ℕ) (A : ℕ → Ten ℂ q D D) (k n : ℕ) (c : ℂ)
    (x : Matrix (Fin D) (Fin D) ℂ) :
    chainTransferL L L A A k n (c • x) = c • chainTransferL L L A A k n x := by
  simp [chainTransferL, Finset.smul_sum]

theorem setEnds_L (S : UMPS ℂ q D) (l r) : (setEnds S l r).L = S.L := rfl
theorem setEnds_A (S : UMPS ℂ q D) (l r) : (setEnds S l r).A = S.A := rfl
theorem setEnds_l (S : UMPS ℂ q D) (l r) : (setEnds S l r).l (S.L - 1) = l := by
  simp [setEnds]
theorem setEnds_r (S : UMPS ℂ q D) (l r) : (setEnds S l r).r (S.L - 1) = r := by
  simp [setEnds]

theorem fixedEnds_scale {L : ℕ} {A : ℕ → Ten ℂ q D D} {l r} (h : FixedEnds L A l r) (a b : ℝ) :
    FixedEnds L A ((a : ℂ) • l) ((b : ℂ) • r) where
  right := by rw [chainTransfer_smul, h.right]
  left := by rw [chainTransferL_smul, h.left]
  real := by
    have := h.real
    simp only [← adot_eq_trace] at this ⊢
    rw [adot_smul_left, adot_smul_right, star_mul', star_mul', this]
    simp

theorem fixedEnds_norm {L : ℕ} {A : ℕ → Ten ℂ q D D} {l r} (h : FixedEnds L A l r) :
    adot l r = (((adot l r).re : ℝ) : ℂ) := by
  have := h.real
  rw [← adot_eq_trace] at this
  exact (Complex.conj_eq_iff_re.1 this).symm

/-- The normalisation of the end matrices. -/
theorem normEnds_spec (sg : Bool) (S S' : UMPS ℂ q D)
    (h : FixedEnds S.L S.A (S.l (S.L - 1)) (S.r (S.L - 1)))
    (htr : sg = true ∨ (S.r (S.L - 1)).trace.re ≠ 0)
    (hS : normEnds sg S (endNorm S) = some S') :
    S'.L = S.L ∧ S'.A = S.A ∧ FixedEnds S.L S.A (S'.l (S.L - 1)) (S'.r (S.L - 1)) ∧
      adot (S'.l (S.L - 1)) (S'.r (S.L - 1)) = 1 ∧
      (sg = false → (S'.r (S.L - 1)).trace.re = D) ∧
      ∃ a b : ℝ, (sg = true ∨ 0 < (S.r (S.L - 1)).trace.re → 0 < a ∧ 0 < b) ∧
        S'.l (S.L - 1) = (a : ℂ) • S.l (S.L - 1) ∧
        S'.r (S.L - 1) = (b : ℂ) • S.r (S.L - 1) := by
  unfold normEnds at hS
  by_cases hn : endNorm S ≤ 0
  · rw [if_pos hn] at hS; cases hS
  rw [if_neg hn] at hS
  push Not at hn
  have hv := fixedEnds_norm h
  change _ = ((endNorm S : ℝ) : ℂ) at hv
  set c : ℝ := 1 / Real.sqrt (endNorm S) with hc
  have hcc : c * c * endNorm S = 1 := by
    rw [hc]
    field_simp
    rw [Real.sq_sqrt hn.le]
  have hc0 : 0 < c := by rw [hc]; positivity
  have h1 : adot ((c : ℂ) • S.l (S.L - 1)) ((c : ℂ) • S.r (S.L - 1)) = 1 := by
    rw [adot_smul_left, adot_smul_right, hv, Complex.star_def, Complex.conj_ofReal, ← mul_assoc,
      ← Complex.ofReal_mul, ← Complex.ofReal_mul, hcc, Complex.ofReal_one]
  cases sg with
  | true =>
    simp only [if_true, Option.some.injEq] at hS
    subst hS
    refine ⟨rfl, rfl, ?_, ?_, fun h => (by cases h), c, c, fun _ => ⟨hc0, hc0⟩, ?_, ?_⟩
    · rw [setEnds_l, setEnds_r]; exact fixedEnds_scale h c c
    · rw [setEnds_l, setEnds_r, h1]
    · rw [setEnds_l]
    · rw [setEnds_r]
  | false =>
    simp only [Bool.false_eq_true, if_false, Option.some.injEq, setEnds_L, setEnds_l, setEnds_r] at hS
    have htr' : (S.r (S.L - 1)).trace.re ≠ 0 := htr.resolve_left (by simp)
    set t := ((c : ℂ) • S.r (S.L - 1)).trace.re with ht
    have ht' : t = c * (S.r (S.L - 1)).trace.re := by
      rw [ht, Matrix.trace_smul, smul_eq_mul, Complex.re_ofReal_mul]
    have ht0 : t ≠ 0 := by rw [ht']; exact mul_ne_zero hc0.ne' htr'
    have hD : (D : ℝ) ≠ 0 := by
      rintro hD
      have hD : D = 0 := by exact_mod_cast hD
      subst hD
      simp [endNorm, adot, forSum] at hn
    set f : ℝ := (D : ℝ) / t with hf
    have hf0 : f ≠ 0 := div_ne_zero hD ht0
    have hinv : (1 / (f : ℂ)) = ((1 / f : ℝ) : ℂ) := by push_cast; rfl
    subst hS
    have e1 : (setEnds (setEnds S ((c : ℂ) • S.l (S.L - 1)) ((c : ℂ) • S.r (S.L - 1)))
        ((1 / (f : ℂ)) • (c : ℂ) • S.l (S.L - 1)) ((f : ℂ) • (c : ℂ) • S.r (S.L - 1))).l (S.L - 1)
        = ((1 / f * c : ℝ) : ℂ) • S.l (S.L - 1) := by
      rw [hinv, smul_smul, ← Complex.ofReal_mul]; simp [setEnds]
    have e2 : (setEnds (setEnds S ((c : ℂ) • S.l (S.L - 1)) ((c : ℂ) • S.r (S.L - 1)))
        ((1 / (f : ℂ)) • (c : ℂ) • S.l (S.L - 1)) ((f : ℂ) • (c : ℂ) • S.r (S.L - 1))).r (S.L - 1)
        = ((f * c : ℝ) : ℂ) • S.r (S.L - 1) := by
      rw [smul_smul (f : ℂ), ← Complex.ofReal_mul]; simp [setEnds]
    refine ⟨rfl, rfl, ?_, ?_, fun _ => ?_, _, _, ?_, e1, e2⟩
    · rw [e1, e2]; exact fixedEnds_scale h _ _
    · rw [e1, e2, Complex.ofReal_mul, Complex.ofReal_mul, ← smul_smul, ← smul_smul, adot_smul_left,
        adot_smul_right, h1, Complex.star_def, Complex.conj_ofReal, mul_one, ← Complex.ofReal_mul,
        one_div_mul_cancel hf0, Complex.ofReal_one]
    · rw [e2, Complex.ofReal_mul, ← smul_smul, Matrix.trace_smul, smul_eq_mul, Complex.re_ofReal_mul,
        ← ht, hf, div_mul_cancel₀ _ ht0]
    · rintro (h | h)
      · cases h
      · have htp : 0 < t := by rw [ht']; positivity
        have hDp : (0 : ℝ) < D := lt_of_le_of_ne (Nat.cast_nonneg D) hD.symm
        have hfp : 0 < f := div_pos hDp htp
        exact ⟨by positivity, by positivity⟩

/-- What the attempts leave behind if every answer of the back end is good. -/
theorem lrTries_spec (be : Backend q D) (rescale : Bool) (L : ℕ)
    (H : ∀ S S1 l r, S.L = L → be.run rescale S = some (S1, l, r) → S1.L = L ∧
      FixedEnds L S1.A l r ∧ (be.aliased = false ∨ 1e-10 ≤ |(adot l r).re|)) (n : ℕ)
    (S : UMPS ℂ q D) (hS : S.L = L) (norm : ℝ) (S' : UMPS ℂ q D) (norm' : ℝ)
    (h : lrTries be rescale (n + 1) S norm = some (S', norm')) :
    S'.L = L ∧ FixedEnds L S'.A (S'.l (L - 1)) (S'.r (L - 1)) ∧ norm' = endNorm S' ∧
      ∃ S0 S1 l r, S0.L = L ∧ be.run rescale S0 = some (S1, l, r) ∧ S'.A = S1.A ∧
        S'.l (L - 1) = l ∧ S'.r (L - 1) = r := by
  induction n generalizing S norm with
  | zero =>
    rw [lrTries] at h
    cases hr : be.run rescale S with
    | none => rw [hr] at h; cases h
    | some p =>
      obtain ⟨S1, l, r⟩ := p
      obtain ⟨h1, h2, h3⟩ := H S S1 l r hS hr
      subst h1
      rw [hr] at h
      simp only [Option.bind_some] at h
      have hn : endNorm (setEnds S1 l r) = (adot l r).re := by
        rw [endNorm, setEnds_L, setEnds_l, setEnds_r]
      have h2' : FixedEnds S1.L (setEnds S1 l r).A ((setEnds S1 l r).l (S1.L - 1))
          ((setEnds S1 l r).r (S1.L - 1)) := by
        rw [setEnds_l, setEnds_r]; exact h2
      by_cases hs : |endNorm (setEnds S1 l r)| < 1e-10
      · have ha : be.aliased = false := h3.resolve_right (by rw [← hn]; push Not; exact hs)
        rw [if_pos hs, ha] at h
        simp only [Bool.false_eq_true, if_false, lrTries, Option.some.injEq, Prod.mk.injEq] at h
        obtain ⟨rfl, rfl⟩ := h
        exact ⟨rfl, h2', rfl, S, S1, l, r, hS, hr, rfl, setEnds_l S1 l r, setEnds_r S1 l r⟩
      · rw [if_neg hs] at h
        simp only [Option.some.injEq, Prod.mk.injEq] at h
        obtain ⟨rfl, rfl⟩ := h
        exact ⟨rfl, h2', rfl, S, S1, l, r, hS, hr, rfl, setEnds_l S1 l r, setEnds_r S1 l r⟩
  | succ n ih =>
    rw [lrTries] at h
    cases hr : be.run rescale S with
    | none => rw [hr] at h; cases h
    | some p =>
      obtain ⟨S1, l, r⟩ := p
      obtain ⟨h1, h2, h3⟩ := H S S1 l r hS hr
      subst h1
      rw [hr] at h
      simp only [Option.bind_some] at h
      have h2' : FixedEnds S1.L (setEnds S1 l r).A ((setEnds S1 l r).l (S1.L - 1))
          ((setEnds S1 l r).r (S1.L - 1)) := by
        rw [setEnds_l, setEnds_r]; exact h2
      by_cases hs : |endNorm (setEnds S1 l r)| < 1e-10
      · rw [if_pos hs] at h
        cases ha : be.aliased with
        | true =>
          rw [ha, if_pos rfl] at h
          refine ih _ ?_ _ h
          rfl
        | false =>
          simp only [ha, Bool.false_eq_true, if_false] at h
          refine ih _ ?_ _ h
          rfl
      · rw [if_neg hs] at h
        simp only [Option.some.injEq, Prod.mk.injEq] at h
        obtain ⟨rfl, rfl⟩ := h
        exact ⟨rfl, h2', rfl, S, S1, l, r, hS, hr, rfl, setEnds_l S1 l r, setEnds_r S1 l r⟩

/-- The first attempt ends the loop if the overlap is not small. -/
theorem lrTries_first (be : Backend q D) (rescale : Bool) (n : ℕ) (S S1 : UMPS ℂ q D) (l r)
    (norm : ℝ) (h : be.run rescale S = some (S1, l, r)) (hn : 1e-10 ≤ |(adot l r).re|) :
    lrTries be rescale (n + 1) S norm = some (setEnds S1 l r, (adot l r).re) := by
  have hv : endNorm (setEnds S1 l r) = (adot l r).re := by
    rw [endNorm, setEnds_L, setEnds_l, setEnds_r]
  rw [lrTries, h]
  simp only [Option.bind_some, hv]
  rw [if_neg (by push Not; exact hn)]

/-- `calc_lr` succeeds with correct environments if the first answer of the back end is good and
its overlap positive and not small. -/
theorem calcLr_first (be : Backend q D) (sg rescale : Bool) (S S1 : UMPS ℂ q D) (l r)
    (hL : 0 < S1.L) (h : be.run rescale S = some (S1, l, r)) (hn : 1e-10 ≤ (adot l r).re)
    (hf : FixedEnds S1.L S1.A l r) (htr : sg = true ∨ r.trace.re ≠ 0) :
    ∃ S', calcLr be sg rescale S = some S' ∧ S'.L = S1.L ∧ S'.A = S1.A ∧
      ChainEnv S'.L S'.A S'.l S'.r ∧ (sg = false → (S'.r (S'.L - 1)).trace.re = D) ∧
      S'.lL = l ∧ S'.rL = r ∧ ∃ a b : ℝ, (sg = true ∨ 0 < r.trace.re → 0 < a ∧ 0 < b) ∧
        S'.l (S1.L - 1) = (a : ℂ) • l ∧ S'.r (S1.L - 1) = (b : ℂ) • r := by
  have hpos : 0 < (adot l r).re := lt_of_lt_of_le (by norm_num) hn
  unfold calcLr
  rw [lrTries_first be rescale 1 S S1 l r 0 h (hn.trans (le_abs_self _))]
  simp only [Option.bind_some]
  set T := setBefore (setEnds S1 l r) ((setEnds S1 l r).l ((setEnds S1 l r).L - 1))
    ((setEnds S1 l r).r ((setEnds S1 l r).L - 1)) with hT
  have hTL : T.L = S1.L := rfl
  have hTA : T.A = S1.A := rfl
  have hTl : T.l (S1.L - 1) = l := setEnds_l S1 l r
  have hTr : T.r (S1.L - 1) = r := setEnds_r S1 l r
  have hnorm : (adot l r).re = endNorm T := by rw [endNorm, hTL, hTl, hTr]
  have hsome : ∃ T', normEnds sg T (endNorm T) = some T' := by
    unfold normEnds
    rw [if_neg (by rw [← hnorm]; push Not; exact hpos)]
    cases sg <;> exact ⟨_, rfl⟩
  obtain ⟨T', hT'⟩ := hsome
  obtain ⟨h1, h2, h3, h4, h5, a, b, hab, h6, h7⟩ := normEnds_spec sg T T'
    (by rw [hTL, hTA, hTl, hTr]; exact hf) (by rw [hTL, hTr]; exact htr) hT'
  rw [hTL] at h1 h3 h4 h5 h6 h7
  rw [hTA] at h2 h3
  rw [hTl] at h6
  rw [hTr] at h7
  rw [hTL, hTr] at hab
  have hbef : T'.lL = l ∧ T'.rL = r := by
    unfold normEnds at hT'
    rw [if_neg (by rw [← hnorm]; push Not; exact hpos)] at hT'
    cases sg
    · simp only [Bool.false_eq_true, if_false, Option.some.injEq] at hT'
      rw [← hT']; exact ⟨hTl, hTr⟩
    · simp only [if_true, Option.some.injEq] at hT'
      rw [← hT']; exact ⟨hTl, hTr⟩
  have hr1 : (fillL (fillR T')).r (S1.L - 1) = T'.r (S1.L - 1) :=
    (fillR_fold (fun k x => epsR x (T'.A k) (T'.A k)) T'.r (T'.L - 1)).1 _ (by omega)
  have hl1 : (fillL (fillR T')).l (S1.L - 1) = T'.l (S1.L - 1) :=
    (fillL_fold (fun k x => epsL x (T'.A k) (T'.A k)) T'.l T'.L (T'.L - 1) (by omega)).1 _ (by omega)
  refine ⟨fillL (fillR T'), by rw [hnorm, hT']; rfl, h1, h2, ?_, fun hsg => ?_, hbef.1, hbef.2,
    a, b, hab, hl1.trans h6, hr1.trans h7⟩
  · have := fill_env T' (by rw [h1]; exact hL) (by rw [h1, h2]; exact h3.right)
      (by rw [h1, h2]; exact h3.left) (by rw [h1]; exact h4)
    exact this
  · have : (fillL (fillR T')).L = S1.L := h1
    rw [this, hr1]
    exact h5 hsg

end EvoMPS.Uni
