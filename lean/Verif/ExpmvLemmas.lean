import Verif.Expmv
import Mathlib.Analysis.Normed.Algebra.MatrixExponential
import Mathlib.Tactic.Ring
import Mathlib.Tactic.Linarith
import Mathlib.Tactic.NormNum

/-!
# Lemmas about `gexpmv`
-/

namespace EvoMPS.Krylov

open Dyn (pyInt)

theorem pyRound_le (x : ℝ) : (pyRound x : ℝ) ≤ x + 1 / 2 := by
  unfold pyRound
  have h1 := Int.floor_le x
  split_ifs <;> push_cast <;> linarith

theorem ten_rpow_bound : (10 : ℝ) ^ (-(3 / 4) : ℝ) ≤ 10 / 56 := by
  have h : (56 / 10 : ℝ) ≤ 10 ^ (3 / 4 : ℝ) := by
    have h4 : (56 / 10 : ℝ) ^ (4 : ℕ) ≤ (10 ^ (3 / 4 : ℝ)) ^ (4 : ℕ) := by
      rw [← Real.rpow_natCast (10 ^ (3 / 4 : ℝ)), ← Real.rpow_mul (by norm_num)]
      norm_num
    exact le_of_pow_le_pow_left₀ (by norm_num) (by positivity) h4
  rw [Real.rpow_neg (by norm_num), inv_eq_one_div]
  rw [div_le_div_iff₀ (by positivity) (by norm_num)]
  linarith

theorem twoDigits_spec {x y : ℝ} (h : twoDigits x = some y) : 0 < x ∧ 0 < y ∧ y ≤ 11 / 10 * x := by
  unfold twoDigits at h
  split_ifs at h with hx
  simp only [Option.some.injEq] at h
  set p : ℝ := (10 : ℝ) ^ (pyRound (Real.logb 10 x - Real.sqrt (1 / 10)) - 1) with hp
  have hp0 : 0 < p := by positivity
  have hs : (1 / 4 : ℝ) ≤ Real.sqrt (1 / 10) := by
    apply Real.le_sqrt_of_sq_le
    norm_num
  have hpx : p ≤ x * (10 / 56) := by
    rw [hp, ← Real.rpow_intCast]
    have h1 := pyRound_le (Real.logb 10 x - Real.sqrt (1 / 10))
    calc (10 : ℝ) ^ ((pyRound (Real.logb 10 x - Real.sqrt (1 / 10)) - 1 : ℤ) : ℝ)
        ≤ 10 ^ (Real.logb 10 x + -(3 / 4)) := by
          apply Real.rpow_le_rpow_of_exponent_le (by norm_num)
          push_cast
          linarith
      _ = x * 10 ^ (-(3 / 4) : ℝ) := by
          rw [Real.rpow_add (by norm_num), Real.rpow_logb (by norm_num) (by norm_num) hx]
      _ ≤ x * (10 / 56) := mul_le_mul_of_nonneg_left ten_rpow_bound hx.le
  have hq : 5 ≤ x / p := by
    rw [le_div_iff₀ hp0]; linarith
  have h0 : (0 : ℝ) ≤ x / p + 55 / 100 := by linarith
  have hfl : (1 : ℝ) ≤ (pyInt (x / p + 55 / 100) : ℝ) := by
    unfold pyInt
    rw [if_pos h0]
    exact_mod_cast Int.le_floor.2 (by push_cast; linarith)
  have hfu : (pyInt (x / p + 55 / 100) : ℝ) ≤ x / p + 55 / 100 := by
    unfold pyInt
    rw [if_pos h0]
    exact Int.floor_le _
  refine ⟨hx, ?_, ?_⟩
  · rw [← h]; positivity
  · rw [← h]
    calc (pyInt (x / p + 55 / 100) : ℝ) * p ≤ (x / p + 55 / 100) * p := mul_le_mul_of_nonneg_right hfu hp0.le
      _ = x + 55 / 100 * p := by field_simp
      _ ≤ 11 / 10 * x := by linarith

theorem twoDigits_isSome {x : ℝ} (hx : 0 < x) : (twoDigits x).isSome := by
  unfold twoDigits
  rw [if_pos hx]
  rfl

theorem estimate_pos {m : ℕ} (hm : 0 < m) {p1 p2 : ℝ} {r : ℝ × ℝ} (h : estimate m p1 p2 = some r) : 0 < r.2 := by
  unfold estimate at h
  split_ifs at h with h1 h2 h3
  all_goals simp only [Option.some.injEq] at h; subst h; simp only
  · positivity
  · positivity
  · have : (1 : ℝ) < m := by exact_mod_cast (by omega : 1 < m)
    have : 0 < (m : ℝ) - 1 := by linarith
    positivity

variable {n : ℕ}

/-- Rejections only make the step smaller. -/
theorem rejectLoop_le (P : Pars n) (hm : 0 < P.m) (ht : 0 < P.tol) {H : ℕ → ℕ → ℂ} {mb k1 : ℕ} {beta av : ℝ}
    (fuel : ℕ) {t xm : ℝ} (h0 : 0 < t) {e : ℝ × ℝ × ℝ × (ℕ → ℂ)}
    (h : rejectLoop P H mb k1 beta av fuel t xm = some e) : 0 < e.1 ∧ e.1 ≤ t := by
  induction fuel generalizing t xm with
  | zero => simp [rejectLoop] at h
  | succ fuel ih =>
    unfold rejectLoop at h
    simp only at h
    split_ifs at h with hk
    · simp only [Option.some.injEq] at h
      subst h
      exact ⟨h0, le_refl _⟩
    · obtain ⟨r, hr, h⟩ := Option.bind_eq_some_iff.1 h
      split_ifs at h with hrej
      · obtain ⟨t', ht', h⟩ := Option.bind_eq_some_iff.1 h
        obtain ⟨-, hp, hle⟩ := twoDigits_spec ht'
        have hpos : 0 < t * P.tol := mul_pos h0 ht
        have hr1 : 0 < r.1 := by linarith
        have hq : (t * P.tol / r.1) ^ r.2 ≤ 1 := by
          apply Real.rpow_le_one (by positivity) _ (estimate_pos hm hr).le
          rw [div_le_one hr1]
          linarith
        have : t' ≤ t := by
          have h2 : 9 / 10 * t * (t * P.tol / r.1) ^ r.2 ≤ 9 / 10 * t * 1 :=
            mul_le_mul_of_nonneg_left hq (by positivity)
          linarith
        obtain ⟨g1, g2⟩ := ih hp h
        exact ⟨g1, g2.trans this⟩
      · simp only [Option.some.injEq] at h
        subst h
        exact ⟨h0, le_refl _⟩

/-- The invariant of the main loop. -/
structure GInv (P : Pars n) (g : GState n) : Prop where
  time : g.tNow = g.steps.sum
  count : g.nstep = g.steps.length
  pos : ∀ x ∈ g.steps, 0 < x
  le : g.tNow ≤ P.tOut
  next : 0 < g.tNew
  k1 : g.brk = true → g.tNow = P.tOut

theorem gStep_inv (P : Pars n) (hm : 0 < P.m) (ht : 0 < P.tol) {fuel : ℕ} {g g' : GState n} (hg : GInv P g)
    (hlt : g.tNow < P.tOut) (hbrk : g.brk = true ↔ g.k1 = 0) (h : gStep P fuel g = some g') :
    GInv P g' ∧ g'.nstep = g.nstep + 1 ∧ (g'.brk = true ↔ g'.k1 = 0) := by
  unfold gStep at h
  split_ifs at h with hb
  obtain ⟨⟨ar, br⟩, -, h⟩ := Option.bind_eq_some_iff.1 h
  obtain ⟨e, he, h⟩ := Option.bind_eq_some_iff.1 h
  simp only at he h
  by_cases herr : e.2.1 ≤ 0
  · rw [if_pos herr] at h; simp at h
  rw [if_neg herr] at h
  obtain ⟨tN, htN, rfl⟩ := Option.map_eq_some_iff.1 h
  have hst : 0 < (if br = none then min (P.tOut - g.tNow) g.tNew else P.tOut - g.tNow) := by
    split_ifs
    · exact lt_min (by linarith) hg.next
    · linarith
  have hst' : (if br = none then min (P.tOut - g.tNow) g.tNew else P.tOut - g.tNow) ≤ P.tOut - g.tNow := by
    split_ifs
    · exact min_le_left _ _
    · exact le_refl _
  obtain ⟨e1, e2⟩ := rejectLoop_le P hm ht fuel hst he
  have hnb : g.brk = false := by
    rcases hbb : g.brk with _ | _
    · rfl
    · exact absurd (hg.k1 hbb) hlt.ne
  refine ⟨⟨?_, ?_, ?_, ?_, (twoDigits_spec htN).2.1, ?_⟩, rfl, ?_⟩
  · simp only [List.sum_cons, hg.time]; ring
  · simp only [List.length_cons, hg.count]
  · intro x hx
    rcases List.mem_cons.1 hx with rfl | hx
    · exact e1
    · exact hg.pos x hx
  · simp only; linarith
  · intro hbr
    simp only [hnb, Bool.false_or] at hbr
    simp only
    obtain ⟨j, rfl⟩ := Option.isSome_iff_exists.1 hbr
    cases fuel with
    | zero => simp [rejectLoop] at he
    | succ fuel =>
      simp only [rejectLoop, reduceCtorEq, if_false, if_true, Option.some.injEq] at he
      rw [← he]
      simp only
      ring
  · cases br with
    | none => simpa using hbrk
    | some j => simp

theorem gLoop_inv (P : Pars n) (hm : 0 < P.m) (ht : 0 < P.tol) {fuel : ℕ} (k : ℕ) {g g' : GState n} (hg : GInv P g)
    (hbrk : g.brk = true ↔ g.k1 = 0) (hn : P.mxstep = 0 ∨ (g.nstep : ℤ) < P.mxstep ∨ g.nstep = 0)
    (h : gLoop P fuel k g = some g') :
    GInv P g' ∧ (g'.tNow = P.tOut ∨ (P.mxstep ≠ 0 ∧ P.mxstep ≤ g'.nstep)) ∧
      (P.mxstep = 0 ∨ (g'.nstep : ℤ) ≤ max P.mxstep 1) := by
  induction k generalizing g with
  | zero => simp [gLoop] at h
  | succ k ih =>
    unfold gLoop at h
    split_ifs at h with hlt
    · obtain ⟨g1, e1, h⟩ := Option.bind_eq_some_iff.1 h
      obtain ⟨i1, i2, i3⟩ := gStep_inv P hm ht hg hlt hbrk e1
      split_ifs at h with hc
      · exact ih i1 i3 (hc.imp id Or.inl) h
      · simp only [Option.some.injEq] at h
        subst h
        push Not at hc
        refine ⟨i1, Or.inr ⟨hc.1, hc.2⟩, Or.inr ?_⟩
        rw [i2]
        rcases hn with hn | hn | hn
        · exact absurd hn hc.1
        · exact le_max_of_le_left (by push_cast; omega)
        · exact le_max_of_le_right (by push_cast; omega)
    · simp only [Option.some.injEq] at h
      subst h
      refine ⟨hg, Or.inl (le_antisymm hg.le (not_lt.1 hlt)), ?_⟩
      rcases hn with hn | hn | hn
      · exact Or.inl hn
      · exact Or.inr (le_max_of_le_left hn.le)
      · exact Or.inr (le_max_of_le_right (by omega))

/-- A step is accepted with an estimate of at most 1.2 times its share of the tolerance, or in a breakdown. -/
theorem rejectLoop_err (P : Pars n) {H : ℕ → ℕ → ℂ} {mb k1 : ℕ} {beta av : ℝ} (fuel : ℕ) {t xm : ℝ}
    {e : ℝ × ℝ × ℝ × (ℕ → ℂ)} (h : rejectLoop P H mb k1 beta av fuel t xm = some e) :
    (k1 = 0 → e.2.1 = P.tol) ∧ (k1 ≠ 0 → e.2.1 ≤ 12 / 10 * e.1 * P.tol) := by
  induction fuel generalizing t xm with
  | zero => simp [rejectLoop] at h
  | succ fuel ih =>
    unfold rejectLoop at h
    simp only at h
    split_ifs at h with hk
    · simp only [Option.some.injEq] at h
      subst h
      exact ⟨fun _ => rfl, fun h => absurd hk h⟩
    · obtain ⟨r, hr, h⟩ := Option.bind_eq_some_iff.1 h
      split_ifs at h with hrej
      · obtain ⟨t', ht', h⟩ := Option.bind_eq_some_iff.1 h
        exact ih h
      · simp only [Option.some.injEq] at h
        subst h
        exact ⟨fun h => absurd h hk, fun _ => not_lt.1 hrej⟩

/-- The invariant of the error estimates. -/
structure GErr (P : Pars n) (g : GState n) : Prop where
  low : (g.nstep : ℝ) * P.rndoff ≤ g.sErr
  max : g.xErr ≤ g.sErr
  mean : g.sErr ≤ g.nstep * g.xErr
  high : g.sErr ≤ 12 / 10 * P.tol * g.tNow + g.nstep * P.rndoff + if g.brk then P.tol else 0

theorem gStep_err (P : Pars n) (hm : 0 < P.m) (ht : 0 < P.tol) (hr : 0 ≤ P.rndoff) {fuel : ℕ} {g g' : GState n}
    (hg : GInv P g) (he : GErr P g) (hlt : g.tNow < P.tOut) (hbrk : g.brk = true ↔ g.k1 = 0)
    (h : gStep P fuel g = some g') : GErr P g' := by
  unfold gStep at h
  split_ifs at h with hb
  obtain ⟨⟨ar, br⟩, -, h⟩ := Option.bind_eq_some_iff.1 h
  obtain ⟨e, hre, h⟩ := Option.bind_eq_some_iff.1 h
  simp only at hre h
  by_cases herr : e.2.1 ≤ 0
  · rw [if_pos herr] at h; simp at h
  rw [if_neg herr] at h
  obtain ⟨tN, htN, rfl⟩ := Option.map_eq_some_iff.1 h
  have hst : 0 < (if br = none then min (P.tOut - g.tNow) g.tNew else P.tOut - g.tNow) := by
    split_ifs
    · exact lt_min (by linarith) hg.next
    · linarith
  obtain ⟨e1, -⟩ := rejectLoop_le P hm ht fuel hst hre
  obtain ⟨d1, d2⟩ := rejectLoop_err P fuel hre
  have hnb : g.brk = false := by
    rcases hbb : g.brk with _ | _
    · rfl
    · exact absurd (hg.k1 hbb) hlt.ne
  have hk : g.k1 ≠ 0 := fun h => by rw [hbrk.2 h] at hnb; cases hnb
  have hmax : max e.2.1 P.rndoff ≤ e.2.1 + P.rndoff := max_le (by linarith) (by linarith [not_le.1 herr])
  have hmaxr : P.rndoff ≤ max e.2.1 P.rndoff := le_max_right _ _
  have hs0 : 0 ≤ g.sErr := le_trans (by positivity) he.low
  have hhigh := he.high
  simp only [hnb, Bool.false_eq_true, if_false, add_zero] at hhigh
  refine ⟨?_, ?_, ?_, ?_⟩
  · have := he.low
    push_cast
    linarith
  · refine max_le ?_ (by linarith)
    have := he.max
    simp only
    linarith
  · have h1 := he.mean
    have h2 : (g.nstep : ℝ) * g.xErr ≤ g.nstep * max g.xErr (max e.2.1 P.rndoff) :=
      mul_le_mul_of_nonneg_left (le_max_left _ _) (Nat.cast_nonneg _)
    have h3 : max e.2.1 P.rndoff ≤ max g.xErr (max e.2.1 P.rndoff) := le_max_right _ _
    push_cast
    linarith
  · simp only [hnb, Bool.false_or]
    cases br with
    | none =>
      have := d2 (by simpa using hk)
      push_cast
      simp only [Option.isSome_none, Bool.false_eq_true, if_false]
      linarith
    | some j =>
      have := d1 (by simp)
      have hp : 0 ≤ P.tol * e.1 := by positivity
      push_cast
      simp only [Option.isSome_some, if_true]
      linarith

theorem gLoop_err (P : Pars n) (hm : 0 < P.m) (ht : 0 < P.tol) (hr : 0 ≤ P.rndoff) {fuel : ℕ} (k : ℕ) {g g' : GState n}
    (hg : GInv P g) (he : GErr P g) (hbrk : g.brk = true ↔ g.k1 = 0) (h : gLoop P fuel k g = some g') :
    GErr P g' := by
  induction k generalizing g with
  | zero => simp [gLoop] at h
  | succ k ih =>
    unfold gLoop at h
    split_ifs at h with hlt
    · obtain ⟨g1, e1, h⟩ := Option.bind_eq_some_iff.1 h
      obtain ⟨i1, i2, i3⟩ := gStep_inv P hm ht hg hlt hbrk e1
      have i4 := gStep_err P hm ht hr hg he hlt hbrk e1
      split_ifs at h with hc
      · exact ih i1 i4 i3 h
      · simp only [Option.some.injEq] at h
        subst h
        exact i4
    · simp only [Option.some.injEq] at h
      subst h
      exact he

/-! ## Breakdown -/

theorem vnorm_eq_zero {x : Fin n → ℂ} (h : vnorm x ≤ 0) : x = 0 := by
  unfold vnorm at h
  have h0 : ∑ i, ‖x i‖ ^ 2 = 0 := by
    have := Real.sqrt_eq_zero'.1 (le_antisymm h (Real.sqrt_nonneg _))
    exact le_antisymm this (Finset.sum_nonneg fun _ _ => by positivity)
  funext i
  have := (Finset.sum_eq_zero_iff_of_nonneg (fun _ _ => by positivity)).1 h0 i (Finset.mem_univ i)
  simpa using this

theorem orth_sum (vs : ℕ → Fin n → ℂ) (j : ℕ) (x : Fin n → ℂ) :
    x = (orth vs j x).1 + ∑ i ∈ Finset.range j, (orth vs j x).2 i • vs i ∧ ∀ i, j ≤ i → (orth vs j x).2 i = 0 := by
  unfold orth
  induction j with
  | zero => simp
  | succ j ih =>
    rw [List.range_succ, List.foldl_append]
    simp only [List.foldl_cons, List.foldl_nil]
    set p := (List.range j).foldl (fun (p : (Fin n → ℂ) × (ℕ → ℂ)) i =>
      (p.1 - vdot (vs i) p.1 • vs i, Function.update p.2 i (vdot (vs i) p.1))) (x, fun _ => 0) with hp
    refine ⟨?_, fun i hi => ?_⟩
    · rw [Finset.sum_range_succ]
      simp only [Function.update_self]
      have : ∑ i ∈ Finset.range j, Function.update p.2 j (vdot (vs j) p.1) i • vs i =
          ∑ i ∈ Finset.range j, p.2 i • vs i := by
        refine Finset.sum_congr rfl fun i hi => ?_
        rw [Function.update_of_ne (by have := Finset.mem_range.1 hi; omega)]
      rw [this]
      conv_lhs => rw [ih.1]
      abel
    · rw [Function.update_of_ne (by omega)]
      exact ih.2 i (by omega)

/-- The Arnoldi relation for the columns before `j`. -/
def ArnRel (matvec : (Fin n → ℂ) → Fin n → ℂ) (j : ℕ) (a : Arn n) : Prop :=
  ∀ c, c + 1 < j → matvec (a.vs c) = ∑ i ∈ Finset.range (c + 2), a.H i c • a.vs i ∧ ∀ i, c + 2 ≤ i → a.H i c = 0

theorem arnoldi_breakdown (matvec : (Fin n → ℂ) → Fin n → ℂ) (k j : ℕ) (hj : 0 < j) (a a' : Arn n) (J : ℕ)
    (hr : ArnRel matvec j a) (h : arnoldi matvec 0 k j a = some (a', some J)) :
    a'.vs 0 = a.vs 0 ∧ 0 < J ∧ J < j + k ∧ ∀ c, c < J → matvec (a'.vs c) = ∑ i ∈ Finset.range J, a'.H i c • a'.vs i := by
  induction k generalizing j a with
  | zero => simp [arnoldi] at h
  | succ k ih =>
    unfold arnoldi at h
    simp only at h
    obtain ⟨hsum, hz⟩ := orth_sum a.vs j (matvec (a.vs (j - 1)))
    set o := orth a.vs j (matvec (a.vs (j - 1))) with ho
    split_ifs at h with h1 h2
    · simp only [Option.some.injEq, Prod.mk.injEq] at h
      obtain ⟨rfl, rfl⟩ := h
      have hvs : ∀ i, i < j → Function.update a.vs j o.1 i = a.vs i := fun i hi =>
        Function.update_of_ne (by omega) _ _
      refine ⟨hvs 0 hj, hj, by omega, fun c hc => ?_⟩
      show matvec (Function.update a.vs j o.1 c) = ∑ i ∈ Finset.range j,
        (if c = j - 1 then o.2 i else a.H i c) • Function.update a.vs j o.1 i
      rw [hvs c hc]
      by_cases hcj : c = j - 1
      · subst hcj
        simp only [if_true]
        rw [hsum, vnorm_eq_zero h1, zero_add]
        exact Finset.sum_congr rfl fun i hi => by
          rw [Function.update_of_ne (by have := Finset.mem_range.1 hi; omega)]
      · simp only [hcj, if_false]
        obtain ⟨g1, g2⟩ := hr c (by omega)
        rw [g1]
        have hsub : Finset.range (c + 2) ⊆ Finset.range j := Finset.range_subset_range.2 (by omega)
        rw [← Finset.sum_subset hsub fun i _ hi => by
          rw [g2 i (by have := mt Finset.mem_range.2 hi; omega), zero_smul]]
        exact Finset.sum_congr rfl fun i hi => by rw [hvs i (by have := Finset.mem_range.1 hi; omega)]
    · set a1 : Arn n := ⟨Function.update a.vs j ((1 / (vnorm o.1 : ℂ)) • o.1),
        fun r c => if r = j ∧ c = j - 1 then (vnorm o.1 : ℂ) else if c = j - 1 then o.2 r else a.H r c⟩ with ha1
      have hvs : ∀ i, i < j → a1.vs i = a.vs i := fun i hi => Function.update_of_ne (by omega) _ _
      have hvj : a1.vs j = (1 / (vnorm o.1 : ℂ)) • o.1 := Function.update_self _ _ _
      have hH : ∀ r c, a1.H r c = if r = j ∧ c = j - 1 then (vnorm o.1 : ℂ) else if c = j - 1 then o.2 r else a.H r c :=
        fun _ _ => rfl
      have hrel : ArnRel matvec (j + 1) a1 := by
        intro c hc
        by_cases hcj : c = j - 1
        · subst hcj
          have e2 : j - 1 + 2 = j + 1 := by omega
          rw [hvs _ (by omega), e2]
          refine ⟨?_, fun i hi => ?_⟩
          · rw [Finset.sum_range_succ, hH j, if_pos ⟨rfl, rfl⟩, hvj, smul_smul]
            have hne : (vnorm o.1 : ℂ) ≠ 0 := by exact_mod_cast h2
            rw [mul_one_div_cancel hne, one_smul]
            conv_lhs => rw [hsum]
            rw [add_comm]
            congr 1
            refine Finset.sum_congr rfl fun i hi => ?_
            have hi' := Finset.mem_range.1 hi
            rw [hH, if_neg (by omega), if_pos rfl, hvs i hi']
          · rw [hH, if_neg (by omega), if_pos rfl, hz i (by omega)]
        · obtain ⟨g1, g2⟩ := hr c (by omega)
          rw [hvs c (by omega), g1]
          refine ⟨Finset.sum_congr rfl fun i hi => ?_, fun i hi => ?_⟩
          · have hi' := Finset.mem_range.1 hi
            rw [hH, if_neg (by omega), if_neg hcj, hvs i (by omega)]
          · rw [hH, if_neg (by omega), if_neg hcj, g2 i hi]
      obtain ⟨f1, f2, f3, f4⟩ := ih (j + 1) (by omega) a1 hrel h
      exact ⟨by rw [f1, hvs 0 hj], f2, by omega, f4⟩

open scoped Matrix.Norms.Operator in
theorem exp_intertwine {J : ℕ} (A : Matrix (Fin n) (Fin n) ℂ) (H : Matrix (Fin J) (Fin J) ℂ)
    (V : Matrix (Fin n) (Fin J) ℂ) (h : A * V = V * H) : NormedSpace.exp A * V = V * NormedSpace.exp H := by
  have hp : ∀ k : ℕ, A ^ k * V = V * H ^ k := by
    intro k
    induction k with
    | zero => simp
    | succ k ih => rw [pow_succ, Matrix.mul_assoc, h, ← Matrix.mul_assoc, ih, Matrix.mul_assoc, ← pow_succ]
  have hA := NormedSpace.exp_series_hasSum_exp' (𝕂 := ℂ) A
  have hH := NormedSpace.exp_series_hasSum_exp' (𝕂 := ℂ) H
  have h1 := hA.map (Matrix.addMonoidHomMulRight V) (continuous_id.matrix_mul continuous_const)
  have h2 := hH.map (Matrix.addMonoidHomMulLeft V) (continuous_const.matrix_mul continuous_id)
  have e : (Matrix.addMonoidHomMulRight V : Matrix (Fin n) (Fin n) ℂ → _) ∘ (fun k : ℕ => (k.factorial : ℂ)⁻¹ • A ^ k) =
      (Matrix.addMonoidHomMulLeft V : Matrix (Fin J) (Fin J) ℂ → _) ∘ fun k : ℕ => (k.factorial : ℂ)⁻¹ • H ^ k := by
    funext k
    show ((k.factorial : ℂ)⁻¹ • A ^ k) * V = V * ((k.factorial : ℂ)⁻¹ • H ^ k)
    rw [Matrix.smul_mul, Matrix.mul_smul, hp]
  rw [e] at h1
  exact h1.unique h2

theorem listSum_range (f : ℕ → ℂ) (J : ℕ) : ((List.range J).map f).sum = ∑ a ∈ Finset.range J, f a := by
  induction J with
  | zero => rfl
  | succ J ih => rw [List.range_succ, List.map_append, List.sum_append, ih, Finset.sum_range_succ]; simp

/-- After a breakdown the step is the exact exponential. -/
theorem gStep_breakdown (P : Pars n) (A : Matrix (Fin n) (Fin n) ℂ) (hA : P.matvec = fun x => A.mulVec x)
    (hE : P.expm = fun _ M => NormedSpace.exp M) (hb : P.breakTol = 0) {fuel : ℕ} {g g' : GState n}
    (hbrk : g.brk = false) (h : gStep P fuel g = some g') (hbrk' : g'.brk = true) :
    g'.w = (NormedSpace.exp (((P.sgn * (P.tOut - g.tNow) : ℝ) : ℂ) • A)).mulVec g.w := by
  unfold gStep at h
  split_ifs at h with hbeta
  obtain ⟨⟨ar, br⟩, har, h⟩ := Option.bind_eq_some_iff.1 h
  obtain ⟨e, he, h⟩ := Option.bind_eq_some_iff.1 h
  simp only at he h
  by_cases herr : e.2.1 ≤ 0
  · rw [if_pos herr] at h; simp at h
  rw [if_neg herr] at h
  obtain ⟨tN, -, rfl⟩ := Option.map_eq_some_iff.1 h
  simp only [hbrk, Bool.false_or] at hbrk'
  obtain ⟨J, rfl⟩ := Option.isSome_iff_exists.1 hbrk'
  simp only [reduceCtorEq, if_false, Option.getD_some] at he ⊢
  rw [hb] at har
  obtain ⟨f1, f2, f3, f4⟩ := arnoldi_breakdown P.matvec P.m 1 one_pos _ ar J
    (fun c hc => by omega) har
  cases fuel with
  | zero => simp [rejectLoop] at he
  | succ fuel =>
    simp only [rejectLoop, if_true, Option.some.injEq, Nat.add_zero] at he
    rw [← he]
    simp only
    set z : ℂ := ((P.sgn * (P.tOut - g.tNow) : ℝ) : ℂ) with hz
    set H0 : Matrix (Fin J) (Fin J) ℂ := Matrix.of fun a b : Fin J => ar.H a b with hH0
    have hs : slice (fun r c => if r = P.m + 1 ∧ c = P.m then 1 else ar.H r c) J z = z • H0 := by
      ext a b
      simp only [slice, Matrix.of_apply, Matrix.smul_apply, smul_eq_mul, hH0]
      rw [if_neg (by have := b.2; omega)]
    set V : Matrix (Fin n) (Fin J) ℂ := Matrix.of fun i (a : Fin J) => ar.vs a i with hV
    have hAV : (z • A) * V = V * (z • H0) := by
      rw [Matrix.smul_mul, Matrix.mul_smul]
      congr 1
      ext i c
      have := congrFun (f4 c c.2) i
      rw [hA] at this
      simp only [Matrix.mulVec, dotProduct, Finset.sum_apply, Pi.smul_apply, smul_eq_mul] at this
      simp only [Matrix.mul_apply, hV, hH0, Matrix.of_apply]
      rw [this, ← Fin.sum_univ_eq_sum_range (fun a => ar.H a c * ar.vs a i) J]
      exact Finset.sum_congr rfl fun a _ => mul_comm _ _
    have hX := exp_intertwine (z • A) (z • H0) V hAV
    have hbc : (g.beta : ℂ) ≠ 0 := by exact_mod_cast hbeta
    funext i
    rw [hE]
    simp only [Nat.zero_sub, Nat.add_zero]
    rw [hs]
    have h1 : ((List.range J).map fun a => ar.vs a i * entry (NormedSpace.exp (z • H0)) a 0).sum =
        (V * NormedSpace.exp (z • H0)) i ⟨0, f2⟩ := by
      rw [Matrix.mul_apply, listSum_range, ← Fin.sum_univ_eq_sum_range (fun a => ar.vs a i * _) J]
      refine Finset.sum_congr rfl fun a _ => ?_
      rw [entry, dif_pos ⟨a.2, f2⟩]
      rfl
    rw [h1, ← hX, Matrix.mul_apply, Matrix.mulVec, dotProduct, Finset.mul_sum]
    refine Finset.sum_congr rfl fun k _ => ?_
    have hv0 : V k ⟨0, f2⟩ = g.w k / g.beta := by
      show ar.vs 0 k = _
      rw [f1]
      simp
    rw [hv0]
    field_simp

end EvoMPS.Krylov
