import Verif.Sandwich

/-!
# Lemmas on the sandwich state
-/

set_option linter.unusedSectionVars false

namespace EvoMPS

open Matrix SW

variable {R : Type*} [CommRing R] [StarRing R]

/-- A square matrix of dimension `d`. -/
def AnyMat.Sq (x : AnyMat R) (d : ℕ) : Prop := x.a = d ∧ x.b = d

theorem epsLAny_iff (x : AnyMat R) (T : AnyTen R) (y : AnyMat R) : epsLAny x T = some y ↔ StepL x T y := by
  obtain ⟨xa, xb, X⟩ := x
  obtain ⟨q, a, b, T⟩ := T
  simp only [epsLAny, StepL]
  constructor
  · intro h
    split at h
    · next hx =>
      obtain ⟨h1, h2⟩ := hx
      subst h1 h2
      refine ⟨X, rfl, ?_⟩
      rw [← Option.some_inj.mp h, epsL_eq]
      rfl
    · cases h
  · rintro ⟨X', hx, rfl⟩
    cases hx
    rw [dif_pos ⟨rfl, rfl⟩, epsL_eq]
    rfl

theorem epsRAny_iff (x : AnyMat R) (T : AnyTen R) (y : AnyMat R) : epsRAny x T = some y ↔ StepR x T y := by
  obtain ⟨xa, xb, X⟩ := x
  obtain ⟨q, a, b, T⟩ := T
  simp only [epsRAny, StepR]
  constructor
  · intro h
    split at h
    · next hx =>
      obtain ⟨h1, h2⟩ := hx
      subst h1 h2
      refine ⟨X, rfl, ?_⟩
      rw [← Option.some_inj.mp h, epsR_eq]
      rfl
    · cases h
  · rintro ⟨X', hx, rfl⟩
    cases hx
    rw [dif_pos ⟨rfl, rfl⟩, epsR_eq]
    rfl

theorem StepL.unique {x : AnyMat R} {T : AnyTen R} {y y' : AnyMat R} (h : StepL x T y) (h' : StepL x T y') :
    y = y' := by
  rw [← epsLAny_iff] at h h'
  exact Option.some_inj.mp (h.symm.trans h')

theorem StepR.unique {x : AnyMat R} {T : AnyTen R} {y y' : AnyMat R} (h : StepR x T y) (h' : StepR x T y') :
    y = y' := by
  rw [← epsRAny_iff] at h h'
  exact Option.some_inj.mp (h.symm.trans h')

theorem StepL.sq {x : AnyMat R} {T : AnyTen R} {y : AnyMat R} (h : StepL x T y) : x.Sq T.a ∧ y.Sq T.b := by
  obtain ⟨X, rfl, rfl⟩ := h
  exact ⟨⟨rfl, rfl⟩, rfl, rfl⟩

theorem StepR.sq {x : AnyMat R} {T : AnyTen R} {y : AnyMat R} (h : StepR x T y) : x.Sq T.b ∧ y.Sq T.a := by
  obtain ⟨X, rfl, rfl⟩ := h
  exact ⟨⟨rfl, rfl⟩, rfl, rfl⟩

theorem stepL_exists {x : AnyMat R} {T : AnyTen R} (h : x.Sq T.a) : ∃ y, StepL x T y := by
  obtain ⟨xa, xb, X⟩ := x
  obtain ⟨h1, h2⟩ := h
  simp only at h1 h2
  subst h1 h2
  exact ⟨_, X, rfl, rfl⟩

theorem stepR_exists {x : AnyMat R} {T : AnyTen R} (h : x.Sq T.b) : ∃ y, StepR x T y := by
  obtain ⟨xa, xb, X⟩ := x
  obtain ⟨h1, h2⟩ := h
  simp only at h1 h2
  subst h1 h2
  exact ⟨_, X, rfl, rfl⟩

/-! ### Indices -/

theorem spmod_lt {L : ℕ} (hL : 0 < L) (n : ℤ) : pmod n L < L := by
  have h1 := Int.emod_lt_of_pos n (Int.natCast_pos.mpr hL)
  have h2 := Int.emod_nonneg n (Int.natCast_ne_zero.mpr hL.ne')
  simp only [pmod]
  omega

theorem spmod_cast {L : ℕ} (hL : 0 < L) (n : ℤ) : ((pmod n L : ℕ) : ℤ) = n % L := by
  have h2 := Int.emod_nonneg n (Int.natCast_ne_zero.mpr hL.ne')
  simp only [pmod]
  omega

theorem spmod_congr {L : ℕ} {m n : ℤ} (h : m % (L : ℤ) = n % (L : ℤ)) : pmod m L = pmod n L := by
  rw [pmod, h, pmod]

theorem spmod_sub (n : ℤ) (L : ℕ) : pmod (n - L) L = pmod n L := spmod_congr (Int.sub_emod_right n L)

theorem spmod_add (n : ℤ) (L : ℕ) : pmod (n + L) L = pmod n L := spmod_congr (Int.add_emod_right n L)

theorem spmod_nat (n L : ℕ) : pmod (n : ℤ) L = n % L := by
  simp only [pmod]
  norm_cast

theorem spmod_of_lt {k L : ℕ} (h : k < L) : pmod (k : ℤ) L = k := by
  rw [spmod_nat, Nat.mod_eq_of_lt h]

theorem spmod_add_mul (n : ℤ) (m L : ℕ) : pmod (n + (m * L : ℕ)) L = pmod n L := by
  apply spmod_congr
  push_cast
  rw [Int.add_mul_emod_self_right]

theorem spmod_pred {L : ℕ} (hL : 0 < L) (n : ℤ) : pmod (n - 1) L = (pmod n L + L - 1) % L := by
  have h1 := spmod_lt hL (n - 1)
  have e1 := spmod_cast hL (n - 1)
  have e2 := spmod_cast hL n
  rw [← Nat.mod_eq_of_lt h1]
  have : (pmod (n - 1) L : ℤ) % L = ((pmod n L + L - 1 : ℕ) : ℤ) % L := by
    rw [e1, Int.emod_emod_of_dvd _ dvd_rfl]
    have h3 : ((pmod n L + L - 1 : ℕ) : ℤ) = n % L - 1 + L := by omega
    rw [h3, Int.add_emod_right, Int.emod_sub_emod]
  exact_mod_cast this

/-! ### Repeated blocks -/

section
variable {α : Type*} {LL N LR : ℕ} {xL f xR : ℕ → α} {site : ℤ → α}

theorem rep_down (h : ∀ n ≤ 0, site (n - (LL : ℤ)) = site n) (hb : ∀ k < LL, site (k + 1 - LL) = xL k) (hL : 0 < LL)
    (n : ℤ) (hn : n ≤ 0) : site n = xL (pmod (n - 1) LL) := by
  obtain ⟨j, rfl⟩ : ∃ j : ℕ, n = -j := ⟨(-n).toNat, by omega⟩
  clear hn
  induction j using Nat.strong_induction_on with
  | _ j ih =>
    by_cases hj : j < LL
    · have h1 := hb (LL - 1 - j) (by omega)
      have h2 : ((LL - 1 - j : ℕ) : ℤ) + 1 - LL = -j := by omega
      rw [h2] at h1
      rw [h1]
      congr 1
      have h3 : (-(j : ℤ) - 1) = ((LL - 1 - j : ℕ) : ℤ) - LL := by omega
      rw [h3, spmod_sub, spmod_of_lt (by omega)]
    · have h1 := h (-((j - LL : ℕ) : ℤ)) (by omega)
      have h2 : -((j - LL : ℕ) : ℤ) - LL = -j := by omega
      rw [h2] at h1
      rw [h1, ih (j - LL) (by omega)]
      congr 1
      rw [← spmod_sub]
      congr 1
      omega

theorem rep_up (h : ∀ n > (N : ℤ), site (n + (LR : ℤ)) = site n) (hb : ∀ k < LR, site (N + 1 + k) = xR k) (hL : 0 < LR)
    (n : ℤ) (hn : (N : ℤ) < n) : site n = xR (pmod (n - N - 1) LR) := by
  obtain ⟨j, rfl⟩ : ∃ j : ℕ, n = N + 1 + j := ⟨(n - N - 1).toNat, by omega⟩
  clear hn
  induction j using Nat.strong_induction_on with
  | _ j ih =>
    by_cases hj : j < LR
    · rw [hb j hj]
      congr 1
      rw [show (N : ℤ) + 1 + j - N - 1 = (j : ℤ) by omega, spmod_of_lt hj]
    · have h1 := h (N + 1 + ((j - LR : ℕ) : ℤ)) (by omega)
      have h2 : (N : ℤ) + 1 + ((j - LR : ℕ) : ℤ) + LR = N + 1 + j := by omega
      rw [h2] at h1
      rw [h1, ih (j - LR) (by omega)]
      congr 1
      rw [← spmod_add]
      congr 1
      omega

theorem SandwichOf.unique (hL : 0 < LL) (hR : 0 < LR) {site' : ℤ → α} (h : SandwichOf LL xL N f LR xR site)
    (h' : SandwichOf LL xL N f LR xR site') : site = site' := by
  funext n
  by_cases h0 : n ≤ 0
  · rw [rep_down h.left_rep h.left_block hL n h0, rep_down h'.left_rep h'.left_block hL n h0]
  · by_cases h1 : n ≤ N
    · obtain ⟨k, rfl⟩ : ∃ k : ℕ, n = k := ⟨n.toNat, by omega⟩
      rw [h.mid k (by omega) (by omega), h'.mid k (by omega) (by omega)]
    · rw [rep_up h.right_rep h.right_block hR n (by omega), rep_up h'.right_rep h'.right_block hR n (by omega)]

end

theorem getA_sandwich (S : State R) (hL : 0 < S.uniL.L) (hR : 0 < S.uniR.L) :
    SandwichOf S.uniL.L S.uniL.A S.N S.A S.uniR.L S.uniR.A (getA S) where
  left_block k hk := by
    rw [getA, if_pos (by omega)]
    congr 1
    rw [show (k : ℤ) + 1 - S.uniL.L - 1 = (k : ℤ) - S.uniL.L by omega, spmod_sub, spmod_of_lt hk]
  left_rep n hn := by
    rw [getA, getA, if_pos (by omega), if_pos (by omega)]
    congr 1
    rw [show n - (S.uniL.L : ℤ) - 1 = n - 1 - S.uniL.L by omega, spmod_sub]
  mid n h1 h2 := by
    rw [getA, if_neg (by omega), if_neg (by omega)]
    rfl
  right_block k hk := by
    rw [getA, if_neg (by omega), if_pos (by omega)]
    congr 1
    rw [show (S.N : ℤ) + 1 + k - S.N - 1 = (k : ℤ) by omega, spmod_of_lt hk]
  right_rep n hn := by
    rw [getA, getA, if_neg (by omega), if_pos (by omega), if_neg (by omega), if_pos (by omega)]
    congr 1
    rw [show n + (S.uniR.L : ℤ) - S.N - 1 = n - S.N - 1 + S.uniR.L by omega, spmod_add]

/-! ### Environments of the infinite chain -/

variable {site : ℤ → AnyTen R} {N LL LR : ℕ} {lL rR : ℕ → AnyMat R}

theorem LeftEnv.unique (hL : 0 < LL) {l l' : ℤ → AnyMat R} (h : LeftEnv site LL lL l) (h' : LeftEnv site LL lL l') :
    l = l' := by
  have h0 : ∀ n ≤ 0, l n = l' n := fun n hn => by
    rw [rep_down h.left_rep h.left_block hL n hn, rep_down h'.left_rep h'.left_block hL n hn]
  have h1 : ∀ n : ℕ, l n = l' n := by
    intro n
    induction n with
    | zero => exact h0 0 le_rfl
    | succ n ih =>
      have a := h.step (n + 1)
      have b := h'.step (n + 1)
      rw [add_sub_cancel_right] at a b
      rw [ih] at a
      exact_mod_cast a.unique b
  funext n
  by_cases hn : n ≤ 0
  · exact h0 n hn
  · have := h1 n.toNat
    rwa [Int.toNat_of_nonneg (by omega)] at this

theorem RightEnv.unique (hR : 0 < LR) {r r' : ℤ → AnyMat R} (h : RightEnv site N LR rR r)
    (h' : RightEnv site N LR rR r') : r = r' := by
  have h0 : ∀ n > (N : ℤ), r n = r' n := fun n hn => by
    rw [rep_up h.right_rep h.right_block hR n hn, rep_up h'.right_rep h'.right_block hR n hn]
  have h1 : ∀ n : ℕ, r (N + 1 - n) = r' (N + 1 - n) := by
    intro n
    induction n with
    | zero => exact h0 _ (by omega)
    | succ n ih =>
      have a := h.step (N + 1 - n)
      have b := h'.step (N + 1 - n)
      rw [ih] at a
      have := a.unique b
      rwa [show (N : ℤ) + 1 - n - 1 = N + 1 - ((n + 1 : ℕ) : ℤ) by omega] at this
  funext n
  by_cases hn : n > (N : ℤ)
  · exact h0 n hn
  · have := h1 (N + 1 - n).toNat
    rwa [Int.toNat_of_nonneg (by omega), show (N : ℤ) + 1 - (N + 1 - n) = n by omega] at this

/-- The left environments of a chain exist if the shapes fit and those of the left block do. -/
theorem leftEnv_exists (hL : 0 < LL) {aL : ℕ → AnyTen R} (hsite : ∀ n ≤ 0, site n = aL (pmod (n - 1) LL))
    (hsh : ∀ n, (site n).b = (site (n + 1)).a)
    (hE : ∀ k < LL, StepL (lL ((k + LL - 1) % LL)) (aL k) (lL k)) :
    ∃ l, LeftEnv site LL lL l := by
  have hstep0 : ∀ n ≤ 0, StepL (lL (pmod (n - 1 - 1) LL)) (site n) (lL (pmod (n - 1) LL)) := by
    intro n hn
    rw [hsite n hn, spmod_pred hL]
    exact hE _ (spmod_lt hL _)
  let seq : ℕ → AnyMat R := fun n =>
    Nat.rec (lL (pmod (0 - 1) LL)) (fun n x => (epsLAny x (site (n + 1))).getD x) n
  have hseq : ∀ n : ℕ, (seq n).Sq (site (n + 1)).a := by
    intro n
    induction n with
    | zero =>
      have := (hstep0 0 le_rfl).sq.2
      rw [hsh 0] at this
      exact_mod_cast this
    | succ n ih =>
      obtain ⟨y, hy⟩ := stepL_exists ih
      have h1 : seq (n + 1) = y := by
        change (epsLAny (seq n) (site (n + 1))).getD (seq n) = y
        rw [(epsLAny_iff _ _ _).mpr hy]
        rfl
      have := hy.sq.2
      rw [← h1, hsh] at this
      exact_mod_cast this
  have hst : ∀ n : ℕ, StepL (seq n) (site (n + 1)) (seq (n + 1)) := by
    intro n
    obtain ⟨y, hy⟩ := stepL_exists (hseq n)
    have h1 : seq (n + 1) = y := by
      change (epsLAny (seq n) (site (n + 1))).getD (seq n) = y
      rw [(epsLAny_iff _ _ _).mpr hy]
      rfl
    rw [h1]
    exact hy
  refine ⟨fun n => if n ≤ 0 then lL (pmod (n - 1) LL) else seq n.toNat, ?_, ?_, ?_⟩
  · intro n
    by_cases hn : n ≤ 0
    · rw [if_pos (by omega), if_pos hn]
      exact hstep0 n hn
    · obtain ⟨k, rfl⟩ : ∃ k : ℕ, n = k + 1 := ⟨(n - 1).toNat, by omega⟩
      rw [if_neg hn, add_sub_cancel_right, show ((k : ℤ) + 1).toNat = k + 1 by omega]
      by_cases hk : (k : ℤ) ≤ 0
      · rw [if_pos hk]
        have : k = 0 := by omega
        subst this
        exact hst 0
      · rw [if_neg hk]
        exact hst k
  · intro k hk
    rw [if_pos (by omega)]
    congr 1
    rw [show (k : ℤ) + 1 - LL - 1 = (k : ℤ) - LL by omega, spmod_sub, spmod_of_lt hk]
  · intro n hn
    rw [if_pos (by omega), if_pos hn]
    congr 1
    rw [show n - (LL : ℤ) - 1 = n - 1 - LL by omega, spmod_sub]

/-- The right environments of a chain exist if the shapes fit and those of the right block do. -/
theorem rightEnv_exists (hR : 0 < LR) {aR : ℕ → AnyTen R} (hsite : ∀ n > (N : ℤ), site n = aR (pmod (n - N - 1) LR))
    (hsh : ∀ n, (site n).b = (site (n + 1)).a)
    (hE : ∀ k < LR, StepR (rR k) (aR k) (rR ((k + LR - 1) % LR))) :
    ∃ r, RightEnv site N LR rR r := by
  have hstep0 : ∀ n > (N : ℤ), StepR (rR (pmod (n - N - 1) LR)) (site n) (rR (pmod (n - N - 1 - 1) LR)) := by
    intro n hn
    rw [hsite n hn, spmod_pred hR (n - N - 1)]
    exact hE _ (spmod_lt hR _)
  let seq : ℕ → AnyMat R := fun n =>
    Nat.rec (rR (pmod (0 - 1) LR)) (fun n x => (epsRAny x (site (N - n))).getD x) n
  have hseq : ∀ n : ℕ, (seq n).Sq (site (N - n)).b := by
    intro n
    induction n with
    | zero =>
      have := (hstep0 (N + 1) (by omega)).sq.2
      rw [← hsh N, show (N : ℤ) + 1 - N - 1 - 1 = 0 - 1 by omega] at this
      rw [Nat.cast_zero, sub_zero]
      exact this
    | succ n ih =>
      obtain ⟨y, hy⟩ := stepR_exists ih
      have h1 : seq (n + 1) = y := by
        change (epsRAny (seq n) (site (N - n))).getD (seq n) = y
        rw [(epsRAny_iff _ _ _).mpr hy]
        rfl
      have := hy.sq.2
      have h2 := hsh (N - ((n + 1 : ℕ) : ℤ))
      rw [show (N : ℤ) - ((n + 1 : ℕ) : ℤ) + 1 = N - n by omega] at h2
      rw [← h1, ← h2] at this
      exact this
  have hst : ∀ n : ℕ, StepR (seq n) (site (N - n)) (seq (n + 1)) := by
    intro n
    obtain ⟨y, hy⟩ := stepR_exists (hseq n)
    have h1 : seq (n + 1) = y := by
      change (epsRAny (seq n) (site (N - n))).getD (seq n) = y
      rw [(epsRAny_iff _ _ _).mpr hy]
      rfl
    rw [h1]
    exact hy
  refine ⟨fun n => if n > N then rR (pmod (n - N - 1) LR) else seq (N - n).toNat, ?_, ?_, ?_⟩
  · intro n
    by_cases hn : n > N
    · rw [if_pos hn]
      have h1 := hstep0 n hn
      by_cases hn1 : n - 1 > N
      · rw [if_pos hn1, show n - 1 - (N : ℤ) - 1 = n - N - 1 - 1 by omega]
        exact h1
      · rw [if_neg hn1, show (N - (n - 1)).toNat = 0 by omega]
        have : n = N + 1 := by omega
        subst this
        rw [show (N : ℤ) + 1 - N - 1 - 1 = 0 - 1 by omega] at h1
        exact h1
    · obtain ⟨k, rfl⟩ : ∃ k : ℕ, n = N - k := ⟨(N - n).toNat, by omega⟩
      rw [if_neg hn, if_neg (by omega), show ((N : ℤ) - (N - k)).toNat = k by omega,
        show ((N : ℤ) - (N - k - 1)).toNat = k + 1 by omega]
      exact hst k
  · intro k hk
    rw [if_pos (by omega)]
    congr 1
    rw [show (N : ℤ) + 1 + k - N - 1 = (k : ℤ) by omega, spmod_of_lt hk]
  · intro n hn
    rw [if_pos (by omega), if_pos hn]
    congr 1
    rw [show n + (LR : ℤ) - N - 1 = n - N - 1 + LR by omega, spmod_add]

/-! ### The loops -/

theorem genCalcL_spec (S : State R) (lo n : ℕ) (l : ℕ → AnyMat R) (hlo : 1 ≤ lo) (h0 : S.l (lo - 1) = l (lo - 1))
    (hs : ∀ k, lo ≤ k → k < lo + n → StepL (l (k - 1)) (S.A k) (l k)) :
    (List.range' lo n).foldl
      (fun S n => S.bind fun S => (epsLAny (S.l (n - 1)) (S.A n)).map fun y =>
        { S with l := Function.update S.l n y }) (some S)
      = some { S with l := fun k => if lo ≤ k ∧ k < lo + n then l k else S.l k } := by
  induction n with
  | zero =>
    have : (fun k => if lo ≤ k ∧ k < lo + 0 then l k else S.l k) = S.l := by
      funext k
      rw [if_neg (by omega)]
    rw [this]
    rfl
  | succ n ih =>
    rw [List.range'_1_concat, List.foldl_append, ih fun k h1 h2 => hs k h1 (by omega)]
    simp only [List.foldl_cons, List.foldl_nil, Option.bind_some]
    have h1 : (if lo ≤ lo + n - 1 ∧ lo + n - 1 < lo + n then l (lo + n - 1) else S.l (lo + n - 1)) = l (lo + n - 1) := by
      by_cases hn : n = 0
      · subst hn
        rw [if_neg (by omega)]
        exact h0
      · rw [if_pos (by omega)]
    rw [h1, (epsLAny_iff _ _ _).mpr (hs (lo + n) (by omega) (by omega))]
    simp only [Option.map_some]
    congr 2
    funext k
    by_cases hk : k = lo + n
    · subst hk
      rw [Function.update_self, if_pos (by omega)]
    · rw [Function.update_of_ne hk]
      by_cases hk2 : lo ≤ k ∧ k < lo + n
      · rw [if_pos hk2, if_pos (by omega)]
      · rw [if_neg hk2, if_neg (by omega)]

theorem genCalcR_spec (S : State R) (lo n : ℕ) (r : ℕ → AnyMat R) (h0 : S.r (lo + n) = r (lo + n))
    (hs : ∀ k, lo ≤ k → k < lo + n → StepR (r (k + 1)) (S.A (k + 1)) (r k)) :
    (List.range' lo n).reverse.foldl
      (fun S n => S.bind fun S => (epsRAny (S.r (n + 1)) (S.A (n + 1))).map fun y =>
        { S with r := Function.update S.r n y }) (some S)
      = some { S with r := fun k => if lo ≤ k ∧ k < lo + n then r k else S.r k } := by
  induction n generalizing lo with
  | zero =>
    have : (fun k => if lo ≤ k ∧ k < lo + 0 then r k else S.r k) = S.r := by
      funext k
      rw [if_neg (by omega)]
    rw [this]
    rfl
  | succ n ih =>
    rw [List.range'_succ, List.reverse_cons, List.foldl_append, ih (lo + 1)
      (by rw [show lo + 1 + n = lo + (n + 1) by omega]; exact h0) (fun k h1 h2 => hs k (by omega) (by omega))]
    simp only [List.foldl_cons, List.foldl_nil, Option.bind_some]
    have h1 : (if lo + 1 ≤ lo + 1 ∧ lo + 1 < lo + 1 + n then r (lo + 1) else S.r (lo + 1)) = r (lo + 1) := by
      by_cases hn : n = 0
      · subst hn
        rw [if_neg (by omega)]
        exact h0
      · rw [if_pos (by omega)]
    rw [h1, (epsRAny_iff _ _ _).mpr (hs lo (by omega) (by omega))]
    simp only [Option.map_some]
    congr 2
    funext k
    by_cases hk : k = lo
    · subst hk
      rw [Function.update_self, if_pos (by omega)]
    · rw [Function.update_of_ne hk]
      by_cases hk2 : lo + 1 ≤ k ∧ k < lo + 1 + n
      · rw [if_pos hk2, if_pos (by omega)]
      · rw [if_neg hk2, if_neg (by omega)]

theorem assignLoop_spec (S : State R) (lo n : ℕ) (f : ℕ → AnyTen R)
    (hs : ∀ k, lo ≤ k → k < lo + n → (f k).q = (S.A k).q ∧ (f k).a = (S.A k).a ∧ (f k).b = (S.A k).b) :
    (List.range' lo n).foldl
      (fun S n => S.bind fun S => (assignTen (S.A n).q (S.A n).a (S.A n).b (f n)).map fun x =>
        { S with A := Function.update S.A n x }) (some S)
      = some { S with A := fun k => if lo ≤ k ∧ k < lo + n then f k else S.A k } := by
  induction n with
  | zero =>
    have : (fun k => if lo ≤ k ∧ k < lo + 0 then f k else S.A k) = S.A := by
      funext k
      rw [if_neg (by omega)]
    rw [this]
    rfl
  | succ n ih =>
    rw [List.range'_1_concat, List.foldl_append, ih fun k h1 h2 => hs k h1 (by omega)]
    simp only [List.foldl_cons, List.foldl_nil, Option.bind_some]
    have h1 : (if lo ≤ lo + n ∧ lo + n < lo + n then f (lo + n) else S.A (lo + n)) = S.A (lo + n) :=
      if_neg (by omega)
    rw [h1, assignTen, if_pos (hs (lo + n) (by omega) (by omega))]
    simp only [Option.map_some]
    congr 2
    funext k
    by_cases hk : k = lo + n
    · subst hk
      rw [Function.update_self, if_pos (by omega)]
    · rw [Function.update_of_ne hk]
      by_cases hk2 : lo ≤ k ∧ k < lo + n
      · rw [if_pos hk2, if_pos (by omega)]
      · rw [if_neg hk2, if_neg (by omega)]

/-! ### Shapes -/

theorem SW.Shapes.dims {S : State R} (h : SW.Shapes S) (n : ℤ) :
    (getA S n).q = getQ S n ∧ (getA S n).a = getD S (n - 1) ∧ (getA S n).b = getD S n := by
  rw [getA, getQ, getD, getD]
  by_cases h1 : n < 1
  · rw [if_pos h1, if_pos h1, if_pos (by omega)]
    obtain ⟨e1, e2, e3⟩ := h.left _ (spmod_lt h.L_left (n - 1))
    refine ⟨e1, e2, ?_⟩
    by_cases h2 : n < 0
    · rw [if_pos h2, e3]
    · rw [if_neg h2, if_neg (by omega), show n.toNat = 0 by omega, h.D_left, e3]
  · rw [if_neg h1, if_neg h1, if_neg (by omega : ¬ n - 1 < 0), if_neg (by omega : ¬ n < 0)]
    by_cases h2 : n > S.N
    · rw [if_pos h2, if_pos h2, if_pos h2]
      obtain ⟨e1, e2, e3⟩ := h.right _ (spmod_lt h.L_right (n - S.N - 1))
      refine ⟨e1, ?_, e3⟩
      by_cases h3 : n - 1 > S.N
      · rw [if_pos h3, e2]
      · rw [if_neg h3, show (n - 1).toNat = S.N by omega, h.D_right, e2]
    · rw [if_neg h2, if_neg h2, if_neg h2, if_neg (by omega)]
      obtain ⟨e1, e2, e3⟩ := h.mid n.toNat (by omega) (by omega)
      exact ⟨e1, by rw [e2, show n.toNat - 1 = (n - 1).toNat by omega], e3⟩

theorem SW.Shapes.fit {S : State R} (h : SW.Shapes S) (n : ℤ) : (getA S n).b = (getA S (n + 1)).a := by
  rw [(h.dims n).2.2, (h.dims (n + 1)).2.1, add_sub_cancel_right]

theorem swCalcL_spec {S : State R} (hS : SW.Shapes S) {l : ℤ → AnyMat R}
    (hl : LeftEnv (getA S) S.uniL.L S.uniL.l l) (lo : ℕ) (h1 : 1 ≤ lo) (hlo : lo ≤ S.N + 1)
    (hprev : ∀ k, 0 < k → k < lo → S.l k = l k) :
    ∃ S', calcL lo S.N S = some S' ∧ S' = { S with l := S'.l } ∧ ∀ k, k ≤ S.N + 1 → S'.l k = l k := by
  have hl0 : S.uniL.l (S.uniL.L - 1) = l 0 := by
    have := hl.left_block (S.uniL.L - 1) (by have := hS.L_left; omega)
    rw [← this]
    congr 1
    have := hS.L_left
    omega
  have hst : ∀ k : ℕ, 1 ≤ k → k ≤ S.N → StepL (l ((k - 1 : ℕ) : ℤ)) (S.A k) (l k) := by
    intro k hk1 hk2
    have := hl.step k
    rw [(getA_sandwich S hS.L_left hS.L_right).mid k hk1 hk2] at this
    rwa [show ((k - 1 : ℕ) : ℤ) = (k : ℤ) - 1 by omega]
  unfold calcL genCalcL
  rw [genCalcL_spec _ lo (S.N + 1 - lo) (fun k => l (k : ℤ)) h1 ?_ ?_]
  · simp only [Option.bind_some]
    have hN : (if lo ≤ S.N ∧ S.N < lo + (S.N + 1 - lo) then l (S.N : ℤ)
        else Function.update S.l 0 (S.uniL.l (S.uniL.L - 1)) S.N) = l (S.N : ℤ) := by
      by_cases h : lo ≤ S.N
      · rw [if_pos (by omega)]
      · rw [if_neg (by omega)]
        by_cases h0 : S.N = 0
        · rw [h0, Function.update_self, hl0]
          rfl
        · rw [Function.update_of_ne h0]
          exact hprev S.N (by omega) (by omega)
    have h2 := hl.step (S.N + 1)
    rw [add_sub_cancel_right] at h2
    have h3 := (getA_sandwich S hS.L_left hS.L_right).right_block 0 hS.L_right
    rw [Nat.cast_zero, add_zero] at h3
    rw [h3] at h2
    rw [hN, (epsLAny_iff _ _ _).mpr h2]
    refine ⟨_, rfl, rfl, ?_⟩
    intro k hk
    simp only
    by_cases hk1 : k = S.N + 1
    · subst hk1
      rw [Function.update_self]
      push_cast
      rfl
    · rw [Function.update_of_ne hk1]
      by_cases hk2 : lo ≤ k
      · rw [if_pos (by omega)]
      · rw [if_neg (by omega)]
        by_cases h0 : k = 0
        · rw [h0, Function.update_self, hl0]
          rfl
        · rw [Function.update_of_ne h0]
          exact hprev k (by omega) (by omega)
  · simp only
    by_cases h0 : lo - 1 = 0
    · rw [h0, Function.update_self, hl0]
      rfl
    · rw [Function.update_of_ne h0]
      exact hprev _ (by omega) (by omega)
  · intro k hk1 hk2
    exact hst k (by omega) (by omega)

theorem swCalcR_spec {S : State R} (hS : SW.Shapes S) {r : ℤ → AnyMat R}
    (hr : RightEnv (getA S) S.N S.uniR.L S.uniR.r r) (hi : ℕ) (hhi : hi ≤ S.N)
    (hprev : ∀ k, hi ≤ k → k < S.N → S.r k = r k) :
    ∃ S', calcR 0 hi S = some S' ∧ S' = { S with r := S'.r } ∧ (∀ k, k ≤ S.N → S'.r k = r k)
      ∧ ∀ k, S.N < k → S'.r k = S.r k := by
  have hr0 : S.uniR.r (S.uniR.L - 1) = r S.N := by
    have h1 := hr.right_rep
    have h2 := hr.step (S.N + 1)
    rw [add_sub_cancel_right] at h2
    have h3 := hr.right_rep (S.N + 1) (by omega)
    have h4 := hr.step (S.N + 1 + S.uniR.L)
    have h5 := (getA_sandwich S hS.L_left hS.L_right).right_rep (S.N + 1) (by omega)
    rw [h3, h5] at h4
    have h6 := h2.unique h4
    have h7 := hr.right_block (S.uniR.L - 1) (by have := hS.L_right; omega)
    rw [h6, ← h7]
    congr 1
    have := hS.L_right
    omega
  have hst : ∀ k : ℕ, k < S.N → StepR (r ((k + 1 : ℕ) : ℤ)) (S.A (k + 1)) (r k) := by
    intro k hk2
    have := hr.step ((k + 1 : ℕ) : ℤ)
    rw [(getA_sandwich S hS.L_left hS.L_right).mid (k + 1) (by omega) (by omega)] at this
    rwa [show ((k + 1 : ℕ) : ℤ) - 1 = (k : ℤ) by omega] at this
  unfold calcR genCalcR
  rw [genCalcR_spec _ 0 (hi - 0) (fun k => r (k : ℤ)) ?_ ?_]
  · refine ⟨_, rfl, rfl, ?_, ?_⟩
    · intro k hk
      simp only
      by_cases hk2 : k < hi
      · rw [if_pos (by omega)]
      · rw [if_neg (by omega)]
        by_cases h0 : k = S.N
        · rw [h0, Function.update_self, hr0]
        · rw [Function.update_of_ne h0]
          exact hprev k (by omega) (by omega)
    · intro k hk
      simp only
      rw [if_neg (by omega), Function.update_of_ne (by omega)]
  · simp only
    by_cases h0 : 0 + (hi - 0) = S.N
    · rw [h0, Function.update_self, hr0]
    · rw [Function.update_of_ne h0]
      exact hprev _ (by omega) (by omega)
  · intro k hk1 hk2
    exact hst k (by omega)

/-! ### Reading the environments -/

theorem spmod_dvd {L N : ℕ} (h : L ∣ N) (n : ℤ) : pmod (n - N) L = pmod n L := by
  obtain ⟨k, rfl⟩ := h
  apply spmod_congr
  push_cast
  rw [Int.sub_mul_emod_self_left]

theorem getL_spec {S : State R} (hS : SW.Shapes S) {l : ℤ → AnyMat R}
    (hl : LeftEnv (getA S) S.uniL.L S.uniL.l l) (hSl : ∀ k, k ≤ S.N + 1 → S.l k = l k) (n : ℤ)
    (hn : n ≤ S.N + 1 ∨ S.uniR.L ∣ S.N) : getL S n = some (l n) := by
  rw [getL]
  by_cases h1 : 0 < n ∧ n ≤ S.N + 1
  · rw [if_pos h1, hSl _ (by omega), Int.toNat_of_nonneg (by omega)]
  · rw [if_neg h1]
    by_cases h2 : n < 1
    · rw [if_pos h2, ← rep_down hl.left_rep hl.left_block hS.L_left n (by omega)]
    · rw [if_neg h2]
      have hd : S.uniR.L ∣ S.N := by
        rcases hn with h | h
        · omega
        · exact h
      have key : ∀ j : ℕ, (List.range j).foldl
          (fun x (i : ℕ) => x.bind fun x => epsLAny x (S.uniR.A (pmod ((S.N + 2 + i : ℤ) - 1) S.uniR.L)))
          (some (S.l (S.N + 1))) = some (l (S.N + 1 + j)) := by
        intro j
        induction j with
        | zero =>
          rw [hSl _ le_rfl]
          push_cast
          rw [add_zero]
          rfl
        | succ j ih =>
          rw [List.range_succ, List.foldl_append, ih]
          simp only [List.foldl_cons, List.foldl_nil, Option.bind_some]
          rw [epsLAny_iff]
          have h3 := hl.step (S.N + 1 + j + 1)
          rw [add_sub_cancel_right, getA, if_neg (by omega), if_pos (by omega)] at h3
          have h4 : pmod ((S.N : ℤ) + 1 + j + 1 - S.N - 1) S.uniR.L = pmod ((S.N : ℤ) + 2 + j - 1) S.uniR.L := by
            rw [← spmod_dvd hd ((S.N : ℤ) + 2 + j - 1)]
            congr 1
            omega
          rw [h4] at h3
          rw [show (S.N : ℤ) + 1 + ((j + 1 : ℕ) : ℤ) = S.N + 1 + j + 1 by omega]
          exact h3
      rw [key]
      congr 2
      omega

theorem getR_spec {S : State R} (hS : SW.Shapes S) {r : ℤ → AnyMat R}
    (hr : RightEnv (getA S) S.N S.uniR.L S.uniR.r r) (hSr : ∀ k, k ≤ S.N → S.r k = r k) (n : ℤ)
    (hn : n ≤ S.N ∨ (n = S.N + 1 ∧ S.r (S.N + 1) = S.uniR.r 0) ∨ (S.N + 1 < n ∧ S.uniR.L ∣ S.N)) :
    getR S n = some (r n) := by
  rw [getR]
  by_cases h1 : 0 ≤ n ∧ n ≤ S.N + 1
  · rw [if_pos h1]
    by_cases h2 : n ≤ S.N
    · rw [hSr _ (by omega), Int.toNat_of_nonneg (by omega)]
    · have h3 : n = S.N + 1 := by omega
      have h4 : S.r (S.N + 1) = S.uniR.r 0 := by
        rcases hn with h | h | h
        · omega
        · exact h.2
        · omega
      have h5 := hr.right_block 0 hS.L_right
      rw [Nat.cast_zero, add_zero] at h5
      rw [h3, show ((S.N : ℤ) + 1).toNat = S.N + 1 by omega, h4, h5]
  · rw [if_neg h1]
    by_cases h2 : n > S.N + 1
    · rw [if_pos h2]
      have hd : S.uniR.L ∣ S.N := by
        rcases hn with h | h | h
        · omega
        · omega
        · exact h.2
      rw [rep_up hr.right_rep hr.right_block hS.L_right n (by omega), ← spmod_dvd hd (n - 1)]
      congr 3
      omega
    · rw [if_neg h2]
      have key : ∀ j : ℕ, (List.range j).foldl
          (fun x (i : ℕ) => x.bind fun x => epsRAny x (S.uniL.A (pmod (-(i : ℤ) - 1) S.uniL.L)))
          (some (S.r 0)) = some (r (-j)) := by
        intro j
        induction j with
        | zero =>
          rw [hSr _ (by omega)]
          rfl
        | succ j ih =>
          rw [List.range_succ, List.foldl_append, ih]
          simp only [List.foldl_cons, List.foldl_nil, Option.bind_some]
          rw [epsRAny_iff]
          have h3 := hr.step (-j)
          rw [getA, if_pos (by omega)] at h3
          rw [show -((j + 1 : ℕ) : ℤ) = -(j : ℤ) - 1 by omega]
          exact h3
      rw [key]
      congr 2
      omega

theorem getR_next {S : State R} {r : ℤ → AnyMat R} (hr : RightEnv (getA S) S.N S.uniR.L S.uniR.r r) (n : ℤ)
    (hn : n < 0) : getR S n (some (r (n + 1))) = some (r n) := by
  rw [getR, if_neg (by omega), if_neg (by omega)]
  rw [epsRAny_iff]
  have h3 := hr.step (n + 1)
  rwa [getA, if_pos (by omega), add_sub_cancel_right] at h3

theorem updateRaw_spec {S : State R} (hS : SW.Shapes S) {l r : ℤ → AnyMat R}
    (hl : LeftEnv (getA S) S.uniL.L S.uniL.l l) (hr : RightEnv (getA S) S.N S.uniR.L S.uniR.r r) :
    ∃ S', updateRaw S = some S' ∧ S' = { S with l := S'.l, r := S'.r } ∧ (∀ k, k ≤ S.N + 1 → S'.l k = l k)
      ∧ (∀ k, k ≤ S.N → S'.r k = r k) ∧ ∀ k, S.N < k → S'.r k = S.r k := by
  obtain ⟨S1, h1, h2, h3⟩ := swCalcL_spec hS hl 1 le_rfl (by omega) (fun k a b => by omega)
  have hA : getA S1 = getA S := by rw [h2]; rfl
  have hS1 : SW.Shapes S1 := by
    rw [h2]
    exact ⟨hS.L_left, hS.L_right, hS.left, hS.right, hS.mid, hS.D_left, hS.D_right⟩
  have hN : S1.N = S.N := by rw [h2]
  have hR : S1.uniR = S.uniR := by rw [h2]
  have hr1 : S1.r = S.r := by rw [h2]
  obtain ⟨S2, h4, h5, h6, h7⟩ := swCalcR_spec hS1 (r := r) (by rw [hA, hN, hR]; exact hr) S.N hN.ge
    (fun k a b => by omega)
  refine ⟨S2, ?_, ?_, ?_, ?_, ?_⟩
  · rw [updateRaw, h1, Option.bind_some, hN]
    exact h4
  · rw [h5, h2]
  · intro k hk
    rw [h5]
    exact h3 k hk
  · intro k hk
    exact h6 k (by omega)
  · intro k hk
    rw [h7 k (by omega), hr1]

/-! ### Shifted chains -/

theorem LeftEnv.shift {l : ℤ → AnyMat R} (hL : 0 < LL) (m : ℕ) (h : LeftEnv site LL lL l) {site' : ℤ → AnyTen R}
    (hs : ∀ n, site' (n + (m * LL : ℕ)) = site n) : LeftEnv site' LL lL fun n => l (n - (m * LL : ℕ)) where
  step n := by
    have h1 := h.step (n - (m * LL : ℕ))
    rw [← hs, sub_add_cancel] at h1
    rwa [show n - 1 - ((m * LL : ℕ) : ℤ) = n - (m * LL : ℕ) - 1 by omega]
  left_block k hk := by
    rw [rep_down h.left_rep h.left_block hL _ (by omega)]
    congr 1
    rw [← spmod_add_mul _ m LL, show (k : ℤ) + 1 - LL - (m * LL : ℕ) - 1 + (m * LL : ℕ) = (k : ℤ) - LL by omega,
      spmod_sub, spmod_of_lt hk]
  left_rep n hn := by
    rw [show n - (LL : ℤ) - (m * LL : ℕ) = n - (m * LL : ℕ) - LL by omega]
    exact h.left_rep _ (by omega)

theorem RightEnv.shift {r : ℤ → AnyMat R} (M : ℕ) (h : RightEnv site N LR rR r) {site' : ℤ → AnyTen R}
    (hs : ∀ n, site' (n + M) = site n) : RightEnv site' (N + M) LR rR fun n => r (n - M) where
  step n := by
    have h1 := h.step (n - M)
    rw [← hs, sub_add_cancel] at h1
    rwa [show n - 1 - (M : ℤ) = n - M - 1 by omega]
  right_block k hk := by
    rw [← h.right_block k hk]
    congr 1
    push_cast
    omega
  right_rep n hn := by
    rw [show n + (LR : ℤ) - M = n - M + LR by omega]
    exact h.right_rep _ (by push_cast at hn; omega)

/-- The environments of the chain do not depend on how many blocks of the right part are counted as finite. -/
theorem RightEnv.regroup {r : ℤ → AnyMat R} (hR : 0 < LR) (m : ℕ) (h : RightEnv site N LR rR r) :
    RightEnv site (N + m * LR) LR rR r where
  step := h.step
  right_block k hk := by
    rw [rep_up h.right_rep h.right_block hR _ (by rw [Nat.cast_add]; omega)]
    congr 1
    rw [show ((N + m * LR : ℕ) : ℤ) + 1 + k - N - 1 = (k : ℤ) + (m * LR : ℕ) by rw [Nat.cast_add]; omega,
      spmod_add_mul, spmod_of_lt hk]
  right_rep n hn := h.right_rep n (by rw [Nat.cast_add] at hn; omega)

/-! ### Growing -/

theorem growLeft_spec {S : State R} (hS : SW.Shapes S) (hq : S.q 0 = S.uniL.q) (m : ℕ) :
    ∃ S', growLeft m S = some S' ∧ S'.N = S.N + m * S.uniL.L ∧ S'.uniL = S.uniL ∧ S'.uniR = S.uniR
      ∧ S'.nc = S.nc
      ∧ SW.Shapes S' ∧ (0 < m → S'.q 0 = S'.uniL.q) ∧ S'.q (S'.N + 1) = S.q (S.N + 1)
      ∧ S'.D (S'.N + 1) = S.D (S.N + 1)
      ∧ S'.r (S'.N + 1) = S.r S.N
      ∧ ∀ n : ℤ, getA S' (n + (m * S.uniL.L : ℕ)) = getA S n ∧ getD S' (n + (m * S.uniL.L : ℕ)) = getD S n
        ∧ getQ S' (n + (m * S.uniL.L : ℕ)) = getQ S n := by
  have hLp := hS.L_left
  unfold growLeft assignLoop
  simp only
  have hM0 : 0 < m → 0 < m * S.uniL.L := fun h => Nat.mul_pos h hLp
  have hMm : ∀ k : ℤ, pmod (k + (m * S.uniL.L : ℕ)) S.uniL.L = pmod k S.uniL.L := fun k => spmod_add_mul k m _
  generalize m * S.uniL.L = M at hM0 hMm ⊢
  have hblk : ∀ k, (S.uniL.A ((k - 1) % S.uniL.L)).q = S.uniL.q ∧ (S.uniL.A ((k - 1) % S.uniL.L)).a = S.uniL.D
      ∧ (S.uniL.A ((k - 1) % S.uniL.L)).b = S.uniL.D := fun k => hS.left _ (Nat.mod_lt _ hLp)
  rw [show M + 1 - 1 = M by omega, assignLoop_spec _ 1 M]
  · simp only [Option.bind_some]
    rw [show S.N + M + 1 - (M + 1) = S.N by omega, assignLoop_spec _ (M + 1) S.N]
    · simp only [Option.map_some]
      have hA : ∀ k, 1 ≤ k → k ≤ S.N + M →
          (if M + 1 ≤ k ∧ k < M + 1 + S.N then S.A (k - M) else if 1 ≤ k ∧ k < 1 + M then S.uniL.A ((k - 1) % S.uniL.L)
            else zeroTen (R := R) (if k < M then S.uniL.q else S.q (k - M))
              (if k - 1 < M then S.uniL.D else S.D (k - 1 - M)) (if k < M then S.uniL.D else S.D (k - M)))
          = if k ≤ M then S.uniL.A ((k - 1) % S.uniL.L) else S.A (k - M) := by
        intro k h1 h2
        by_cases h : k ≤ M
        · rw [if_neg (by omega), if_pos (by omega), if_pos h]
        · rw [if_pos (by omega), if_neg h]
      refine ⟨_, rfl, rfl, rfl, rfl, rfl, ⟨hLp, hS.L_right, hS.left, hS.right, ?_, ?_, ?_⟩, ?_, ?_, ?_, ?_, ?_⟩
      · intro k h1 h2
        simp only [initArrays] at h2 ⊢
        rw [hA k h1 h2]
        by_cases h : k ≤ M
        · rw [if_pos h]
          obtain ⟨e1, e2, e3⟩ := hblk k
          rw [e1, e2, e3, if_pos (by omega : k - 1 < M)]
          by_cases h' : k < M
          · rw [if_pos h', if_pos h']
            exact ⟨rfl, rfl, rfl⟩
          · rw [if_neg h', if_neg h', show k - M = 0 by omega, hq, hS.D_left]
            exact ⟨rfl, rfl, rfl⟩
        · rw [if_neg h]
          obtain ⟨e1, e2, e3⟩ := hS.mid (k - M) (by omega) (by omega)
          rw [if_neg (by omega), if_neg (by omega), if_neg (by omega), e1, e2, e3,
            show k - M - 1 = k - 1 - M by omega]
          exact ⟨rfl, rfl, rfl⟩
      · simp only [initArrays]
        by_cases h : 0 < M
        · rw [if_pos h]
        · rw [if_neg h, show 0 - M = 0 by omega, hS.D_left]
      · simp only [initArrays]
        rw [if_neg (by omega), Nat.add_sub_cancel, hS.D_right]
      · intro hm
        simp only [initArrays]
        rw [if_pos (hM0 hm)]
      · simp only [initArrays]
        rw [if_neg (by omega), show S.N + M + 1 - M = S.N + 1 by omega]
      · simp only [initArrays]
        rw [if_neg (by omega), show S.N + M + 1 - M = S.N + 1 by omega]
      · simp only [initArrays, Function.update_self]
      · intro n
        refine ⟨?_, ?_, ?_⟩
        · simp only [getA, initArrays, Nat.cast_add]
          by_cases h1 : n + M < 1
          · rw [if_pos h1, if_pos (by omega)]
            rw [show n + (M : ℤ) - 1 = n - 1 + M by omega, hMm]
          · rw [if_neg h1]
            by_cases h2 : n > S.N
            · rw [if_pos (by omega), if_neg (by omega), if_pos h2]
              congr 2
              omega
            · rw [if_neg (by omega), hA _ (by omega) (by omega)]
              by_cases h3 : n < 1
              · rw [if_pos (by omega), if_pos h3, ← hMm (n - 1), ← spmod_nat]
                congr 2
                omega
              · rw [if_neg (by omega), if_neg h3, if_neg h2]
                congr 1
                omega
        · simp only [getD, initArrays, Nat.cast_add]
          by_cases h1 : n + M < 0
          · rw [if_pos h1, if_pos (by omega)]
          · rw [if_neg h1]
            by_cases h2 : n > S.N
            · rw [if_pos (by omega), if_neg (by omega), if_pos h2]
            · rw [if_neg (by omega)]
              by_cases h3 : n < 0
              · rw [if_pos (by omega), if_pos h3]
              · rw [if_neg (by omega), if_neg h3, if_neg h2]
                congr 1
                omega
        · simp only [getQ, initArrays, Nat.cast_add]
          by_cases h1 : n + M < 1
          · rw [if_pos h1, if_pos (by omega)]
          · rw [if_neg h1]
            by_cases h2 : n > S.N
            · rw [if_pos (by omega), if_neg (by omega), if_pos h2]
            · rw [if_neg (by omega)]
              by_cases h3 : n < 1
              · rw [if_pos h3]
                by_cases h4 : (n + M).toNat < M
                · rw [if_pos h4]
                · rw [if_neg h4, show (n + M).toNat - M = 0 by omega, hq]
              · rw [if_neg (by omega), if_neg h3, if_neg h2]
                congr 1
                omega
    · intro k h1 h2
      simp only [initArrays]
      rw [if_neg (by omega)]
      simp only [zeroTen]
      obtain ⟨e1, e2, e3⟩ := hS.mid (k - M) (by omega) (by omega)
      rw [if_neg (by omega), if_neg (by omega), if_neg (by omega), e1, e2, e3, show k - M - 1 = k - 1 - M by omega]
      exact ⟨rfl, rfl, rfl⟩
  · intro k h1 h2
    simp only [initArrays, zeroTen]
    obtain ⟨e1, e2, e3⟩ := hblk k
    rw [e1, e2, e3, if_pos (by omega : k - 1 < M)]
    by_cases h' : k < M
    · rw [if_pos h', if_pos h']
      exact ⟨rfl, rfl, rfl⟩
    · rw [if_neg h', if_neg h', show k - M = 0 by omega, hq, hS.D_left]
      exact ⟨rfl, rfl, rfl⟩

theorem growRight_spec {S : State R} (hS : SW.Shapes S) (hq : S.q (S.N + 1) = S.uniR.q)
    (hD : S.D (S.N + 1) = S.uniR.D) (m : ℕ) (hm : 0 < m) :
    ∃ S', growRight m S = some S' ∧ S'.N = S.N + m * S.uniR.L ∧ S'.uniL = S.uniL ∧ S'.uniR = S.uniR
      ∧ S'.nc = S.nc
      ∧ SW.Shapes S' ∧ S'.q 0 = S.q 0 ∧ S'.q (S'.N + 1) = S'.uniR.q
      ∧ S'.D (S'.N + 1) = S'.uniR.D
      ∧ S'.r (S'.N + 1) = S.r S.N
      ∧ ∀ n : ℤ, getA S' n = getA S n ∧ getD S' n = getD S n ∧ getQ S' n = getQ S n := by
  have hLp := hS.L_right
  unfold growRight assignLoop
  simp only
  have hM0 : 0 < m * S.uniR.L := Nat.mul_pos hm hLp
  have hMm : ∀ k : ℤ, pmod (k + (m * S.uniR.L : ℕ)) S.uniR.L = pmod k S.uniR.L := fun k => spmod_add_mul k m _
  generalize m * S.uniR.L = M at hM0 hMm ⊢
  rw [if_neg hM0.ne']
  have hblk : ∀ k, (S.uniR.A (k % S.uniR.L)).q = S.uniR.q ∧ (S.uniR.A (k % S.uniR.L)).a = S.uniR.D
      ∧ (S.uniR.A (k % S.uniR.L)).b = S.uniR.D := fun k => hS.right _ (Nat.mod_lt _ hLp)
  rw [show S.N + 1 - 1 = S.N by omega, assignLoop_spec _ 1 S.N]
  · simp only [Option.bind_some]
    rw [show S.N + M + 1 - (S.N + 1) = M by omega, assignLoop_spec _ (S.N + 1) M]
    · simp only [Option.map_some]
      have hA : ∀ k, 1 ≤ k → k ≤ S.N + M →
          (if S.N + 1 ≤ k ∧ k < S.N + 1 + M then S.uniR.A ((k - (S.N + 1)) % S.uniR.L)
            else if 1 ≤ k ∧ k < 1 + S.N then S.A k
            else zeroTen (R := R) (if k < S.N + 2 then S.q k else S.uniR.q)
              (if k - 1 < S.N + 2 then S.D (k - 1) else S.uniR.D) (if k < S.N + 2 then S.D k else S.uniR.D))
          = if k ≤ S.N then S.A k else S.uniR.A ((k - (S.N + 1)) % S.uniR.L) := by
        intro k h1 h2
        by_cases h : k ≤ S.N
        · rw [if_neg (by omega), if_pos (by omega), if_pos h]
        · rw [if_pos (by omega), if_neg h]
      have hDr : ∀ k, S.N ≤ k → (if k < S.N + 2 then S.D k else S.uniR.D) = S.uniR.D := by
        intro k hk
        by_cases h1 : k < S.N + 2
        · rw [if_pos h1]
          by_cases h2 : k = S.N
          · rw [h2, hS.D_right]
          · rw [show k = S.N + 1 by omega, hD]
        · rw [if_neg h1]
      have hqr : ∀ k, S.N < k → (if k < S.N + 2 then S.q k else S.uniR.q) = S.uniR.q := by
        intro k hk
        by_cases h1 : k < S.N + 2
        · rw [if_pos h1, show k = S.N + 1 by omega, hq]
        · rw [if_neg h1]
      refine ⟨_, rfl, rfl, rfl, rfl, rfl, ⟨hS.L_left, hLp, hS.left, hS.right, ?_, ?_, ?_⟩, ?_, ?_, ?_, ?_, ?_⟩
      · intro k h1 h2
        simp only [initArrays] at h2 ⊢
        rw [hA k h1 h2]
        by_cases h : k ≤ S.N
        · rw [if_pos h]
          obtain ⟨e1, e2, e3⟩ := hS.mid k h1 h
          rw [e1, e2, e3, if_pos (by omega), if_pos (by omega), if_pos (by omega)]
          exact ⟨rfl, rfl, rfl⟩
        · rw [if_neg h]
          obtain ⟨e1, e2, e3⟩ := hblk (k - (S.N + 1))
          rw [e1, e2, e3, hDr _ (by omega), hDr _ (by omega), hqr _ (by omega)]
          exact ⟨rfl, rfl, rfl⟩
      · simp only [initArrays]
        rw [if_pos (by omega), hS.D_left]
      · simp only [initArrays]
        rw [hDr _ (by omega)]
      · simp only [initArrays]
        rw [if_pos (by omega)]
      · simp only [initArrays]
        rw [hqr _ (by omega)]
      · simp only [initArrays]
        rw [hDr _ (by omega)]
      · simp only [initArrays, Function.update_self]
      · intro n
        refine ⟨?_, ?_, ?_⟩
        · simp only [getA, initArrays, Nat.cast_add]
          by_cases h1 : n < 1
          · rw [if_pos h1, if_pos h1]
          · rw [if_neg h1, if_neg h1]
            by_cases h2 : n > S.N
            · rw [if_pos h2]
              by_cases h3 : n > (S.N : ℤ) + M
              · rw [if_pos h3, ← hMm (n - (S.N + M) - 1)]
                congr 2
                omega
              · rw [if_neg h3, hA _ (by omega) (by omega), if_neg (by omega), ← spmod_nat]
                congr 2
                omega
            · rw [if_neg h2, if_neg (by omega), hA _ (by omega) (by omega), if_pos (by omega)]
        · simp only [getD, initArrays, Nat.cast_add]
          by_cases h1 : n < 0
          · rw [if_pos h1, if_pos h1]
          · rw [if_neg h1, if_neg h1]
            by_cases h2 : n > S.N
            · rw [if_pos h2]
              by_cases h3 : n > (S.N : ℤ) + M
              · rw [if_pos h3]
              · rw [if_neg h3, hDr _ (by omega)]
            · rw [if_neg h2, if_neg (by omega), if_pos (by omega)]
        · simp only [getQ, initArrays, Nat.cast_add]
          by_cases h1 : n < 1
          · rw [if_pos h1, if_pos h1]
          · rw [if_neg h1, if_neg h1]
            by_cases h2 : n > S.N
            · rw [if_pos h2]
              by_cases h3 : n > (S.N : ℤ) + M
              · rw [if_pos h3]
              · rw [if_neg h3, hqr _ (by omega)]
            · rw [if_neg h2, if_neg (by omega), if_pos (by omega)]
    · intro k h1 h2
      simp only [initArrays]
      rw [if_neg (by omega)]
      simp only [zeroTen]
      obtain ⟨e1, e2, e3⟩ := hblk (k - (S.N + 1))
      rw [e1, e2, e3]
      refine ⟨?_, ?_, ?_⟩
      · by_cases h : k < S.N + 2
        · rw [if_pos h, show k = S.N + 1 by omega, hq]
        · rw [if_neg h]
      · by_cases h : k - 1 < S.N + 2
        · rw [if_pos h]
          by_cases h3 : k - 1 = S.N
          · rw [h3, hS.D_right]
          · rw [show k - 1 = S.N + 1 by omega, hD]
        · rw [if_neg h]
      · by_cases h : k < S.N + 2
        · rw [if_pos h, show k = S.N + 1 by omega, hD]
        · rw [if_neg h]
  · intro k h1 h2
    simp only [initArrays, zeroTen]
    obtain ⟨e1, e2, e3⟩ := hS.mid k h1 (by omega)
    rw [e1, e2, e3, if_pos (by omega), if_pos (by omega), if_pos (by omega)]
    exact ⟨rfl, rfl, rfl⟩

/-! ### The constructor -/

/-- The shapes of the arrays of a uniform chain. -/
structure SW.BulkShapes (u : Bulk R) : Prop where
  L_pos : 0 < u.L
  ten : ∀ k < u.L, (u.A k).q = u.q ∧ (u.A k).a = u.D ∧ (u.A k).b = u.D
  mat : ∀ k < u.L, (u.l k).Sq u.D ∧ (u.r k).Sq u.D

theorem new_spec (N : ℕ) {uL : Bulk R} (hL : SW.BulkShapes uL) (uR : Option (Bulk R)) :
    ∃ S, new N uL uR = some S ∧ S.N = N ∧ S.uniL = uL ∧ S.uniR = uR.getD uL ∧ (∀ n, S.D n = uL.D) ∧ (∀ n, S.q n = uL.q)
      ∧ (∀ n, 1 ≤ n → n ≤ N → S.A n = uL.A (pmod ((n : ℤ) - 1) uL.L))
      ∧ ∀ n, n ≤ N + 1 → S.r n = uL.r (pmod ((n : ℤ) - 1) uL.L) := by
  have hb : ∀ k : ℤ, pmod k uL.L < uL.L := spmod_lt hL.L_pos
  unfold new assignLoop
  simp only
  rw [show N + 1 - 1 = N by omega, assignLoop_spec _ 1 N]
  · simp only [Option.bind_some]
    have key : ∀ (T : State R) (j : ℕ), (∀ n, (T.r n).Sq uL.D ∧ (T.l n).Sq uL.D) → ∃ l,
        (List.range j).foldl (fun S n => S.bind fun S =>
          (assignMat (S.r n).a (S.r n).b (uL.r (pmod ((n : ℤ) - 1) uL.L))).bind fun x =>
          (assignMat (S.l n).a (S.l n).b (uL.l (pmod ((n : ℤ) - 1) uL.L))).map fun y =>
            { S with r := Function.update S.r n x, l := Function.update S.l n y }) (some T)
        = some { T with
            l := l, r := fun k => if k < j then uL.r (pmod ((k : ℤ) - 1) uL.L) else T.r k }
        ∧ ∀ n, (l n).Sq uL.D := by
      intro T j hT
      induction j with
      | zero =>
        refine ⟨T.l, ?_, fun n => (hT n).2⟩
        have : (fun k : ℕ => if k < 0 then uL.r (pmod ((k : ℤ) - 1) uL.L) else T.r k) = T.r := by
          funext k
          rw [if_neg (by omega)]
        rw [this]
        rfl
      | succ j ih =>
        obtain ⟨l, h1, h2⟩ := ih
        rw [List.range_succ, List.foldl_append, h1]
        simp only [List.foldl_cons, List.foldl_nil, Option.bind_some]
        obtain ⟨e1, e2⟩ := hL.mat _ (hb ((j : ℤ) - 1))
        rw [if_neg (by omega), assignMat, if_pos ⟨by rw [e2.1, (hT j).1.1], by rw [e2.2, (hT j).1.2]⟩,
          Option.bind_some, assignMat, if_pos ⟨by rw [e1.1, (h2 j).1], by rw [e1.2, (h2 j).2]⟩]
        simp only [Option.map_some]
        refine ⟨_, by
          congr 2
          funext k
          by_cases hk : k = j
          · subst hk
            rw [Function.update_self, if_pos (by omega)]
          · rw [Function.update_of_ne hk]
            by_cases hk2 : k < j
            · rw [if_pos hk2, if_pos (by omega)]
            · rw [if_neg hk2, if_neg (by omega)], ?_⟩
        intro n
        by_cases hk : n = j
        · subst hk
          rw [Function.update_self]
          exact e1
        · rw [Function.update_of_ne hk]
          exact h2 n
    obtain ⟨l, h1, _⟩ := key { blank N uL (uR.getD uL) with
      A := fun k => if 1 ≤ k ∧ k < 1 + N then uL.A (pmod ((k : ℤ) - 1) uL.L) else (blank N uL (uR.getD uL)).A k }
      (N + 2) (fun n => ⟨⟨rfl, rfl⟩, rfl, rfl⟩)
    refine ⟨_, h1, rfl, rfl, rfl, fun _ => rfl, fun _ => rfl, ?_, ?_⟩
    · intro n h2 h3
      simp only
      rw [if_pos (by omega)]
    · intro n hn
      simp only
      rw [if_pos (by omega)]
  · intro k h1 h2
    exact hL.ten _ (hb _)

end EvoMPS
