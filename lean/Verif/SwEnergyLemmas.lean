import Verif.SwEnergy
import Verif.SwBulkLemmas

/-! # Helper lemmas: `calc_C` and `calc_K` of sandwich states -/

set_option linter.unusedSectionVars false

namespace EvoMPS.Uni

open Matrix

variable {q D : ℕ}

/-- The entries for the term `h` at site `n` are those of the present tensors. -/
structure CurTerm (S : SwT q D) (n : ℤ) (h : UHam q) : Prop where
  two : ∀ o, h = .two o → S.AA (n + 1).toNat = some (calcAA (S.getA n) (S.getA (n + 1))) ∧
    S.C2 (n + 1).toNat = some (EvoMPS.calcC o (calcAA (S.getA n) (S.getA (n + 1))))
  three : ∀ o, h = .three o → S.AA (n + 1).toNat = some (calcAA (S.getA n) (S.getA (n + 1))) ∧
    S.AAA (n + 1).toNat = some (calcAAA (S.getA n) (S.getA (n + 1)) (S.getA (n + 2))) ∧
    S.C3 (n + 1).toNat = some (calcC3 o (calcAAA (S.getA n) (S.getA (n + 1)) (S.getA (n + 2))))

/-- All but the lists written by `calc_C`. -/
def SameBut (S T : SwT q D) : Prop :=
  { T with AA := S.AA, AAA := S.AAA, C2 := S.C2, C3 := S.C3 } = S

theorem SameBut.trans {S T U : SwT q D} (h : SameBut S T) (h' : SameBut T U) : SameBut S U := by
  unfold SameBut at *
  rw [← h, ← h']

theorem SameBut.hamSites {S T : SwT q D} (h : SameBut S T) : T.hamSites = S.hamSites := by
  rw [← h]

theorem SameBut.getA {S T : SwT q D} (h : SameBut S T) : T.getA = S.getA := by
  rw [← h]; rfl

theorem calcCStep_spec (S : SwT q D) (n : ℤ) (h : UHam q) (hh : S.hamAt n = some h) (hs : h.sites = S.hamSites)
    (hn : -1 ≤ n) :
    ∃ T, S.calcCStep n = some T ∧ SameBut S T ∧ CurTerm T n h ∧
      (∀ m h', -1 ≤ m → m ≠ n → CurTerm S m h' → CurTerm T m h') ∧ (∀ m h', S.hamAt m = some h' → T.hamAt m = some h') := by
  unfold SwT.calcCStep
  rw [hh]
  have hne : ∀ m : ℤ, -1 ≤ m → m ≠ n → (m + 1).toNat ≠ (n + 1).toNat := fun m hm hmn => by omega
  cases h with
  | two o =>
    have h2 : S.hamSites = 2 := hs.symm
    simp only [Option.bind_some, h2, if_true]
    refine ⟨_, rfl, ?_, ⟨?_, ?_⟩, fun m h' hm hmn hc => ⟨fun o' e => ?_, fun o' e => ?_⟩, fun m h' hm => ?_⟩
    · cases S; simp only at h2; subst h2; rfl
    · intro o' e
      cases e
      simp only [Function.update_self]
      exact ⟨rfl, rfl⟩
    · intro o' e; cases e
    · simp only [Function.update_of_ne (hne m hm hmn)]
      exact hc.two o' e
    · simp only [Function.update_of_ne (hne m hm hmn)]
      exact hc.three o' e
    · unfold SwT.hamAt at hm ⊢
      cases hS : S.ham with
      | list x => rw [hS] at hm; simpa only [hS] using hm
      | fn f =>
        rw [hS] at hm
        simp only [h2, if_true] at hm
        simp only [if_true]
        by_cases e : (m + 1).toNat = (n + 1).toNat
        · rw [e] at hm ⊢
          rw [Function.update_self]
          obtain ⟨_, _, e'⟩ := Option.map_eq_some_iff.1 hm
          rw [Option.map_some, e']
        · rwa [Function.update_of_ne e]
  | three o =>
    have h3 : S.hamSites = 3 := hs.symm
    simp only [Option.bind_some, h3, show ¬ (3 = 2) by omega, if_false]
    refine ⟨_, rfl, ?_, ⟨?_, ?_⟩, fun m h' hm hmn hc => ⟨fun o' e => ?_, fun o' e => ?_⟩, fun m h' hm => ?_⟩
    · cases S; simp only at h3; subst h3; rfl
    · intro o' e; cases e
    · intro o' e
      cases e
      simp only [Function.update_self, calcAAA_AA_eq]
      exact ⟨rfl, rfl, rfl⟩
    · simp only [Function.update_of_ne (hne m hm hmn)]
      exact hc.two o' e
    · simp only [Function.update_of_ne (hne m hm hmn)]
      exact hc.three o' e
    · unfold SwT.hamAt at hm ⊢
      cases hS : S.ham with
      | list x => rw [hS] at hm; simpa only [hS] using hm
      | fn f =>
        rw [hS] at hm
        simp only [h3, show ¬ (3 = 2) by omega, if_false] at hm
        simp only [show ¬ (3 = 2) by omega, if_false]
        by_cases e : (m + 1).toNat = (n + 1).toNat
        · rw [e] at hm ⊢
          rw [Function.update_self]
          obtain ⟨_, _, e'⟩ := Option.map_eq_some_iff.1 hm
          rw [Option.map_some, e']
        · rwa [Function.update_of_ne e]

theorem calcC_spec (S : SwT q D) (H : ℤ → UHam q) (hs3 : S.hamSites ≤ 3)
    (hH : ∀ n : ℤ, 2 - S.hamSites ≤ n → n ≤ S.N → S.hamAt n = some (H n) ∧ (H n).sites = S.hamSites) :
    ∃ T, S.calcC = some T ∧ SameBut S T ∧ ∀ n : ℤ, 2 - S.hamSites ≤ n → n ≤ S.N → CurTerm T n (H n) := by
  unfold SwT.calcC
  have key : ∀ m, m ≤ S.N + S.hamSites - 1 → ∃ T,
      ((List.range m).map fun i : ℕ => (i : ℤ) + 2 - S.hamSites).foldlM SwT.calcCStep S = some T ∧ SameBut S T ∧
      (∀ i < m, CurTerm T ((i : ℤ) + 2 - S.hamSites) (H ((i : ℤ) + 2 - S.hamSites))) ∧
      ∀ n h', S.hamAt n = some h' → T.hamAt n = some h' := by
    intro m hm
    induction m with
    | zero => exact ⟨S, rfl, rfl, fun i hi => absurd hi (by omega), fun _ _ h => h⟩
    | succ m ih =>
      obtain ⟨T, h1, h2, h3, h4⟩ := ih (by omega)
      have hb := hH ((m : ℤ) + 2 - S.hamSites) (by omega) (by omega)
      have hsT : T.hamSites = S.hamSites := h2.hamSites
      obtain ⟨U, g1, g2, g3, g4, g5⟩ := calcCStep_spec T ((m : ℤ) + 2 - S.hamSites) _ (h4 _ _ hb.1) (by rw [hb.2, hsT]) (by omega)
      refine ⟨U, ?_, h2.trans g2, fun i hi => ?_, fun n h' h => g5 _ _ (h4 _ _ h)⟩
      · rw [List.range_succ, List.map_append, List.foldlM_append, h1]
        simp [g1]
      · by_cases e : i = m
        · rw [e]; exact g3
        · exact g4 _ _ (by omega) (by omega) (h3 i (by omega))
  obtain ⟨T, h1, h2, h3, -⟩ := key _ le_rfl
  refine ⟨T, h1, h2, fun n hn hn' => ?_⟩
  have := h3 (n - 2 + S.hamSites).toNat (by omega)
  rwa [show (((n - 2 + S.hamSites).toNat : ℕ) : ℤ) + 2 - S.hamSites = n by omega] at this

/-- What the lists of the state hold: the environments and tensors of the chain.  -/
structure Reads (S : SwT q D) (site : ℤ → Ten ℂ q D D) (l r : ℤ → Matrix (Fin D) (Fin D) ℂ) : Prop where
  ga : ∀ n : ℤ, S.getA n = site n
  gl : ∀ n : ℤ, n ≤ S.N → S.getL n = l n
  gr : ∀ n : ℕ, n ≤ S.N + 1 → S.r n = r n
  gr2 : S.hamSites = 3 → ∀ n : ℤ, 0 ≤ n → n ≤ S.N + 2 → S.getR n = r n

section
variable {S : SwT q D} {site : ℤ → Ten ℂ q D D} {l r : ℤ → Matrix (Fin D) (Fin D) ℂ} {H : ℤ → UHam q}
  (hR : Reads S site l r) (hl : ∀ n, (l n)ᴴ = l n)
  (hC : ∀ n : ℤ, 2 - S.hamSites ≤ n → n ≤ S.N → CurTerm S n (H n)) (hs : ∀ n, (H n).sites = S.hamSites)

include hR hl hC hs in
theorem rightIter_eq (p : (ℕ → Matrix (Fin D) (Fin D) ℂ) × (ℕ → ℂ)) (n : ℕ) (hn : n ≤ S.N) :
    S.rightIter p n = some (Function.update p.1 n
      ((∑ s, site n s * p.1 (n + 1) * (site n s)ᴴ) + siteTermR site r n (H n).sites (H n).op),
      Function.update p.2 n (termEnergy site l r n (H n).sites (H n).op)) := by
  have hsn := hs n
  have e1 : pmod (n : ℤ) (S.N + 3) = n := by rw [pmod_nat, Nat.mod_eq_of_lt (by omega)]
  have e2 : pmod (n : ℤ) (S.N + 1) = n := by rw [pmod_nat, Nat.mod_eq_of_lt (by omega)]
  have e3 : ((n : ℤ) + 1).toNat = n + 1 := by omega
  have hc := hC n (by cases h : H n <;> rw [h] at hsn <;> simp only [UHam.sites] at hsn <;> omega) (by omega)
  rw [← trace_siteTermR]
  unfold SwT.rightIter
  cases h : H n with
  | two o =>
    rw [h] at hsn
    have h2 : S.hamSites = 2 := hsn.symm
    obtain ⟨c1, c2⟩ := hc.two o h
    rw [e3, hR.ga, hR.ga] at c1 c2
    simp only [h2, if_true, e1, e2, e3, c1, c2, hR.ga, Option.bind_some, Option.map_some, calcKSite2]
    rw [hR.gl _ (by omega), hR.gr _ (by omega)]
    simp only [UHam.sites]
    rw [siteTermR_two, adot_eq_trace, hl, epsR_eq, Nat.cast_succ]
  | three o =>
    rw [h] at hsn
    have h3 : S.hamSites = 3 := hsn.symm
    obtain ⟨-, c1, c2⟩ := hc.three o h
    rw [e3, hR.ga, hR.ga, hR.ga] at c1 c2
    simp only [h3, show ¬ (3 = 2) by omega, if_false, e1, e2, e3, c1, c2, hR.ga, Option.bind_some, Option.map_some, calcKSite3]
    rw [hR.gl _ (by omega), hR.gr2 h3 _ (by omega) (by omega)]
    simp only [UHam.sites]
    rw [siteTermR_three, adot_eq_trace, hl, epsR_eq]

include hR hl hC hs in
theorem leftIter_eq (p : (ℕ → Matrix (Fin D) (Fin D) ℂ) × (ℕ → ℂ)) (n : ℕ) (h1 : 1 ≤ n) (hn : n ≤ S.N) (hA : S.A n = site n) :
    S.leftIter p n = some (Function.update p.1 n
      ((∑ s, (site n s)ᴴ * p.1 (n - 1) * site n s)
        + siteTermL site l (n + 1 - S.hamSites) (H (n + 1 - S.hamSites)).sites (H (n + 1 - S.hamSites)).op),
      Function.update p.2 (n - 1) (termEnergy site l r (n + 1 - S.hamSites) (H (n + 1 - S.hamSites)).sites
        (H (n + 1 - S.hamSites)).op)) := by
  have hsn := hs (n + 1 - S.hamSites)
  rw [← trace_siteTermL]
  have hc := hC (n + 1 - S.hamSites) (by omega) (by
    cases h : H (n + 1 - S.hamSites) <;> rw [h] at hsn <;> simp only [UHam.sites] at hsn <;> omega)
  unfold SwT.leftIter
  cases h : H (n + 1 - S.hamSites) with
  | two o =>
    rw [h] at hsn
    have h2 : S.hamSites = 2 := hsn.symm
    obtain ⟨c1, c2⟩ := hc.two o h
    have e3 : ((n : ℤ) + 1 - S.hamSites + 1).toNat = n := by rw [h2]; omega
    rw [e3, hR.ga, hR.ga] at c1 c2
    rw [h2] at c1 c2 ⊢
    simp only [if_true, c1, c2, hR.ga, Option.bind_some, Option.map_some, calcKlSite2]
    rw [hR.gl _ (by omega), hR.gr _ (by omega)]
    simp only [UHam.sites]
    rw [siteTermL_two, adotNoconj_eq_trace, epsL_eq]
    rw [show ((n : ℤ) + 1 - (2 : ℕ) - 1) = n - 2 by push_cast; ring,
      show ((n : ℤ) + 1 - (2 : ℕ) + (2 : ℕ) - 1) = n by push_cast; ring]
  | three o =>
    rw [h] at hsn
    have h3 : S.hamSites = 3 := hsn.symm
    obtain ⟨-, c1, c2⟩ := hc.three o h
    have e3 : ((n : ℤ) + 1 - S.hamSites + 1).toNat = n - 1 := by rw [h3]; omega
    rw [e3, hR.ga, hR.ga, hR.ga] at c1 c2
    rw [h3] at c1 c2 ⊢
    simp only [show ¬ (3 = 2) by omega, if_false, c1, c2, Option.bind_some, Option.map_some, calcKlSite3]
    rw [hR.gl _ (by omega), hR.gr _ (by omega), hA]
    simp only [UHam.sites]
    rw [siteTermL_three, adotNoconj_eq_trace, epsL_eq]
    rw [show ((n : ℤ) + 1 - (3 : ℕ) - 1) = n - 3 by push_cast; ring,
      show ((n : ℤ) + 1 - (3 : ℕ) + (3 : ℕ) - 1) = n by push_cast; ring]

include hR hl hC hs in
/-- The loop to the left. -/
theorem rightLoop (K : ℕ → Matrix (Fin D) (Fin D) ℂ) (h0 : ℕ → ℂ) (m : ℕ) (hm : m ≤ S.N + 1) :
    ∃ p, ((List.range m).map fun i : ℕ => (S.N : ℤ) - i).foldlM S.rightIter (K, h0) = some p ∧
      p.1 (S.N + 1) = K (S.N + 1) ∧
      (∀ n : ℕ, S.N < n + m → n ≤ S.N → p.1 n
        = (∑ s, site n s * p.1 (n + 1) * (site n s)ᴴ) + siteTermR site r n (H n).sites (H n).op) ∧
      (∀ n : ℕ, S.N < n + m → n ≤ S.N → p.2 n = termEnergy site l r n (H n).sites (H n).op) ∧
      (∀ n : ℕ, n + m ≤ S.N → p.2 n = h0 n) := by
  induction m with
  | zero => exact ⟨(K, h0), rfl, rfl, fun n h1 h2 => by omega, fun n h1 h2 => by omega, fun _ _ => rfl⟩
  | succ m ih =>
    obtain ⟨p, h1, h2, h3, h4, h5⟩ := ih (by omega)
    have hx := rightIter_eq hR hl hC hs p (S.N - m) (by omega)
    rw [show ((S.N - m : ℕ) : ℤ) = (S.N : ℤ) - m by omega] at hx
    refine ⟨_, by rw [List.range_succ, List.map_append, List.foldlM_append, h1]; simp [hx]; rfl, ?_, ?_, ?_, ?_⟩
    · simp only []
      rw [Function.update_of_ne (by omega), h2]
    · intro n hn hn'
      simp only []
      by_cases e : n = S.N - m
      · subst e
        rw [Function.update_self, Function.update_of_ne (by omega), show ((S.N - m : ℕ) : ℤ) = (S.N : ℤ) - m by omega]
      · rw [Function.update_of_ne e, Function.update_of_ne (by omega)]
        exact h3 n (by omega) hn'
    · intro n hn hn'
      simp only []
      by_cases e : n = S.N - m
      · subst e
        rw [Function.update_self, show ((S.N - m : ℕ) : ℤ) = (S.N : ℤ) - m by omega]
      · rw [Function.update_of_ne e]
        exact h4 n (by omega) hn'
    · intro n hn
      simp only []
      rw [Function.update_of_ne (by omega)]
      exact h5 n (by omega)

include hR hl hC hs in
/-- The loop to the right. -/
theorem leftLoop (hA : ∀ n : ℕ, 1 ≤ n → n ≤ S.N → S.A n = site n) (K : ℕ → Matrix (Fin D) (Fin D) ℂ) (h0 : ℕ → ℂ) (m : ℕ)
    (hm : m ≤ S.N) :
    ∃ p, (List.range' 1 m).foldlM S.leftIter (K, h0) = some p ∧
      p.1 0 = K 0 ∧
      (∀ n : ℕ, n < m → p.1 (n + 1)
        = (∑ s, (site (n + 1) s)ᴴ * p.1 n * site (n + 1) s)
          + siteTermL site l (n + 2 - S.hamSites) (H (n + 2 - S.hamSites)).sites (H (n + 2 - S.hamSites)).op) ∧
      (∀ n : ℕ, n < m → p.2 n = termEnergy site l r (n + 2 - S.hamSites) (H (n + 2 - S.hamSites)).sites
        (H (n + 2 - S.hamSites)).op) ∧
      (∀ n : ℕ, m ≤ n → p.2 n = h0 n) := by
  induction m with
  | zero => exact ⟨(K, h0), rfl, rfl, fun n h1 => by omega, fun n h1 => by omega, fun _ _ => rfl⟩
  | succ m ih =>
    obtain ⟨p, h1, h2, h3, h4, h5⟩ := ih (by omega)
    have hx := leftIter_eq hR hl hC hs p (m + 1) (by omega) (by omega) (hA _ (by omega) (by omega))
    rw [Nat.add_sub_cancel, show ((m + 1 : ℕ) : ℤ) + 1 - S.hamSites = m + 2 - S.hamSites by push_cast; ring, Nat.cast_succ] at hx
    refine ⟨_, by rw [List.range'_concat, List.foldlM_append, h1]; simp [add_comm 1 m, hx]; rfl, ?_, ?_, ?_, ?_⟩
    · simp only []
      rw [Function.update_of_ne (by omega), h2]
    · intro n hn
      simp only []
      by_cases e : n = m
      · subst e
        rw [Function.update_self, Function.update_of_ne (by omega)]
      · rw [Function.update_of_ne (by omega), Function.update_of_ne (by omega)]
        exact h3 n (by omega)
    · intro n hn
      simp only []
      by_cases e : n = m
      · subst e
        rw [Function.update_self]
      · rw [Function.update_of_ne e]
        exact h4 n (by omega)
    · intro n hn
      simp only []
      rw [Function.update_of_ne (by omega)]
      exact h5 n (by omega)

end

end EvoMPS.Uni
