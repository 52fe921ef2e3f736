import Verif.SwStep
import Verif.SwEnergyMain

/-!
# Lemmas on the time steps of sandwich states
-/

namespace EvoMPS.Uni

open Matrix

variable {q D : ℕ}

/-! ## Loops over the sites -/

theorem range'_one_succ (N : ℕ) : List.range' 1 (N + 1) = List.range' 1 N ++ [N + 1] := by
  rw [List.range'_1_concat, Nat.add_comm 1 N]

theorem foldlM_last {α : Type*} (f : α → ℕ → Option α) (N : ℕ) (x : α) :
    (List.range' 1 (N + 1)).foldlM f x = ((List.range' 1 N).foldlM f x).bind fun y => f y (N + 1) := by
  rw [range'_one_succ, List.foldlM_append, Option.bind_eq_bind]
  congr 1
  funext y
  simp

theorem eulerW_eq (N : ℕ) (dtau : ℂ) (A : ℕ → Ten ℂ q D D) (B : WList q D) :
    eulerW N dtau (A, B) = (fun n => if 1 ≤ n ∧ n ≤ N then movedW A dtau B n else A n, fun n => if 1 ≤ n ∧ n ≤ N then none else B n) := by
  induction N with
  | zero =>
    have : ∀ n, ¬ (1 ≤ n ∧ n ≤ 0) := fun n => by omega
    simp only [this, if_false]
    rfl
  | succ N ih =>
    unfold eulerW at ih ⊢
    rw [range'_one_succ, List.foldl_append, ih, List.foldl_cons, List.foldl_nil]
    simp only [show ¬ (1 ≤ N + 1 ∧ N + 1 ≤ N) by omega, if_false]
    cases hb : B (N + 1) with
    | none =>
      simp only [Option.elim_none]
      refine Prod.ext (funext fun n => ?_) (funext fun n => ?_)
      · by_cases hn : n = N + 1
        · subst hn
          simp [movedW, hb]
        · simp only [show (1 ≤ n ∧ n ≤ N + 1) ↔ (1 ≤ n ∧ n ≤ N) by omega]
      · by_cases hn : n = N + 1
        · subst hn
          simp [hb]
        · simp only [show (1 ≤ n ∧ n ≤ N + 1) ↔ (1 ≤ n ∧ n ≤ N) by omega]
    | some b =>
      simp only [Option.elim_some]
      refine Prod.ext (funext fun n => ?_) (funext fun n => ?_)
      · by_cases hn : n = N + 1
        · subst hn
          simp [movedW, hb, sub_eq_add_neg]
        · simp only [Function.update_of_ne hn, show (1 ≤ n ∧ n ≤ N + 1) ↔ (1 ≤ n ∧ n ≤ N) by omega]
      · by_cases hn : n = N + 1
        · subst hn
          simp
        · simp only [Function.update_of_ne hn, show (1 ≤ n ∧ n ≤ N + 1) ↔ (1 ≤ n ∧ n ≤ N) by omega]

theorem rkFirstW_eq (N : ℕ) (c : ℂ) (A0 : ℕ → Ten ℂ q D D) (B : WList q D) (A : ℕ → Ten ℂ q D D) :
    rkFirstW N c A0 B A = fun n => if 1 ≤ n ∧ n ≤ N then (B n).elim (A n) fun b => A0 n - c • b else A n := by
  induction N with
  | zero =>
    have : ∀ n, ¬ (1 ≤ n ∧ n ≤ 0) := fun n => by omega
    simp only [this, if_false]
    rfl
  | succ N ih =>
    unfold rkFirstW at ih ⊢
    rw [range'_one_succ, List.foldl_append, ih, List.foldl_cons, List.foldl_nil]
    funext n
    cases hb : B (N + 1) with
    | none =>
      simp only [Option.elim_none]
      by_cases hn : n = N + 1
      · subst hn
        simp [hb]
      · simp only [show (1 ≤ n ∧ n ≤ N + 1) ↔ (1 ≤ n ∧ n ≤ N) by omega]
    | some b =>
      simp only [Option.elim_some]
      by_cases hn : n = N + 1
      · subst hn
        simp [hb]
      · simp only [Function.update_of_ne hn, show (1 ≤ n ∧ n ≤ N + 1) ↔ (1 ≤ n ∧ n ≤ N) by omega]

/-- What the loop of the second and third stage computes; it raises exactly if an entry is missing in the sum. -/
theorem rkLoopW_eq (N : ℕ) (c : ℂ) (A0 A : ℕ → Ten ℂ q D D) (B F : WList q D)
    (h : ∀ n, 1 ≤ n → n ≤ N → (B n).isSome → (F n).isSome) :
    rkLoopW N c A0 B (A, F) = some (fun n => if 1 ≤ n ∧ n ≤ N then (B n).elim (A n) fun b => A0 n - c • b else A n,
      fun n => if 1 ≤ n ∧ n ≤ N then (B n).elim (F n) fun b => (F n).map fun f => f + (2 : ℂ) • b else F n) := by
  induction N with
  | zero =>
    have : ∀ n, ¬ (1 ≤ n ∧ n ≤ 0) := fun n => by omega
    simp only [this, if_false]
    rfl
  | succ N ih =>
    have ih := ih fun n h1 h2 => h n h1 (by omega)
    unfold rkLoopW at ih ⊢
    rw [foldlM_last, ih, Option.bind_some]
    simp only [show ¬ (1 ≤ N + 1 ∧ N + 1 ≤ N) by omega, if_false]
    cases hb : B (N + 1) with
    | none =>
      simp only [Option.elim_none]
      refine congrArg some (Prod.ext (funext fun n => ?_) (funext fun n => ?_))
      · by_cases hn : n = N + 1
        · subst hn
          simp [hb]
        · simp only [show (1 ≤ n ∧ n ≤ N + 1) ↔ (1 ≤ n ∧ n ≤ N) by omega]
      · by_cases hn : n = N + 1
        · subst hn
          simp [hb]
        · simp only [show (1 ≤ n ∧ n ≤ N + 1) ↔ (1 ≤ n ∧ n ≤ N) by omega]
    | some b =>
      obtain ⟨f, hf⟩ := Option.isSome_iff_exists.1 (h (N + 1) (by omega) le_rfl (by rw [hb]; rfl))
      simp only [Option.elim_some, hf, Option.map_some]
      refine congrArg some (Prod.ext (funext fun n => ?_) (funext fun n => ?_))
      · by_cases hn : n = N + 1
        · subst hn
          simp [hb]
        · simp only [Function.update_of_ne hn, show (1 ≤ n ∧ n ≤ N + 1) ↔ (1 ≤ n ∧ n ≤ N) by omega]
      · by_cases hn : n = N + 1
        · subst hn
          simp [hb, hf]
        · simp only [Function.update_of_ne hn, show (1 ≤ n ∧ n ≤ N + 1) ↔ (1 ≤ n ∧ n ≤ N) by omega]

theorem slopes_eq (P : Num) (S : SwT q D) (lm rm : ℕ → MM ℂ D D) : S.slopes P lm rm = (S.calcB P lm rm).map SwTanOut.B := by
  unfold SwT.slopes SwT.calcB
  rw [Option.map_map]
  generalize S.N = N
  have : ∀ N, (List.range' 1 N).foldlM (fun (B : WList q D) n => (S.calcBn P lm rm n).map fun Bn => Function.update B n (Bn.map Prod.fst))
      (fun _ => none) = ((List.range' 1 N).foldlM (fun (T : SwTanOut q D) n => (S.calcBn P lm rm n).map fun Bn =>
    { T with B := Function.update T.B n (Bn.map Prod.fst)
             etaSq := Bn.elim T.etaSq fun x => Function.update T.etaSq n x.2 })
    { B := fun _ => none, etaSq := fun _ => 0, eta := 0 }).map SwTanOut.B := by
    intro N
    induction N with
    | zero => rfl
    | succ N ih =>
      rw [foldlM_last, foldlM_last, ih]
      cases (List.range' 1 N).foldlM (fun (T : SwTanOut q D) n => (S.calcBn P lm rm n).map fun Bn =>
        { T with B := Function.update T.B n (Bn.map Prod.fst)
                 etaSq := Bn.elim T.etaSq fun x => Function.update T.etaSq n x.2 })
        { B := fun _ => none, etaSq := fun _ => 0, eta := 0 } with
      | none => rfl
      | some T =>
        rw [Option.map_some, Option.bind_some, Option.bind_some, Option.map_map]
        rfl
  exact this N

/-- The sites with an entry in the list of tangent vectors. -/
def SwT.free (S : SwT q D) (n : ℕ) : Prop := 1 ≤ n ∧ n ≤ S.N ∧ (n = S.nc ∨ D < q * D)

theorem calcBn_isSome {P : Num} {S : SwT q D} {lm rm : ℕ → MM ℂ D D} {n : ℕ} {Bn} (h : S.calcBn P lm rm n = some Bn) :
    Bn.isSome ↔ n = S.nc ∨ D < q * D := by
  unfold SwT.calcBn at h
  by_cases hn : n = S.nc
  · rw [if_pos hn] at h
    obtain ⟨_, -, rfl⟩ := Option.map_eq_some_iff.1 h
    simp [hn]
  · rw [if_neg hn] at h
    simp only [] at h
    split at h
    · split at h
      · rename_i hv
        unfold calcVsh at hv
        split at hv
        · rename_i hle
          cases h
          simp only [Option.isSome_none, Bool.false_eq_true, false_iff, not_or, not_lt]
          exact ⟨hn, by rwa [mul_comm]⟩
        · cases hv
      · rename_i hv
        obtain ⟨_, -, rfl⟩ := Option.map_eq_some_iff.1 h
        unfold calcVsh at hv
        split at hv
        · cases hv
        · rename_i hle
          simp only [Option.isSome_some, true_iff]
          exact Or.inr (by rw [mul_comm]; omega)
    · split at h
      · rename_i hv
        unfold calcVshl at hv
        split at hv
        · rename_i hle
          cases h
          simp only [Option.isSome_none, Bool.false_eq_true, false_iff, not_or, not_lt]
          exact ⟨hn, hle⟩
        · cases hv
      · rename_i hv
        obtain ⟨_, -, rfl⟩ := Option.map_eq_some_iff.1 h
        unfold calcVshl at hv
        split at hv
        · cases hv
        · rename_i hle
          simp only [Option.isSome_some, true_iff]
          exact Or.inr (by omega)

theorem slopes_some {P : Num} {S : SwT q D} {lm rm : ℕ → MM ℂ D D} {B : WList q D} (h : S.slopes P lm rm = some B) (n : ℕ) :
    ((1 ≤ n ∧ n ≤ S.N) → ∃ Bn, S.calcBn P lm rm n = some Bn ∧ B n = Bn.map Prod.fst) ∧ (¬ (1 ≤ n ∧ n ≤ S.N) → B n = none) := by
  unfold SwT.slopes at h
  generalize S.N = N at h ⊢
  induction N generalizing B with
  | zero =>
    cases h
    exact ⟨fun h => by omega, fun _ => rfl⟩
  | succ N ih =>
    rw [foldlM_last] at h
    obtain ⟨B', h1, h2⟩ := Option.bind_eq_some_iff.1 h
    obtain ⟨Bn, h3, rfl⟩ := Option.map_eq_some_iff.1 h2
    by_cases hn : n = N + 1
    · subst hn
      exact ⟨fun _ => ⟨Bn, h3, Function.update_self ..⟩, fun h => absurd ⟨by omega, le_rfl⟩ h⟩
    · rw [Function.update_of_ne hn, show (1 ≤ n ∧ n ≤ N + 1) ↔ (1 ≤ n ∧ n ≤ N) by omega]
      exact ih h1

theorem slopes_isSome {P : Num} {S : SwT q D} {lm rm : ℕ → MM ℂ D D} {B : WList q D} (h : S.slopes P lm rm = some B) (n : ℕ) :
    (B n).isSome ↔ S.free n := by
  obtain ⟨h1, h2⟩ := slopes_some h n
  by_cases hn : 1 ≤ n ∧ n ≤ S.N
  · obtain ⟨Bn, h3, h4⟩ := h1 hn
    rw [h4, Option.isSome_map, calcBn_isSome h3]
    exact ⟨fun h => ⟨hn.1, hn.2, h⟩, fun h => h.2.2⟩
  · rw [h2 hn]
    refine Iff.intro (fun h => nomatch h) fun h => absurd ⟨h.1, h.2.1⟩ hn

theorem rkLast_eq (P : Num) (S : SwT q D) (lm rm : ℕ → MM ℂ D D) (F : WList q D) (hF : ∀ n, (F n).isSome ↔ S.free n) :
    S.rkLast P lm rm F = (S.slopes P lm rm).map fun B => fun n => if 1 ≤ n ∧ n ≤ S.N then (B n).elim (F n) fun b => (F n).map fun f => f + b
      else F n := by
  unfold SwT.rkLast SwT.slopes
  have : ∀ N ≤ S.N, (List.range' 1 N).foldlM (fun F n => (S.calcBn P lm rm n).bind fun Bn =>
      Bn.elim (some F) fun b => (F n).map fun f => Function.update F n (some (f + b.1))) F
    = ((List.range' 1 N).foldlM (fun B n => (S.calcBn P lm rm n).map fun Bn => Function.update B n (Bn.map Prod.fst)) fun _ => none).map
      fun B => fun n => if 1 ≤ n ∧ n ≤ N then (B n).elim (F n) fun b => (F n).map fun f => f + b else F n := by
    intro N hN
    induction N with
    | zero =>
      have : ∀ n, ¬ (1 ≤ n ∧ n ≤ 0) := fun n => by omega
      simp only [this, if_false]
      rfl
    | succ N ih =>
      rw [foldlM_last, foldlM_last, ih (by omega)]
      cases (List.range' 1 N).foldlM (fun B n => (S.calcBn P lm rm n).map fun Bn => Function.update B n (Bn.map Prod.fst)) fun _ => none with
      | none => rfl
      | some B =>
        rw [Option.map_some, Option.bind_some, Option.bind_some, Option.map_map]
        cases hc : S.calcBn P lm rm (N + 1) with
        | none => rfl
        | some Bn =>
          rw [Option.bind_some, Option.map_some]
          simp only [show ¬ (1 ≤ N + 1 ∧ N + 1 ≤ N) by omega, if_false]
          cases hb : Bn with
          | none =>
            simp only [Option.elim_none]
            refine congrArg some (funext fun n => ?_)
            simp only [Function.comp]
            by_cases hn : n = N + 1
            · subst hn
              simp
            · simp only [Function.update_of_ne hn, show (1 ≤ n ∧ n ≤ N + 1) ↔ (1 ≤ n ∧ n ≤ N) by omega]
          | some b =>
            have : (F (N + 1)).isSome := (hF _).2 ⟨by omega, hN, (calcBn_isSome hc).1 (by rw [hb]; rfl)⟩
            obtain ⟨f, hf⟩ := Option.isSome_iff_exists.1 this
            simp only [Option.elim_some, hf, Option.map_some]
            refine congrArg some (funext fun n => ?_)
            simp only [Function.comp]
            by_cases hn : n = N + 1
            · subst hn
              simp [hf]
            · simp only [Function.update_of_ne hn, show (1 ≤ n ∧ n ≤ N + 1) ↔ (1 ≤ n ∧ n ≤ N) by omega]
  exact this _ le_rfl

end EvoMPS.Uni
