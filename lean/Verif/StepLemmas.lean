import Verif.Step
import Verif.TangentGauge
import Verif.InitStateLemmas

/-!
# Time steps (helper lemmas)
-/

namespace EvoMPS

open Matrix

theorem foldAt_spec {X : ℕ → Type*} (f : ∀ n, X n → X n) (x0 : ∀ n, X n) (a m : ℕ) :
    (List.range' a m).foldl (fun x n => Function.update x n (f n (x n))) x0
      = fun n => if a ≤ n ∧ n < a + m then f n (x0 n) else x0 n := by
  induction m with
  | zero => funext n; simp
  | succ m ih =>
    rw [List.range'_concat, List.foldl_append, ih]
    simp only [List.foldl_cons, List.foldl_nil, Nat.one_mul]
    funext n
    by_cases hn : n = a + m
    · subst hn; simp
    · rw [Function.update_of_ne hn]
      exact if_congr (by omega) rfl rfl

section
variable {q D : ℕ → ℕ} {N : ℕ}

theorem eulerLoop_eq (dtau : ℂ) (B : BList q D) (A : Tensors ℂ q D) :
    eulerLoop N dtau B A
      = fun k => if k < N then (B k).elim (A k) fun b => A k - dtau • b else A k := by
  rw [eulerLoop, foldAt_spec (fun k (a : Ten ℂ (q k) (D k) (D (k + 1))) =>
    (B k).elim a fun b => a + (-dtau) • b) A 0 N]
  funext k
  refine if_congr (by omega) ?_ rfl
  cases B k with
  | none => rfl
  | some b => simp [sub_eq_add_neg]

theorem calcBrnPre_eq (P : Num) (ham : Ham ℂ q) (S : TDVP ℂ q D) (lm rm) (both : Bool) (k : ℕ) :
    calcBrnPre P N ham S (precompute P .right both S lm rm) k = calcBrn P N ham S lm rm k := by
  simp only [calcBrnPre, calcBrn, precompute]
  split
  · next hlt =>
    obtain ⟨V, hV⟩ := calcVsh_isSome (qr := P.qr) (A := S.A k) (r_s := (P.roots (rm (k + 1))).1) hlt
    rw [hV]
    rfl
  · rfl

theorem calcBlnPre_eq (P : Num) (ham : Ham ℂ q) (S : TDVP ℂ q D) (lm rm) (both : Bool) (k : ℕ) :
    calcBlnPre P N ham S (precompute P .left both S lm rm) k = calcBln P N ham S lm rm k := by
  simp only [calcBlnPre, calcBln, precompute]
  split
  · next hlt =>
    obtain ⟨V, hV⟩ := calcVshl_isSome (qr := P.qr) (A := S.A k) (l_s := (P.roots (lm k)).1) hlt
    rw [hV]
    rfl
  · rfl

theorem calcBPre_eq (P : Num) (g : Gauge) (ham : Ham ℂ q) (S : TDVP ℂ q D) (lm rm) (both : Bool) :
    calcBPre P g N ham S (precompute P g both S lm rm) = calcB P g N ham S lm rm := by
  have : ∀ T k, calcBPreIter P g N ham S (precompute P g both S lm rm) T k
      = calcBIter P g N ham S lm rm T k := by
    intro T k
    cases g
    · simp only [calcBPreIter, calcBIter, calcBn, calcBrnPre_eq]
    · simp only [calcBPreIter, calcBIter, calcBn, calcBlnPre_eq]
  simp only [calcBPre, calcB, this]

/-- `calc_x(n)` reads only the tensors `n - 1`, `n`, `n + 1`. -/
theorem calcXn_setA (ham : Ham ℂ q) (S : TDVP ℂ q D) (A : Tensors ℂ q D) (k : ℕ)
    (h : ∀ j, k ≤ j + 1 → A j = S.A j) {v : ℕ} (Vsh : Fin (q k) → Matrix (Fin (D (k + 1))) (Fin v) ℂ)
    (l_s l_si r_s r_si) :
    calcXn N ham (S.setA A) k Vsh l_s l_si r_s r_si = calcXn N ham S k Vsh l_s l_si r_s r_si := by
  match k, Vsh, l_s, l_si, r_s, r_si with
  | 0, Vsh, l_s, l_si, r_s, r_si =>
    have h0 := h 0 (by omega)
    have h1 := h 1 (by omega)
    cases ham <;> simp only [calcXn, TDVP.setA, TDVP.c3, h0, h1]
  | 1, Vsh, l_s, l_si, r_s, r_si =>
    have h0 := h 0 (by omega)
    have h1 := h 1 (by omega)
    have h2 := h 2 (by omega)
    cases ham <;> simp only [calcXn, TDVP.setA, TDVP.c3, h0, h1, h2]
  | k + 2, Vsh, l_s, l_si, r_s, r_si =>
    have h0 := h (k + 1) (by omega)
    have h1 := h (k + 2) (by omega)
    have h2 := h (k + 2 + 1) (by omega)
    cases ham <;> simp only [calcXn, TDVP.setA, TDVP.c3, h0, h1, h2]

theorem calcBrn_setA (P : Num) (ham : Ham ℂ q) (S : TDVP ℂ q D) (lm rm) (A : Tensors ℂ q D) (k : ℕ)
    (h : ∀ j, k ≤ j + 1 → A j = S.A j) :
    calcBrn P N ham (S.setA A) lm rm k = calcBrn P N ham S lm rm k := by
  have hk : (S.setA A).A k = S.A k := h k (by omega)
  simp only [calcBrn, calcXn_setA ham S A k h, hk]

/-- What `calc_B_n(n)` returns for all sites, if no exception is raised. -/
theorem calcB_map (P : Num) (g : Gauge) (ham : Ham ℂ q) (S : TDVP ℂ q D) (lm rm)
    (Bn : ∀ k, Option (Ten ℂ (q k) (D k) (D (k + 1)) × ℂ))
    (h : ∀ k < N, calcBn P g N ham S lm rm k = some (Bn k)) :
    (calcB P g N ham S lm rm).map TangentOut.B
      = some fun k => if k < N then (Bn k).map Prod.fst else none := by
  obtain ⟨out, hout⟩ := calcB_isSome (P := P) (g := g) (ham := ham) (S := S) (lm := lm) (rm := rm)
    (N := N) (fun k hk => by rw [h k hk]; rfl)
  obtain ⟨h1, h2, _⟩ := calcB_spec hout
  rw [hout, Option.map_some]
  congr 1
  funext k
  split
  · next hk =>
    obtain ⟨b, hb, hb2, _⟩ := h1 k hk
    rw [h k hk] at hb
    rw [hb2, Option.some.inj hb]
  · next hk => exact (h2 k (by omega)).1

theorem Ham.two_le_sites {R : Type*} [CommRing R] [StarRing R] (ham : Ham R q) : 2 ≤ ham.sites := by
  cases ham <;> simp [Ham.sites]

theorem saveMemApply_of {hs j m : ℕ} (hm : j + 1 = m + hs) (dtau : ℂ)
    (X : Tensors ℂ q D × BList q D) :
    saveMemApply hs dtau j X = (X.2 m).elim X fun b =>
      (Function.update X.1 m (X.1 m + (-dtau) • b), Function.update X.2 m none) := by
  obtain rfl : m = j + 1 - hs := by omega
  rw [saveMemApply, if_pos (by omega)]

/-- State of the memory saving loop after `j` iterations. -/
theorem saveMem_inv (P : Num) (ham : Ham ℂ q) (S : TDVP ℂ q D) (lm rm) (dtau : ℂ)
    (Bn : ∀ k, Option (Ten ℂ (q k) (D k) (D (k + 1)) × ℂ))
    (j : ℕ) (h : ∀ k < N, k < j → calcBn P .right N ham S lm rm k = some (Bn k)) :
    (List.range' 0 j).foldl (fun (X : Option (Tensors ℂ q D × BList q D)) j =>
        X.bind fun X => saveMemIter P N ham S lm rm dtau X j) (some (S.A, fun _ => none))
      = some (fun k => if k < N ∧ k + ham.sites ≤ j then
            (Bn k).elim (S.A k) fun b => S.A k + (-dtau) • b.1 else S.A k,
          fun k => if k < N ∧ k < j ∧ j < k + ham.sites then (Bn k).map Prod.fst else none) := by
  have h2 := ham.two_le_sites
  induction j with
  | zero =>
    simp only [List.range'_zero, List.foldl_nil]
    congr 2
    · funext k; rw [if_neg (by omega)]
    · funext k; rw [if_neg (by omega)]
  | succ j ih =>
    rw [List.range'_concat, List.foldl_append, ih fun k h1 h2 => h k h1 (by omega)]
    simp only [List.foldl_cons, List.foldl_nil, Nat.one_mul, Nat.zero_add, Option.bind_some, saveMemIter]
    generalize hA : (fun k => if k < N ∧ k + ham.sites ≤ j then
            (Bn k).elim (S.A k) fun b => S.A k + (-dtau) • b.1 else S.A k) = A
    generalize hB : (fun k => if k < N ∧ k < j ∧ j < k + ham.sites then (Bn k).map Prod.fst else none) = B
    have step1 : (if j < N then
        (calcBn P .right N ham (S.setA A) lm rm j).map fun Bn =>
          (A, Function.update B j (Bn.map Prod.fst))
        else some (A, B))
        = some (A, fun k => if k < N ∧ k < j + 1 ∧ j < k + ham.sites then (Bn k).map Prod.fst else none) := by
      split
      · next hj =>
        have e : calcBn P .right N ham (S.setA A) lm rm j = some (Bn j) := by
          rw [← h j hj (by omega)]
          refine calcBrn_setA P ham S lm rm A j fun i hi => ?_
          rw [← hA]
          exact if_neg (by omega)
        rw [e, Option.map_some]
        congr 2
        funext k
        by_cases hk : k = j
        · subst hk; rw [Function.update_self, if_pos (by omega)]
        · rw [Function.update_of_ne hk, ← hB]
          exact if_congr (by omega) rfl rfl
      · next hj =>
        rw [← hB]
        congr 2
        funext k
        exact if_congr (by omega) rfl rfl
    rw [step1, Option.map_some]
    congr 1
    by_cases hj : ham.sites ≤ j + 1
    · obtain ⟨m, hm⟩ : ∃ m, j + 1 = m + ham.sites := ⟨j + 1 - ham.sites, by omega⟩
      rw [saveMemApply_of hm]
      simp only
      by_cases hmN : m < N
      · have hc : m < N ∧ m < j + 1 ∧ j < m + ham.sites := ⟨hmN, by omega, by omega⟩
        rw [if_pos hc]
        have hAm : A m = S.A m := by rw [← hA]; exact if_neg (by omega)
        cases hb : Bn m with
        | none =>
          simp only [Option.map_none, Option.elim_none]
          refine Prod.ext ?_ ?_
          · funext k
            by_cases hk : k = m
            · subst hk
              simp only [hAm, hb, Option.elim_none, ite_self]
            · rw [← hA]; exact if_congr (by omega) rfl rfl
          · funext k
            by_cases hk : k = m
            · subst hk
              simp only [hb, Option.map_none, ite_self]
            · exact if_congr (by omega) rfl rfl
        | some b =>
          simp only [Option.map_some, Option.elim_some]
          refine Prod.ext ?_ ?_
          · funext k
            by_cases hk : k = m
            · subst hk
              simp only [Function.update_self, hAm, hb, Option.elim_some]
              rw [if_pos ⟨hmN, by omega⟩]
            · simp only [Function.update_of_ne hk]
              rw [← hA]; exact if_congr (by omega) rfl rfl
          · funext k
            by_cases hk : k = m
            · subst hk
              simp only [Function.update_self]
              rw [if_neg (by omega)]
            · simp only [Function.update_of_ne hk]
              exact if_congr (by omega) rfl rfl
      · rw [if_neg (by omega), Option.elim_none]
        refine Prod.ext ?_ ?_
        · rw [← hA]; funext k; exact if_congr (by omega) rfl rfl
        · funext k; exact if_congr (by omega) rfl rfl
    · rw [saveMemApply, if_neg hj]
      refine Prod.ext ?_ ?_
      · rw [← hA]; funext k; exact if_congr (by omega) rfl rfl
      · funext k; exact if_congr (by omega) rfl rfl

/-- The memory saving branch does what the other one does, exceptions included. -/
theorem takeStepSaveMem_eq (P : Num) (ham : Ham ℂ q) (S : TDVP ℂ q D) (lm rm) (dtau : ℂ) :
    takeStepSaveMem P N ham S lm rm dtau
      = (calcB P .right N ham S lm rm).map fun out => S.setA (eulerLoop N dtau out.B S.A) := by
  have h2 := ham.two_le_sites
  by_cases hall : ∀ k < N, ∃ b, calcBn P .right N ham S lm rm k = some b
  · obtain ⟨Bn, hBn⟩ : ∃ Bn : ∀ k, Option (Ten ℂ (q k) (D k) (D (k + 1)) × ℂ),
        ∀ k < N, calcBn P .right N ham S lm rm k = some (Bn k) := by
      refine ⟨fun k => if hk : k < N then (hall k hk).choose else none, fun k hk => ?_⟩
      simp only [dif_pos hk]
      exact (hall k hk).choose_spec
    have e := calcB_map P .right ham S lm rm Bn hBn
    obtain ⟨out, hout, hB⟩ := Option.map_eq_some_iff.mp e
    rw [takeStepSaveMem, saveMem_inv P ham S lm rm dtau Bn _ fun k hk _ => hBn k hk, Option.bind_some,
      if_pos, hout, Option.map_some, eulerLoop_eq, hB]
    · congr 2
      funext k
      by_cases hk : k < N
      · have hc : k < N ∧ k + ham.sites ≤ N + ham.sites - 1 := ⟨hk, by omega⟩
        simp only [if_pos hc, if_pos hk]
        cases Bn k with
        | none => rfl
        | some b => simp [sub_eq_add_neg]
      · have hc : ¬ (k < N ∧ k + ham.sites ≤ N + ham.sites - 1) := by omega
        simp only [if_neg hc, if_neg hk]
    · rw [List.all_eq_true]
      intro k hk
      rw [List.mem_range'_1] at hk
      simp only
      rw [if_neg (by omega)]
      rfl
  · push Not at hall
    classical
    have hex : ∃ k, k < N ∧ calcBn P .right N ham S lm rm k = none := by
      obtain ⟨k, hk, h⟩ := hall
      exact ⟨k, hk, Option.eq_none_iff_forall_ne_some.mpr h⟩
    obtain ⟨hkN, hk⟩ := Nat.find_spec hex
    have hmin : ∀ j < Nat.find hex, ∃ b, calcBn P .right N ham S lm rm j = some b := by
      intro j hj
      have := Nat.find_min hex hj
      exact Option.ne_none_iff_exists'.mp fun h => this ⟨by omega, h⟩
    generalize Nat.find hex = k at *
    rw [calcB_raises hkN hk, Option.map_none, takeStepSaveMem]
    obtain ⟨Bn, hBn⟩ : ∃ Bn : ∀ k, Option (Ten ℂ (q k) (D k) (D (k + 1)) × ℂ),
        ∀ j < k, calcBn P .right N ham S lm rm j = some (Bn j) := by
      refine ⟨fun j => if hj : j < k then (hmin j hj).choose else none, fun j hj => ?_⟩
      simp only [dif_pos hj]
      exact (hmin j hj).choose_spec
    have e := saveMem_inv P ham S lm rm dtau Bn k fun j _ hj => hBn j hj
    obtain ⟨m, hm⟩ : ∃ m, N + ham.sites - 1 = k + (m + 1) := ⟨N + ham.sites - 1 - k - 1, by omega⟩
    rw [hm, ← List.range'_append_1, List.foldl_append, e, Nat.zero_add, List.range'_succ, List.foldl_cons,
      Option.bind_some, saveMemIter, if_pos hkN]
    have e2 : ∀ X : Tensors ℂ q D × BList q D, (∀ i, k ≤ i + 1 → X.1 i = S.A i) →
        calcBn P .right N ham (S.setA X.1) lm rm k = none := by
      intro X hX
      rw [← hk]
      exact calcBrn_setA P ham S lm rm _ k hX
    rw [e2 _ fun i hi => if_neg (by omega), Option.map_none, Option.map_none, foldl_bind_none',
      Option.bind_none]

/-! ## Runge-Kutta -/

/-- Whether `calc_B_n` has anything to compute. -/
def room (g : Gauge) (q D : ℕ → ℕ) (k : ℕ) : Prop :=
  match g with
  | .right => D k < q k * D (k + 1)
  | .left => D (k + 1) < q k * D k

open Classical in
/-- The list with the entries `f k` where `p k` holds and `None` elsewhere. -/
noncomputable def optList (p : ℕ → Prop) (f : ∀ k, Ten ℂ (q k) (D k) (D (k + 1))) : BList q D :=
  fun k => if p k then some (f k) else none

theorem optList_pos {p : ℕ → Prop} {k : ℕ} (h : p k) (f : ∀ k, Ten ℂ (q k) (D k) (D (k + 1))) :
    optList p f k = some (f k) := if_pos h

theorem optList_neg {p : ℕ → Prop} {k : ℕ} (h : ¬ p k) (f : ∀ k, Ten ℂ (q k) (D k) (D (k + 1))) :
    optList p f k = none := if_neg h

theorem optList_at {p : ℕ → Prop} {k : ℕ} {f g : ∀ k, Ten ℂ (q k) (D k) (D (k + 1))} (h : f k = g k) :
    optList p f k = optList p g k := by
  unfold optList; rw [h]

theorem exists_optList {p : ℕ → Prop} (B : BList q D) (h : ∀ k, (B k).isSome ↔ p k) :
    ∃ f, B = optList p f := by
  refine ⟨fun k => (B k).getD 0, ?_⟩
  funext k
  by_cases hk : p k
  · rw [optList_pos hk]
    obtain ⟨b, hb⟩ := Option.isSome_iff_exists.mp ((h k).mpr hk)
    rw [hb]; rfl
  · rw [optList_neg hk]
    exact Option.not_isSome_iff_eq_none.mp fun hs => hk ((h k).mp hs)

theorem calcBn_isSome_iff {P : Num} {g : Gauge} {ham : Ham ℂ q} {S : TDVP ℂ q D} {lm rm} {k : ℕ} {Bn}
    (h : calcBn P g N ham S lm rm k = some Bn) : Bn.isSome ↔ room g q D k := by
  cases g
  · simp only [calcBn, calcBrn] at h
    split at h
    · next hlt =>
      obtain ⟨V, _, h2⟩ := Option.bind_eq_some_iff.mp h
      obtain ⟨x, _, h4⟩ := Option.map_eq_some_iff.mp h2
      rw [← h4]
      exact ⟨fun _ => hlt, fun _ => rfl⟩
    · next hlt =>
      rw [← Option.some.inj h]
      exact ⟨fun h => absurd h (by simp), fun h => absurd h hlt⟩
  · simp only [calcBn, calcBln] at h
    split at h
    · next hlt =>
      obtain ⟨V, _, h2⟩ := Option.bind_eq_some_iff.mp h
      obtain ⟨x, _, h4⟩ := Option.map_eq_some_iff.mp h2
      rw [← h4]
      exact ⟨fun _ => hlt, fun _ => rfl⟩
    · next hlt =>
      rw [← Option.some.inj h]
      exact ⟨fun h => absurd h (by simp), fun h => absurd h hlt⟩

theorem calcB_isSome_iff {P : Num} {g : Gauge} {ham : Ham ℂ q} {S : TDVP ℂ q D} {lm rm}
    {out : TangentOut q D} (h : calcB P g N ham S lm rm = some out) (k : ℕ) :
    (out.B k).isSome ↔ k < N ∧ room g q D k := by
  obtain ⟨h1, h2, _⟩ := calcB_spec h
  by_cases hk : k < N
  · obtain ⟨Bn, e1, e2, _⟩ := h1 k hk
    rw [e2, Option.isSome_map, calcBn_isSome_iff e1]
    simp [hk]
  · rw [(h2 k (by omega)).1]
    simp [hk]

theorem eulerLoop_moved {p : ℕ → Prop} (hp : ∀ k, p k → k < N) (c : ℂ)
    (f : ∀ k, Ten ℂ (q k) (D k) (D (k + 1))) (A : Tensors ℂ q D) :
    eulerLoop N c (optList p f) A = moved A c (optList p f) := by
  rw [eulerLoop_eq]
  funext k
  by_cases hk : p k
  · simp only [moved, optList_pos hk, if_pos (hp k hk)]
  · simp only [moved, optList_neg hk, Option.elim_none, ite_self]

theorem rkLoop_eq {p : ℕ → Prop} (hp : ∀ k, p k → k < N) (c : ℂ) (A0 A : Tensors ℂ q D)
    (b f : ∀ k, Ten ℂ (q k) (D k) (D (k + 1))) (hA : ∀ k, ¬ p k → A k = A0 k) :
    rkLoop N c A0 (optList p b) (A, optList p f)
      = some (moved A0 c (optList p b), optList p fun k => f k + (2 : ℂ) • b k) := by
  classical
  have key : ∀ m, (List.range' 0 m).foldl (fun (X : Option (Tensors ℂ q D × BList q D)) k =>
      X.bind fun X => (optList p b k).elim (some X) fun b => (X.2 k).map fun f =>
        (Function.update X.1 k (A0 k - c • b), Function.update X.2 k (some (f + (2 : ℂ) • b))))
      (some (A, optList p f))
      = some (fun k => if k < m then moved A0 c (optList p b) k else A k,
          optList p fun k => if k < m then f k + (2 : ℂ) • b k else f k) := by
    intro m
    induction m with
    | zero => simp
    | succ m ih =>
      rw [List.range'_concat, List.foldl_append, ih]
      simp only [List.foldl_cons, List.foldl_nil, Nat.one_mul, Nat.zero_add, Option.bind_some]
      by_cases hm : p m
      · simp only [optList_pos hm, Option.elim_some, Option.map_some, Nat.lt_irrefl, if_false]
        congr 1
        refine Prod.ext ?_ ?_
        · funext k
          by_cases hk : k = m
          · subst hk
            simp only [Function.update_self, if_pos (Nat.lt_succ_self k), moved, optList_pos hm,
              Option.elim_some]
          · simp only [Function.update_of_ne hk]
            exact if_congr (by omega) rfl rfl
        · funext k
          by_cases hk : k = m
          · subst hk
            simp only [Function.update_self, if_pos (Nat.lt_succ_self k), optList_pos hm]
          · simp only [Function.update_of_ne hk]
            unfold optList
            refine if_congr Iff.rfl ?_ rfl
            congr 1
            exact if_congr (by omega) rfl rfl
      · simp only [optList_neg hm, Option.elim_none]
        congr 1
        refine Prod.ext ?_ ?_
        · funext k
          by_cases hk : k = m
          · subst hk
            simp only [Nat.lt_irrefl, if_false, if_pos (Nat.lt_succ_self k), moved, optList_neg hm,
              Option.elim_none, hA k hm]
          · exact if_congr (by omega) rfl rfl
        · funext k
          by_cases hk : k = m
          · subst hk
            simp only [optList_neg hm]
          · unfold optList
            refine if_congr Iff.rfl ?_ rfl
            congr 1
            exact if_congr (by omega) rfl rfl
  rw [rkLoop, key N]
  congr 1
  refine Prod.ext ?_ ?_
  · funext k
    by_cases hk : p k
    · exact if_pos (hp k hk)
    · simp only [moved, optList_neg hk, Option.elim_none, hA k hk, ite_self]
  · funext k
    unfold optList
    by_cases hk : p k
    · simp only [if_pos hk, if_pos (hp k hk)]
    · simp only [if_neg hk]

theorem rkLast_eq {P : Num} {g : Gauge} {ham : Ham ℂ q} {S : TDVP ℂ q D} {lm rm}
    (f : ∀ k, Ten ℂ (q k) (D k) (D (k + 1))) {F : BList q D}
    (h : rkLast P g N ham S lm rm (optList (fun k => k < N ∧ room g q D k) f) = some F) :
    ∃ b, (calcB P g N ham S lm rm).map TangentOut.B = some (optList (fun k => k < N ∧ room g q D k) b) ∧
      F = optList (fun k => k < N ∧ room g q D k) fun k => f k + b k := by
  classical
  set p : ℕ → Prop := fun k => k < N ∧ room g q D k with hp
  have key := foldUp_inv (fun (F : Option (BList q D)) k => F.bind fun F =>
    (calcBn P g N ham S lm rm k).bind fun Bn =>
      Bn.elim (some F) fun b => (F k).map fun f => Function.update F k (some (f + b.1)))
    (fun m X => ∀ F, X = some F → ∃ Bn : ∀ k, Option (Ten ℂ (q k) (D k) (D (k + 1)) × ℂ),
      (∀ k < m, calcBn P g N ham S lm rm k = some (Bn k)) ∧
      F = optList p fun k => if k < m then f k + ((Bn k).map Prod.fst).getD 0 else f k) 0 N
    (some (optList p f))
    (by rintro F h; obtain rfl := Option.some.inj h
        exact ⟨fun _ => none, fun k hk => absurd hk (by omega), by simp⟩)
    (by
      intro m _ hm X ih F hF
      obtain rfl | ⟨F0, rfl⟩ : X = none ∨ ∃ F0, X = some F0 := by cases X <;> simp
      · simp at hF
      obtain ⟨Bn, h1, rfl⟩ := ih F0 rfl
      rw [Option.bind_some] at hF
      obtain ⟨Bm, hBm, hF⟩ := Option.bind_eq_some_iff.mp hF
      refine ⟨Function.update Bn m Bm, fun k hk => ?_, ?_⟩
      · by_cases hkm : k = m
        · subst hkm; rw [Function.update_self]; exact hBm
        · rw [Function.update_of_ne hkm]; exact h1 k (by omega)
      · have hroom := calcBn_isSome_iff hBm
        cases Bm with
        | none =>
          have hpm : ¬ p m := fun hpm => by simpa using hroom.mpr hpm.2
          simp only [Option.elim_none] at hF
          rw [← Option.some.inj hF]
          funext k
          by_cases hk : k = m
          · subst hk; rw [optList_neg hpm, optList_neg hpm]
          · refine optList_at ?_
            rw [Function.update_of_ne hk]
            exact if_congr (by omega) rfl rfl
        | some b =>
          have hpm : p m := ⟨by omega, hroom.mp rfl⟩
          simp only [Option.elim_some, optList_pos hpm, Nat.lt_irrefl, if_false, Option.map_some] at hF
          rw [← Option.some.inj hF]
          funext k
          by_cases hk : k = m
          · subst hk
            rw [Function.update_self, optList_pos hpm, if_pos (by omega), Function.update_self]
            rfl
          · rw [Function.update_of_ne hk]
            refine optList_at ?_
            rw [Function.update_of_ne hk]
            exact if_congr (by omega) rfl rfl)
  obtain ⟨Bn, h1, rfl⟩ := key F h
  rw [Nat.zero_add] at h1
  refine ⟨fun k => ((Bn k).map Prod.fst).getD 0, ?_, ?_⟩
  · rw [calcB_map P g ham S lm rm Bn h1]
    congr 1
    funext k
    by_cases hk : k < N
    · have hroom := calcBn_isSome_iff (h1 k hk)
      rw [if_pos hk]
      cases hb : Bn k with
      | none =>
        rw [hb] at hroom
        rw [optList_neg fun hpk => by simpa using hroom.mpr hpk.2]
        rfl
      | some b =>
        rw [hb] at hroom
        rw [optList_pos ⟨hk, hroom.mp rfl⟩, hb]
        rfl
    · rw [if_neg hk, optList_neg fun hpk => hk hpk.1]
  · funext k
    by_cases hk : p k
    · simp only [optList_pos hk, if_pos (show k < 0 + N by have := hk.1; omega)]
    · simp only [optList_neg hk]

/-! ## Updating -/

theorem calcKls_toMPS {R : Type*} [CommRing R] [StarRing R] (ham : Ham R q) (hN : D N = 1)
    {S S' : TDVP R q D} (h : calcKls N ham hN S = some S') : S'.toMPS = S.toMPS := by
  unfold calcKls at h
  split at h
  · simp at h
  · obtain ⟨T, hT, rfl⟩ := Option.map_eq_some_iff.mp h
    have key := foldUp_inv (fun (S : Option (TDVP R q D)) j => S.bind fun S => calcKlIter ham S j)
      (fun _ X => ∀ T, X = some T → T.toMPS = S.toMPS) 0 (N + 1 - ham.sites)
      (some { S with Kl := Function.update (Function.update S.Kl 1 0) 2 0 })
      (by rintro T h; obtain rfl := Option.some.inj h; rfl)
      (by
        intro n _ _ X ih T hT
        obtain rfl | ⟨T0, rfl⟩ : X = none ∨ ∃ T0, X = some T0 := by cases X <;> simp
        · simp at hT
        rw [Option.bind_some] at hT
        rw [← ih T0 rfl]
        unfold calcKlIter at hT
        cases ham <;>
        · obtain ⟨C, _, rfl⟩ := Option.map_eq_some_iff.mp hT
          rfl)
    exact key T hT

/-- What `update(restore_CF=False, normalize=False)` does to the state itself. -/
theorem tdvpUpdate_spec {R : Type*} [CommRing R] [StarRing R] {g : Gauge} {ham : Ham R q} {h0 : D 0 = 1}
    {hN : D N = 1} {S S' : TDVP R q D} (h : tdvpUpdate g N ham h0 hN S = some S') (hl : S.l 0 = 1)
    (hr : S.r N = 1) : S'.A = S.A ∧ UpToDate N S'.A S'.l S'.r := by
  obtain ⟨e1, e2⟩ := updateNoCF_upToDate N S.toMPS hl hr
  have hM : S'.toMPS = updateNoCF N S.toMPS := by
    cases g
    · simp only [tdvpUpdate, Option.some.injEq] at h
      rw [← h, (calcKs_spec (N := N) ham h0 _).1, (calcCs_spec (N := N) ham _).1]
    · simp only [tdvpUpdate] at h
      rw [calcKls_toMPS ham hN h, (calcCs_spec (N := N) ham _).1]
  rw [hM]
  exact ⟨e1, e2⟩

end

end EvoMPS
