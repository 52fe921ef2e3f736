import Verif.SwStepLemmas
import Verif.Props.UniformK

/-!
# Time steps of sandwich states: the state after `update`
-/

namespace EvoMPS.Uni

open Matrix

variable {q D : ℕ}

/-- Everything that neither `update` nor a step changes: the bulk tensors and environments, the Hamiltonian, the size. -/
structure SameFrame (S T : SwT q D) : Prop where
  N : T.N = S.N
  nc : T.nc = S.nc
  hamSites : T.hamSites = S.hamSites
  ham : T.ham = S.ham
  left : T.uniL.L = S.uniL.L ∧ T.uniL.A = S.uniL.A ∧ T.uniL.l = S.uniL.l ∧ T.uniL.r = S.uniL.r ∧ T.uniL.ham = S.uniL.ham
  right : T.uniR.L = S.uniR.L ∧ T.uniR.A = S.uniR.A ∧ T.uniR.l = S.uniR.l ∧ T.uniR.r = S.uniR.r ∧ T.uniR.ham = S.uniR.ham

theorem SameFrame.refl (S : SwT q D) : SameFrame S S := ⟨rfl, rfl, rfl, rfl, ⟨rfl, rfl, rfl, rfl, rfl⟩, ⟨rfl, rfl, rfl, rfl, rfl⟩⟩

theorem SameFrame.trans {S T U : SwT q D} (h : SameFrame S T) (g : SameFrame T U) : SameFrame S U := by
  obtain ⟨h1, h2, h3, h4, ⟨a1, a2, a3, a4, a5⟩, b1, b2, b3, b4, b5⟩ := h
  obtain ⟨g1, g2, g3, g4, ⟨c1, c2, c3, c4, c5⟩, d1, d2, d3, d4, d5⟩ := g
  exact ⟨g1.trans h1, g2.trans h2, g3.trans h3, g4.trans h4, ⟨c1.trans a1, c2.trans a2, c3.trans a3, c4.trans a4, c5.trans a5⟩,
    d1.trans b1, d2.trans b2, d3.trans b3, d4.trans b4, d5.trans b5⟩

theorem SameFrame.free {S T : SwT q D} (h : SameFrame S T) (n : ℕ) : T.free n ↔ S.free n := by
  rw [SwT.free, SwT.free, h.N, h.nc]

theorem calcCStep_frame {S T : SwT q D} {n : ℤ} (h : S.calcCStep n = some T) : SameBut S T := by
  unfold SwT.calcCStep at h
  obtain ⟨hm, -, h⟩ := Option.bind_eq_some_iff.1 h
  simp only [] at h
  split at h <;> split at h <;> cases h <;> rfl

theorem calcC_frame {S T : SwT q D} (h : S.calcC = some T) : SameBut S T := by
  unfold SwT.calcC at h
  generalize (List.range (S.N + S.hamSites - 1)).map (fun i : ℕ => (i : ℤ) + 2 - S.hamSites) = L at h
  induction L generalizing S with
  | nil => cases h; rfl
  | cons a L ih =>
    rw [List.foldlM_cons] at h
    obtain ⟨U, h1, h2⟩ := Option.bind_eq_some_iff.1 h
    exact (calcCStep_frame h1).trans (ih h2)

theorem UTDVP.calcC_frame (S : UTDVP q D) : S.calcC.L = S.L ∧ S.calcC.A = S.A ∧ S.calcC.l = S.l ∧ S.calcC.r = S.r ∧ S.calcC.ham = S.ham := by
  unfold UTDVP.calcC
  cases h : S.ham <;> simp [UMPS.calcAAs]

theorem UTDVP.calcK_frame {S T : UTDVP q D} {s : Solver D} {j} (h : S.calcK s j = some T) :
    T.L = S.L ∧ T.A = S.A ∧ T.l = S.l ∧ T.r = S.r ∧ T.ham = S.ham := by
  unfold UTDVP.calcK at h
  simp only [] at h
  split at h
  · cases h
  · obtain ⟨_, -, rfl⟩ := Option.map_eq_some_iff.1 h
    exact ⟨rfl, rfl, rfl, rfl, rfl⟩

theorem UTDVP.calcKl_frame {S : UTDVP q D} {p : UTDVP q D × ℂ} {s : Solver D} {j} (h : S.calcKl s j = some p) :
    p.1.L = S.L ∧ p.1.A = S.A ∧ p.1.l = S.l ∧ p.1.r = S.r ∧ p.1.ham = S.ham := by
  unfold UTDVP.calcKl at h
  simp only [] at h
  split at h
  · cases h
  · obtain ⟨_, -, rfl⟩ := Option.map_eq_some_iff.1 h
    exact ⟨rfl, rfl, rfl, rfl, rfl⟩

theorem calcK_frame {S T : SwT q D} {sL sR : Solver D} {jL jR} (h : S.calcK sL sR jL jR = some T) :
    SameFrame S T ∧ T.A = S.A ∧ T.l = S.l ∧ T.r = S.r := by
  unfold SwT.calcK at h
  obtain ⟨uR, h1, h⟩ := Option.bind_eq_some_iff.1 h
  obtain ⟨uh, h2, h⟩ := Option.bind_eq_some_iff.1 h
  obtain ⟨Kl, h3, h⟩ := Option.bind_eq_some_iff.1 h
  obtain ⟨p, h4, h⟩ := Option.bind_eq_some_iff.1 h
  obtain ⟨pl, h5, rfl⟩ := Option.map_eq_some_iff.1 h
  obtain ⟨a1, a2, a3, a4, a5⟩ := UTDVP.calcK_frame h1
  obtain ⟨b1, b2, b3, b4, b5⟩ := UTDVP.calcKl_frame h2
  obtain ⟨c1, c2, c3, c4, c5⟩ := S.uniR.calcC_frame
  obtain ⟨d1, d2, d3, d4, d5⟩ := S.uniL.calcC_frame
  exact ⟨⟨rfl, rfl, rfl, rfl, ⟨b1.trans d1, b2.trans d2, b3.trans d3, b4.trans d4, b5.trans d5⟩,
    a1.trans c1, a2.trans c2, a3.trans c3, a4.trans c4, a5.trans c5⟩, rfl, rfl, rfl⟩

/-- The environments of the window. -/
structure WindowEnv (S : SwT q D) : Prop where
  l_zero : S.l 0 = S.uniL.l (S.uniL.L - 1)
  l_succ : ∀ n < S.N, S.l (n + 1) = ∑ s, (S.A (n + 1) s)ᴴ * S.l n * S.A (n + 1) s
  l_out : S.l (S.N + 1) = ∑ s, (S.uniR.A 0 s)ᴴ * S.l S.N * S.uniR.A 0 s
  r_last : S.r S.N = S.uniR.r (S.uniR.L - 1)
  r_pred : ∀ n < S.N, S.r n = ∑ s, S.A (n + 1) s * S.r (n + 1) * (S.A (n + 1) s)ᴴ

theorem calcLs_loop (A : ℕ → Ten ℂ q D D) (l0 : ℕ → Matrix (Fin D) (Fin D) ℂ) (N : ℕ) :
    let l := (List.range' 1 N).foldl (fun l n => Function.update l n (epsL (l (n - 1)) (A n) (A n))) l0
    l 0 = l0 0 ∧ ∀ n < N, l (n + 1) = epsL (l n) (A (n + 1)) (A (n + 1)) := by
  induction N with
  | zero => exact ⟨rfl, fun n hn => by omega⟩
  | succ N ih =>
    simp only [] at ih ⊢
    rw [range'_one_succ, List.foldl_append, List.foldl_cons, List.foldl_nil]
    refine ⟨by rw [Function.update_of_ne (by omega)]; exact ih.1, fun n hn => ?_⟩
    by_cases h : n = N
    · subst h
      rw [Function.update_self, Function.update_of_ne (by omega), Nat.add_sub_cancel]
    · rw [Function.update_of_ne (by omega), Function.update_of_ne (by omega), ih.2 n (by omega)]

theorem calcRs_loop (A : ℕ → Ten ℂ q D D) (r0 : ℕ → Matrix (Fin D) (Fin D) ℂ) (N : ℕ) :
    let r := (List.range' 0 N).reverse.foldl (fun r n => Function.update r n (epsR (r (n + 1)) (A (n + 1)) (A (n + 1)))) r0
    (∀ n ≥ N, r n = r0 n) ∧ ∀ n < N, r n = epsR (r (n + 1)) (A (n + 1)) (A (n + 1)) := by
  induction N generalizing r0 with
  | zero => exact ⟨fun n _ => rfl, fun n hn => by omega⟩
  | succ N ih =>
    simp only [] at ih ⊢
    rw [List.range'_1_concat, List.reverse_append, List.reverse_singleton, List.singleton_append, List.foldl_cons, Nat.zero_add]
    obtain ⟨h1, h2⟩ := ih (Function.update r0 N (epsR (r0 (N + 1)) (A (N + 1)) (A (N + 1))))
    refine ⟨fun n hn => by rw [h1 n (by omega), Function.update_of_ne (by omega)], fun n hn => ?_⟩
    by_cases h : n = N
    · subst h
      rw [h1 n le_rfl, h1 (n + 1) (by omega), Function.update_self, Function.update_of_ne (by omega)]
    · exact h2 n (by omega)

theorem calcLRs_env (S : SwT q D) : WindowEnv S.calcLs.calcRs := by
  obtain ⟨h1, h2⟩ := calcLs_loop S.A (Function.update S.l 0 (S.uniL.l (S.uniL.L - 1))) S.N
  obtain ⟨h3, h4⟩ := calcRs_loop S.A (Function.update S.r S.N (S.uniR.r (S.uniR.L - 1))) S.N
  have e : S.calcLs.calcRs.l = Function.update ((List.range' 1 S.N).foldl (fun l n => Function.update l n (epsL (l (n - 1)) (S.A n) (S.A n)))
      (Function.update S.l 0 (S.uniL.l (S.uniL.L - 1)))) (S.N + 1) (epsL (((List.range' 1 S.N).foldl (fun l n =>
        Function.update l n (epsL (l (n - 1)) (S.A n) (S.A n))) (Function.update S.l 0 (S.uniL.l (S.uniL.L - 1)))) S.N) (S.uniR.A 0) (S.uniR.A 0)) := rfl
  generalize (List.range' 1 S.N).foldl (fun l n => Function.update l n (epsL (l (n - 1)) (S.A n) (S.A n)))
      (Function.update S.l 0 (S.uniL.l (S.uniL.L - 1))) = L at h1 h2 e
  have er : S.calcLs.calcRs.r = (List.range' 0 S.N).reverse.foldl (fun r n =>
      Function.update r n (epsR (r (n + 1)) (S.A (n + 1)) (S.A (n + 1)))) (Function.update S.r S.N (S.uniR.r (S.uniR.L - 1))) := rfl
  rw [← er] at h3 h4
  simp only [epsR_eq] at h4
  simp only [epsL_eq] at h2
  refine ⟨?_, fun n hn => ?_, ?_, ?_, fun n hn => h4 n hn⟩
  · rw [e, Function.update_of_ne (by omega), h1, Function.update_self]
    rfl
  · have hn : n < S.N := hn
    rw [e, Function.update_of_ne (by omega), Function.update_of_ne (by omega)]
    exact h2 n hn
  · show S.calcLs.calcRs.l (S.N + 1) = ∑ s, (S.uniR.A 0 s)ᴴ * S.calcLs.calcRs.l S.N * S.uniR.A 0 s
    rw [e, Function.update_self, Function.update_of_ne (by omega), epsL_eq]
  · refine (h3 S.N le_rfl).trans ?_
    rw [Function.update_self]
    rfl

theorem WindowEnv.congr {S T : SwT q D} (h : WindowEnv S) (f : SameFrame S T) (hA : T.A = S.A) (hl : T.l = S.l) (hr : T.r = S.r) :
    WindowEnv T := by
  obtain ⟨h1, h2, h3, h4, h5⟩ := h
  obtain ⟨a1, a2, a3, -, -⟩ := f.left
  obtain ⟨b1, b2, -, b4, -⟩ := f.right
  constructor
  · rw [hl, a3, a1]; exact h1
  · rw [f.N, hl, hA]; exact h2
  · rw [f.N, hl, b2]; exact h3
  · rw [f.N, hr, b4, b1]; exact h4
  · rw [f.N, hr, hA]; exact h5

theorem update_frame {S T : SwT q D} {sL sR : Solver D} {jL jR} (h : S.update sL sR jL jR = some T) :
    SameFrame S T ∧ T.A = S.A ∧ WindowEnv T := by
  unfold SwT.update at h
  obtain ⟨U, h1, h2⟩ := Option.bind_eq_some_iff.1 h
  obtain ⟨f, e1, e2, e3⟩ := calcK_frame h2
  have hb := calcC_frame h1
  have f0 : SameFrame S.calcLs.calcRs U ∧ U.A = S.calcLs.calcRs.A ∧ U.l = S.calcLs.calcRs.l ∧ U.r = S.calcLs.calcRs.r := by
    unfold SameBut at hb
    rw [← hb]
    exact ⟨⟨rfl, rfl, rfl, rfl, ⟨rfl, rfl, rfl, rfl, rfl⟩, ⟨rfl, rfl, rfl, rfl, rfl⟩⟩, rfl, rfl, rfl⟩
  have f1 : SameFrame S S.calcLs.calcRs := ⟨rfl, rfl, rfl, rfl, ⟨rfl, rfl, rfl, rfl, rfl⟩, ⟨rfl, rfl, rfl, rfl, rfl⟩⟩
  exact ⟨(f1.trans f0.1).trans f, e1.trans f0.2.1,
    ((calcLRs_env S).congr f0.1 f0.2.1 f0.2.2.1 f0.2.2.2).congr f e1 e2 e3⟩

end EvoMPS.Uni
