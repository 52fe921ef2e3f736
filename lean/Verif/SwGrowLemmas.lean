import Verif.SwGrow
import Verif.SwEnergyMain

/-!
# Lemmas about growing the window
-/

set_option linter.unusedSectionVars false

namespace EvoMPS.Uni

open Matrix

variable {q D : ℕ} {S : SwT q D} {H : ℤ → UHam q} {site : ℤ → Ten ℂ q D D} {l r : ℤ → Matrix (Fin D) (Fin D) ℂ}

theorem sw_calcL_spec (c : SandwichChain S.uniL.L S.N S.uniR.L S.uniL.A S.A S.uniR.A S.uniL.l S.uniR.r site l r) (hL : 0 < S.uniL.L)
    (n : ℕ) (hn : n ≤ S.N) : S.calcL.l n = l n := by
  have key : ∀ k ≤ S.N, ∀ n ≤ k, ((List.range' 1 k).foldl (fun l n => Function.update l n (epsL (l (n - 1)) (S.A n) (S.A n)))
      (Function.update S.l 0 (S.uniL.l (S.uniL.L - 1)))) n = l n := by
    intro k
    induction k with
    | zero =>
      intro _ n hn
      obtain rfl : n = 0 := by omega
      have := c.envL_mod (n := 0) (m := 1) (j := S.uniL.L - 1) le_rfl (by rw [Nat.cast_sub (by omega)]; push_cast; ring)
      rw [Nat.mod_eq_of_lt (by omega)] at this
      exact this.symm
    | succ k ih =>
      intro hk n hn
      rw [List.range'_concat, List.foldl_append, show 1 + 1 * k = k + 1 by ring]
      simp only [List.foldl_cons, List.foldl_nil]
      by_cases hnk : n = k + 1
      · subst hnk
        rw [Function.update_self, Nat.add_sub_cancel, ih (by omega) k le_rfl, epsL_eq]
        have e := c.stepL ((k + 1 : ℕ) : ℤ)
        rw [c.siteW (k + 1) (by omega) hk, show ((k + 1 : ℕ) : ℤ) - 1 = k by push_cast; ring] at e
        exact e.symm
      · rw [Function.update_of_ne hnk, ih (by omega) n (by omega)]
  unfold SwT.calcL
  simp only []
  rw [Function.update_of_ne (by omega), key S.N le_rfl n hn]

theorem sw_calcR_end : S.calcR.r (S.N + 1) = S.r (S.N + 1) := by
  have key : ∀ (x : List ℕ) (f : ℕ → Matrix (Fin D) (Fin D) ℂ), (∀ n ∈ x, n < S.N) →
      (x.foldl (fun r n => Function.update r n (epsR (r (n + 1)) (S.A (n + 1)) (S.A (n + 1)))) f) (S.N + 1) = f (S.N + 1) := by
    intro x
    induction x with
    | nil => intro f _; rfl
    | cons a x ih =>
      intro f hx
      have ha := hx a (by simp)
      rw [List.foldl_cons, ih _ fun n hn => hx n (by simp [hn]), Function.update_of_ne (by omega)]
  unfold SwT.calcR
  simp only []
  rw [key _ _ (by simp), Function.update_of_ne (by omega)]

theorem sw_calcR_spec (c : SandwichChain S.uniL.L S.N S.uniR.L S.uniL.A S.A S.uniR.A S.uniL.l S.uniR.r site l r) (hR : 0 < S.uniR.L)
    (n : ℕ) (hn : n ≤ S.N) : S.calcR.r n = r n := by
  have key : ∀ k ≤ S.N, ∀ n : ℕ, S.N - k ≤ n → n ≤ S.N →
      (((List.range S.N).reverse.take k).foldl (fun r n => Function.update r n (epsR (r (n + 1)) (S.A (n + 1)) (S.A (n + 1))))
      (Function.update S.r S.N (S.uniR.r (S.uniR.L - 1)))) n = r n := by
    intro k
    induction k with
    | zero =>
      intro _ n h1 hn
      simp only [List.take_zero, List.foldl_nil]
      obtain rfl : n = S.N := by omega
      rw [Function.update_self, c.envR S.N le_rfl]
      refine congrArg _ ?_
      have : ((S.N : ℤ) - S.N - 1) % (S.uniR.L : ℤ) = S.uniR.L - 1 := by
        rw [sub_self, zero_sub, Int.emod_eq_add_self_emod, Int.emod_eq_of_lt (by omega) (by omega)]; ring
      rw [this]; omega
    | succ k ih =>
      intro hk n h1 hn
      rw [List.take_add_one, List.foldl_append]
      have hg : (List.range S.N).reverse[k]? = some (S.N - 1 - k) := by
        rw [List.getElem?_reverse (by simpa using hk)]
        rw [List.getElem?_range (by simp; omega)]
        simp
      rw [hg]
      simp only [Option.toList_some, List.foldl_cons, List.foldl_nil]
      by_cases hnk : n = S.N - 1 - k
      · subst hnk
        rw [Function.update_self, ih (by omega) _ (by omega) (by omega), epsR_eq]
        have e := c.stepR ((S.N - 1 - k + 1 : ℕ) : ℤ)
        rw [c.siteW (S.N - 1 - k + 1) (by omega) (by omega), show ((S.N - 1 - k + 1 : ℕ) : ℤ) - 1 = (S.N - 1 - k : ℕ) by push_cast; ring] at e
        exact e.symm
      · rw [Function.update_of_ne hnk, ih (by omega) n (by omega) hn]
  have := key S.N le_rfl n (by omega) hn
  rw [List.take_of_length_le (by simp)] at this
  exact this

/-- `update(restore_CF=False, normalize=False)` of a state with correct bulks and a correct last right environment. -/
theorem ready_update (posL : 0 < S.uniL.L) (posR : 0 < S.uniR.L) (envL : ChainEnv S.uniL.L S.uniL.A S.uniL.l S.uniL.r)
    (envR : ChainEnv S.uniR.L S.uniR.A S.uniR.l S.uniR.r) (hermL : ∀ k < S.uniL.L, (S.uniL.l k)ᴴ = S.uniL.l k)
    (hermR : ∀ k < S.uniL.L, (S.uniL.r k)ᴴ = S.uniL.r k)
    (c : SandwichChain S.uniL.L S.N S.uniR.L S.uniL.A S.A S.uniR.A S.uniL.l S.uniR.r site l r)
    (hend : S.r (S.N + 1) = r (S.N + 1)) (blocks : S.hamSites = 3 → S.uniR.L ∣ S.N) (sites : ∀ n, (H n).sites = S.hamSites)
    (hamL : ∀ n : ℤ, n < 2 - S.hamSites → H n = S.uniL.ham)
    (hamW : ∀ n : ℤ, 2 - S.hamSites ≤ n → n ≤ S.N → S.hamAt n = some (H n))
    (hamR : ∀ n : ℤ, S.N < n → H n = S.uniR.ham) (centre : 1 ≤ S.nc ∧ S.nc ≤ S.N) :
    SwReady S.calcL.calcR H site l r where
  posL := posL
  posR := posR
  envL := envL
  envR := envR
  hermL := hermL
  hermR := hermR
  chain := c
  curL n _ hn := sw_calcL_spec c posL n hn
  curR n hn := by
    rcases Nat.le_succ_iff.1 hn with h | rfl
    · exact sw_calcR_spec (S := S.calcL) c posR n h
    · exact (sw_calcR_end (S := S.calcL)).trans (hend.trans (by rw [Nat.succ_eq_add_one]; push_cast; rfl))
  blocks := blocks
  sites := sites
  hamL := hamL
  hamW := hamW
  hamR := hamR
  centre := centre

theorem pyGet_nat {α : Type*} (x : List α) (n : ℤ) (hn : 0 ≤ n) : pyGet x n = x[n.toNat]? := by
  unfold pyGet
  rw [if_neg (by omega)]

theorem growLeft_chain (h : SwReady S H site l r) (m : ℕ) :
    SandwichChain S.uniL.L (S.growLeft m).N S.uniR.L S.uniL.A (S.growLeft m).A S.uniR.A S.uniL.l S.uniR.r
      (fun n => site (n - (m * S.uniL.L : ℕ))) (fun n => l (n - (m * S.uniL.L : ℕ))) (fun n => r (n - (m * S.uniL.L : ℕ))) := by
  have c := h.chain
  have hN : (S.growLeft m).N = S.N + m * S.uniL.L := rfl
  have hmod : ∀ n : ℤ, (n - (m * S.uniL.L : ℕ) - 1) % (S.uniL.L : ℤ) = (n - 1) % (S.uniL.L : ℤ) := fun n => by
    rw [show n - ((m * S.uniL.L : ℕ) : ℤ) - 1 = n - 1 - S.uniL.L * m by push_cast; ring, Int.sub_mul_emod_self_left]
  constructor
  · intro n hn
    rw [c.siteL _ (by omega), hmod]
  · intro n h1 hn
    unfold SwT.growLeft
    simp only []
    split
    · rename_i hle
      rw [c.siteL _ (by omega), hmod]
      refine congrArg _ ?_
      rw [show (n : ℤ) - 1 = (n - 1 : ℕ) by omega]
      norm_cast
    · rename_i hle
      rw [show (n : ℤ) - (m * S.uniL.L : ℕ) = (n - m * S.uniL.L : ℕ) by omega]
      exact c.siteW _ (by omega) (by omega)
  · intro n hn
    rw [c.siteR _ (by omega), hN]
    congr 4
    push_cast; ring
  · intro n hn
    rw [c.envL _ (by omega), hmod]
  · intro n hn
    rw [c.envR _ (by omega), hN]
    congr 4
    push_cast; ring
  · intro n
    have := c.stepL (n - (m * S.uniL.L : ℕ))
    rw [show n - ((m * S.uniL.L : ℕ) : ℤ) - 1 = n - 1 - (m * S.uniL.L : ℕ) by ring] at this
    exact this
  · intro n
    have := c.stepR (n - (m * S.uniL.L : ℕ))
    rw [show n - ((m * S.uniL.L : ℕ) : ℤ) - 1 = n - 1 - (m * S.uniL.L : ℕ) by ring] at this
    exact this
  · exact chain_norm c _

/-- Growing to the left, for terms on two sites. -/
theorem growLeft_ready (h : SwReady S H site l r) (h2 : S.hamSites = 2) {hl : List (UHam q)} (hham : S.ham = .list hl)
    (hrr : S.uniR.r 0 = S.uniR.r (S.uniR.L - 1)) (m : ℕ) :
    SwReady (S.growLeft m).calcL.calcR (fun n => H (n - (m * S.uniL.L : ℕ))) (fun n => site (n - (m * S.uniL.L : ℕ)))
      (fun n => l (n - (m * S.uniL.L : ℕ))) (fun n => r (n - (m * S.uniL.L : ℕ))) := by
  have hN : (S.growLeft m).N = S.N + m * S.uniL.L := rfl
  have hr0 := h.curR S.N (by omega)
  have c := growLeft_chain h m
  refine ready_update (S := S.growLeft m) h.posL h.posR h.envL h.envR h.hermL h.hermR c ?_ (fun h3 => ?_) (fun n => h.sites _)
    (fun n hn => h.hamL _ ?_) (fun n h1 hn => ?_) (fun n hn => h.hamR _ ?_) ?_
  · have e1 : (S.growLeft m).r ((S.growLeft m).N + 1) = S.r S.N := by
      unfold SwT.growLeft
      simp only []
      exact Function.update_self _ _ _
    rw [e1, hr0, h.chain.envR S.N le_rfl, h.chain.envR _ (by rw [hN]; push_cast; omega)]
    rw [show ((S.N : ℤ) - S.N - 1) % (S.uniR.L : ℤ) = S.uniR.L - 1 by
      have := h.posR
      rw [sub_self, zero_sub, Int.emod_eq_add_self_emod, Int.emod_eq_of_lt (by omega) (by omega)]; ring]
    rw [show ((S.growLeft m).N : ℤ) + 1 - (m * S.uniL.L : ℕ) - S.N - 1 = 0 by rw [hN]; push_cast; ring, Int.zero_emod,
      show ((S.uniR.L : ℤ) - 1).toNat = S.uniR.L - 1 by omega]
    exact hrr.symm
  · have h3 : S.hamSites = 3 := h3
    omega
  · have hn : n < 2 - (S.hamSites : ℤ) := hn
    omega
  · have h1 : 2 - (S.hamSites : ℤ) ≤ n := h1
    have hn : n ≤ ((S.N + m * S.uniL.L : ℕ) : ℤ) := hn
    have e1 : (S.growLeft m).hamAt n = pyGet (List.replicate (m * S.uniL.L) S.uniL.ham ++ hl) n := by
      unfold SwT.hamAt SwT.growLeft
      simp only [hham]
    rw [e1, pyGet_nat _ _ (by omega)]
    by_cases hlt : n < (m * S.uniL.L : ℕ)
    · rw [List.getElem?_append_left (by rw [List.length_replicate]; omega), List.getElem?_replicate, if_pos (by omega),
        h.hamL _ (by omega)]
    · rw [List.getElem?_append_right (by rw [List.length_replicate]; omega), List.length_replicate]
      have := h.hamW (n - (m * S.uniL.L : ℕ)) (by omega) (by push_cast at hn ⊢; omega)
      unfold SwT.hamAt at this
      simp only [hham] at this
      rw [pyGet_nat _ _ (by omega)] at this
      rw [← this]
      congr 1
      omega
  · have hn : ((S.N + m * S.uniL.L : ℕ) : ℤ) < n := hn
    push_cast at hn ⊢
    omega
  · have hc := h.centre
    have := h.posL
    have : m ≤ m * S.uniL.L := Nat.le_mul_of_pos_right m this
    show 1 ≤ S.nc + m ∧ S.nc + m ≤ S.N + m * S.uniL.L
    omega

theorem growRight_eq (hR : 0 < S.uniR.L) {m : ℕ} (hm : 0 < m) : ∃ T, S.growRight m = some T ∧ T.N = S.N + m * S.uniR.L ∧
    T.nc = S.nc ∧ T.uniL = S.uniL ∧ T.uniR = S.uniR ∧ T.hamSites = S.hamSites ∧
    (∀ n, T.A n = if n ≤ S.N then S.A n else S.uniR.A ((n - S.N - 1) % S.uniR.L)) ∧ T.r (T.N + 1) = S.r S.N ∧
    ∀ hl, S.ham = .list hl → T.ham = .list (hl ++ List.replicate (m * S.uniR.L) S.uniR.ham) := by
  unfold SwT.growRight
  simp only []
  rw [if_neg (by positivity)]
  refine ⟨_, rfl, rfl, rfl, rfl, rfl, rfl, fun n => rfl, Function.update_self _ _ _, fun hl hh => ?_⟩
  simp only [hh]

theorem growRight_chain (h : SwReady S H site l r) (m : ℕ) {A : ℕ → Ten ℂ q D D}
    (hA : ∀ n, A n = if n ≤ S.N then S.A n else S.uniR.A ((n - S.N - 1) % S.uniR.L)) :
    SandwichChain S.uniL.L (S.N + m * S.uniR.L) S.uniR.L S.uniL.A A S.uniR.A S.uniL.l S.uniR.r site l r := by
  have c := h.chain
  have hmod : ∀ n : ℤ, (n - (S.N + m * S.uniR.L : ℕ) - 1) % (S.uniR.L : ℤ) = (n - S.N - 1) % (S.uniR.L : ℤ) := fun n => by
    rw [show n - ((S.N + m * S.uniR.L : ℕ) : ℤ) - 1 = n - S.N - 1 - S.uniR.L * m by push_cast; ring, Int.sub_mul_emod_self_left]
  constructor
  · exact c.siteL
  · intro n h1 hn
    rw [hA]
    split
    · rename_i hle
      exact c.siteW n h1 hle
    · rename_i hle
      rw [c.siteR _ (by omega)]
      refine congrArg _ ?_
      rw [show (n : ℤ) - S.N - 1 = (n - S.N - 1 : ℕ) by omega]
      norm_cast
  · intro n hn
    rw [c.siteR n (by push_cast at hn; have : (0 : ℤ) ≤ m * S.uniR.L := by positivity
                      omega), hmod]
  · exact c.envL
  · intro n hn
    rw [c.envR n (by push_cast at hn; have : (0 : ℤ) ≤ m * S.uniR.L := by positivity
                     omega), hmod]
  · exact c.stepL
  · exact c.stepR
  · exact c.norm

/-- Growing to the right, for terms on two sites. -/
theorem growRight_ready (h : SwReady S H site l r) (h2 : S.hamSites = 2) {hl : List (UHam q)} (hham : S.ham = .list hl)
    (hlen : hl.length = S.N + 1) (hrr : S.uniR.r 0 = S.uniR.r (S.uniR.L - 1)) {m : ℕ} (hm : 0 < m) :
    ∃ T, S.growRight m = some T ∧ T.N = S.N + m * S.uniR.L ∧ T.uniL = S.uniL ∧ T.uniR = S.uniR ∧ T.hamSites = S.hamSites ∧
      SwReady T.calcL.calcR H site l r := by
  obtain ⟨T, t0, tN, tnc, tl, tr, ths, tA, tend, tham⟩ := growRight_eq (S := S) h.posR hm
  refine ⟨T, t0, tN, tl, tr, ths, ?_⟩
  have c := growRight_chain h m tA
  have hc := h.centre
  have hR := h.posR
  refine ready_update (S := T) ?_ ?_ ?_ ?_ ?_ ?_ ?_ ?_ ?_ ?_ ?_ ?_ ?_ ?_
  · rw [tl]; exact h.posL
  · rw [tr]; exact h.posR
  · rw [tl]; exact h.envL
  · rw [tr]; exact h.envR
  · rw [tl]; exact h.hermL
  · rw [tl]; exact h.hermR
  · rw [tl, tr, tN]; exact c
  · have e0 : ∀ k : ℕ, (((S.N + k * S.uniR.L : ℕ) : ℤ) + 1 - S.N - 1) % (S.uniR.L : ℤ) = 0 := fun k => by
      rw [show ((S.N + k * S.uniR.L : ℕ) : ℤ) + 1 - S.N - 1 = k * S.uniR.L by push_cast; ring, Int.mul_emod_left]
    rw [tend, tN, h.curR S.N (by omega), h.chain.envR S.N le_rfl, h.chain.envR _ (by omega), e0]
    rw [show ((S.N : ℤ) - S.N - 1) % (S.uniR.L : ℤ) = S.uniR.L - 1 by
      rw [sub_self, zero_sub, Int.emod_eq_add_self_emod, Int.emod_eq_of_lt (by omega) (by omega)]; ring,
      show ((S.uniR.L : ℤ) - 1).toNat = S.uniR.L - 1 by omega]
    exact hrr.symm
  · intro h3; omega
  · rw [ths]; exact h.sites
  · rw [ths, tl]; exact h.hamL
  · intro n h1 hn
    rw [ths] at h1
    rw [tN] at hn
    have e1 : T.hamAt n = pyGet (hl ++ List.replicate (m * S.uniR.L) S.uniR.ham) n := by
      unfold SwT.hamAt
      simp only [tham hl hham]
    rw [e1, pyGet_nat _ _ (by omega)]
    by_cases hlt : n ≤ S.N
    · rw [List.getElem?_append_left (by omega)]
      have := h.hamW n (by omega) hlt
      unfold SwT.hamAt at this
      simp only [hham] at this
      rwa [pyGet_nat _ _ (by omega)] at this
    · rw [List.getElem?_append_right (by omega), List.getElem?_replicate, if_pos (by omega), h.hamR _ (by omega)]
  · intro n hn
    rw [tN] at hn
    rw [tr]
    exact h.hamR n (by push_cast at hn; have : (0 : ℤ) ≤ m * S.uniR.L := by positivity
                       omega)
  · rw [tnc, tN]; omega

end EvoMPS.Uni
