import Verif.SwEnergyMain
import Verif.SwGradLemmas

/-!
# Sums of matrix elements over longer and longer pieces of the chain (helper lemmas)
-/

set_option linter.unusedSectionVars false

namespace EvoMPS.Uni

open Matrix

variable {q D : ℕ} {S T : SwT q D} {H : ℤ → UHam q} {site : ℤ → Ten ℂ q D D} {l r : ℤ → Matrix (Fin D) (Fin D) ℂ}

/-- The energy per block of the right bulk. -/
noncomputable def _root_.EvoMPS.Uni.SwT.eR (S : SwT q D) : ℂ :=
  ∑ k ∈ Finset.range S.uniR.L, chainExpect S.uniR.L S.uniR.A S.uniR.l S.uniR.r k S.uniR.ham.sites S.uniR.ham.op

/-- The energy per block of the left bulk. -/
noncomputable def _root_.EvoMPS.Uni.SwT.eL (S : SwT q D) : ℂ :=
  ∑ k ∈ Finset.range S.uniL.L, chainExpect S.uniL.L S.uniL.A S.uniL.l S.uniL.r k S.uniL.ham.sites S.uniL.ham.op

section
variable (h : SwReady S H site l r) (o : SwEnergyOut S T H site l r)
include h o

theorem right_finite {x : ℤ → Matrix (Fin D) (Fin D) ℂ} (d : ℕ) : ∀ n : ℕ, n + d = S.N → S.nc ≤ n →
    (∀ m > (n : ℤ), x m = ∑ s, (site m s)ᴴ * x (m - 1) * site m s) →
    (x n * T.K (n + 1)).trace = sumZ (fun j => termEnergy site x r j (H j).sites (H j).op) (n + 1) d
      + (x S.N * T.uniR.K 0).trace := by
  induction d with
  | zero =>
    intro n hn _ _
    rw [sumZ_zero, zero_add, show n = S.N by omega, o.K0.2]
  | succ d ih =>
    intro n hn hc hx
    have hs23 : 2 ≤ S.hamSites := by rw [← h.sites 0]; exact (UHam.sites_le _).1
    have h1 := hx (n + 1) (by omega)
    rw [show (n : ℤ) + 1 - 1 = n by ring] at h1
    have h2 := ih (n + 1) (by omega) (by omega) (fun m hm => hx m (by push_cast at hm; omega))
    have h3 := trace_siteTermR site x r ((n : ℤ) + 1) (H (n + 1)).sites (H (n + 1)).op
    rw [show (n : ℤ) + 1 - 1 = n by ring] at h3
    have h4 := o.K (n + 1) (by omega) (by omega)
    push_cast at h2 h4
    rw [h4, Matrix.mul_add, Matrix.trace_add, trace_l_at h1, h2, h3, sumZ_succ']
    ring

theorem right_limit (mixR : BlockMixing S.uniR.L S.uniR.A (S.uniR.l (S.uniR.L - 1)) (S.uniR.r (S.uniR.L - 1)))
    {x : ℤ → Matrix (Fin D) (Fin D) ℂ} {n : ℕ} (hn : n ≤ S.N) (hc : S.nc ≤ n)
    (hx : ∀ m > (n : ℤ), x m = ∑ s, (site m s)ᴴ * x (m - 1) * site m s) :
    Filter.Tendsto (fun m : ℕ => sumZ (fun j => termEnergy site x r j (H j).sites (H j).op) (n + 1) (S.N - n + m * S.uniR.L)
      - m * S.eR * (x n * r n).trace) Filter.atTop (nhds ((x n * T.K (n + 1)).trace)) := by
  have hconst : ∀ d : ℕ, (x (n + d) * r (n + d)).trace = (x n * r n).trace := by
    intro d
    induction d with
    | zero => simp
    | succ d ih =>
      have h1 := hx (n + (d + 1 : ℕ)) (by push_cast; omega)
      rw [show (n : ℤ) + (d + 1 : ℕ) - 1 = n + d by push_cast; ring] at h1
      rw [← ih, ← trace_l_at h1, ← h.chain.stepR, show (n : ℤ) + (d + 1 : ℕ) - 1 = n + d by push_cast; ring]
  have hN := hconst (S.N - n)
  rw [show (n : ℤ) + (S.N - n : ℕ) = S.N by omega] at hN
  have b := bulkR_limit' h.chain (x := x) (fun m hm => hx m (by omega)) h.posR _ _ _ _ o.K0.1 mixR
  rw [right_finite h o (S.N - n) n (by omega) hc hx]
  refine ((tendsto_const_nhds (x := sumZ (fun j => termEnergy site x r j (H j).sites (H j).op) (n + 1) (S.N - n))).add b).congr
    fun m => ?_
  have w2 : sumZ (fun n => termEnergy site x r n S.uniR.ham.sites S.uniR.ham.op) (S.N + 1) (m * S.uniR.L)
    = sumZ (fun n => termEnergy site x r n (H n).sites (H n).op) (n + 1 + (S.N - n : ℕ)) (m * S.uniR.L) := by
    rw [show (n : ℤ) + 1 + (S.N - n : ℕ) = S.N + 1 by omega]
    refine Finset.sum_congr rfl fun i hi => ?_
    simp only []
    rw [h.hamR _ (by omega)]
  rw [w2, sumZ_add, hN]
  unfold SwT.eR
  ring

theorem left_finite {y : ℤ → Matrix (Fin D) (Fin D) ℂ} : ∀ n : ℕ, n ≤ S.nc →
    (∀ m ≤ (n : ℤ), y (m - 1) = ∑ s, site m s * y m * (site m s)ᴴ) →
    (T.Kl n * y n).trace = (T.Kl 0 * y 0).trace
      + sumZ (fun j => termEnergy site l y j (H j).sites (H j).op) (2 - S.hamSites) n := by
  intro n
  induction n with
  | zero => intro _ _; rw [sumZ_zero, add_zero]; rfl
  | succ n ih =>
    intro hn hy
    have h1 := hy (n + 1) (by push_cast; omega)
    rw [show (n : ℤ) + 1 - 1 = n by ring] at h1
    rw [o.Kl n (by omega), Matrix.add_mul, Matrix.trace_add, sumZ_succ, ← add_assoc,
      ← ih (by omega) (fun m hm => hy m (by push_cast; omega))]
    congr 1
    · rw [show ((n + 1 : ℕ) : ℤ) = (n : ℤ) + 1 by push_cast; ring, trace_r_at h1]
    · rw [show (2 : ℤ) - S.hamSites + n = n + 2 - S.hamSites by ring, ← trace_siteTermL]
      have e : y ((n + 1 : ℕ) : ℤ) = y ((n : ℤ) + 2 - S.hamSites + (H (n + 2 - S.hamSites)).sites - 1) :=
        congrArg y (by rw [h.sites]; push_cast; ring)
      rw [e]

theorem left_limit (mixL : BlockMixing S.uniL.L S.uniL.A (S.uniL.l (S.uniL.L - 1)) (S.uniL.r (S.uniL.L - 1)))
    {y : ℤ → Matrix (Fin D) (Fin D) ℂ} {n : ℕ} (hc : n ≤ S.nc)
    (hy : ∀ m ≤ (n : ℤ), y (m - 1) = ∑ s, site m s * y m * (site m s)ᴴ) :
    Filter.Tendsto (fun m : ℕ => sumZ (fun j => termEnergy site l y j (H j).sites (H j).op) (2 - S.hamSites - m * S.uniL.L)
      (m * S.uniL.L + n) - m * S.eL * (l n * y n).trace) Filter.atTop (nhds ((T.Kl n * y n).trace)) := by
  have hsL' : S.uniL.ham.sites = S.hamSites := by rw [← h.hamL (-5) (by
    have : S.hamSites ≤ 3 := by rw [← h.sites 0]; exact (UHam.sites_le _).2
    omega), h.sites]
  have hconst : ∀ d : ℕ, d ≤ n → (l d * y d).trace = (l 0 * y 0).trace := by
    intro d
    induction d with
    | zero => simp
    | succ d ih =>
      intro hd
      have h1 := hy (d + 1) (by omega)
      rw [show (d : ℤ) + 1 - 1 = d by ring] at h1
      have h2 := h.chain.stepL (d + 1)
      rw [show (d : ℤ) + 1 - 1 = d by ring] at h2
      rw [← ih (by omega), show ((d + 1 : ℕ) : ℤ) = (d : ℤ) + 1 by push_cast; ring, h2, trace_r_at h1]
  have b := bulkL_limit' h.chain (y := y) (fun m hm => hy m (by omega)) h.posL S.uniL.r _ _ _ _ o.Kl0 o.Kl0orth mixL
  rw [left_finite h o n hc hy]
  refine (b.add (tendsto_const_nhds (x := sumZ (fun j => termEnergy site l y j (H j).sites (H j).op) (2 - S.hamSites) n))).congr
    fun m => ?_
  have w1 : sumZ (fun n => termEnergy site l y n S.uniL.ham.sites S.uniL.ham.op) (2 - S.uniL.ham.sites - m * S.uniL.L) (m * S.uniL.L)
    = sumZ (fun n => termEnergy site l y n (H n).sites (H n).op) (2 - S.hamSites - m * S.uniL.L) (m * S.uniL.L) := by
    have e : (2 : ℤ) - S.uniL.ham.sites - m * S.uniL.L = 2 - S.hamSites - m * S.uniL.L := by rw [hsL']
    rw [e]
    refine Finset.sum_congr rfl fun i hi => ?_
    have hi := Finset.mem_range.1 hi
    simp only []
    rw [h.hamL _ (by zify at hi; linarith)]
  rw [w1, sumZ_add, hconst n le_rfl, show (2 : ℤ) - S.hamSites - m * S.uniL.L + (m * S.uniL.L : ℕ) = 2 - S.hamSites by
    push_cast; ring]
  unfold SwT.eL
  ring

end

theorem sumZ_sub_mul (f g : ℤ → ℂ) (c : ℂ) (a : ℤ) (k : ℕ) : sumZ (fun j => f j - g j * c) a k = sumZ f a k - sumZ g a k * c := by
  simp only [sumZ, Finset.sum_sub_distrib, Finset.sum_mul]

theorem sumZ_congr {f g : ℤ → ℂ} {a : ℤ} {k : ℕ} (h : ∀ j, a ≤ j → j < a + k → f j = g j) : sumZ f a k = sumZ g a k :=
  Finset.sum_congr rfl fun i hi => h _ (by omega) (by have := Finset.mem_range.1 hi; omega)

theorem gauge_envL {A B : Ten ℂ q D D} {n : ℤ} (hA : site n = A) (hl : (l (n - 1))ᴴ = l (n - 1)) (hg : LeftGauge A B (l (n - 1))) :
    gradEnvL site l n B n = 0 := by
  have := congrArg conjTranspose hg
  rw [conjTranspose_sum, conjTranspose_zero] at this
  rw [gradEnvL_at, hA, ← this]
  refine Finset.sum_congr rfl fun s _ => ?_
  simp only [conjTranspose_mul, conjTranspose_conjTranspose, hl, Matrix.mul_assoc]

theorem gauge_envR {A B : Ten ℂ q D D} {n : ℤ} (hA : site n = A) (hr : (r n)ᴴ = r n) (hg : RightGauge A B (r n)) :
    gradEnvR site r n B (n - 1) = 0 := by
  have := congrArg conjTranspose hg
  rw [conjTranspose_sum, conjTranspose_zero] at this
  rw [gradEnvR_at, hA, ← this]
  refine Finset.sum_congr rfl fun s _ => ?_
  simp only [conjTranspose_mul, conjTranspose_conjTranspose, hr, Matrix.mul_assoc]

theorem termEnergy_zeroL {j : ℤ} {k : ℕ} {O} {x : ℤ → Matrix (Fin D) (Fin D) ℂ} (hx : x (j - 1) = 0) :
    termEnergy site x r j k O = 0 := by
  simp [termEnergy, hx]

theorem termEnergy_zeroR {j : ℤ} {k : ℕ} {O} {y : ℤ → Matrix (Fin D) (Fin D) ℂ} (hy : y (j + k - 1) = 0) :
    termEnergy site l y j k O = 0 := by
  simp [termEnergy, hy]

/-- The limit of the sums of the matrix elements of the terms, with the energy of the state subtracted. -/
theorem grad_limit (h : SwReady S H site l r) (o : SwEnergyOut S T H site l r)
    (mixL : BlockMixing S.uniL.L S.uniL.A (S.uniL.l (S.uniL.L - 1)) (S.uniL.r (S.uniL.L - 1)))
    (mixR : BlockMixing S.uniR.L S.uniR.A (S.uniR.l (S.uniR.L - 1)) (S.uniR.r (S.uniR.L - 1)))
    (n : ℕ) (h1 : 1 ≤ n) (hN : n ≤ S.N) (B : Ten ℂ q D D) (hl : n < S.nc → gradEnvL site l n B n = 0)
    (hr : S.nc < n → gradEnvR site r n B ((n : ℤ) - 1) = 0) :
    Filter.Tendsto (fun p : ℕ × ℕ => sumZ (fun j => gradTerm site l r n B j (H j).sites (H j).op
        - termEnergy site l r j (H j).sites (H j).op * tanInner l r n B (site n)) (2 - S.hamSites - p.1 * S.uniL.L)
        (p.1 * S.uniL.L + (S.N + S.hamSites - 1) + p.2 * S.uniR.L)) (Filter.atTop ×ˢ Filter.atTop)
      (nhds ((if n ≤ S.nc then (T.Kl (n - 1) * gradEnvR site r n B ((n : ℤ) - 1)).trace
            - (T.Kl (n - 1) * r ((n : ℤ) - 1)).trace * tanInner l r n B (site n) else 0)
        + sumZ (fun j => gradTerm site l r n B j (H j).sites (H j).op
            - termEnergy site l r j (H j).sites (H j).op * tanInner l r n B (site n)) (n + 1 - S.hamSites) S.hamSites
        + (if S.nc ≤ n then (gradEnvL site l n B n * T.K (n + 1)).trace
            - (l n * T.K (n + 1)).trace * tanInner l r n B (site n) else 0))) := by
  have hs23 : 2 ≤ S.hamSites ∧ S.hamSites ≤ 3 := by rw [← h.sites 0]; exact UHam.sites_le _
  set c := tanInner l r n B (site n) with hcdef
  set f : ℤ → ℂ := fun j => gradTerm site l r n B j (H j).sites (H j).op - termEnergy site l r j (H j).sites (H j).op * c with hf
  have hn1 : ((n - 1 : ℕ) : ℤ) = (n : ℤ) - 1 := by omega
  have split : ∀ m m' : ℕ, sumZ f (2 - S.hamSites - m * S.uniL.L) (m * S.uniL.L + (S.N + S.hamSites - 1) + m' * S.uniR.L)
      = sumZ f (2 - S.hamSites - m * S.uniL.L) (m * S.uniL.L + (n - 1)) + sumZ f (n + 1 - S.hamSites) S.hamSites
        + sumZ f (n + 1) (S.N - n + m' * S.uniR.L) := by
    intro m m'
    rw [show m * S.uniL.L + (S.N + S.hamSites - 1) + m' * S.uniR.L
      = m * S.uniL.L + (n - 1) + S.hamSites + (S.N - n + m' * S.uniR.L) by omega, sumZ_add, sumZ_add]
    have e1 : (2 : ℤ) - S.hamSites - m * S.uniL.L + (m * S.uniL.L + (n - 1) : ℕ) = n + 1 - S.hamSites := by
      push_cast [Nat.cast_sub h1]; ring
    have e2 : (2 : ℤ) - S.hamSites - m * S.uniL.L + (m * S.uniL.L + (n - 1) + S.hamSites : ℕ) = n + 1 := by
      push_cast [Nat.cast_sub h1]; ring
    rw [e1, e2]
  simp only [split]
  refine Filter.Tendsto.add (Filter.Tendsto.add (Filter.Tendsto.comp (g := fun m : ℕ =>
    sumZ f (2 - S.hamSites - m * S.uniL.L) (m * S.uniL.L + (n - 1))) ?_ Filter.tendsto_fst) tendsto_const_nhds)
    (Filter.Tendsto.comp (g := fun m : ℕ => sumZ f (n + 1) (S.N - n + m * S.uniR.L)) ?_ Filter.tendsto_snd)
  · have hbef : ∀ m : ℕ, sumZ f (2 - S.hamSites - m * S.uniL.L) (m * S.uniL.L + (n - 1))
        = sumZ (fun j => termEnergy site l (gradEnvR site r n B) j (H j).sites (H j).op) (2 - S.hamSites - m * S.uniL.L)
            (m * S.uniL.L + (n - 1))
          - sumZ (fun j => termEnergy site l r j (H j).sites (H j).op) (2 - S.hamSites - m * S.uniL.L)
            (m * S.uniL.L + (n - 1)) * c := by
      intro m
      rw [← sumZ_sub_mul]
      refine sumZ_congr fun j _ hj => ?_
      simp only [hf]
      rw [gradTerm_before site l r n B (by
        rw [h.sites]
        push_cast [Nat.cast_sub h1] at hj
        linarith)]
    simp only [hbef]
    split_ifs with hc
    · have t1 := left_limit h o mixL (y := gradEnvR site r n B) (n := n - 1) (by omega)
        (fun m hm => gradEnvR_lt site r n B (by omega))
      have t2 := left_limit h o mixL (y := r) (n := n - 1) (by omega) (fun m _ => h.chain.stepR m)
      rw [hn1] at t1 t2
      refine (t1.sub (t2.mul_const c)).congr fun m => ?_
      rw [tanInner_envR, chain_norm h.chain]
      ring
    · have z := hr (by omega)
      have hc0 : c = 0 := by rw [hcdef, ← tanInner_envR, z]; simp
      rw [hc0]
      refine tendsto_const_nhds.congr fun m => ?_
      rw [mul_zero, sub_zero]
      refine (Finset.sum_eq_zero fun i hi => ?_).symm
      have hi := Finset.mem_range.1 hi
      refine termEnergy_zeroR ?_
      set j : ℤ := 2 - S.hamSites - m * S.uniL.L + i with hj
      have := gradEnvR_zero site r n B z ((n : ℤ) - 1 - (j + (H j).sites - 1)).toNat
      rw [← this]
      congr 1
      have : j + S.hamSites - 1 ≤ (n : ℤ) - 1 := by zify [h1] at hi; rw [hj]; linarith
      rw [h.sites]
      omega
  · have hbeh : ∀ m : ℕ, sumZ f (n + 1) (S.N - n + m * S.uniR.L)
        = sumZ (fun j => termEnergy site (gradEnvL site l n B) r j (H j).sites (H j).op) (n + 1) (S.N - n + m * S.uniR.L)
          - sumZ (fun j => termEnergy site l r j (H j).sites (H j).op) (n + 1) (S.N - n + m * S.uniR.L) * c := by
      intro m
      rw [← sumZ_sub_mul]
      refine sumZ_congr fun j hj _ => ?_
      simp only [hf]
      rw [gradTerm_behind site l r n B (by omega)]
    simp only [hbeh]
    split_ifs with hc
    · have t1 := right_limit h o mixR (x := gradEnvL site l n B) hN hc (fun m hm => gradEnvL_gt site l n B hm)
      have t2 := right_limit h o mixR (x := l) hN hc (fun m _ => h.chain.stepL m)
      refine (t1.sub (t2.mul_const c)).congr fun m => ?_
      rw [tanInner_envL, chain_norm h.chain]
      ring
    · have z := hl (by omega)
      have hc0 : c = 0 := by rw [hcdef, ← tanInner_envL, z]; simp
      rw [hc0]
      refine tendsto_const_nhds.congr fun m => ?_
      rw [mul_zero, sub_zero]
      refine (Finset.sum_eq_zero fun i hi => ?_).symm
      refine termEnergy_zeroL ?_
      have := gradEnvL_zero site l n B z i
      rw [← this]
      congr 1
      ring

end EvoMPS.Uni
