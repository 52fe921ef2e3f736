import Verif.SwCFMain

/-!
# The sandwich state: `update`
-/

set_option linter.unusedSectionVars false

namespace EvoMPS.SW

open Matrix Uni

variable {q D : ℕ → ℕ} {qL qR N : ℕ}

/-- The loop of `calc_l`. -/
theorem calcL_loop (A : Tensors ℂ q D) (a m : ℕ) (l : Envs ℂ D) :
    let l' := (List.range' a m).foldl (fun (l : Envs ℂ D) n => Function.update l (n + 1) (epsL (l n) (A n) (A n))) l
    (∀ n ≤ a, l' n = l n) ∧ ∀ n, a ≤ n → n < a + m → l' (n + 1) = ∑ s, (A n s)ᴴ * l' n * A n s := by
  refine foldUp_inv _ (fun j (l' : Envs ℂ D) => (∀ n ≤ a, l' n = l n) ∧ ∀ n, a ≤ n → n < j →
    l' (n + 1) = ∑ s, (A n s)ᴴ * l' n * A n s) a m l ⟨fun _ _ => rfl, fun n h1 h2 => by omega⟩ ?_
  rintro j hj _ l' ⟨h1, h2⟩
  refine ⟨fun n hn => ?_, fun n hn hn' => ?_⟩
  · rw [Function.update_of_ne (by omega), h1 n hn]
  · rw [Function.update_of_ne (show n ≠ j + 1 by omega)]
    rcases Nat.lt_or_ge n j with h | h
    · rw [Function.update_of_ne (by omega), h2 n hn h]
    · obtain rfl : n = j := by omega
      rw [Function.update_self, epsL_eq]

/-- The loop of `calc_r`. -/
theorem calcR_loop (A : Tensors ℂ q D) (a m : ℕ) (r : Envs ℂ D) :
    let r' := (List.range' a m).reverse.foldl (fun (r : Envs ℂ D) n => Function.update r n (epsR (r (n + 1)) (A n) (A n))) r
    (∀ n, a + m ≤ n → r' n = r n) ∧ ∀ n, a ≤ n → n < a + m → r' n = ∑ s, A n s * r' (n + 1) * (A n s)ᴴ := by
  refine foldDown_inv _ (fun j (r' : Envs ℂ D) => (∀ n, a + m ≤ n → r' n = r n) ∧ ∀ n, j ≤ n → n < a + m →
    r' n = ∑ s, A n s * r' (n + 1) * (A n s)ᴴ) a m r ⟨fun _ _ => rfl, fun n h1 h2 => by omega⟩ ?_
  rintro j hj hj' r' ⟨h1, h2⟩
  refine ⟨fun n hn => ?_, fun n hn hn' => ?_⟩
  · rw [Function.update_of_ne (by omega), h1 n hn]
  · rw [Function.update_of_ne (show n + 1 ≠ j by omega)]
    rcases Nat.lt_or_ge j n with h | h
    · rw [Function.update_of_ne (by omega), h2 n h hn']
    · obtain rfl : n = j := by omega
      rw [Function.update_self, epsR_eq]

theorem calcLSw_spec (lo hi : ℕ) (hlo : 1 ≤ lo) (hhi : lo ≤ hi + 1) (S : Sw q D qL qR N) :
    ∃ l lEnd, calcLSw lo hi S = { S with l := l, lEnd := lEnd } ∧ l 0 = S.uniL.l (S.uniL.L - 1)
      ∧ (∀ n, 0 < n → n < lo → l n = S.l n)
      ∧ (∀ n, lo ≤ n + 1 → n < hi → l (n + 1) = ∑ s, (S.A n s)ᴴ * l n * S.A n s)
      ∧ lEnd = ∑ s, (S.uniR.A 0 s)ᴴ * l N * S.uniR.A 0 s := by
  obtain ⟨h1, h2⟩ := calcL_loop S.A (lo - 1) (hi + 1 - lo) (Function.update S.l 0 (S.uniL.l (S.uniL.L - 1)))
  refine ⟨_, _, rfl, ?_, fun n hn hn' => ?_, fun n hn hn' => h2 n (by omega) (by omega), epsL_eq _ _ _⟩
  · rw [h1 0 (by omega), Function.update_self]
  · rw [h1 n (by omega), Function.update_of_ne (by omega)]

theorem calcRSw_spec (lo m : ℕ) (hm : m ≤ N) (hlo : lo ≤ m) (S : Sw q D qL qR N) :
    ∃ r, calcRSw lo m S = { S with r := r } ∧ r N = S.uniR.r (S.uniR.L - 1)
      ∧ (∀ n, m ≤ n → n < N → r n = S.r n)
      ∧ ∀ n, lo ≤ n → n < m → r n = ∑ s, S.A n s * r (n + 1) * (S.A n s)ᴴ := by
  obtain ⟨h1, h2⟩ := calcR_loop S.A lo (m - lo) (Function.update S.r N (S.uniR.r (S.uniR.L - 1)))
  refine ⟨_, rfl, ?_, fun n hn hn' => ?_, fun n hn hn' => h2 n (by omega) (by omega)⟩
  · rw [h1 N (by omega), Function.update_self]
  · rw [h1 n (by omega), Function.update_of_ne (by omega)]

theorem swEnv_l_unique {A : Tensors ℂ q D} {l l' : Envs ℂ D} (m : ℕ) (h0 : l 0 = l' 0)
    (h : ∀ n < m, l (n + 1) = ∑ s, (A n s)ᴴ * l n * A n s) (h' : ∀ n < m, l' (n + 1) = ∑ s, (A n s)ᴴ * l' n * A n s) :
    ∀ n ≤ m, l n = l' n := by
  intro n
  induction n with
  | zero => intro _; exact h0
  | succ n ih => intro hn; rw [h n (by omega), h' n (by omega), ih (by omega)]

theorem swEnv_r_unique {A : Tensors ℂ q D} {r r' : Envs ℂ D} (c : ℕ) (h0 : r N = r' N)
    (h : ∀ n, c ≤ n → n < N → r n = ∑ s, A n s * r (n + 1) * (A n s)ᴴ)
    (h' : ∀ n, c ≤ n → n < N → r' n = ∑ s, A n s * r' (n + 1) * (A n s)ᴴ) :
    ∀ n, c ≤ n → n ≤ N → r n = r' n := by
  intro n hc hn
  induction hn using Nat.decreasingInduction with
  | self => exact h0
  | of_succ n hn ih => rw [h n hc hn, h' n hc hn, ih (by omega)]

/-- The left environments after a gauge transformation. -/
theorem swEnv_gauge {A A' : Tensors ℂ q D} {c : ℕ} {k : ℂ} {g gi : Envs ℂ D} (h : SwGauge N c k g gi A A') {l0 l0' rN rN'}
    {l r l' r' : Envs ℂ D} (hE : SwEnv N A l0 rN l r) (hE' : SwEnv N A' l0' rN' l' r') (e0 : l0' = (g 0)ᴴ * l0 * g 0) :
    ∀ n ≤ N, l' n = (if c < n then k * star k else 1) • ((g n)ᴴ * l n * g n) := by
  intro n
  induction n with
  | zero => intro _; rw [if_neg (by omega), one_smul, hE'.first, hE.first, e0]
  | succ n ih =>
    intro hn
    have hi := (h.inv n (by omega)).1
    rw [hE'.l_succ n (by omega), hE.l_succ n (by omega), ih (by omega), Matrix.mul_sum, Matrix.sum_mul, Finset.smul_sum]
    refine Finset.sum_congr rfl fun s _ => ?_
    rw [h.eq n (by omega)]
    simp only [Matrix.conjTranspose_smul, Matrix.conjTranspose_mul, Matrix.smul_mul, Matrix.mul_smul, smul_smul]
    have h2 : (g (n + 1))ᴴ * ((A n s)ᴴ * (gi n)ᴴ) * ((g n)ᴴ * l n * g n) * (gi n * A n s * g (n + 1))
        = (g (n + 1))ᴴ * ((A n s)ᴴ * ((gi n)ᴴ * (g n)ᴴ) * l n * (g n * gi n) * A n s) * g (n + 1) := by
      simp only [Matrix.mul_assoc]
    rw [h2, inv_star hi, hi, Matrix.mul_one, Matrix.mul_one]
    congr 1
    rcases Nat.lt_trichotomy n c with h | h | h
    · simp [show ¬ c < n by omega, show ¬ n = c by omega, show ¬ c < n + 1 by omega]
    · simp only [show ¬ c < n by omega, h, show c < c + 1 by omega, if_true, if_false, lt_irrefl]; ring
    · simp [h, show ¬ n = c by omega, show c < n + 1 by omega]

/-- The norm after a gauge transformation. -/
theorem swNorm_gauge {A A' : Tensors ℂ q D} {c : ℕ} (hc : c < N) {κ : ℝ} {g gi : Envs ℂ D}
    (h : SwGauge N c (κ : ℂ) g gi A A') {l0 l0' rN rN'}
    {l r l' r' : Envs ℂ D} (hE : SwEnv N A l0 rN l r) (hE' : SwEnv N A' l0' rN' l' r') (e0 : l0' = (g 0)ᴴ * l0 * g 0)
    (eN : rN' = gi N * rN * (gi N)ᴴ) :
    ∀ n ≤ N, ((l' n)ᴴ * r' n).trace = (κ : ℂ) * κ * ((l n)ᴴ * r n).trace := by
  intro n hn
  rw [hE'.norm n hn, hE.norm n hn, ← hE'.norm N le_rfl, ← hE.norm N le_rfl, swEnv_gauge h hE hE' e0 N le_rfl, if_pos hc,
    hE'.last, hE.last, eN]
  have hi := (h.inv N le_rfl).1
  simp only [Matrix.conjTranspose_smul, Matrix.conjTranspose_mul, Matrix.conjTranspose_conjTranspose, Matrix.smul_mul,
    Matrix.trace_smul]
  rw [show (g N)ᴴ * ((l N)ᴴ * g N) * (gi N * rN * (gi N)ᴴ) = (g N)ᴴ * ((l N)ᴴ * (g N * gi N) * rN * (gi N)ᴴ) by
    simp only [Matrix.mul_assoc], Matrix.trace_mul_comm, hi, Matrix.mul_one,
    show (l N)ᴴ * rN * (gi N)ᴴ * (g N)ᴴ = (l N)ᴴ * rN * ((gi N)ᴴ * (g N)ᴴ) by simp only [Matrix.mul_assoc], inv_star hi,
    Matrix.mul_one]
  simp [Complex.conj_ofReal]

theorem factor_norm {eps ν κ : ℝ} (hν : 0 < ν) (hκ : κ = if eps < |1 - ν| then 1 / Real.sqrt ν else 1) :
    κ * κ * ν = if eps < |1 - ν| then 1 else ν := by
  rw [hκ]
  split_ifs
  · rw [div_mul_div_comm, one_mul, Real.mul_self_sqrt hν.le, one_div, inv_mul_cancel₀ hν.ne']
  · ring

/-- `update()` without normalisation. -/
theorem updateSw_plain (eps : ℝ) (S : Sw q D qL qR N) :
    ∃ l r lEnd, updateSw eps false S = some { S with l := l, r := r, lEnd := lEnd } ∧
      SwEnv N S.A (S.uniL.l (S.uniL.L - 1)) (S.uniR.r (S.uniR.L - 1)) l r ∧
      lEnd = ∑ s, (S.uniR.A 0 s)ᴴ * l N * S.uniR.A 0 s := by
  obtain ⟨l, lEnd, h1, h2, h3, h4, h5⟩ := calcLSw_spec 1 N le_rfl (by omega) S
  obtain ⟨r, k1, k2, k3, k4⟩ := calcRSw_spec 0 N le_rfl (by omega) (calcLSw 1 N S)
  refine ⟨l, r, lEnd, ?_, ⟨h2, fun n hn => h4 n (by omega) hn, ?_, fun n hn => ?_⟩, h5⟩
  · simp only [updateSw, Bool.false_eq_true, if_false, k1]
    rw [h1]
  · rw [k2, h1]
  · rw [k4 n (by omega) hn, h1]

/-- `update()` with normalisation. -/
theorem updateSw_norm (eps : ℝ) (S : Sw q D qL qR N) {c : ℕ} (hnc : S.nc = c + 1) (hc : c < N) {l0 r0 : Envs ℂ D}
    (hE : SwEnv N S.A (S.uniL.l (S.uniL.L - 1)) (S.uniR.r (S.uniR.L - 1)) l0 r0) :
    ∃ A l r lEnd, updateSw eps true S = some { S with A := A, l := l, r := r, lEnd := lEnd } ∧
      A = Function.update S.A c (fun s => renormFactor eps ((l0 c)ᴴ * r0 c).trace • S.A c s) ∧
      SwEnv N A (S.uniL.l (S.uniL.L - 1)) (S.uniR.r (S.uniR.L - 1)) l r ∧
      lEnd = ∑ s, (S.uniR.A 0 s)ᴴ * l N * S.uniR.A 0 s := by
  obtain ⟨l1, lEnd1, a1, a2, a3, a4, a5⟩ := calcLSw_spec 1 c le_rfl (by omega) S
  obtain ⟨r1, b1, b2, b3, b4⟩ := calcRSw_spec c N le_rfl hc.le { S with l := l1, lEnd := lEnd1 }
  have el : ∀ n ≤ c, l1 n = l0 n :=
    swEnv_l_unique (A := S.A) c (by rw [a2, hE.first]) (fun n hn => a4 n (by omega) hn) (fun n hn => hE.l_succ n (by omega))
  have er : ∀ n, c ≤ n → n ≤ N → r1 n = r0 n :=
    swEnv_r_unique (A := S.A) c (by rw [b2, hE.last]) b4 (fun n _ hn => hE.r_pred n hn)
  set A := Function.update S.A c (fun s => renormFactor eps ((l0 c)ᴴ * r0 c).trace • S.A c s) with hA
  obtain ⟨l2, lEnd2, c1, c2, c3, c4, c5⟩ := calcLSw_spec (c + 1) N (by omega) (by omega)
    { S with l := l1, lEnd := lEnd1, r := r1, A := A }
  obtain ⟨r2, d1, d2, d3, d4⟩ := calcRSw_spec 0 (c + 1) hc (by omega)
    { S with l := l2, lEnd := lEnd2, r := r1, A := A }
  have hAo : ∀ n, n ≠ c → A n = S.A n := fun n hn => by rw [hA, Function.update_of_ne hn]
  have el2 : ∀ n ≤ c, l2 n = l1 n := by
    intro n hn
    rcases Nat.eq_zero_or_pos n with rfl | h
    · rw [c2, a2]
    · exact c3 n h (by omega)
  have er2 : ∀ n, c < n → n ≤ N → r2 n = r1 n := by
    intro n h hn
    rcases Nat.lt_or_ge n N with h' | h'
    · exact d3 n h h'
    · obtain rfl : n = N := by omega
      rw [d2, b2]
  refine ⟨A, l2, r2, lEnd2, ?_, rfl, ⟨c2, fun n hn => ?_, d2, fun n hn => ?_⟩, c5⟩
  · unfold updateSw
    simp only [hnc] at a1 b1 c1 d1
    simp only [if_true, hnc, hc, a1, b1, renormCentre, adot_eq_trace, el c le_rfl, er c le_rfl hc.le, ← hA]
    simp only [c1, d1]
  · rcases Nat.lt_or_ge n c with h | h
    · rw [el2 (n + 1) h, el2 n h.le, a4 n (by omega) h, hAo n (by omega)]
    · exact c4 n (by omega) hn
  · rcases Nat.lt_or_ge c n with h | h
    · rw [er2 n h hn.le, er2 (n + 1) (by omega) hn, b4 n h.le hn, hAo n (by omega)]
    · exact d4 n (by omega) (by omega)

end EvoMPS.SW
