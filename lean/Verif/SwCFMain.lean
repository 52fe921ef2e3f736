import Verif.SwCFLemmas

/-!
# The sandwich state: canonical form (assembling the sweeps)
-/

set_option linter.unusedSectionVars false

namespace EvoMPS.SW

open Matrix Uni
open scoped ComplexOrder

variable {q D : ℕ → ℕ} {qL qR N : ℕ}

/-! ## The specification side -/

theorem _root_.EvoMPS.SwEnv.norm {A : Tensors ℂ q D} {l0 rN} {l r : Envs ℂ D} (h : SwEnv N A l0 rN l r) :
    ∀ n ≤ N, ((l n)ᴴ * r n).trace = ((l 0)ᴴ * r 0).trace := by
  intro n
  induction n with
  | zero => intro _; rfl
  | succ n ih =>
    intro hn
    rw [← ih (by omega), h.l_succ n (by omega), h.r_pred n (by omega), Matrix.conjTranspose_sum, Matrix.sum_mul,
      Matrix.mul_sum, Matrix.trace_sum, Matrix.trace_sum]
    refine Finset.sum_congr rfl fun s _ => ?_
    simp only [Matrix.conjTranspose_mul, Matrix.conjTranspose_conjTranspose]
    rw [show (A n s)ᴴ * ((l n)ᴴ * A n s) * r (n + 1) = (A n s)ᴴ * ((l n)ᴴ * A n s * r (n + 1)) by
      simp only [Matrix.mul_assoc], Matrix.trace_mul_comm]
    simp only [Matrix.mul_assoc]

theorem _root_.EvoMPS.SwGauge.amp {c : ℕ} {k : ℂ} {g gi : Envs ℂ D} {A A' : Tensors ℂ q D} (h : SwGauge N c k g gi A A') :
    ∀ n ≤ N, ∀ s : Cfg q n, EvoMPS.amp A' n s = (if c < n then k else 1) • (gi 0 * EvoMPS.amp A n s * g n) := by
  intro n
  induction n with
  | zero =>
    intro hn s
    rw [EvoMPS.amp, EvoMPS.amp, Matrix.mul_one, (h.inv 0 hn).2, if_neg (by omega), one_smul]
  | succ n ih =>
    intro hn s
    rw [EvoMPS.amp, EvoMPS.amp, ih (by omega), h.eq n (by omega)]
    have h1 := (h.inv n (by omega)).1
    have h2 : gi 0 * EvoMPS.amp A n (fun i => s i.castSucc) * g n * (gi n * A n (s (Fin.last n)) * g (n + 1))
        = gi 0 * EvoMPS.amp A n (fun i => s i.castSucc) * (g n * gi n) * A n (s (Fin.last n)) * g (n + 1) := by
      simp only [Matrix.mul_assoc]
    rw [Matrix.smul_mul, Matrix.mul_smul, smul_smul, h2, h1, Matrix.mul_one]
    simp only [Matrix.mul_assoc]
    congr 1
    rcases Nat.lt_trichotomy n c with h | h | h
    · rw [if_neg (by omega), if_neg (by omega), if_neg (by omega), one_mul]
    · rw [if_neg (by omega), if_pos h, if_pos (by omega), one_mul]
    · rw [if_pos h, if_neg (by omega), if_pos (by omega), mul_one]

theorem pred_mod {L : ℕ} (hL : 0 < L) : (0 + L - 1) % L = L - 1 := by
  rw [Nat.zero_add, Nat.mod_eq_of_lt (by omega)]

theorem pred_mod' {L : ℕ} (hL : 0 < L) (a : ℕ) : (0 + a * L + L - 1) % L = L - 1 := by
  rw [show 0 + a * L + L - 1 = L - 1 + a * L by omega, Nat.add_mul_mod_self_right, Nat.mod_eq_of_lt (by omega)]

/-- Products over whole blocks and the finite part after a gauge transformation. -/
theorem swProd_gauge {T : SwTensors q D qL qR N} {AL' A' AR'} {c : ℕ} (hc : c < N) {k : ℂ}
    (pL : 0 < T.LL) (pR : 0 < T.LR) {gL giL gR giR} {g gi : Envs ℂ D}
    (hL : GaugeBy T.LL gL giL T.AL AL') (hR : GaugeBy T.LR gR giR T.AR AR') (h : SwGauge N c k g gi T.A A')
    (e0 : g 0 = gL (T.LL - 1) ∧ gi 0 = giL (T.LL - 1)) (eN : g N = gR (T.LR - 1) ∧ gi N = giR (T.LR - 1)) (a b : ℕ)
    (s : (Fin (a * T.LL) → Fin qL) × Cfg q N × (Fin (b * T.LR) → Fin qR)) :
    swProd ⟨T.LL, AL', A', T.LR, AR'⟩ a b s = k • (giL (T.LL - 1) * swProd T a b s * gR (T.LR - 1)) := by
  simp only [swProd]
  rw [hL.prod pL, hR.prod pR, h.amp N le_rfl, if_pos hc, pred_mod pL, pred_mod' pL, pred_mod pR, pred_mod' pR, e0.2, eN.1]
  have h1 := (hL.inv (T.LL - 1) (by omega)).1
  have h2 := (hR.inv (T.LR - 1) (by omega)).1
  rw [Matrix.mul_smul, Matrix.smul_mul]
  congr 1
  rw [show giL (T.LL - 1) * chainProd T.LL T.AL 0 (a * T.LL) s.1 * gL (T.LL - 1)
        * (giL (T.LL - 1) * amp T.A N s.2.1 * gR (T.LR - 1))
        * (giR (T.LR - 1) * chainProd T.LR T.AR 0 (b * T.LR) s.2.2 * gR (T.LR - 1))
      = giL (T.LL - 1) * chainProd T.LL T.AL 0 (a * T.LL) s.1 * (gL (T.LL - 1)
        * giL (T.LL - 1)) * amp T.A N s.2.1 * (gR (T.LR - 1)
        * giR (T.LR - 1)) * chainProd T.LR T.AR 0 (b * T.LR) s.2.2 * gR (T.LR - 1) by simp only [Matrix.mul_assoc],
    h1, h2, Matrix.mul_one, Matrix.mul_one]
  simp only [Matrix.mul_assoc]

theorem swExpect_gauge {T : SwTensors q D qL qR N} {AL' A' AR'} {c : ℕ} (hc : c < N) {k : ℂ}
    (pL : 0 < T.LL) (pR : 0 < T.LR) {gL giL gR giR} {g gi : Envs ℂ D}
    (hL : GaugeBy T.LL gL giL T.AL AL') (hR : GaugeBy T.LR gR giR T.AR AR') (h : SwGauge N c k g gi T.A A')
    (e0 : g 0 = gL (T.LL - 1) ∧ gi 0 = giL (T.LL - 1)) (eN : g N = gR (T.LR - 1) ∧ gi N = giR (T.LR - 1)) (a b : ℕ)
    {l l' r r'} (el : l' = (gL (T.LL - 1))ᴴ * l * gL (T.LL - 1)) (er : r' = giR (T.LR - 1) * r * (giR (T.LR - 1))ᴴ) (O) :
    swExpect ⟨T.LL, AL', A', T.LR, AR'⟩ l' r' a b O = k * star k * swExpect T l r a b O := by
  have h1 := (hL.inv (T.LL - 1) (by omega)).1
  have h2 := (hR.inv (T.LR - 1) (by omega)).1
  simp only [swExpect, Finset.mul_sum]
  refine Finset.sum_congr rfl fun s _ => Finset.sum_congr rfl fun t _ => ?_
  rw [swProd_gauge hc pL pR hL hR h e0 eN, swProd_gauge hc pL pR hL hR h e0 eN, el, er]
  set x := swProd T a b t
  set y := swProd T a b s
  simp only [Matrix.conjTranspose_mul, Matrix.conjTranspose_smul, Matrix.conjTranspose_conjTranspose]
  have h3 : (gL (T.LL - 1))ᴴ * (lᴴ * gL (T.LL - 1)) * k • (giL (T.LL - 1) * x * gR (T.LR - 1))
        * (giR (T.LR - 1) * r * (giR (T.LR - 1))ᴴ) * star k • ((gR (T.LR - 1))ᴴ * (yᴴ * (giL (T.LL - 1))ᴴ))
      = (k * star k) • ((gL (T.LL - 1))ᴴ * (lᴴ * (gL (T.LL - 1) * giL (T.LL - 1)) * x * (gR (T.LR - 1)
        * giR (T.LR - 1)) * r * ((giR (T.LR - 1))ᴴ * (gR (T.LR - 1))ᴴ) * yᴴ * (giL (T.LL - 1))ᴴ)) := by
    simp only [Matrix.smul_mul, Matrix.mul_smul, smul_smul, Matrix.mul_assoc, mul_comm k]
  rw [h3, h1, h2, inv_star h2, Matrix.mul_one, Matrix.mul_one, Matrix.mul_one, Matrix.trace_smul, Matrix.trace_mul_comm]
  rw [show lᴴ * x * r * yᴴ * (giL (T.LL - 1))ᴴ * (gL (T.LL - 1))ᴴ
    = lᴴ * x * r * yᴴ * ((giL (T.LL - 1))ᴴ * (gL (T.LL - 1))ᴴ) by simp only [Matrix.mul_assoc], inv_star h1, Matrix.mul_one,
    smul_eq_mul]
  ring

/-! ## `_restore_CF_diag` -/

theorem lcfDiag_rest (eigh : Eigh ℂ) (A : Tensors ℂ q D) (r : Envs ℂ D) (m : ℕ) :
    ∀ n, m ≤ n → (restoreLCFrSeq eigh m A r).A n = A n ∧ (restoreLCFrSeq eigh m A r).e n = r n := by
  refine foldDown_inv (lcfDiagStep eigh) (fun _ S => ∀ n, m ≤ n → S.A n = A n ∧ S.e n = r n) 0 m _
    (fun n _ => ⟨rfl, rfl⟩) ?_
  intro j _ hj S h n hn
  simp only [lcfDiagStep]
  rw [Function.update_of_ne (by omega), Function.update_of_ne (by omega)]
  exact h n hn

theorem lcfDiag_psd {eigh : Eigh ℂ} {A : Tensors ℂ q D} {m : ℕ} {S : DiagSt ℂ q D} (h : DiagInvR eigh A m 0 S) :
    ∀ n ≤ m, (S.e n).PosSemidef := by
  intro n hn
  induction hn using Nat.decreasingInduction with
  | self => rw [h.eN]; exact Matrix.PosSemidef.one
  | of_succ n hn ih =>
    rw [h.e_pred n (by omega) hn]
    exact Matrix.posSemidef_sum _ fun s _ => ih.mul_mul_conjTranspose_same (S.A n s)

/-- A gauge transformation that makes `l` the identity at both ends of a site. -/
theorem site_left_one {p a b : ℕ} {A : Ten ℂ p a b} {l : Matrix (Fin a) (Fin a) ℂ} {l' : Matrix (Fin b) (Fin b) ℂ}
    {gi : Matrix (Fin a) (Fin a) ℂ} {g' gi' : Matrix (Fin b) (Fin b) ℂ} (h : giᴴ * gi = l) (h' : gi'ᴴ * gi' = l')
    (hi : gi' * g' = 1) (hl : l' = ∑ s, (A s)ᴴ * l * A s) : ∑ s, (gi * A s * g')ᴴ * (gi * A s * g') = 1 := by
  have h1 : ∀ s, (gi * A s * g')ᴴ * (gi * A s * g') = g'ᴴ * ((A s)ᴴ * l * A s) * g' := by
    intro s
    rw [← h]
    simp only [Matrix.conjTranspose_mul, Matrix.mul_assoc]
  simp only [h1]
  rw [← Matrix.sum_mul, ← Matrix.mul_sum, ← hl, ← h', show g'ᴴ * (gi'ᴴ * gi') * g' = (g'ᴴ * gi'ᴴ) * (gi' * g') by
    simp only [Matrix.mul_assoc], hi, inv_star hi, Matrix.mul_one]

theorem site_right {p a b : ℕ} {A : Ten ℂ p a b} {r : Matrix (Fin a) (Fin a) ℂ} {r' : Matrix (Fin b) (Fin b) ℂ}
    {gi : Matrix (Fin a) (Fin a) ℂ} {g' : Matrix (Fin b) (Fin b) ℂ} (h' : g' * g'ᴴ = r')
    (hr : r = ∑ s, A s * r' * (A s)ᴴ) : ∑ s, (gi * A s * g') * (gi * A s * g')ᴴ = gi * r * giᴴ := by
  have h1 : ∀ s, (gi * A s * g') * (gi * A s * g')ᴴ = gi * (A s * r' * (A s)ᴴ) * giᴴ := by
    intro s
    rw [← h']
    simp only [Matrix.conjTranspose_mul, Matrix.mul_assoc]
  simp only [h1]
  rw [← Matrix.sum_mul, ← Matrix.mul_sum, ← hr]

theorem site_right_one {p a b : ℕ} {A : Ten ℂ p a b} {r : Matrix (Fin a) (Fin a) ℂ} {r' : Matrix (Fin b) (Fin b) ℂ}
    {g gi : Matrix (Fin a) (Fin a) ℂ} {g' : Matrix (Fin b) (Fin b) ℂ} (h : g * gᴴ = r) (h' : g' * g'ᴴ = r')
    (hi : gi * g = 1) (hr : r = ∑ s, A s * r' * (A s)ᴴ) : ∑ s, (gi * A s * g') * (gi * A s * g')ᴴ = 1 := by
  rw [site_right h' hr, ← h, show gi * (g * gᴴ) * giᴴ = (gi * g) * (gᴴ * giᴴ) by simp only [Matrix.mul_assoc], hi,
    inv_star hi, Matrix.mul_one]

/-! ## `restore_CF` -/

theorem norm_pos {n : ℕ} {l r B : Matrix (Fin n) (Fin n) ℂ} (hB : Bᴴ * B = l) (hr : r.PosSemidef)
    (h : (lᴴ * r).trace ≠ 0) : ∃ ν : ℝ, 0 < ν ∧ (lᴴ * r).trace = (ν : ℂ) := by
  have h1 : (lᴴ * r).trace = (B * r * Bᴴ).trace := by
    rw [← hB, Matrix.conjTranspose_mul, Matrix.conjTranspose_conjTranspose, Matrix.mul_assoc, Matrix.trace_mul_comm]
  have h2 : 0 ≤ (lᴴ * r).trace := by
    rw [h1]
    exact (hr.mul_mul_conjTranspose_same B).trace_nonneg
  obtain ⟨h3, h4⟩ := Complex.le_def.mp h2
  have e : (lᴴ * r).trace = (((lᴴ * r).trace.re : ℝ) : ℂ) := by
    apply Complex.ext
    · rfl
    · rw [Complex.ofReal_im, ← h4]; rfl
  refine ⟨_, lt_of_le_of_ne h3 fun h5 => h ?_, e⟩
  rw [e, ← h5]
  rfl

/-- The factor for a real positive norm. -/
theorem renormFactor_pos (eps : ℝ) {ν : ℝ} (hν : 0 < ν) :
    renormFactor eps (ν : ℂ) = (((if eps < |1 - ν| then 1 / Real.sqrt ν else 1 : ℝ)) : ℂ) := by
  have h1 : ‖(1 : ℂ) - (ν : ℂ)‖ = |1 - ν| := by
    rw [← Complex.ofReal_one, ← Complex.ofReal_sub, Complex.norm_real, Real.norm_eq_abs]
  unfold renormFactor
  rw [h1]
  split_ifs
  · rw [csqrt_ofReal hν.le]
    push_cast
    rfl
  · simp

/-- What `restore_CF` achieves. -/
structure CFDone (eps : ℝ) (c : ℕ) (S S' : Sw q D qL qR N) (l0 r0 : Envs ℂ D) (ν κ : ℝ)
    (gL giL : ℕ → Matrix (Fin (D 0)) (Fin (D 0)) ℂ) (gR giR : ℕ → Matrix (Fin (D N)) (Fin (D N)) ℂ) (g gi : Envs ℂ D) :
    Prop where
  nc : S'.nc = S.nc
  LL : S'.uniL.L = S.uniL.L
  LR : S'.uniR.L = S.uniR.L
  norm : 0 < ν ∧ ∀ n ≤ N, ((l0 n)ᴴ * r0 n).trace = (ν : ℂ)
  factor : κ = if eps < |1 - ν| then 1 / Real.sqrt ν else 1
  relL : GaugeRel S.uniL.L gL giL S.uniL.A S.uniL.l S.uniL.r S'.uniL.A S'.uniL.l S'.uniL.r
  relR : GaugeRel S.uniR.L gR giR S.uniR.A S.uniR.l S.uniR.r S'.uniR.A S'.uniR.l S'.uniR.r
  oneL : ∀ k < S.uniL.L, S'.uniL.l k = 1
  oneR : ∀ k < S.uniR.L, S'.uniR.r k = 1
  gauge : SwGauge N c (κ : ℂ) g gi S.A S'.A
  g0 : g 0 = gL (S.uniL.L - 1) ∧ gi 0 = giL (S.uniL.L - 1)
  gN : g N = gR (S.uniR.L - 1) ∧ gi N = giR (S.uniR.L - 1)
  env : SwEnv N S'.A (S'.uniL.l (S.uniL.L - 1)) (S'.uniR.r (S.uniR.L - 1)) S'.l S'.r
  left : ∀ n ≤ c, S'.l n = 1 ∧ AscendingDiag (S'.r n)
  right : ∀ n, c < n → n ≤ N → S'.r n = 1 ∧ AscendingDiag (S'.l n)
  lEnd : S'.lEnd = ∑ s, (S'.uniR.A 0 s)ᴴ * S'.l N * S'.uniR.A 0 s
  rEnd : S'.rEnd = 1

theorem restoreSwCF_spec (P : HermLib) {tol : ℝ} (h0 : 0 ≤ tol) (eps : ℝ) (hq : qL = qR) {clrL clrR}
    {S0 S : Sw q D qL qR N} {c : ℕ} (hnc : S0.nc = c + 1) (hc : c < N)
    (hclrL : clrL S0.uniL = some S.uniL) (hclrR : clrR S0.uniR = some S.uniR)
    (hS : S = { S0 with uniL := S.uniL, uniR := S.uniR }) {l0 r0 : Envs ℂ D}
    (H : CanCF tol c S l0 r0) (hne : ((l0 c)ᴴ * r0 c).trace ≠ 0) :
    ∃ S' ν κ gL giL gR giR g gi, restoreSwCF P tol eps clrL clrR S0 = some S' ∧
      CFDone eps c S S' l0 r0 ν κ gL giL gR giR g gi := by
  obtain ⟨S1, gL, giL, gR, giR, g, gi, a1, a2⟩ := restoreONR_spec P h0 hc S l0 r0 H
  have hkR : S.uniR.L - 1 < S.uniR.L := by have := H.posR; omega
  have hkL : S.uniL.L - 1 < S.uniL.L := by have := H.posL; omega
  have hl0 : (l0 c).PosDef := (H.left c le_rfl).posDef h0
  have hr1 : (r0 (c + 1)).PosDef := (H.right (c + 1) (by omega) hc).posDef h0
  have hr0 : (r0 c).PosSemidef := by
    rw [H.env.r_pred c hc]
    exact Matrix.posSemidef_sum _ fun s _ => hr1.posSemidef.mul_mul_conjTranspose_same _
  obtain ⟨ν, hν, eν⟩ := norm_pos (a2.left c le_rfl).1 hr0 hne
  -- the tensor of the centre before the normalisation
  have hA1c : ∀ s, S1.A c s = gi c * S.A c s * g (c + 1) := by
    intro s
    rw [a2.gauge.eq c hc, if_pos rfl, one_smul]
  have hgc1 := (a2.right (c + 1) (by omega) hc).1
  have hrc : epsR (S1.r (c + 1)) (S1.A c) (S1.A c) = gi c * r0 c * (gi c)ᴴ := by
    rw [epsR_eq, (a2.right (c + 1) (by omega) hc).2]
    simp only [Matrix.mul_one, hA1c]
    exact site_right hgc1 (H.env.r_pred c hc)
  have hnorm : adot (S1.l c) (epsR (S1.r (c + 1)) (S1.A c) (S1.A c)) = (ν : ℂ) := by
    rw [adot_eq_trace, (a2.left c le_rfl).2, hrc, Matrix.conjTranspose_one, Matrix.one_mul, Matrix.trace_mul_comm,
      ← Matrix.mul_assoc, (a2.left c le_rfl).1, ← hl0.isHermitian.eq, eν]
  set κ : ℝ := if eps < |1 - ν| then 1 / Real.sqrt ν else 1 with hκ
  have hfac := renormFactor_pos eps hν
  rw [← hκ] at hfac
  -- the state before the diagonalising sweeps
  set A2 : Tensors ℂ q D := Function.update S1.A c fun s => (κ : ℂ) • S1.A c s with hA2
  set r2 : Envs ℂ D := Function.update S1.r c (gi c * r0 c * (gi c)ᴴ) with hr2
  have hA2g : SwGauge N c (κ : ℂ) g gi S.A A2 := by
    refine ⟨a2.gauge.inv, fun n hn s => ?_⟩
    by_cases h : n = c
    · subst h
      rw [if_pos rfl, hA2, Function.update_self, hA1c]
    · rw [if_neg h, hA2, Function.update_of_ne h, a2.gauge.eq n hn, if_neg h]
  have hr2c : r2 (c + 1) = 1 := by
    rw [hr2, Function.update_of_ne (by omega), (a2.right (c + 1) (by omega) hc).2]
  set T := restoreLCFrSeq P.eigh (c + 1) A2 r2 with hT
  have hTi : DiagInvR P.eigh A2 (c + 1) 0 T := restoreLCFrSeq_spec P.eigh A2 r2 hr2c
  have hTr := lcfDiag_rest P.eigh A2 r2 (c + 1)
  rw [← hT] at hTr
  have hlc : S1.l c = 1 := (a2.left c le_rfl).2
  set T' := (List.range' c (N - c)).foldl (rcfDiagStep P.eigh) ⟨T.A, fun n => if n = c then 1 else 0, S1.l⟩ with hT'
  have hTi' : DiagInvC P.eigh T.A S1.l c N T' := diagC_loop P.eigh T.A hc.le (by rw [hlc]; exact Matrix.PosSemidef.one)
  have hU : ∀ n ≤ c + 1, (T.G n)ᴴ * T.G n = 1 := fun n hn => hTi.unit n (by omega) hn
  have hU' : ∀ n ≤ c + 1, T.G n * (T.G n)ᴴ = 1 := fun n hn => mul_eq_one_comm.mp (hU n hn)
  have hV : ∀ n, c ≤ n → n ≤ N → T'.G n * (T'.G n)ᴴ = 1 := fun n h1 h2 => hTi'.unit n h1 h2
  have hV' : ∀ n, c ≤ n → n ≤ N → (T'.G n)ᴴ * T'.G n = 1 := fun n h1 h2 => mul_eq_one_comm.mp (hV n h1 h2)
  -- the bulk chains
  have e1 : gaugeEnds qL S.uniL.L (T.G 0)ᴴ (T.G 0) S1.uniL.A
      = some (gaugeCut S.uniL.L (S.uniL.L - 1) (T.G 0) (T.G 0)ᴴ S1.uniL.A) := by
    rw [gaugeEnds_full H.posL rfl]
  have e2 : gaugeEnds qL S.uniR.L (T'.G N) (T'.G N)ᴴ S1.uniR.A
      = some (gaugeCut S.uniR.L (S.uniR.L - 1) (T'.G N)ᴴ (T'.G N) S1.uniR.A) := by
    rw [gaugeEnds_full H.posR hq]
  have b1 := cut_rel hkL (hU' 0 (by omega)) S1.uniL.A S1.uniL.l S1.uniL.r
    (lk := S1.uniL.l (S.uniL.L - 1)) (rk := (T.G 0)ᴴ * (S1.uniL.r (S.uniL.L - 1) * (T.G 0)ᴴᴴ))
    (by rw [a2.oneL _ hkL, Matrix.mul_one, hU 0 (by omega)]) (by simp only [Matrix.mul_assoc])
  have b2 := cut_rel hkR (hV' N hc.le le_rfl) S1.uniR.A S1.uniR.l S1.uniR.r
    (lk := (T'.G N)ᴴᴴ * (S1.uniR.l (S.uniR.L - 1) * (T'.G N)ᴴ)) (rk := S1.uniR.r (S.uniR.L - 1))
    (by simp only [Matrix.mul_assoc]) (by rw [a2.oneR _ hkR, Matrix.mul_one, hV N hc.le le_rfl])
  rw [Function.update_eq_self] at b1 b2
  have c1 := a2.relL.trans b1
  have c2 := a2.relR.trans b2
  -- the gauge transformation of the finite part
  have hinv : ∀ n ≤ N, (if n ≤ c then g n * T.G n else g n * (T'.G n)ᴴ) * (if n ≤ c then (T.G n)ᴴ * gi n else T'.G n * gi n)
      = 1 := by
    intro n hn
    have h1 := (a2.gauge.inv n hn).1
    split_ifs with h
    · rw [Matrix.mul_assoc, ← Matrix.mul_assoc (T.G n), hU' n (by omega), Matrix.one_mul, h1]
    · rw [Matrix.mul_assoc, ← Matrix.mul_assoc (T'.G n)ᴴ, hV' n (by omega) hn, Matrix.one_mul, h1]
  have hAf : ∀ n < N, ∀ s, T'.A n s = (if n = c then (κ : ℂ) else 1) •
      ((if n ≤ c then (T.G n)ᴴ * gi n else T'.G n * gi n) * S.A n s *
        (if n + 1 ≤ c then g (n + 1) * T.G (n + 1) else g (n + 1) * (T'.G (n + 1))ᴴ)) := by
    intro n hn s
    rcases Nat.lt_trichotomy n c with h | h | h
    · rw [hTi'.restLt n h, hTi.gauge n (by omega) (by omega), hA2g.eq n hn, if_neg (by omega), if_pos (by omega),
        if_pos (by omega), one_smul, one_smul]
      simp only [Matrix.mul_assoc]
    · subst h
      rw [hTi'.gauge n le_rfl hn, hTi'.G0, Matrix.one_mul, hTi.gauge n (by omega) (by omega), hTi.GN, Matrix.mul_one,
        hA2g.eq n hn, if_pos rfl, if_pos le_rfl, if_neg (by omega)]
      simp only [Matrix.mul_smul, Matrix.smul_mul, Matrix.mul_assoc]
    · rw [hTi'.gauge n (by omega) hn, (hTr n (by omega)).1, hA2g.eq n hn, if_neg (by omega), if_neg (by omega),
        if_neg (by omega), one_smul, one_smul]
      simp only [Matrix.mul_assoc]
  have hll : ∀ n ≤ c, ((T.G n)ᴴ * gi n)ᴴ * ((T.G n)ᴴ * gi n) = l0 n := by
    intro n hn
    rw [Matrix.conjTranspose_mul, Matrix.conjTranspose_conjTranspose, Matrix.mul_assoc, ← Matrix.mul_assoc (T.G n),
      hU' n (by omega), Matrix.one_mul, (a2.left n hn).1]
  have hrr : ∀ n, c < n → n ≤ N → (g n * (T'.G n)ᴴ) * (g n * (T'.G n)ᴴ)ᴴ = r0 n := by
    intro n h1 hn
    rw [Matrix.conjTranspose_mul, Matrix.conjTranspose_conjTranspose, Matrix.mul_assoc, ← Matrix.mul_assoc (T'.G n)ᴴ,
      hV' n (by omega) hn, Matrix.one_mul, (a2.right n h1 hn).1]
  have hTe : ∀ n, c < n → n ≤ N → T.e n = 1 := by
    intro n h1 hn
    rw [(hTr n (by omega)).2, hr2, Function.update_of_ne (by omega), (a2.right n h1 hn).2]
  have hTe' : ∀ n ≤ c, T'.e n = 1 := by
    intro n hn
    rw [hTi'.old n hn, (a2.left n hn).2]
  refine ⟨{ S with
      A := T'.A, l := T'.e, r := T.e, rEnd := S1.rEnd
      lEnd := epsL (T'.e N) (gaugeCut S.uniR.L (S.uniR.L - 1) (T'.G N)ᴴ (T'.G N) S1.uniR.A 0)
        (gaugeCut S.uniR.L (S.uniR.L - 1) (T'.G N)ᴴ (T'.G N) S1.uniR.A 0)
      uniL := { S1.uniL with
        A := gaugeCut S.uniL.L (S.uniL.L - 1) (T.G 0) (T.G 0)ᴴ S1.uniL.A
        r := Function.update S1.uniL.r (S.uniL.L - 1) ((T.G 0)ᴴ * (S1.uniL.r (S.uniL.L - 1) * (T.G 0)ᴴᴴ)) }
      uniR := { S1.uniR with
        A := gaugeCut S.uniR.L (S.uniR.L - 1) (T'.G N)ᴴ (T'.G N) S1.uniR.A
        l := Function.update S1.uniR.l (S.uniR.L - 1) ((T'.G N)ᴴᴴ * (S1.uniR.l (S.uniR.L - 1) * (T'.G N)ᴴ)) } },
    ν, κ, fun k => gL k * Function.update (fun _ => (1 : Matrix (Fin (D 0)) (Fin (D 0)) ℂ)) (S.uniL.L - 1) (T.G 0) k,
    fun k => Function.update (fun _ => (1 : Matrix (Fin (D 0)) (Fin (D 0)) ℂ)) (S.uniL.L - 1) (T.G 0)ᴴ k * giL k,
    fun k => gR k * Function.update (fun _ => (1 : Matrix (Fin (D N)) (Fin (D N)) ℂ)) (S.uniR.L - 1) (T'.G N)ᴴ k,
    fun k => Function.update (fun _ => (1 : Matrix (Fin (D N)) (Fin (D N)) ℂ)) (S.uniR.L - 1) (T'.G N) k * giR k, fun n => if n ≤ c then g n * T.G n else g n * (T'.G n)ᴴ,
    fun n => if n ≤ c then (T.G n)ᴴ * gi n else T'.G n * gi n, ?_, ?_⟩
  · have hT2 : (List.range' 0 (c + 1)).reverse.foldl (lcfDiagStep P.eigh)
        ⟨A2, fun n => if n = c + 1 then 1 else 0, r2⟩ = T := rfl
    simp only [restoreSwCF, hclrL, hclrR, Option.bind_some, hnc]
    have hS' : ({ S0 with nc := c + 1, uniL := S.uniL, uniR := S.uniR } : Sw q D qL qR N) = S := by
      rw [← hnc]
      exact hS.symm
    rw [hS', a1]
    simp only [Option.bind_some, renormCentre, restoreDiag, hrc, Function.update_self]
    rw [← hrc, hnorm, hfac]
    simp only [hrc, ← hA2, ← hr2, hT2, e1, ← hT', e2, Option.bind_some, a2.LL, a2.LR]
    rw [a2.nc]
  · refine ⟨rfl, a2.LL, a2.LR, ⟨hν, fun n hn => ?_⟩, hκ, c1, c2, a2.oneL, a2.oneR, ⟨fun n hn => ⟨hinv n hn, ?_⟩, hAf⟩,
      ?_, ?_, ⟨?_, ?_, ?_, ?_⟩, ?_, ?_, epsL_eq _ _ _, a2.rEnd⟩
    · rw [H.env.norm n hn, ← eν, H.env.norm c hc.le]
    · exact mul_eq_one_comm.mp (hinv n hn)
    · simp only [Nat.zero_le, if_true, Function.update_self, a2.g0.1, a2.g0.2]
      exact ⟨trivial, trivial⟩
    · simp only [show ¬ N ≤ c by omega, if_false, Function.update_self, a2.gN.1, a2.gN.2]
      exact ⟨trivial, trivial⟩
    · simp only
      rw [hTe' 0 (by omega), a2.oneL _ hkL]
    · intro n hn
      rcases Nat.lt_or_ge n c with h | h
      · simp only
        rw [hTe' n h.le, hTe' (n + 1) h]
        simp only [Matrix.mul_one]
        have := site_left_one (g' := g (n + 1) * T.G (n + 1)) (hll n h.le) (hll (n + 1) h) ?_ (H.env.l_succ n hn)
        · rw [← this]
          refine Finset.sum_congr rfl fun s _ => ?_
          rw [hAf n hn, if_neg (by omega), if_pos h.le, if_pos (by omega), one_smul]
        · have := mul_eq_one_comm.mp (hinv (n + 1) (by omega))
          rwa [if_pos (by omega), if_pos (by omega)] at this
      · exact hTi'.e_succ n h hn
    · simp only
      rw [hTe N (by omega) le_rfl, a2.oneR _ hkR]
    · intro n hn
      simp only
      rcases Nat.lt_trichotomy n c with h | h | h
      · rw [hTi'.restLt n h]
        exact hTi.e_pred n (by omega) (by omega)
      · subst h
        rw [hTi.e_pred n (by omega) (by omega), hTi.eN]
        refine Finset.sum_congr rfl fun s _ => ?_
        rw [hTi'.gauge n le_rfl hn, hTi'.G0]
        simp only [Matrix.mul_one, Matrix.one_mul, Matrix.conjTranspose_mul, Matrix.conjTranspose_conjTranspose]
        rw [Matrix.mul_assoc, ← Matrix.mul_assoc _ (T'.G (n + 1)), hV' (n + 1) (by omega) hn, Matrix.one_mul]
      · rw [hTe n h hn.le, hTe (n + 1) (by omega) hn]
        simp only [Matrix.mul_one]
        have := site_right_one (gi := T'.G n * gi n) (hrr n h hn.le) (hrr (n + 1) (by omega) hn) ?_ (H.env.r_pred n hn)
        · rw [← this]
          refine Finset.sum_congr rfl fun s _ => ?_
          rw [hAf n hn, if_neg (by omega), if_neg (by omega), if_neg (by omega), one_smul]
        · have := mul_eq_one_comm.mp (hinv n hn.le)
          rwa [if_neg (by omega), if_neg (by omega)] at this
    · intro n hn
      refine ⟨hTe' n hn, ?_⟩
      obtain ⟨M, hM, hM'⟩ := hTi.diag n (by omega) (by omega)
      exact ascDiag_of P hM hM' (lcfDiag_psd hTi n (by omega))
    · intro n hn hnN
      refine ⟨hTe n hn hnN, ?_⟩
      obtain ⟨m, rfl⟩ : ∃ m, n = m + 1 := ⟨n - 1, by omega⟩
      obtain ⟨M, hM, hM'⟩ := hTi'.diag m (by omega) (by omega)
      exact ascDiag_of P hM hM' (hTi'.psd (m + 1) (by omega) hnN)

end EvoMPS.SW
