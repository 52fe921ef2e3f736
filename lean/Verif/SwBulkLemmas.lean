import Verif.SwChainLemmas

/-! # Helper lemmas: the energy of the bulks of a sandwich state -/

set_option linter.unusedSectionVars false

namespace EvoMPS.Uni

open Matrix

variable {q D : ℕ} {LL N LR : ℕ} {AL A AR : ℕ → Ten ℂ q D D} {lL rR : ℕ → Matrix (Fin D) (Fin D) ℂ}
  {site : ℤ → Ten ℂ q D D} {l r : ℤ → Matrix (Fin D) (Fin D) ℂ}

theorem sum_blocks {L : ℕ} (f : ℕ → ℂ) (hf : ∀ j, f (j + L) = f j) (m : ℕ) :
    ∑ j ∈ Finset.range (m * L), f j = m * ∑ j ∈ Finset.range L, f j := by
  induction m with
  | zero => simp
  | succ m ih =>
    rw [Nat.succ_mul, Finset.sum_range_add, ih]
    have : ∀ j, f (m * L + j) = f j := fun j => by
      induction m with
      | zero => rw [Nat.zero_mul, Nat.zero_add]
      | succ m ih' =>
        rw [Nat.succ_mul, show m * L + L + j = (m * L + j) + L by ring, hf]
        clear ih ih' 
        induction m with
        | zero => rw [Nat.zero_mul, Nat.zero_add]
        | succ m ih' => rw [Nat.succ_mul, show m * L + L + j = (m * L + j) + L by ring, hf, ih']
    simp only [this]
    push_cast
    ring

theorem chain_norm (h : SandwichChain LL N LR AL A AR lL rR site l r) (n : ℤ) : (l n * r n).trace = 1 := by
  rw [trace_lr_const h.stepL h.stepR, h.norm]

/-- The matrix `K 0` of the right bulk between the environments of the sandwich state. -/
theorem bulkR_sum (h : SandwichChain LL N LR AL A AR lL rR site l r) (hLR : 0 < LR) (lR : ℕ → Matrix (Fin D) (Fin D) ℂ)
    (k : ℕ) (O : (Fin k → Fin q) → (Fin k → Fin q) → ℂ) (K : ℕ → Matrix (Fin D) (Fin D) ℂ)
    (hK : KRight LR AR lR rR k O K) (M : ℕ) :
    (l N * K 0).trace = ∑ j ∈ Finset.range M, (termEnergy site l r (N + 1 + j) k O - chainExpect LR AR lR rR j k O)
      + (l (N + M) * K (M % LR)).trace := by
  induction M with
  | zero => simp
  | succ M ih =>
    have h1 := hK.step (M % LR) (Nat.mod_lt _ hLR)
    rw [mod_pred hLR, Nat.mod_add_mod, termRight_shift _ _ (Nat.mod_mod M LR) hLR,
      chainExpect_shift _ _ (Nat.mod_mod M LR) hLR, ← h.termR hLR, ← h.envR_nat hLR, ← h.siteR_nat] at h1
    have e1 : (l (N + M) * ∑ s, site (N + 1 + M) s * K ((M + 1) % LR) * (site (N + 1 + M) s)ᴴ).trace
        = (l (N + (M + 1 : ℕ)) * K ((M + 1) % LR)).trace := by
      have := trace_l_step h.stepL ((N : ℤ) + 1 + M) (K ((M + 1) % LR))
      rw [show (N : ℤ) + 1 + M - 1 = N + M by ring] at this
      rw [this]; congr 3; push_cast; ring
    have e2 : (l (N + M) * siteTermR site r (N + 1 + M) k O).trace = termEnergy site l r (N + 1 + M) k O := by
      have := trace_siteTermR site l r ((N : ℤ) + 1 + M) k O
      rwa [show (N : ℤ) + 1 + M - 1 = N + M by ring] at this
    rw [ih, Finset.sum_range_succ, h1, Matrix.mul_sub, Matrix.mul_add, Matrix.trace_sub, Matrix.trace_add, e1, e2,
      Matrix.mul_smul, Matrix.trace_smul, chain_norm h, smul_eq_mul, mul_one]
    ring

theorem bulkR_limit (h : SandwichChain LL N LR AL A AR lL rR site l r) (hLR : 0 < LR) (lR : ℕ → Matrix (Fin D) (Fin D) ℂ)
    (k : ℕ) (O : (Fin k → Fin q) → (Fin k → Fin q) → ℂ) (K : ℕ → Matrix (Fin D) (Fin D) ℂ)
    (hK : KRight LR AR lR rR k O K) (hmix : BlockMixing LR AR (lR (LR - 1)) (rR (LR - 1))) :
    Filter.Tendsto (fun m : ℕ => sumZ (fun n => termEnergy site l r n k O) (N + 1) (m * LR)
      - m * ∑ j ∈ Finset.range LR, chainExpect LR AR lR rR j k O) Filter.atTop (nhds ((l N * K 0).trace)) := by
  have h0 := hK.orth 0 hLR
  rw [Nat.zero_add, Nat.mod_eq_of_lt (show LR - 1 < LR by omega)] at h0
  have h1 := hmix (K 0)
  rw [h0, zero_smul] at h1
  have h2 : Filter.Tendsto (fun m : ℕ => (l N * K 0).trace - (l N * chainTransfer LR LR AR AR 0 (m * LR) (K 0)).trace)
      Filter.atTop (nhds ((l N * K 0).trace)) := by
    have hc : Continuous fun x : Matrix (Fin D) (Fin D) ℂ => (l N * x).trace := by fun_prop
    have := (hc.tendsto 0).comp h1
    rw [Matrix.mul_zero, Matrix.trace_zero] at this
    have h3 := (tendsto_const_nhds (x := (l N * K 0).trace)).sub this
    rw [sub_zero] at h3
    exact h3
  refine h2.congr fun m => ?_
  have h3 := bulkR_sum h hLR lR k O K hK (m * LR)
  have h4 := trace_l_chain (a := (N : ℤ) + 1) (k := 0) (n := m * LR) (L := LR) (A := AR) h.stepL
    (fun j _ => by rw [Nat.zero_add]; exact h.siteR_nat j) (K 0)
  rw [show (N : ℤ) + 1 - 1 = N by ring, show (N : ℤ) + 1 + (m * LR : ℕ) - 1 = N + (m * LR : ℕ) by ring] at h4
  rw [Nat.mul_mod_left, Finset.sum_sub_distrib, sum_blocks (L := LR) (fun j => chainExpect LR AR lR rR j k O)
    (fun j => chainExpect_shift _ _ (by rw [Nat.add_mod_right]) hLR _ _ _ _)] at h3
  rw [h4, h3, sumZ]
  ring

/-- The last matrix `K` of the left bulk between the environments of the sandwich state. -/
theorem bulkL_sum (h : SandwichChain LL N LR AL A AR lL rR site l r) (hLL : 0 < LL)
    (k : ℕ) (O : (Fin k → Fin q) → (Fin k → Fin q) → ℂ) (K1 : Matrix (Fin D) (Fin D) ℂ) (e : ℂ)
    (hK : K1 = chainTransferL LL LL AL AL 0 LL K1
        + (∑ i ∈ Finset.range LL, chainTransferL LL LL AL AL (i + 1) (LL - 1 - i)
            (termLeft LL AL lL (i + 1 + k * LL - k) k O))
        - e • lL (LL - 1)) (m : ℕ) :
    (K1 * r 0).trace = sumZ (fun n => termEnergy site l r n k O) (2 - k - m * LL) (m * LL) - m * e
      + (K1 * r (-(m * LL))).trace := by
  induction m with
  | zero => simp [sumZ]
  | succ m ih =>
    have site_eq : ∀ (i j : ℕ), i + j < LL → site ((i : ℤ) + 1 - (m + 1) * LL + j) = AL ((i + j) % LL) := by
      intro i j hij
      have hLm : (LL : ℤ) ≤ (m + 1) * LL := by nlinarith [Int.natCast_nonneg m, Int.natCast_nonneg LL]
      exact h.siteL_mod (m := m + 1) (j := i + j) (by omega) (by push_cast; ring)
    have t1 : (chainTransferL LL LL AL AL 0 LL K1 * r (-(m * LL))).trace = (K1 * r (-((m + 1) * LL))).trace := by
      have := trace_r_chain (a := 1 - (m + 1) * LL) (k := 0) (n := LL) (L := LL) (A := AL) h.stepR (fun j hj => by
        have := site_eq 0 j (by omega)
        simpa using this) K1
      rw [show (1 - (m + 1) * LL + LL - 1 : ℤ) = -(m * LL) by ring, show (1 - (m + 1) * LL - 1 : ℤ) = -((m + 1) * LL) by ring] at this
      exact this
    have t2 : ∀ i ∈ Finset.range LL, (chainTransferL LL LL AL AL (i + 1) (LL - 1 - i)
        (termLeft LL AL lL (i + 1 + k * LL - k) k O) * r (-(m * LL))).trace
        = termEnergy site l r (2 - k - (m + 1 : ℕ) * LL + i) k O := by
      intro i hi
      have hi' := Finset.mem_range.1 hi
      have := trace_r_chain (a := (i : ℤ) + 2 - (m + 1) * LL) (k := i + 1) (n := LL - 1 - i) (L := LL) (A := AL) h.stepR
        (fun j hj => by
          have := site_eq (i + 1) j (by omega)
          rw [← this]; congr 1) (termLeft LL AL lL (i + 1 + k * LL - k) k O)
      have hc : ((LL - 1 - i : ℕ) : ℤ) = LL - 1 - i := by omega
      rw [hc, show ((i : ℤ) + 2 - (m + 1) * LL + (LL - 1 - i) - 1 : ℤ) = -(m * LL) by ring] at this
      rw [this, ← h.termL hLL i k m hi', ← trace_siteTermL,
        show ((i : ℤ) + 2 - (m + 1) * LL - 1) = (2 - k - (m + 1 : ℕ) * LL + i + k - 1 : ℤ) by push_cast; ring,
        show ((i : ℤ) + 2 - k - (m + 1) * LL) = (2 - k - (m + 1 : ℕ) * LL + i : ℤ) by push_cast; ring]
    have t3 : (lL (LL - 1) * r (-(m * LL))).trace = 1 := by
      have hx : l (-(m * LL)) = lL ((LL - 1) % LL) := by
        refine h.envL_mod (m := m + 1) (by have : (0 : ℤ) ≤ m * LL := by positivity
                                           omega) ?_
        rw [Nat.cast_sub (by omega)]; push_cast; ring
      rw [Nat.mod_eq_of_lt (by omega)] at hx
      rw [← hx, chain_norm h]
    have e1 : (K1 * r (-(m * LL))).trace = (K1 * r (-((m + 1) * LL))).trace
        + sumZ (fun n => termEnergy site l r n k O) (2 - k - (m + 1 : ℕ) * LL) LL - e := by
      conv_lhs => rw [hK]
      rw [Matrix.sub_mul, Matrix.add_mul, Matrix.trace_sub, Matrix.trace_add, t1, Matrix.sum_mul, Matrix.trace_sum,
        Finset.sum_congr rfl t2, Matrix.smul_mul, Matrix.trace_smul, t3, smul_eq_mul, mul_one]
      rfl
    rw [ih, e1, Nat.succ_mul, add_comm (m * LL) LL, sumZ_add,
      show (2 - k - (m + 1 : ℕ) * LL + LL : ℤ) = 2 - k - m * LL by push_cast; ring]
    push_cast
    ring

theorem bulkL_limit (h : SandwichChain LL N LR AL A AR lL rR site l r) (hLL : 0 < LL) (rL : ℕ → Matrix (Fin D) (Fin D) ℂ)
    (k : ℕ) (O : (Fin k → Fin q) → (Fin k → Fin q) → ℂ) (K1 : Matrix (Fin D) (Fin D) ℂ) (e : ℂ)
    (hK : K1 = chainTransferL LL LL AL AL 0 LL K1
        + (∑ i ∈ Finset.range LL, chainTransferL LL LL AL AL (i + 1) (LL - 1 - i)
            (termLeft LL AL lL (i + 1 + k * LL - k) k O))
        - e • lL (LL - 1)) (horth : (K1 * rL (LL - 1)).trace = 0) (hherm : (lL (LL - 1))ᴴ = lL (LL - 1))
    (hmix : BlockMixing LL AL (lL (LL - 1)) (rL (LL - 1))) :
    Filter.Tendsto (fun m : ℕ => sumZ (fun n => termEnergy site l r n k O) (2 - k - m * LL) (m * LL) - m * e)
      Filter.atTop (nhds ((K1 * r 0).trace)) := by
  have h1 := hmix (r 0)
  have hx : l 0 = lL ((LL - 1) % LL) :=
    h.envL_mod (m := 1) le_rfl (by rw [Nat.cast_sub (by omega)]; push_cast; ring)
  rw [Nat.mod_eq_of_lt (by omega)] at hx
  rw [hherm, ← hx, h.norm, one_smul] at h1
  have hc : Continuous fun x : Matrix (Fin D) (Fin D) ℂ => (K1 * x).trace := by fun_prop
  have h2 := (hc.tendsto _).comp h1
  rw [horth] at h2
  have h3 := (tendsto_const_nhds (x := (K1 * r 0).trace)).sub h2
  rw [sub_zero] at h3
  refine h3.congr fun m => ?_
  have h4 := r_chain (r := r) (a := 1 - (m * LL : ℕ)) (k := 0) (n := m * LL) (L := LL) (A := AL) h.stepR (fun j hj => by
    rw [Nat.zero_add]
    have hj' : (j : ℤ) < (m : ℤ) * LL := by exact_mod_cast hj
    exact h.siteL_mod (m := m) (j := j) (by push_cast; omega) (by push_cast; ring))
  rw [show (1 - (m * LL : ℕ) + (m * LL : ℕ) - 1 : ℤ) = 0 by ring, show (1 - (m * LL : ℕ) - 1 : ℤ) = -(m * LL) by push_cast; ring] at h4
  simp only [Function.comp]
  rw [h4, bulkL_sum h hLL k O K1 e hK m]
  ring

end EvoMPS.Uni
