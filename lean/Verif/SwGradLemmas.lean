import Verif.SwGradSpec
import Verif.SwBulkLemmas
import Verif.TangentGrad

/-! # Helper lemmas: derivatives of the energy of sandwich states -/

set_option linter.unusedSectionVars false

namespace EvoMPS.Uni

open Matrix

variable {q D : ℕ} {LL N LR : ℕ} {AL A AR : ℕ → Ten ℂ q D D} {lL rR : ℕ → Matrix (Fin D) (Fin D) ℂ}
  {site : ℤ → Ten ℂ q D D} {l r : ℤ → Matrix (Fin D) (Fin D) ℂ}

theorem trace_l_at {x y : Matrix (Fin D) (Fin D) ℂ} {A : Ten ℂ q D D} (h : y = ∑ s, (A s)ᴴ * x * A s) (z : Matrix (Fin D) (Fin D) ℂ) :
    (x * ∑ s, A s * z * (A s)ᴴ).trace = (y * z).trace := by
  rw [h]
  simp only [Matrix.mul_sum, Matrix.sum_mul, Matrix.trace_sum]
  refine Finset.sum_congr rfl fun s _ => ?_
  rw [← Matrix.mul_assoc, Matrix.trace_mul_comm]
  simp only [Matrix.mul_assoc]

theorem trace_r_at {x y : Matrix (Fin D) (Fin D) ℂ} {A : Ten ℂ q D D} (h : y = ∑ s, A s * x * (A s)ᴴ) (z : Matrix (Fin D) (Fin D) ℂ) :
    ((∑ s, (A s)ᴴ * z * A s) * x).trace = (z * y).trace := by
  rw [h]
  simp only [Matrix.mul_sum, Matrix.sum_mul, Matrix.trace_sum]
  refine Finset.sum_congr rfl fun s _ => ?_
  rw [Matrix.mul_assoc, Matrix.mul_assoc, Matrix.trace_mul_comm]
  simp only [Matrix.mul_assoc]

/-! ## The right bulk -/

section
variable (h : SandwichChain LL N LR AL A AR lL rR site l r) {x : ℤ → Matrix (Fin D) (Fin D) ℂ}
  (hx : ∀ m > (N : ℤ), x m = ∑ s, (site m s)ᴴ * x (m - 1) * site m s)

include h hx

theorem bulkR_const (M : ℕ) : (x (N + M) * r (N + M)).trace = (x N * r N).trace := by
  induction M with
  | zero => simp
  | succ M ih =>
    have h1 := hx (N + (M + 1 : ℕ)) (by push_cast; omega)
    rw [show (N : ℤ) + (M + 1 : ℕ) - 1 = N + M by push_cast; ring] at h1
    rw [← ih, ← trace_l_at h1, ← h.stepR, show (N : ℤ) + (M + 1 : ℕ) - 1 = N + M by push_cast; ring]

theorem bulkR_sum' (hLR : 0 < LR) (lR : ℕ → Matrix (Fin D) (Fin D) ℂ)
    (k : ℕ) (O : (Fin k → Fin q) → (Fin k → Fin q) → ℂ) (K : ℕ → Matrix (Fin D) (Fin D) ℂ)
    (hK : KRight LR AR lR rR k O K) (M : ℕ) :
    (x N * K 0).trace = ∑ j ∈ Finset.range M, (termEnergy site x r (N + 1 + j) k O
        - chainExpect LR AR lR rR j k O * (x N * r N).trace)
      + (x (N + M) * K (M % LR)).trace := by
  induction M with
  | zero => simp
  | succ M ih =>
    have h1 := hK.step (M % LR) (Nat.mod_lt _ hLR)
    rw [mod_pred hLR, Nat.mod_add_mod, termRight_shift _ _ (Nat.mod_mod M LR) hLR,
      chainExpect_shift _ _ (Nat.mod_mod M LR) hLR, ← h.termR hLR, ← h.envR_nat hLR, ← h.siteR_nat] at h1
    have e1 : (x (N + M) * ∑ s, site (N + 1 + M) s * K ((M + 1) % LR) * (site (N + 1 + M) s)ᴴ).trace
        = (x (N + (M + 1 : ℕ)) * K ((M + 1) % LR)).trace := by
      have := hx (N + (M + 1 : ℕ)) (by push_cast; omega)
      rw [show (N : ℤ) + (M + 1 : ℕ) - 1 = N + M by push_cast; ring, show (N : ℤ) + (M + 1 : ℕ) = N + 1 + M by push_cast; ring] at this
      rw [trace_l_at this, show (N : ℤ) + (M + 1 : ℕ) = N + 1 + M by push_cast; ring]
    have e2 : (x (N + M) * siteTermR site r (N + 1 + M) k O).trace = termEnergy site x r (N + 1 + M) k O := by
      have := trace_siteTermR site x r ((N : ℤ) + 1 + M) k O
      rwa [show (N : ℤ) + 1 + M - 1 = N + M by ring] at this
    rw [ih, Finset.sum_range_succ, h1, Matrix.mul_sub, Matrix.mul_add, Matrix.trace_sub, Matrix.trace_add, e1, e2,
      Matrix.mul_smul, Matrix.trace_smul, bulkR_const h hx, smul_eq_mul]
    ring

theorem chainR' (M : ℕ) (z : Matrix (Fin D) (Fin D) ℂ) :
    (x N * chainTransfer LR LR AR AR 0 M z).trace = (x (N + M) * z).trace := by
  induction M generalizing z with
  | zero => rw [chainTransfer_zero]; simp
  | succ M ih =>
    rw [chainTransfer_succ, ih, epsR_eq, Nat.zero_add, ← h.siteR_nat]
    have := hx (N + (M + 1 : ℕ)) (by push_cast; omega)
    rw [show (N : ℤ) + (M + 1 : ℕ) - 1 = N + M by push_cast; ring, show (N : ℤ) + (M + 1 : ℕ) = N + 1 + M by push_cast; ring] at this
    rw [trace_l_at this, show (N : ℤ) + (M + 1 : ℕ) = N + 1 + M by push_cast; ring]

theorem bulkR_limit' (hLR : 0 < LR) (lR : ℕ → Matrix (Fin D) (Fin D) ℂ)
    (k : ℕ) (O : (Fin k → Fin q) → (Fin k → Fin q) → ℂ) (K : ℕ → Matrix (Fin D) (Fin D) ℂ)
    (hK : KRight LR AR lR rR k O K) (hmix : BlockMixing LR AR (lR (LR - 1)) (rR (LR - 1))) :
    Filter.Tendsto (fun m : ℕ => sumZ (fun n => termEnergy site x r n k O) (N + 1) (m * LR)
      - m * (∑ j ∈ Finset.range LR, chainExpect LR AR lR rR j k O) * (x N * r N).trace) Filter.atTop
      (nhds ((x N * K 0).trace)) := by
  have h0 := hK.orth 0 hLR
  rw [Nat.zero_add, Nat.mod_eq_of_lt (show LR - 1 < LR by omega)] at h0
  have h1 := hmix (K 0)
  rw [h0, zero_smul] at h1
  have h2 : Filter.Tendsto (fun m : ℕ => (x N * K 0).trace - (x N * chainTransfer LR LR AR AR 0 (m * LR) (K 0)).trace)
      Filter.atTop (nhds ((x N * K 0).trace)) := by
    have hc : Continuous fun z : Matrix (Fin D) (Fin D) ℂ => (x N * z).trace := by fun_prop
    have := (hc.tendsto 0).comp h1
    rw [Matrix.mul_zero, Matrix.trace_zero] at this
    have h3 := (tendsto_const_nhds (x := (x N * K 0).trace)).sub this
    rw [sub_zero] at h3
    exact h3
  refine h2.congr fun m => ?_
  have h3 := bulkR_sum' h hx hLR lR k O K hK (m * LR)
  rw [Nat.mul_mod_left, Finset.sum_sub_distrib, ← Finset.sum_mul, sum_blocks (L := LR) (fun j => chainExpect LR AR lR rR j k O)
    (fun j => chainExpect_shift _ _ (by rw [Nat.add_mod_right]) hLR _ _ _ _)] at h3
  rw [chainR' h hx, h3, sumZ]
  ring

end

/-! ## The left bulk -/

section
variable (h : SandwichChain LL N LR AL A AR lL rR site l r) {y : ℤ → Matrix (Fin D) (Fin D) ℂ}
  (hy : ∀ m ≤ (0 : ℤ), y (m - 1) = ∑ s, site m s * y m * (site m s)ᴴ)

include hy in
theorem bulkL_chain {L : ℕ} {A : ℕ → Ten ℂ q D D} {a : ℤ} {k : ℕ} {n : ℕ} (ha : a + n ≤ 1)
    (hA : ∀ j < n, site (a + j) = A ((k + j) % L)) (x : Matrix (Fin D) (Fin D) ℂ) :
    (chainTransferL L L A A k n x * y (a + n - 1)).trace = (x * y (a - 1)).trace := by
  induction n with
  | zero => rw [chainTransferL_zero]; simp
  | succ n ih =>
    have h1 := hy (a + n) (by push_cast at ha; omega)
    rw [chainTransferL_succ, epsL_eq, ← hA n (by omega), show a + ((n + 1 : ℕ) : ℤ) - 1 = a + n by push_cast; ring,
      trace_r_at h1, ih (by push_cast at ha; omega) (fun j hj => hA j (by omega))]

include hy in
theorem bulkL_r_chain {L : ℕ} {A : ℕ → Ten ℂ q D D} {a : ℤ} {k : ℕ} {n : ℕ} (ha : a + n ≤ 1)
    (hA : ∀ j < n, site (a + j) = A ((k + j) % L)) :
    chainTransfer L L A A k n (y (a + n - 1)) = y (a - 1) := by
  induction n with
  | zero => rw [chainTransfer_zero]; simp
  | succ n ih =>
    rw [chainTransfer_succ, epsR_eq, ← hA n (by omega), show a + ((n + 1 : ℕ) : ℤ) - 1 = a + n by push_cast; ring,
      ← hy (a + n) (by push_cast at ha; omega), ih (by push_cast at ha; omega) (fun j hj => hA j (by omega))]

include h hy

theorem bulkL_const (M : ℕ) : (l (-M) * y (-M)).trace = (l 0 * y 0).trace := by
  induction M with
  | zero => simp
  | succ M ih =>
    have h1 := hy (-M) (by omega)
    have h2 := h.stepL (-M)
    rw [← ih, h2, trace_r_at h1, show -((M + 1 : ℕ) : ℤ) = -M - 1 by push_cast; ring]

theorem bulkL_sum' (hLL : 0 < LL)
    (k : ℕ) (O : (Fin k → Fin q) → (Fin k → Fin q) → ℂ) (K1 : Matrix (Fin D) (Fin D) ℂ) (e : ℂ)
    (hK : K1 = chainTransferL LL LL AL AL 0 LL K1
        + (∑ i ∈ Finset.range LL, chainTransferL LL LL AL AL (i + 1) (LL - 1 - i)
            (termLeft LL AL lL (i + 1 + k * LL - k) k O))
        - e • lL (LL - 1)) (m : ℕ) :
    (K1 * y 0).trace = sumZ (fun n => termEnergy site l y n k O) (2 - k - m * LL) (m * LL) - m * e * (l 0 * y 0).trace
      + (K1 * y (-(m * LL))).trace := by
  induction m with
  | zero => simp [sumZ]
  | succ m ih =>
    have hLm : (LL : ℤ) ≤ (m + 1) * LL := by nlinarith [Int.natCast_nonneg m, Int.natCast_nonneg LL]
    have hm0 : (0 : ℤ) ≤ m * LL := by positivity
    have hml : ((m : ℤ) + 1) * LL = m * LL + LL := by ring
    have site_eq : ∀ (i j : ℕ), i + j < LL → site ((i : ℤ) + 1 - (m + 1) * LL + j) = AL ((i + j) % LL) := by
      intro i j hij
      exact h.siteL_mod (m := m + 1) (j := i + j) (by omega) (by push_cast; ring)
    have t1 : (chainTransferL LL LL AL AL 0 LL K1 * y (-(m * LL))).trace = (K1 * y (-((m + 1) * LL))).trace := by
      have := bulkL_chain hy (a := 1 - (m + 1) * LL) (k := 0) (n := LL) (L := LL) (A := AL) (by omega) (fun j hj => by
        have := site_eq 0 j (by omega)
        simpa using this) K1
      rw [show (1 - (m + 1) * LL + LL - 1 : ℤ) = -(m * LL) by ring, show (1 - (m + 1) * LL - 1 : ℤ) = -((m + 1) * LL) by ring] at this
      exact this
    have t2 : ∀ i ∈ Finset.range LL, (chainTransferL LL LL AL AL (i + 1) (LL - 1 - i)
        (termLeft LL AL lL (i + 1 + k * LL - k) k O) * y (-(m * LL))).trace
        = termEnergy site l y (2 - k - (m + 1 : ℕ) * LL + i) k O := by
      intro i hi
      have hi' := Finset.mem_range.1 hi
      have hc : ((LL - 1 - i : ℕ) : ℤ) = LL - 1 - i := by omega
      have := bulkL_chain hy (a := (i : ℤ) + 2 - (m + 1) * LL) (k := i + 1) (n := LL - 1 - i) (L := LL) (A := AL) (by omega)
        (fun j hj => by
          have := site_eq (i + 1) j (by omega)
          rw [← this]; congr 1) (termLeft LL AL lL (i + 1 + k * LL - k) k O)
      rw [hc, show ((i : ℤ) + 2 - (m + 1) * LL + (LL - 1 - i) - 1 : ℤ) = -(m * LL) by ring] at this
      rw [this, ← h.termL hLL i k m hi', ← trace_siteTermL,
        show ((i : ℤ) + 2 - (m + 1) * LL - 1) = (2 - k - (m + 1 : ℕ) * LL + i + k - 1 : ℤ) by push_cast; ring,
        show ((i : ℤ) + 2 - k - (m + 1) * LL) = (2 - k - (m + 1 : ℕ) * LL + i : ℤ) by push_cast; ring]
    have t3 : (lL (LL - 1) * y (-(m * LL))).trace = (l 0 * y 0).trace := by
      have hx : l (-(m * LL)) = lL ((LL - 1) % LL) := by
        refine h.envL_mod (m := m + 1) (by omega) ?_
        rw [Nat.cast_sub (by omega)]; push_cast; ring
      rw [Nat.mod_eq_of_lt (by omega)] at hx
      rw [← hx, ← bulkL_const h hy (m * LL)]
      push_cast; rfl
    have e1 : (K1 * y (-(m * LL))).trace = (K1 * y (-((m + 1) * LL))).trace
        + sumZ (fun n => termEnergy site l y n k O) (2 - k - (m + 1 : ℕ) * LL) LL - e * (l 0 * y 0).trace := by
      conv_lhs => rw [hK]
      rw [Matrix.sub_mul, Matrix.add_mul, Matrix.trace_sub, Matrix.trace_add, t1, Matrix.sum_mul, Matrix.trace_sum,
        Finset.sum_congr rfl t2, Matrix.smul_mul, Matrix.trace_smul, t3, smul_eq_mul]
      rfl
    rw [ih, e1, Nat.succ_mul, add_comm (m * LL) LL, sumZ_add,
      show (2 - k - (m + 1 : ℕ) * LL + LL : ℤ) = 2 - k - m * LL by push_cast; ring]
    push_cast
    ring

theorem bulkL_limit' (hLL : 0 < LL) (rL : ℕ → Matrix (Fin D) (Fin D) ℂ)
    (k : ℕ) (O : (Fin k → Fin q) → (Fin k → Fin q) → ℂ) (K1 : Matrix (Fin D) (Fin D) ℂ) (e : ℂ)
    (hK : K1 = chainTransferL LL LL AL AL 0 LL K1
        + (∑ i ∈ Finset.range LL, chainTransferL LL LL AL AL (i + 1) (LL - 1 - i)
            (termLeft LL AL lL (i + 1 + k * LL - k) k O))
        - e • lL (LL - 1)) (horth : (K1 * rL (LL - 1)).trace = 0)
    (hmix : BlockMixing LL AL (lL (LL - 1)) (rL (LL - 1))) :
    Filter.Tendsto (fun m : ℕ => sumZ (fun n => termEnergy site l y n k O) (2 - k - m * LL) (m * LL)
      - m * e * (l 0 * y 0).trace) Filter.atTop (nhds ((K1 * y 0).trace)) := by
  have h1 := hmix (y 0)
  have hx : l 0 = lL ((LL - 1) % LL) :=
    h.envL_mod (m := 1) le_rfl (by rw [Nat.cast_sub (by omega)]; push_cast; ring)
  rw [Nat.mod_eq_of_lt (by omega)] at hx
  have hc : Continuous fun x : Matrix (Fin D) (Fin D) ℂ => (K1 * x).trace := by fun_prop
  have h2 := (hc.tendsto _).comp h1
  rw [Matrix.mul_smul, Matrix.trace_smul, horth, smul_zero] at h2
  have h3 := (tendsto_const_nhds (x := (K1 * y 0).trace)).sub h2
  rw [sub_zero] at h3
  refine h3.congr fun m => ?_
  have h4 := bulkL_r_chain hy (a := 1 - (m * LL : ℕ)) (k := 0) (n := m * LL) (L := LL) (A := AL) (by omega) (fun j hj => by
    rw [Nat.zero_add]
    have hj' : (j : ℤ) < (m : ℤ) * LL := by exact_mod_cast hj
    exact h.siteL_mod (m := m) (j := j) (by push_cast; omega) (by push_cast; ring))
  rw [show (1 - (m * LL : ℕ) + (m * LL : ℕ) - 1 : ℤ) = 0 by ring, show (1 - (m * LL : ℕ) - 1 : ℤ) = -(m * LL) by push_cast; ring] at h4
  simp only [Function.comp]
  rw [h4, bulkL_sum' h hy hLL k O K1 e hK m]
  ring

end

/-! ## The matrix elements -/

section
variable (site l r) (n : ℤ) (B : Ten ℂ q D D)

theorem gradEnvL_lt {m : ℤ} (h : m < n) : gradEnvL site l n B m = l m := if_pos h

theorem gradEnvR_ge {m : ℤ} (h : n ≤ m) : gradEnvR site r n B m = r m := if_pos h

theorem gradEnvL_step {m : ℤ} (h : n ≤ m) :
    gradEnvL site l n B m = ∑ s, (Function.update site n B m s)ᴴ * gradEnvL site l n B (m - 1) * site m s := by
  obtain ⟨i, rfl⟩ : ∃ i : ℕ, m = n + i := ⟨(m - n).toNat, by omega⟩
  rw [gradEnvL, if_neg (by omega), show (n + i + 1 - n : ℤ).toNat = i + 1 by omega, pushL]
  have : gradEnvL site l n B (n + i - 1) = pushL (Function.update site n B) site (l (n - 1)) n i := by
    rw [gradEnvL]
    split
    · rw [show i = 0 by omega]; simp [pushL]
    · rw [show (n + i - 1 + 1 - n : ℤ).toNat = i by omega]
  rw [this]

theorem gradEnvR_step {m : ℤ} (h : m ≤ n) :
    gradEnvR site r n B (m - 1) = ∑ s, site m s * gradEnvR site r n B m * (Function.update site n B m s)ᴴ := by
  obtain ⟨i, rfl⟩ : ∃ i : ℕ, m = n - i := ⟨(n - m).toNat, by omega⟩
  rw [gradEnvR, if_neg (by omega), show (n - (n - i - 1) : ℤ).toNat = i + 1 by omega, pushR]
  have : gradEnvR site r n B (n - i) = pushR (Function.update site n B) site (r n) n i := by
    rw [gradEnvR]
    split
    · rw [show i = 0 by omega]; simp [pushR]
    · rw [show (n - (n - i) : ℤ).toNat = i by omega]
  rw [this]

theorem gradEnvL_at : gradEnvL site l n B n = ∑ s, (B s)ᴴ * l (n - 1) * site n s := by
  rw [gradEnvL_step site l n B le_rfl, Function.update_self, gradEnvL_lt site l n B (by omega)]

theorem gradEnvR_at : gradEnvR site r n B (n - 1) = ∑ s, site n s * r n * (B s)ᴴ := by
  rw [gradEnvR_step site r n B le_rfl, Function.update_self, gradEnvR_ge site r n B le_rfl]

theorem gradEnvL_gt {m : ℤ} (h : n < m) :
    gradEnvL site l n B m = ∑ s, (site m s)ᴴ * gradEnvL site l n B (m - 1) * site m s := by
  rw [gradEnvL_step site l n B h.le, Function.update_of_ne h.ne']

theorem gradEnvR_lt {m : ℤ} (h : m < n) :
    gradEnvR site r n B (m - 1) = ∑ s, site m s * gradEnvR site r n B m * (site m s)ᴴ := by
  rw [gradEnvR_step site r n B h.le, Function.update_of_ne h.ne]

/-- In the left gauge the environments behind the site vanish. -/
theorem gradEnvL_zero (h : gradEnvL site l n B n = 0) (i : ℕ) : gradEnvL site l n B (n + i) = 0 := by
  induction i with
  | zero => simpa using h
  | succ i ih =>
    rw [gradEnvL_gt site l n B (by push_cast; omega), show n + ((i + 1 : ℕ) : ℤ) - 1 = n + i by push_cast; ring, ih]
    simp

theorem gradEnvR_zero (h : gradEnvR site r n B (n - 1) = 0) (i : ℕ) : gradEnvR site r n B (n - 1 - i) = 0 := by
  induction i with
  | zero => simpa using h
  | succ i ih =>
    rw [show n - 1 - ((i + 1 : ℕ) : ℤ) = n - 1 - i - 1 by push_cast; ring, gradEnvR_lt site r n B (by omega), ih]
    simp

theorem siteProd_congr {site bra : ℤ → Ten ℂ q D D} (j : ℤ) (k : ℕ) (h : ∀ i : ℕ, i < k → bra (j + i) = site (j + i)) (s : Fin k → Fin q) :
    siteProd bra j k s = siteProd site j k s := by
  unfold siteProd
  congr 2
  funext i
  rw [h i i.2]

theorem gradTerm_behind {j : ℤ} (hj : n < j) (k : ℕ) (O) :
    gradTerm site l r n B j k O = termEnergy site (gradEnvL site l n B) r j k O := by
  unfold gradTerm termEnergy
  refine Finset.sum_congr rfl fun s _ => Finset.sum_congr rfl fun t _ => ?_
  rw [gradEnvR_ge site r n B (by omega), siteProd_congr (bra := Function.update site n B) j k
    (fun i _ => Function.update_of_ne (by omega) _ _)]

theorem gradTerm_before {j : ℤ} {k : ℕ} (hj : j + k - 1 < n) (O) :
    gradTerm site l r n B j k O = termEnergy site l (gradEnvR site r n B) j k O := by
  unfold gradTerm termEnergy
  refine Finset.sum_congr rfl fun s _ => Finset.sum_congr rfl fun t _ => ?_
  rcases Nat.eq_zero_or_pos k with rfl | hk
  · rw [gradEnvL_lt site l n B (by push_cast at hj; omega)]; simp [siteProd]
  · rw [gradEnvL_lt site l n B (by omega), siteProd_congr (bra := Function.update site n B) j k
      (fun i _ => Function.update_of_ne (by omega) _ _)]

theorem trace_gradEnvL (x : Matrix (Fin D) (Fin D) ℂ) :
    (gradEnvL site l n B n * x).trace = pair (fun s => l (n - 1) * site n s * x) B := by
  rw [gradEnvL_at, pair, Matrix.sum_mul, Matrix.trace_sum]
  refine Finset.sum_congr rfl fun s _ => ?_
  rw [Matrix.mul_assoc, Matrix.mul_assoc, Matrix.trace_mul_comm]
  simp only [Matrix.mul_assoc]

theorem trace_gradEnvR (x : Matrix (Fin D) (Fin D) ℂ) :
    (x * gradEnvR site r n B (n - 1)).trace = pair (fun s => x * site n s * r n) B := by
  rw [gradEnvR_at, pair, Matrix.mul_sum, Matrix.trace_sum]
  refine Finset.sum_congr rfl fun s _ => ?_
  simp only [Matrix.mul_assoc]

theorem tanInner_envL : (gradEnvL site l n B n * r n).trace = tanInner l r n B (site n) := by
  rw [trace_gradEnvL]; rfl

theorem tanInner_envR : (l (n - 1) * gradEnvR site r n B (n - 1)).trace = tanInner l r n B (site n) := by
  rw [trace_gradEnvR]; rfl

/-! ### The terms touching the site -/

variable (o2 : Fin q → Fin q → Fin q → Fin q → ℂ) (o3 : Fin q → Fin q → Fin q → Fin q → Fin q → Fin q → ℂ)

theorem gradTerm_two_first :
    gradTerm site l r n B n 2 (UHam.two o2).op
      = pair (fun s => l (n - 1) * epsR (r (n + 1)) (EvoMPS.calcC o2 (calcAA (site n) (site (n + 1))) s) (site (n + 1))) B := by
  have e : n + (2 : ℕ) - 1 = n + 1 := by push_cast; ring
  simp only [gradTerm, e, UHam.op, sum_fin2, siteProd_two, gradEnvL_lt site l n B (show n - 1 < n by omega),
    gradEnvR_ge site r n B (show n ≤ n + 1 by omega), Function.update_self, Function.update_of_ne (show n + 1 ≠ n by omega), pair,
    epsR_eq, calcC_eq, calcAA]
  refine Finset.sum_congr rfl fun a _ => ?_
  simp only [Matrix.mul_sum, Matrix.sum_mul, Matrix.trace_sum, Matrix.smul_mul, Matrix.mul_smul, Matrix.trace_smul, smul_eq_mul]
  refine Finset.sum_congr rfl fun b _ => Finset.sum_congr rfl fun c _ => Finset.sum_congr rfl fun d _ => ?_
  simp [Matrix.mul_assoc]

theorem gradTerm_two_second :
    gradTerm site l r n B (n - 1) 2 (UHam.two o2).op
      = pair (fun s => epsL (l (n - 2)) (site (n - 1)) (fun t => EvoMPS.calcC o2 (calcAA (site (n - 1)) (site n)) t s) * r n) B := by
  have e : n - 1 + (2 : ℕ) - 1 = n := by push_cast; ring
  have e2 : n - 1 - 1 = n - 2 := by ring
  have e3 : n - 1 + 1 = n := by ring
  simp only [gradTerm, e, UHam.op, sum_fin2, siteProd_two, e2, e3, gradEnvL_lt site l n B (show n - 2 < n by omega),
    gradEnvR_ge site r n B le_rfl, Function.update_self, Function.update_of_ne (show n - 1 ≠ n by omega), pair,
    epsL_eq, calcC_eq, calcAA]
  rw [Finset.sum_comm]
  refine Finset.sum_congr rfl fun a _ => ?_
  simp only [Matrix.mul_sum, Matrix.sum_mul, Matrix.trace_sum, Matrix.smul_mul, Matrix.mul_smul, Matrix.trace_smul, smul_eq_mul]
  refine Finset.sum_congr rfl fun b _ => Finset.sum_congr rfl fun c _ => Finset.sum_congr rfl fun d _ => ?_
  simp only [Matrix.conjTranspose_mul]
  rw [← Matrix.mul_assoc, Matrix.trace_mul_comm]
  simp [Matrix.mul_assoc]

theorem gradTerm_three_first :
    gradTerm site l r n B n 3 (UHam.three o3).op
      = pair (fun s => l (n - 1) * epsR2 (r (n + 2)) (calcC3 o3 (calcAAA (site n) (site (n + 1)) (site (n + 2))) s)
        (calcAA (site (n + 1)) (site (n + 2)))) B := by
  have e : n + (3 : ℕ) - 1 = n + 2 := by push_cast; ring
  simp only [gradTerm, e, UHam.op, sum_fin3, siteProd_three, gradEnvL_lt site l n B (show n - 1 < n by omega),
    gradEnvR_ge site r n B (show n ≤ n + 2 by omega), Function.update_self, Function.update_of_ne (show n + 1 ≠ n by omega),
    Function.update_of_ne (show n + 2 ≠ n by omega), pair, epsR2_eq, calcC3_eq, calcAA, calcAAA]
  refine Finset.sum_congr rfl fun a _ => ?_
  simp only [Matrix.mul_sum, Matrix.sum_mul, Matrix.trace_sum, Matrix.smul_mul, Matrix.mul_smul, Matrix.trace_smul, smul_eq_mul]
  refine Finset.sum_congr rfl fun b _ => Finset.sum_congr rfl fun c _ => Finset.sum_congr rfl fun d _ =>
    Finset.sum_congr rfl fun e _ => Finset.sum_congr rfl fun f _ => ?_
  simp [Matrix.mul_assoc]

theorem gradTerm_three_second :
    gradTerm site l r n B (n - 1) 3 (UHam.three o3).op
      = pair (fun s => ∑ t, (site (n - 1) t)ᴴ * l (n - 2) * epsR (r (n + 1))
        (calcC3 o3 (calcAAA (site (n - 1)) (site n) (site (n + 1))) t s) (site (n + 1))) B := by
  have e : n - 1 + (3 : ℕ) - 1 = n + 1 := by push_cast; ring
  have e2 : n - 1 - 1 = n - 2 := by ring
  have e3 : n - 1 + 1 = n := by ring
  have e4 : n - 1 + 2 = n + 1 := by ring
  simp only [gradTerm, e, UHam.op, sum_fin3, siteProd_three, e2, e3, e4, gradEnvL_lt site l n B (show n - 2 < n by omega),
    gradEnvR_ge site r n B (show n ≤ n + 1 by omega), Function.update_self, Function.update_of_ne (show n - 1 ≠ n by omega),
    Function.update_of_ne (show n + 1 ≠ n by omega), pair, epsR_eq, calcC3_eq, calcAAA]
  rw [Finset.sum_comm]
  refine Finset.sum_congr rfl fun a _ => ?_
  simp only [Matrix.mul_sum, Matrix.sum_mul, Matrix.trace_sum, Matrix.smul_mul, Matrix.mul_smul, Matrix.trace_smul, smul_eq_mul]
  refine Finset.sum_congr rfl fun b _ => Finset.sum_congr rfl fun c _ => Finset.sum_congr rfl fun d _ =>
    Finset.sum_congr rfl fun e _ => Finset.sum_congr rfl fun f _ => ?_
  simp only [Matrix.conjTranspose_mul]
  rw [← Matrix.mul_assoc, ← Matrix.mul_assoc, Matrix.trace_mul_comm]
  simp [Matrix.mul_assoc]

theorem gradTerm_three_third :
    gradTerm site l r n B (n - 2) 3 (UHam.three o3).op
      = pair (fun u => epsL2 (l (n - 3)) (calcAA (site (n - 2)) (site (n - 1)))
        (fun s t => calcC3 o3 (calcAAA (site (n - 2)) (site (n - 1)) (site n)) s t u) * r n) B := by
  have e : n - 2 + (3 : ℕ) - 1 = n := by push_cast; ring
  have e2 : n - 2 - 1 = n - 3 := by ring
  have e3 : n - 2 + 1 = n - 1 := by ring
  have e4 : n - 2 + 2 = n := by ring
  simp only [gradTerm, e, UHam.op, sum_fin3, siteProd_three, e2, e3, e4, gradEnvL_lt site l n B (show n - 3 < n by omega),
    gradEnvR_ge site r n B le_rfl, Function.update_self, Function.update_of_ne (show n - 1 ≠ n by omega),
    Function.update_of_ne (show n - 2 ≠ n by omega), pair, epsL2_eq, calcC3_eq, calcAA, calcAAA]
  rw [sum_rot3]
  refine Finset.sum_congr rfl fun a _ => ?_
  simp only [Matrix.mul_sum, Matrix.sum_mul, Matrix.trace_sum, Matrix.smul_mul, Matrix.mul_smul, Matrix.trace_smul, smul_eq_mul]
  refine Finset.sum_congr rfl fun b _ => Finset.sum_congr rfl fun c _ => Finset.sum_congr rfl fun d _ =>
    Finset.sum_congr rfl fun e _ => Finset.sum_congr rfl fun f _ => ?_
  simp only [Matrix.conjTranspose_mul]
  rw [← Matrix.mul_assoc, Matrix.trace_mul_comm]
  simp [Matrix.mul_assoc]

end

end EvoMPS.Uni
