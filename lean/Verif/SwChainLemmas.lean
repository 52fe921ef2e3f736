import Verif.SwEnergySpec
import Verif.UniformKLemmas

/-! # Helper lemmas: the chain of a sandwich state -/

set_option linter.unusedSectionVars false

namespace EvoMPS.Uni

open Matrix

variable {q D : ℕ}

section
variable (site : ℤ → Ten ℂ q D D) (l r : ℤ → Matrix (Fin D) (Fin D) ℂ)

/-- The term on the sites from `n` on, applied to the right environment. -/
def siteTermR (n : ℤ) (k : ℕ) (O : (Fin k → Fin q) → (Fin k → Fin q) → ℂ) : Matrix (Fin D) (Fin D) ℂ :=
  ∑ s, ∑ t, O s t • (siteProd site n k t * r (n + k - 1) * (siteProd site n k s)ᴴ)

/-- The term on the sites from `n` on, applied to the left environment. -/
def siteTermL (n : ℤ) (k : ℕ) (O : (Fin k → Fin q) → (Fin k → Fin q) → ℂ) : Matrix (Fin D) (Fin D) ℂ :=
  ∑ s, ∑ t, O s t • ((siteProd site n k s)ᴴ * l (n - 1) * siteProd site n k t)

theorem trace_siteTermR (n : ℤ) (k : ℕ) (O) :
    (l (n - 1) * siteTermR site r n k O).trace = termEnergy site l r n k O := by
  simp only [siteTermR, termEnergy, Matrix.mul_sum, Matrix.trace_sum, Matrix.mul_smul, Matrix.trace_smul, smul_eq_mul,
    Matrix.mul_assoc]

theorem trace_siteTermL (n : ℤ) (k : ℕ) (O) :
    (siteTermL site l n k O * r (n + k - 1)).trace = termEnergy site l r n k O := by
  simp only [siteTermL, termEnergy, Matrix.sum_mul, Matrix.trace_sum, Matrix.smul_mul, Matrix.trace_smul, smul_eq_mul]
  refine Finset.sum_congr rfl fun s _ => Finset.sum_congr rfl fun t _ => ?_
  rw [Matrix.mul_assoc, Matrix.mul_assoc, Matrix.trace_mul_comm]
  simp only [Matrix.mul_assoc]

theorem siteProd_two (n : ℤ) (s : Fin 2 → Fin q) : siteProd site n 2 s = site n (s 0) * site (n + 1) (s 1) := by
  simp [siteProd, List.ofFn_succ]

theorem siteProd_three (n : ℤ) (s : Fin 3 → Fin q) :
    siteProd site n 3 s = site n (s 0) * site (n + 1) (s 1) * site (n + 2) (s 2) := by
  simp [siteProd, List.ofFn_succ, Matrix.mul_assoc]

theorem siteTermR_two (n : ℤ) (h : Fin q → Fin q → Fin q → Fin q → ℂ) :
    siteTermR site r n 2 (UHam.two h).op
      = epsR2 (r (n + 1)) (calcC h (calcAA (site n) (site (n + 1)))) (calcAA (site n) (site (n + 1))) := by
  have e : n + (2 : ℕ) - 1 = n + 1 := by push_cast; ring
  simp only [siteTermR, UHam.op, e]
  rw [epsR2_eq, sum_fin2]
  refine Finset.sum_congr rfl fun a _ => Finset.sum_congr rfl fun b _ => ?_
  rw [calcC_eq, sum_fin2]
  simp only [calcAA, siteProd_two, Matrix.sum_mul, Matrix.smul_mul]
  rfl

theorem siteTermR_three (n : ℤ) (h : Fin q → Fin q → Fin q → Fin q → Fin q → Fin q → ℂ) :
    siteTermR site r n 3 (UHam.three h).op
      = epsR3 (r (n + 2)) (calcC3 h (calcAAA (site n) (site (n + 1)) (site (n + 2))))
        (calcAAA (site n) (site (n + 1)) (site (n + 2))) := by
  have e : n + (3 : ℕ) - 1 = n + 2 := by push_cast; ring
  simp only [siteTermR, UHam.op, e]
  rw [epsR3_eq, sum_fin3]
  refine Finset.sum_congr rfl fun a _ => Finset.sum_congr rfl fun b _ => Finset.sum_congr rfl fun c _ => ?_
  rw [calcC3_eq, sum_fin3]
  simp only [calcAAA, siteProd_three, Matrix.sum_mul, Matrix.smul_mul]
  rfl

theorem siteTermL_two (n : ℤ) (h : Fin q → Fin q → Fin q → Fin q → ℂ) :
    siteTermL site l n 2 (UHam.two h).op
      = epsL2 (l (n - 1)) (calcAA (site n) (site (n + 1))) (calcC h (calcAA (site n) (site (n + 1)))) := by
  simp only [siteTermL, UHam.op]
  rw [epsL2_eq, sum_fin2]
  refine Finset.sum_congr rfl fun a _ => Finset.sum_congr rfl fun b _ => ?_
  rw [calcC_eq, sum_fin2]
  simp only [calcAA, siteProd_two, Matrix.mul_sum, Matrix.mul_smul]
  rfl

theorem siteTermL_three (n : ℤ) (h : Fin q → Fin q → Fin q → Fin q → Fin q → Fin q → ℂ) :
    siteTermL site l n 3 (UHam.three h).op
      = epsL3 (l (n - 1)) (calcAAA (site n) (site (n + 1)) (site (n + 2)))
        (calcC3 h (calcAAA (site n) (site (n + 1)) (site (n + 2)))) := by
  simp only [siteTermL, UHam.op]
  rw [epsL3_eq, sum_fin3]
  refine Finset.sum_congr rfl fun a _ => Finset.sum_congr rfl fun b _ => Finset.sum_congr rfl fun c _ => ?_
  rw [calcC3_eq, sum_fin3]
  simp only [calcAAA, siteProd_three, Matrix.mul_sum, Matrix.mul_smul]
  rfl

variable {site l r}
variable (hl : ∀ n, l n = ∑ s, (site n s)ᴴ * l (n - 1) * site n s) (hr : ∀ n, r (n - 1) = ∑ s, site n s * r n * (site n s)ᴴ)

include hl in
theorem trace_l_step (n : ℤ) (x : Matrix (Fin D) (Fin D) ℂ) :
    (l (n - 1) * ∑ s, site n s * x * (site n s)ᴴ).trace = (l n * x).trace := by
  rw [hl n]
  simp only [Matrix.mul_sum, Matrix.sum_mul, Matrix.trace_sum]
  refine Finset.sum_congr rfl fun s _ => ?_
  rw [← Matrix.mul_assoc, Matrix.trace_mul_comm]
  simp only [Matrix.mul_assoc]

include hr in
theorem trace_r_step (n : ℤ) (x : Matrix (Fin D) (Fin D) ℂ) :
    ((∑ s, (site n s)ᴴ * x * site n s) * r n).trace = (x * r (n - 1)).trace := by
  rw [hr n]
  simp only [Matrix.mul_sum, Matrix.sum_mul, Matrix.trace_sum]
  refine Finset.sum_congr rfl fun s _ => ?_
  rw [Matrix.mul_assoc, Matrix.mul_assoc, Matrix.trace_mul_comm]
  simp only [Matrix.mul_assoc]

include hl hr in
theorem trace_lr_const (n : ℤ) : (l n * r n).trace = (l 0 * r 0).trace := by
  have step : ∀ n, (l n * r n).trace = (l (n - 1) * r (n - 1)).trace := fun n => by
    rw [← trace_l_step hl n, ← hr n]
  induction n using Int.induction_on with
  | zero => rfl
  | succ i ih => rw [step, show (i : ℤ) + 1 - 1 = i by ring, ih]
  | pred i ih => rw [← step, ih]

/-- A matrix behind a piece of the right chain seen from the front of it. -/
theorem trace_l_chain {L : ℕ} {A : ℕ → Ten ℂ q D D} {a : ℤ} {k : ℕ} {n : ℕ}
    (hl : ∀ n, l n = ∑ s, (site n s)ᴴ * l (n - 1) * site n s)
    (hA : ∀ j < n, site (a + j) = A ((k + j) % L)) (x : Matrix (Fin D) (Fin D) ℂ) :
    (l (a - 1) * chainTransfer L L A A k n x).trace = (l (a + n - 1) * x).trace := by
  induction n generalizing x with
  | zero => rw [chainTransfer_zero]; simp
  | succ n ih =>
    rw [chainTransfer_succ, ih (fun j hj => hA j (by omega)), epsR_eq, ← hA n (by omega)]
    rw [show a + (n : ℤ) - 1 = (a + n : ℤ) - 1 by ring, trace_l_step hl]
    congr 3
    push_cast; ring

/-- A matrix in front of a piece of the left chain seen from behind it. -/
theorem trace_r_chain {L : ℕ} {A : ℕ → Ten ℂ q D D} {a : ℤ} {k : ℕ} {n : ℕ}
    (hr : ∀ n, r (n - 1) = ∑ s, site n s * r n * (site n s)ᴴ)
    (hA : ∀ j < n, site (a + j) = A ((k + j) % L)) (x : Matrix (Fin D) (Fin D) ℂ) :
    (chainTransferL L L A A k n x * r (a + n - 1)).trace = (x * r (a - 1)).trace := by
  induction n with
  | zero => rw [chainTransferL_zero]; simp
  | succ n ih =>
    rw [chainTransferL_succ, epsL_eq, ← hA n (by omega), show a + ((n + 1 : ℕ) : ℤ) - 1 = a + n by push_cast; ring,
      trace_r_step hr, ih (fun j hj => hA j (by omega))]

/-- The right environment in front of a piece of the chain. -/
theorem r_chain {L : ℕ} {A : ℕ → Ten ℂ q D D} {a : ℤ} {k : ℕ} {n : ℕ}
    (hr : ∀ n, r (n - 1) = ∑ s, site n s * r n * (site n s)ᴴ)
    (hA : ∀ j < n, site (a + j) = A ((k + j) % L)) :
    chainTransfer L L A A k n (r (a + n - 1)) = r (a - 1) := by
  induction n with
  | zero => rw [chainTransfer_zero]; simp
  | succ n ih =>
    rw [chainTransfer_succ, epsR_eq, ← hA n (by omega), show a + ((n + 1 : ℕ) : ℤ) - 1 = a + n by push_cast; ring,
      ← hr, ih (fun j hj => hA j (by omega))]

end

/-! ## Sums over consecutive integers -/

/-- `∑ f n` over `n = a, ..., a+k-1`. -/
def sumZ (f : ℤ → ℂ) (a : ℤ) (k : ℕ) : ℂ := ∑ i ∈ Finset.range k, f (a + i)

theorem sumZ_add (f : ℤ → ℂ) (a : ℤ) (j k : ℕ) : sumZ f a (j + k) = sumZ f a j + sumZ f (a + j) k := by
  simp only [sumZ, Finset.sum_range_add, Nat.cast_add, add_assoc]

theorem sumZ_succ (f : ℤ → ℂ) (a : ℤ) (k : ℕ) : sumZ f a (k + 1) = sumZ f a k + f (a + k) :=
  Finset.sum_range_succ _ _

theorem sumZ_zero (f : ℤ → ℂ) (a : ℤ) : sumZ f a 0 = 0 := rfl

theorem sumZ_succ' (f : ℤ → ℂ) (a : ℤ) (k : ℕ) : sumZ f a (k + 1) = f a + sumZ f (a + 1) k := by
  rw [add_comm k 1, sumZ_add]
  simp [sumZ]

/-! ## The bulks -/

section
variable {LL N LR : ℕ} {AL A AR : ℕ → Ten ℂ q D D} {lL rR : ℕ → Matrix (Fin D) (Fin D) ℂ} {site : ℤ → Ten ℂ q D D}
  {l r : ℤ → Matrix (Fin D) (Fin D) ℂ}

theorem _root_.EvoMPS.SandwichChain.herm (h : SandwichChain LL N LR AL A AR lL rR site l r) (hLL : 0 < LL) (hh : ∀ k < LL, (lL k)ᴴ = lL k)
    (n : ℤ) : (l n)ᴴ = l n := by
  have h0 : ∀ n ≤ (0 : ℤ), (l n)ᴴ = l n := fun n hn => by
    rw [h.envL n hn]; exact hh _ (pmod_lt hLL _)
  rcases le_or_gt n 0 with hn | hn
  · exact h0 n hn
  · obtain ⟨m, rfl⟩ := Int.eq_ofNat_of_zero_le hn.le
    clear hn
    induction m with
    | zero => exact h0 _ le_rfl
    | succ m ih =>
      rw [Nat.cast_succ, h.stepL, show (m : ℤ) + 1 - 1 = m by ring]
      simp only [Matrix.conjTranspose_sum, Matrix.conjTranspose_mul, Matrix.conjTranspose_conjTranspose]
      refine Finset.sum_congr rfl fun s _ => ?_
      rw [ih, Matrix.mul_assoc]

theorem _root_.EvoMPS.SandwichChain.siteR_nat (h : SandwichChain LL N LR AL A AR lL rR site l r) (j : ℕ) :
    site ((N : ℤ) + 1 + j) = AR (j % LR) := by
  rw [h.siteR _ (by omega), show (N : ℤ) + 1 + j - N - 1 = j by ring]
  exact congrArg AR (pmod_nat j LR)

theorem _root_.EvoMPS.SandwichChain.envR_nat (h : SandwichChain LL N LR AL A AR lL rR site l r) (hLR : 0 < LR) (j : ℕ) :
    r ((N : ℤ) + j) = rR ((j + LR - 1) % LR) := by
  rw [h.envR _ (by omega), show (N : ℤ) + j - N - 1 = j - 1 by ring]
  exact congrArg rR (pmod_pred hLR j)

theorem _root_.EvoMPS.SandwichChain.siteL_mod (h : SandwichChain LL N LR AL A AR lL rR site l r) {n : ℤ} (hn : n ≤ 0) {j m : ℕ}
    (e : n - 1 = (j : ℤ) - m * LL) : site n = AL (j % LL) := by
  rw [h.siteL n hn, e]
  have := pmod_nat j LL
  rw [← this]
  refine congrArg AL ?_
  unfold pmod
  rw [Int.sub_mul_emod_self_right]

theorem _root_.EvoMPS.SandwichChain.envL_mod (h : SandwichChain LL N LR AL A AR lL rR site l r) {n : ℤ} (hn : n ≤ 0) {j m : ℕ}
    (e : n - 1 = (j : ℤ) - m * LL) : l n = lL (j % LL) := by
  rw [h.envL n hn, e]
  have := pmod_nat j LL
  rw [← this]
  refine congrArg lL ?_
  unfold pmod
  rw [Int.sub_mul_emod_self_right]

/-- The term of the right bulk starting `j` sites behind the window. -/
theorem _root_.EvoMPS.SandwichChain.termR (h : SandwichChain LL N LR AL A AR lL rR site l r) (hLR : 0 < LR) (j k : ℕ)
    (O : (Fin k → Fin q) → (Fin k → Fin q) → ℂ) :
    siteTermR site r ((N : ℤ) + 1 + j) k O = termRight LR AR rR j k O := by
  have e1 : r ((N : ℤ) + 1 + j + k - 1) = rR ((j + k + LR - 1) % LR) := by
    rw [← h.envR_nat hLR]; congr 1; push_cast; ring
  have e2 : ∀ s, siteProd site ((N : ℤ) + 1 + j) k s = chainProd LR AR j k s := fun s => by
    unfold siteProd chainProd
    congr 2
    funext i
    rw [show (N : ℤ) + 1 + j + (i : ℕ) = N + 1 + ((j + i : ℕ) : ℤ) by push_cast; ring, h.siteR_nat]
  simp only [siteTermR, termRight, e1, e2]

/-- The term of the left bulk ending `LL - 1 - i` sites before the end of a block. -/
theorem _root_.EvoMPS.SandwichChain.termL (h : SandwichChain LL N LR AL A AR lL rR site l r) (hLL : 0 < LL) (i k m : ℕ) (hi : i < LL)
    (O : (Fin k → Fin q) → (Fin k → Fin q) → ℂ) :
    siteTermL site l ((i : ℤ) + 2 - k - (m + 1) * LL) k O = termLeft LL AL lL (i + 1 + k * LL - k) k O := by
  have hk : k ≤ k * LL := Nat.le_mul_of_pos_right k hLL
  have hLm : (LL : ℤ) ≤ (m + 1) * LL := by nlinarith [Int.natCast_nonneg m, Int.natCast_nonneg LL]
  have hc : ((i + 1 + k * LL - k : ℕ) : ℤ) = i + 1 + k * LL - k := by
    rw [Nat.cast_sub (by omega)]; push_cast; ring
  have e1 : l ((i : ℤ) + 2 - k - (m + 1) * LL - 1) = lL ((i + 1 + k * LL - k + LL - 1) % LL) := by
    refine h.envL_mod (m := k + 2 + m) (by omega) ?_
    rw [Nat.cast_sub (by omega), Nat.cast_add, hc]
    push_cast; ring
  have e2 : ∀ s, siteProd site ((i : ℤ) + 2 - k - (m + 1) * LL) k s = chainProd LL AL (i + 1 + k * LL - k) k s := fun s => by
    unfold siteProd chainProd
    congr 2
    funext j
    rw [h.siteL_mod (m := k + 1 + m) (j := i + 1 + k * LL - k + j) (by have := j.2; omega)
      (by rw [Nat.cast_add, hc]; push_cast; ring)]
  simp only [siteTermL, termLeft, e1, e2]

end

end EvoMPS.Uni
