import Verif.DynExpLemmas
import Verif.TangentLemmas
import Verif.TwoSiteLemmas

/-!
# Overlaps of states with a replaced pair of tensors (helper lemmas)
-/

set_option linter.unusedSectionVars false

namespace EvoMPS

open Matrix

section
variable {R : Type*} [CommRing R] [StarRing R] {q D : ℕ → ℕ} {N : ℕ}
  {A : Tensors R q D} {l r : Envs R D}

/-- Partial products over the first `n` sites, for all `n`. -/
abbrev Partial (R : Type*) (q D : ℕ → ℕ) := ∀ n, Cfg q n → Matrix (Fin (D 0)) (Fin (D n)) R

/-- The product over `n + 1` sites is the one over `n` sites times the tensor `A n`. -/
def StepsBy (f : Partial R q D) (A : Tensors R q D) (n : ℕ) : Prop :=
  ∀ s : Cfg q (n + 1), f (n + 1) s = f n (fun i => s i.castSucc) * A n (s (Fin.last n))

/-- Contraction of the first `n` sites. -/
def mixG (f g : Partial R q D) (n : ℕ) : Matrix (Fin (D n)) (Fin (D n)) R :=
  ∑ s, (f n s)ᴴ * g n s

theorem amp_steps (A : Tensors R q D) (n : ℕ) : StepsBy (amp A) A n := fun _ => rfl

theorem amp2_steps (A : Tensors R q D) (X : Pairs R q D) (k n : ℕ) (hn : n ≠ k + 1) :
    StepsBy (amp2 A X k) A n := by
  intro s
  cases n with
  | zero => simp [amp2]
  | succ n => rw [amp2, if_neg (by omega)]

theorem amp2_at (A : Tensors R q D) (X : Pairs R q D) (k : ℕ) (s : Cfg q (k + 2)) :
    amp2 A X k (k + 2) s
      = amp A k (fun i => s i.castSucc.castSucc) * X k (s (Fin.last k).castSucc) (s (Fin.last (k + 1))) := by
  rw [amp2, if_pos rfl]

theorem mixG_step {f g : Partial R q D} {B C : Tensors R q D} {n : ℕ} (hf : StepsBy f B n)
    (hg : StepsBy g C n) : mixG f g (n + 1) = ∑ s, (B n s)ᴴ * mixG f g n * C n s := by
  unfold mixG
  rw [sum_cfg_succ, Finset.sum_comm]
  refine Finset.sum_congr rfl fun t _ => ?_
  rw [Matrix.mul_sum, Matrix.sum_mul]
  refine Finset.sum_congr rfl fun s _ => ?_
  rw [hf, hg]
  simp only [snocCfg_castSucc, snocCfg_last, conjTranspose_mul, Matrix.mul_assoc]

theorem mixG_amp (B C : Tensors R q D) (n : ℕ) : mixG (amp B) (amp C) n = mixL B C 1 n := by
  rw [mixL_amp]
  simp [mixG]

theorem mixG_one {f g : Partial R q D} (h0 : D 0 = 1) (hN : D N = 1) :
    adot (mixG f g N) 1 = braket (fun s : Cfg q N => g N s ⟨0, by omega⟩ ⟨0, by omega⟩)
      (fun s => f N s ⟨0, by omega⟩ ⟨0, by omega⟩) := by
  rw [mixG, adot_eq_trace, Matrix.mul_one, Matrix.conjTranspose_sum, Matrix.trace_sum, braket]
  refine Finset.sum_congr rfl fun s _ => ?_
  have i0 : ∀ i : Fin (D 0), i = ⟨0, by omega⟩ := fun i => Fin.ext (by have := i.2; omega)
  have iN : ∀ i : Fin (D N), i = ⟨0, by omega⟩ := fun i => Fin.ext (by have := i.2; omega)
  simp only [Matrix.conjTranspose_mul, Matrix.conjTranspose_conjTranspose,
    Matrix.trace, Matrix.diag_apply, Matrix.mul_apply, Matrix.conjTranspose_apply]
  rw [Finset.sum_eq_single (⟨0, by omega⟩ : Fin (D N)) (fun i _ hi => absurd (iN i) hi) (by simp),
    Finset.sum_eq_single (⟨0, by omega⟩ : Fin (D 0)) (fun i _ hi => absurd (i0 i) hi) (by simp)]

/-- If both products continue with `A` from site `e` on, the right environment closes the contraction. -/
theorem mixG_last (h : UpToDate N A l r) {f g : Partial R q D} (h0 : D 0 = 1) (hN : D N = 1) (e : ℕ)
    (he : e ≤ N) (hf : ∀ n, e ≤ n → n < N → StepsBy f A n) (hg : ∀ n, e ≤ n → n < N → StepsBy g A n) :
    braket (fun s : Cfg q N => g N s ⟨0, by omega⟩ ⟨0, by omega⟩)
      (fun s => f N s ⟨0, by omega⟩ ⟨0, by omega⟩) = adot (mixG f g e) (r e) := by
  rw [← mixG_one h0 hN]
  obtain ⟨j, rfl⟩ := Nat.exists_eq_add_of_le he
  clear he
  induction j generalizing e with
  | zero => rw [← h.r_last]; rfl
  | succ j ih =>
    have h1 : e + 1 + j = e + (j + 1) := by omega
    have hr : r e = epsR (r (e + 1)) (A e) (A e) := by rw [h.r_pred e (by omega), epsR_eq]
    have := ih (e + 1) (by rw [h1]; exact h) (by rw [h1]; exact hN) (fun n a b => hf n (by omega) (by omega))
      (fun n a b => hg n (by omega) (by omega))
    rw [hr, ← adot_epsL, epsL_eq, ← mixG_step (hf e le_rfl (by omega)) (hg e le_rfl (by omega)), ← this]
    congr! 1 <;> rw [h1]

theorem mixG_zero {f g : Partial R q D} {e : ℕ} (h0 : mixG f g e = 0)
    {B C : Tensors R q D} (n : ℕ) (hn : e ≤ n) (hf : ∀ m, e ≤ m → m < n → StepsBy f B m)
    (hg : ∀ m, e ≤ m → m < n → StepsBy g C m) : mixG f g n = 0 := by
  obtain ⟨j, rfl⟩ := Nat.exists_eq_add_of_le hn
  clear hn
  induction j with
  | zero => exact h0
  | succ j ih =>
    rw [← Nat.add_assoc, mixG_step (hf _ (by omega) (by omega)) (hg _ (by omega) (by omega)),
      ih (fun m a b => hf m a (by omega)) (fun m a b => hg m a (by omega))]
    simp

theorem mixG_star (f g : Partial R q D) (n : ℕ) : (mixG f g n)ᴴ = mixG g f n := by
  simp [mixG, conjTranspose_sum]

/-! ## Gauge conditions of pairs -/

/-- `∑_s A[s]ᴴ l X[s,t] = 0` for all `t`. -/
def LeftGauge2 {p p' a b c : ℕ} (A : Ten R p a b) (l : Matrix (Fin a) (Fin a) R) (X : Ten2 R p p' a c) : Prop :=
  ∀ t, ∑ s, (A s)ᴴ * l * X s t = 0

/-- `∑_t X[s,t] r A[t]ᴴ = 0` for all `s`. -/
def RightGauge2 {p p' a b c : ℕ} (A : Ten R p' b c) (r : Matrix (Fin c) (Fin c) R) (X : Ten2 R p p' a c) : Prop :=
  ∀ s, ∑ t, X s t * r * (A t)ᴴ = 0

theorem rightGauge2_conj {p p' a b c : ℕ} {A : Ten R p' b c} {r : Matrix (Fin c) (Fin c) R} (hr : rᴴ = r)
    {X : Ten2 R p p' a c} (h : RightGauge2 A r X) (s : Fin p) : ∑ t, A t * r * (X s t)ᴴ = 0 := by
  have := congrArg conjTranspose (h s)
  simpa [Matrix.conjTranspose_sum, Matrix.conjTranspose_mul, hr, Matrix.mul_assoc] using this

theorem mixG_pair (B : Tensors R q D) (X : Pairs R q D) (k : ℕ) :
    mixG (amp B) (amp2 A X k) (k + 2)
      = ∑ t, ∑ s, (B (k + 1) t)ᴴ * ((B k s)ᴴ * mixL B A 1 k * X k s t) := by
  unfold mixG
  rw [sum_cfg_succ, Finset.sum_comm]
  refine Finset.sum_congr rfl fun t _ => ?_
  rw [sum_cfg_succ, Finset.sum_comm]
  refine Finset.sum_congr rfl fun s _ => ?_
  rw [← mixG_amp, mixG]
  simp only [Matrix.mul_sum, Matrix.sum_mul]
  refine Finset.sum_congr rfl fun c _ => ?_
  rw [amp2_at, amp, amp]
  simp only [snocCfg_castSucc, snocCfg_last, conjTranspose_mul, Matrix.mul_assoc]

theorem adot_pair (M : Matrix (Fin (D k)) (Fin (D k)) R) (B : Tensors R q D) (X : Pairs R q D) (y) :
    adot (∑ t, ∑ s, (B (k + 1) t)ᴴ * ((B k s)ᴴ * M * X k s t)) y
      = adot M (∑ s, ∑ t, B k s * B (k + 1) t * y * (X k s t)ᴴ) := by
  simp only [adot_eq_trace, conjTranspose_sum, Matrix.sum_mul, Matrix.mul_sum, Matrix.trace_sum]
  rw [Finset.sum_comm]
  refine Finset.sum_congr rfl fun s _ => Finset.sum_congr rfl fun t _ => ?_
  simp only [conjTranspose_mul, conjTranspose_conjTranspose, Matrix.mul_assoc]
  rw [Matrix.trace_mul_comm]
  simp only [Matrix.mul_assoc]

/-- A gauge-fixed pair is orthogonal to all states that agree with `A` to the left of the second site. -/
theorem pair_left_orth (h : UpToDate N A l r) (h0 : D 0 = 1) (hN : D N = 1) (X : Pairs R q D) (k : ℕ)
    (hk : k + 1 < N) (hX : LeftGauge2 (A k) (l k) (X k)) (B : Tensors R q D) (hB : ∀ m ≤ k, B m = A m) :
    braket (twoSite (N := N) A h0 hN X k) (psi B h0 hN) = 0 := by
  have hz : mixG (amp B) (amp2 A X k) (k + 2) = 0 := by
    rw [mixG_pair, mixL_congr (fun m hm => hB m (by omega)) (fun _ _ => rfl), ← h.l_eq k (by omega),
      hB k le_rfl]
    refine Finset.sum_eq_zero fun t _ => ?_
    rw [← Matrix.mul_sum, hX t, Matrix.mul_zero]
  have := mixG_one (N := N) (f := amp B) (g := amp2 A X k) h0 hN
  rw [mixG_zero hz N hk (fun m _ _ => amp_steps B m) (fun m a _ => amp2_steps A X k m (by omega))] at this
  rw [adot_eq_trace] at this
  simp only [conjTranspose_zero, Matrix.zero_mul, Matrix.trace_zero] at this
  exact this.symm

/-- A gauge-fixed pair is orthogonal to all states that agree with `A` to the right of the first site. -/
theorem pair_right_orth (h : UpToDate N A l r) (h0 : D 0 = 1) (hN : D N = 1) (X : Pairs R q D) (k : ℕ)
    (hk : k + 1 < N) (hX : RightGauge2 (A (k + 1)) (r (k + 1 + 1)) (X k)) (B : Tensors R q D)
    (hB : ∀ m, k + 1 ≤ m → m < N → B m = A m) :
    braket (twoSite (N := N) A h0 hN X k) (psi B h0 hN) = 0 := by
  have := mixG_last h (f := amp B) (g := amp2 A X k) h0 hN (k + 2) hk
    (fun n a b s => by rw [amp, hB n (by omega) b]) (fun m a _ => amp2_steps A X k m (by omega))
  rw [mixG_pair, adot_pair, hB (k + 1) le_rfl hk] at this
  refine Eq.trans this ?_
  rw [show ∑ s, ∑ t, B k s * A (k + 1) t * r (k + 2) * (X k s t)ᴴ = 0 from ?_, adot_zero_right]
  refine Finset.sum_eq_zero fun s _ => ?_
  simp only [Matrix.mul_assoc]
  rw [← Matrix.mul_sum]
  have := rightGauge2_conj (h.r_herm _ hk) hX s
  simp only [Matrix.mul_assoc] at this
  rw [this, Matrix.mul_zero]

/-- The inner product of two pairs. -/
def ov2 {p p' a c : ℕ} (l : Matrix (Fin a) (Fin a) R) (r : Matrix (Fin c) (Fin c) R) (Z X : Ten2 R p p' a c) : R :=
  adot l (∑ s, ∑ t, X s t * r * (Z s t)ᴴ)

theorem pair_same (h : UpToDate N A l r) (h0 : D 0 = 1) (hN : D N = 1) (X Z : Pairs R q D) (k : ℕ)
    (hk : k + 1 < N) :
    braket (twoSite (N := N) A h0 hN Z k) (twoSite A h0 hN X k) = ov2 (l k) (r (k + 1 + 1)) (Z k) (X k) := by
  have := mixG_last h (f := amp2 A X k) (g := amp2 A Z k) h0 hN (k + 2) hk
    (fun m a _ => amp2_steps A X k m (by omega)) (fun m a _ => amp2_steps A Z k m (by omega))
  refine Eq.trans this ?_
  have e : mixG (amp2 A X k) (amp2 A Z k) (k + 2) = ∑ s, ∑ t, (X k s t)ᴴ * l k * Z k s t := by
    unfold mixG
    rw [sum_cfg_succ, sum_cfg_succ, Finset.sum_comm' (t' := Finset.univ) (s' := fun _ => Finset.univ) (by simp)]
    refine Finset.sum_congr rfl fun s _ => ?_
    rw [Finset.sum_comm]
    refine Finset.sum_congr rfl fun t _ => ?_
    rw [h.l_eq k (by omega), ← mixG_amp, mixG, Matrix.mul_sum, Matrix.sum_mul]
    refine Finset.sum_congr rfl fun c _ => ?_
    rw [amp2_at, amp2_at]
    simp only [snocCfg_castSucc, snocCfg_last, conjTranspose_mul, Matrix.mul_assoc]
  rw [e, ov2]
  simp only [adot_eq_trace, conjTranspose_sum, Matrix.sum_mul, Matrix.mul_sum, Matrix.trace_sum]
  refine Finset.sum_congr rfl fun s _ => Finset.sum_congr rfl fun t _ => ?_
  simp only [conjTranspose_mul, conjTranspose_conjTranspose, Matrix.mul_assoc]
  rw [Matrix.trace_mul_comm]
  simp only [Matrix.mul_assoc]

/-- Gauge-fixed pairs at different places are orthogonal. -/
theorem pair_cross_lt (h : UpToDate N A l r) (h0 : D 0 = 1) (hN : D N = 1) (X Z : Pairs R q D) (j k : ℕ)
    (hk : k + 1 < N) (hjk : j < k) (hX : LeftGauge2 (A j) (l j) (X j)) :
    braket (twoSite (N := N) A h0 hN Z k) (twoSite A h0 hN X j) = 0 := by
  have hz : mixG (amp2 A X j) (amp2 A Z k) (k + 2) = 0 := by
    unfold mixG
    rw [sum_cfg_succ, Finset.sum_comm]
    refine Finset.sum_eq_zero fun t _ => ?_
    rw [sum_cfg_succ, Finset.sum_comm]
    refine Finset.sum_eq_zero fun u _ => ?_
    have e : ∀ c : Cfg q k, (amp2 A X j (k + 2) (snocCfg (snocCfg c u) t))ᴴ * amp2 A Z k (k + 2)
        (snocCfg (snocCfg c u) t) = (A (k + 1) t)ᴴ * ((amp2 A X j (k + 1) (snocCfg c u))ᴴ * amp A k c) * Z k u t := by
      intro c
      rw [amp2_at, amp2_steps A X j (k + 1) (by omega)]
      simp only [snocCfg_castSucc, snocCfg_last, conjTranspose_mul, Matrix.mul_assoc]
    rw [Finset.sum_congr rfl fun c _ => e c, ← Matrix.sum_mul, ← Matrix.mul_sum]
    have e0 : ∑ c : Cfg q k, (amp2 A X j (k + 1) (snocCfg c u))ᴴ * amp A k c = 0 := by
      rcases Nat.lt_or_ge k (j + 2) with hlt | hge
      · obtain rfl : k = j + 1 := by omega
        rw [sum_cfg_succ, Finset.sum_congr rfl fun c _ => Finset.sum_congr rfl fun v _ => by
          rw [amp2_at, amp]]
        rw [Finset.sum_comm]
        simp only [snocCfg_castSucc, snocCfg_last, conjTranspose_mul, Matrix.mul_assoc]
        have := congrArg conjTranspose (hX u)
        simp only [conjTranspose_sum, conjTranspose_mul, conjTranspose_conjTranspose, conjTranspose_zero,
          Matrix.mul_assoc, h.l_herm j (by omega)] at this
        rw [← this]
        refine Finset.sum_congr rfl fun v _ => ?_
        rw [h.l_eq j (by omega), ← mixG_amp, mixG, Matrix.sum_mul, Matrix.mul_sum]
        refine Finset.sum_congr rfl fun c _ => ?_
        simp only [Matrix.mul_assoc]
      · have hs : ∀ c : Cfg q k, (amp2 A X j (k + 1) (snocCfg c u))ᴴ * amp A k c
            = (A k u)ᴴ * ((amp2 A X j k c)ᴴ * amp A k c) := by
          intro c
          rw [amp2_steps A X j k (by omega)]
          simp only [snocCfg_castSucc, snocCfg_last, conjTranspose_mul, Matrix.mul_assoc]
        rw [Finset.sum_congr rfl fun c _ => hs c, ← Matrix.mul_sum]
        have h1 : mixG (amp A) (amp2 A X j) (j + 2) = 0 := by
          rw [mixG_pair, ← h.l_eq j (by omega)]
          refine Finset.sum_eq_zero fun t _ => ?_
          rw [← Matrix.mul_sum, hX t, Matrix.mul_zero]
        have h2 := mixG_zero h1 k hge (fun m _ _ => amp_steps A m)
          (fun m a _ => amp2_steps A X j m (by omega))
        have h3 := congrArg conjTranspose h2
        rw [mixG_star, conjTranspose_zero] at h3
        exact (congrArg _ h3).trans (Matrix.mul_zero _)
    rw [e0, Matrix.mul_zero, Matrix.zero_mul]
  have := mixG_one (N := N) (f := amp2 A X j) (g := amp2 A Z k) h0 hN
  rw [mixG_zero hz N hk (fun m a _ => amp2_steps A X j m (by omega))
    (fun m a _ => amp2_steps A Z k m (by omega))] at this
  rw [adot_eq_trace] at this
  simp only [conjTranspose_zero, Matrix.zero_mul, Matrix.trace_zero] at this
  exact this.symm

/-! ## Matrix elements of the Hamiltonian -/

theorem matElem_pair_prod (h : UpToDate N A l r) (h0 : D 0 = 1) (hN : D N = 1) (Z : Pairs R q D) (k : ℕ)
    (o : ∀ n, Fin (q n) → Fin (q n) → R) (e : ℕ) (hke : k + 2 ≤ e) (he : e ≤ N)
    (ho : ∀ n, e ≤ n → n < N → o n = idOp (q n)) :
    matElem (twoSite A h0 hN Z k) (prodOp o) (psi (N := N) A h0 hN)
      = adot (mixG (amp (opT o A)) (amp2 A Z k) e) (r e) := by
  rw [matElem_prodOp]
  exact mixG_last h (f := amp (opT o A)) (g := amp2 A Z k) h0 hN e he
    (fun n a b s => by rw [amp, opT_id A (ho n a b)]) (fun m a _ => amp2_steps A Z k m (by omega))

/-- Only terms that act on both sites of the pair contribute. -/
theorem matElem_pair_far (h : UpToDate N A l r) (h0 : D 0 = 1) (hN : D N = 1) (ham : Ham R q) (Z : Pairs R q D)
    (k : ℕ) (hk : k + 1 < N) (hL : LeftGauge2 (A k) (l k) (Z k))
    (hR : RightGauge2 (A (k + 1)) (r (k + 1 + 1)) (Z k)) (j : ℕ) (hj : j + ham.sites ≤ k + 1 ∨ k < j) :
    matElem (twoSite A h0 hN Z k) (ham.term (N := N) j) (psi A h0 hN) = 0 := by
  have key : ∀ o : ∀ n, Fin (q n) → Fin (q n) → R,
      ((∀ n, k + 1 ≤ n → o n = idOp (q n)) ∨ (∀ n ≤ k, o n = idOp (q n))) →
      matElem (twoSite (N := N) A h0 hN Z k) (prodOp o) (psi A h0 hN) = 0 := by
    intro o ho
    rw [matElem_prodOp]
    rcases ho with ho | ho
    · exact pair_right_orth h h0 hN Z k hk hR _ fun m a _ => opT_id A (ho m a)
    · exact pair_left_orth h h0 hN Z k hk hL _ fun m a => opT_id A (ho m a)
  cases ham with
  | two hm =>
    simp only [Ham.sites] at hj
    rw [Ham.term]
    by_cases hjN : j + 1 < N
    · rw [dif_pos hjN]
      cases hm j with
      | none => simp [matElem]
      | some op =>
        rw [Option.elim_some, siteOp2_units, matElem_sum]
        refine Finset.sum_eq_zero fun x _ => ?_
        rw [key, mul_zero]
        rcases hj with hj | hj
        · refine Or.inl fun n hn => ?_
          rw [at1, Function.update_of_ne (by omega), at1, Function.update_of_ne (by omega)]
        · refine Or.inr fun n hn => ?_
          rw [at1, Function.update_of_ne (by omega), at1, Function.update_of_ne (by omega)]
    · rw [dif_neg hjN]; simp [matElem]
  | three hm =>
    simp only [Ham.sites] at hj
    rw [Ham.term]
    by_cases hjN : j + 2 < N
    · rw [dif_pos hjN]
      cases hm j with
      | none => simp [matElem]
      | some op =>
        rw [Option.elim_some, siteOp3_units, matElem_sum]
        refine Finset.sum_eq_zero fun x _ => ?_
        rw [key, mul_zero]
        rcases hj with hj | hj
        · refine Or.inl fun n hn => ?_
          rw [at1, Function.update_of_ne (by omega), at1, Function.update_of_ne (by omega), at1,
            Function.update_of_ne (by omega)]
        · refine Or.inr fun n hn => ?_
          rw [at1, Function.update_of_ne (by omega), at1, Function.update_of_ne (by omega), at1,
            Function.update_of_ne (by omega)]
    · rw [dif_neg hjN]; simp [matElem]

theorem matElem_pair_two (h : UpToDate N A l r) (h0 : D 0 = 1) (hN : D N = 1) (Z : Pairs R q D) (k : ℕ)
    (hk : k + 1 < N) (op : Fin (q k) → Fin (q (k + 1)) → Fin (q k) → Fin (q (k + 1)) → R) :
    matElem (twoSite A h0 hN Z k) (siteOp2 k hk op) (psi (N := N) A h0 hN)
      = ov2 (l k) (r (k + 1 + 1)) (Z k) (calcC op (calcAA (A k) (A (k + 1)))) := by
  rw [siteOp2_units, matElem_sum]
  simp only [Fintype.sum_prod_type, ov2, calcC_eq, Matrix.sum_mul, adot_sum_right, Matrix.smul_mul,
    adot_smul_right, calcAA]
  refine Finset.sum_congr rfl fun s _ => Finset.sum_congr rfl fun t _ =>
    Finset.sum_congr rfl fun u _ => Finset.sum_congr rfl fun v _ => ?_
  congr 1
  have ho : ∀ n, n ≠ k → n ≠ k + 1 → at1 k (unitOp (R := R) s u)
      (at1 (k + 1) (unitOp t v) fun n => idOp (q n)) n = idOp (q n) := fun n h1 h2 => by
    rw [at1, Function.update_of_ne h1, at1, Function.update_of_ne h2]
  rw [matElem_pair_prod h h0 hN Z k _ (k + 2) le_rfl hk (fun n h1 _ => ho n (by omega) (by omega)), mixG_pair,
    adot_pair, mixL_opT_id A A 1 k _ (fun n hn => ho n (by omega) (by omega)), ← h.l_eq k (by omega),
    opT_at A (k := k) (op := unitOp s u) (by rw [at1, Function.update_self]),
    opT_at A (k := k + 1) (op := unitOp t v)
      (by rw [at1, Function.update_of_ne (by omega), at1, Function.update_self]), opSite_unit, opSite_unit,
    Finset.sum_eq_single s (fun x _ hx => by simp [hx]) (by simp),
    Finset.sum_eq_single t (fun x _ hx => by simp [hx]) (by simp)]
  simp only [if_true]

theorem matElem_pair_three (h : UpToDate N A l r) (h0 : D 0 = 1) (hN : D N = 1) (Z : Pairs R q D) (k : ℕ)
    (hk : k + 2 < N) (op : Fin (q k) → Fin (q (k + 1)) → Fin (q (k + 2)) →
      Fin (q k) → Fin (q (k + 1)) → Fin (q (k + 2)) → R) :
    matElem (twoSite A h0 hN Z k) (siteOp3 k hk op) (psi (N := N) A h0 hN)
      = adot (l k) (∑ s, ∑ t, ∑ u, calcC3 op (calcAAA (A k) (A (k + 1)) (A (k + 2))) s t u * r (k + 2 + 1)
          * (Z k s t * A (k + 2) u)ᴴ) := by
  rw [siteOp3_units, matElem_sum]
  simp only [Fintype.sum_prod_type, calcC3_eq, Matrix.sum_mul, adot_sum_right, Matrix.smul_mul,
    adot_smul_right, calcAAA]
  refine Finset.sum_congr rfl fun s _ => Finset.sum_congr rfl fun t _ =>
    Finset.sum_congr rfl fun w _ => Finset.sum_congr rfl fun u _ =>
    Finset.sum_congr rfl fun v _ => Finset.sum_congr rfl fun z _ => ?_
  congr 1
  have ho : ∀ n, n ≠ k → n ≠ k + 1 → n ≠ k + 2 → at1 k (unitOp (R := R) s u)
      (at1 (k + 1) (unitOp t v) (at1 (k + 2) (unitOp w z) fun n => idOp (q n))) n
        = idOp (q n) := fun n h1 h2 h3 => by
    rw [at1, Function.update_of_ne h1, at1, Function.update_of_ne h2, at1,
      Function.update_of_ne h3]
  rw [matElem_pair_prod h h0 hN Z k _ (k + 2 + 1) (by omega) hk
      (fun n h1 _ => ho n (by omega) (by omega) (by omega)),
    mixG_step (amp_steps _ _) (amp2_steps A Z k (k + 2) (by omega)), ← epsL_eq, adot_epsL, mixG_pair, adot_pair,
    mixL_opT_id A A 1 k _ (fun n hn => ho n (by omega) (by omega) (by omega)), ← h.l_eq k (by omega),
    opT_at A (k := k) (op := unitOp s u) (by rw [at1, Function.update_self]),
    opT_at A (k := k + 1) (op := unitOp t v)
      (by rw [at1, Function.update_of_ne (by omega), at1, Function.update_self]),
    opT_at A (k := k + 2) (op := unitOp w z)
      (by rw [at1, Function.update_of_ne (by omega), at1, Function.update_of_ne (by omega), at1,
        Function.update_self]), epsR_opSite_unit, opSite_unit, opSite_unit,
    Finset.sum_eq_single s (fun x _ hx => by simp [hx]) (by simp),
    Finset.sum_eq_single t (fun x _ hx => by simp [hx]) (by simp)]
  simp only [if_true, conjTranspose_mul, Matrix.mul_assoc]

theorem matElem_pair_three' (h : UpToDate N A l r) (h0 : D 0 = 1) (hN : D N = 1) (Z : Pairs R q D) (k : ℕ)
    (hk : k + 2 < N) (op : Fin (q k) → Fin (q (k + 1)) → Fin (q (k + 2)) →
      Fin (q k) → Fin (q (k + 1)) → Fin (q (k + 2)) → R) :
    matElem (twoSite A h0 hN Z (k + 1)) (siteOp3 k hk op) (psi (N := N) A h0 hN)
      = adot (l k) (∑ s, ∑ t, ∑ u, calcC3 op (calcAAA (A k) (A (k + 1)) (A (k + 2))) s t u * r (k + 2 + 1)
          * (A k s * Z (k + 1) t u)ᴴ) := by
  rw [siteOp3_units, matElem_sum]
  simp only [Fintype.sum_prod_type, calcC3_eq, Matrix.sum_mul, adot_sum_right, Matrix.smul_mul,
    adot_smul_right, calcAAA]
  refine Finset.sum_congr rfl fun s _ => Finset.sum_congr rfl fun t _ =>
    Finset.sum_congr rfl fun w _ => Finset.sum_congr rfl fun u _ =>
    Finset.sum_congr rfl fun v _ => Finset.sum_congr rfl fun z _ => ?_
  congr 1
  have ho : ∀ n, n ≠ k → n ≠ k + 1 → n ≠ k + 2 → at1 k (unitOp (R := R) s u)
      (at1 (k + 1) (unitOp t v) (at1 (k + 2) (unitOp w z) fun n => idOp (q n))) n
        = idOp (q n) := fun n h1 h2 h3 => by
    rw [at1, Function.update_of_ne h1, at1, Function.update_of_ne h2, at1,
      Function.update_of_ne h3]
  rw [matElem_pair_prod h h0 hN Z (k + 1) _ (k + 1 + 2) (by omega) hk
      (fun n h1 _ => ho n (by omega) (by omega) (by omega)), mixG_pair, adot_pair, adot_mixL_step,
    mixL_opT_id A A 1 k _ (fun n hn => ho n (by omega) (by omega) (by omega)), ← h.l_eq k (by omega),
    opT_at A (k := k) (op := unitOp s u) (by rw [at1, Function.update_self]),
    opT_at A (k := k + 1) (op := unitOp t v)
      (by rw [at1, Function.update_of_ne (by omega), at1, Function.update_self]),
    opT_at A (k := k + 1 + 1) (op := unitOp w z)
      (by rw [at1, Function.update_of_ne (by omega), at1, Function.update_of_ne (by omega), at1,
        Function.update_self]), epsR_opSite_unit, opSite_unit, opSite_unit,
    Finset.sum_eq_single t (fun x _ hx => by simp [hx]) (by simp),
    Finset.sum_eq_single w (fun x _ hx => by simp [hx]) (by simp)]
  simp only [if_true, conjTranspose_mul, Matrix.mul_assoc]

end

/-! ## The null space on the left is complete -/

section
variable {R : Type*} [CommRing R] [StarRing R] {p a b : ℕ} {A : Ten R p a b} {l_s : Matrix (Fin a) (Fin a) R}
  {qr : FullQR R}

theorem vshlMat_gram : vshlMat A l_s * (vshlMat A l_s)ᴴ = ∑ s, (A s)ᴴ * (l_sᴴ * l_s) * A s := by
  rw [vshlMat_mul]
  refine Finset.sum_congr rfl fun s _ => ?_
  rw [← Matrix.mul_assoc (A s)ᴴ, Matrix.mul_assoc _ l_s]
  congr 1
  ext d i
  simp only [vshlMat, Matrix.of_apply, flat_modNat, flat_divNat, conjTranspose_apply, star_star]

theorem nsVshl_complete (hu : IsUnit (∑ s, (A s)ᴴ * (l_sᴴ * l_s) * A s).det) {n : ℕ}
    (W : Fin p → Matrix (Fin a) (Fin n) R) (hW : ∑ s, (A s)ᴴ * l_sᴴ * W s = 0) (s : Fin p) :
    (Matrix.of fun i α => nullspaceQr qr (vshlMat A l_s) (flat s i) α) *
      ∑ t, (Matrix.of fun i α => nullspaceQr qr (vshlMat A l_s) (flat t i) α)ᴴ * W t = W s := by
  rw [← vshlMat_gram] at hu
  have key := nullspaceQr_complete qr (vshlMat A l_s) hu
    (Matrix.of fun (i : Fin (p * a)) j => W i.divNat i.modNat j) (by
      rw [vshlMat_mul, ← hW]
      refine Finset.sum_congr rfl fun s _ => ?_
      congr 1
      ext d i
      simp only [Matrix.of_apply, flat_modNat, flat_divNat])
  have e : (nullspaceQr qr (vshlMat A l_s))ᴴ * (Matrix.of fun (i : Fin (p * a)) j =>
      W i.divNat i.modNat j) =
      ∑ t, (Matrix.of fun i α => nullspaceQr qr (vshlMat A l_s) (flat t i) α)ᴴ * W t := by
    ext α j
    rw [Matrix.mul_apply, sum_flat, Matrix.sum_apply]
    refine Finset.sum_congr rfl fun t _ => ?_
    rw [Matrix.mul_apply]
    simp only [Matrix.of_apply, flat_modNat, flat_divNat, conjTranspose_apply]
  rw [e] at key
  ext d j
  have := congrFun (congrFun key (flat s d)) j
  simp only [Matrix.of_apply, flat_modNat, flat_divNat] at this
  exact this

theorem vshl_complete {Vsh} (h : calcVshl qr A l_s = some Vsh)
    (hu : IsUnit (∑ s, (A s)ᴴ * (l_sᴴ * l_s) * A s).det) {n : ℕ}
    (W : Fin p → Matrix (Fin a) (Fin n) R) (hW : ∑ s, (A s)ᴴ * l_sᴴ * W s = 0) (s : Fin p) :
    (Vsh s)ᴴ * ∑ t, Vsh t * W t = W s := by
  obtain ⟨_, rfl⟩ := calcVshl_some h
  have := nsVshl_complete (qr := qr) hu W hW s
  refine Eq.trans ?_ this
  congr 1
  ext i α
  simp

/-- Without room for a null space there is no gauge-fixed tangent vector. -/
theorem vshl_trivial (qr : FullQR R) (hle : ¬ b < p * a)
    (hu : IsUnit (∑ s, (A s)ᴴ * (l_sᴴ * l_s) * A s).det) {n : ℕ}
    (W : Fin p → Matrix (Fin a) (Fin n) R) (hW : ∑ s, (A s)ᴴ * l_sᴴ * W s = 0) (s : Fin p) :
    W s = 0 := by
  rw [← nsVshl_complete (qr := qr) hu W hW s]
  ext d j
  rw [Matrix.mul_apply]
  have : IsEmpty (Fin (p * a - b)) := by
    rw [show p * a - b = 0 by omega]
    infer_instance
  exact Finset.sum_of_isEmpty _

end

end EvoMPS
