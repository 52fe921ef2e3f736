import Verif.EnergyLemmas
import Verif.Noise
import Verif.Props.Canon

/-!
# C88: random states and noise
-/

namespace EvoMPS

open Matrix

namespace Noise

/-- A loop that changes one entry per iteration, from its old value. -/
theorem foldMap_spec {X : ℕ → Type*} (g : ∀ n, X n → X n) (x0 : ∀ n, X n) (a m : ℕ) :
    let y := (List.range' a m).foldl (fun x n => Function.update x n (g n (x n))) x0
    (∀ n, n < a ∨ a + m ≤ n → y n = x0 n) ∧ ∀ n, a ≤ n → n < a + m → y n = g n (x0 n) := by
  induction m with
  | zero => exact ⟨fun n _ => rfl, fun n h1 h2 => by omega⟩
  | succ m ih =>
    obtain ⟨ih1, ih2⟩ := ih
    rw [List.range'_concat, List.foldl_append]
    simp only [List.foldl_cons, List.foldl_nil, Nat.one_mul]
    refine ⟨fun n hn => ?_, fun n h1 h2 => ?_⟩
    · rw [Function.update_of_ne (by omega), ih1 n (by omega)]
    · rcases Nat.lt_or_ge n (a + m) with h | h
      · rw [Function.update_of_ne (by omega), ih2 n h1 h]
      · obtain rfl : n = a + m := by omega
        rw [Function.update_self, ih1 _ (Or.inr le_rfl)]

theorem tenNorm_smul {q m n : ℕ} (X : Ten ℂ q m n) (hX : tenNorm X ≠ 0) :
    tenNorm (fun s => (1 / (tenNorm X : ℂ)) • X s) = 1 := by
  have hp : 0 ≤ tenNorm X := Real.sqrt_nonneg _
  have hsum : 0 ≤ ∑ s, ∑ i, ∑ j, ‖X s i j‖ ^ 2 := by positivity
  have hsq : tenNorm X ^ 2 = ∑ s, ∑ i, ∑ j, ‖X s i j‖ ^ 2 := Real.sq_sqrt hsum
  have e : ∑ s, ∑ i, ∑ j, ‖((1 / (tenNorm X : ℂ)) • X s) i j‖ ^ 2 = 1 := by
    have h1 : ∀ s i j, ‖((1 / (tenNorm X : ℂ)) • X s) i j‖ ^ 2 = (1 / tenNorm X) ^ 2 * ‖X s i j‖ ^ 2 := by
      intro s i j
      rw [Matrix.smul_apply, smul_eq_mul, norm_mul, mul_pow, norm_div, norm_one, Complex.norm_real, Real.norm_of_nonneg hp]
    simp only [h1, ← Finset.mul_sum]
    rw [← hsq]
    field_simp
  rw [tenNorm, e, Real.sqrt_one]

theorem tenNorm_eq_zero {q m n : ℕ} {X : Ten ℂ q m n} (h : tenNorm X = 0) (s : Fin q) : X s = 0 := by
  have hsum : 0 ≤ ∑ s, ∑ i, ∑ j, ‖X s i j‖ ^ 2 := by positivity
  have h0 := (Real.sqrt_eq_zero hsum).1 h
  ext i j
  have h1 := (Finset.sum_eq_zero_iff_of_nonneg (fun s _ => by positivity)).1 h0 s (Finset.mem_univ _)
  have h2 := (Finset.sum_eq_zero_iff_of_nonneg (fun i _ => by positivity)).1 h1 i (Finset.mem_univ _)
  have h3 := (Finset.sum_eq_zero_iff_of_nonneg (fun j _ => by positivity)).1 h2 j (Finset.mem_univ _)
  simpa using h3

variable {q D : ℕ → ℕ}

theorem amp_scale {A X : Tensors ℂ q D} {c : ℕ → ℂ} (n : ℕ) (h : ∀ m < n, ∀ s, A m s = c m • X m s) (s : Cfg q n) :
    amp A n s = (∏ m ∈ Finset.range n, c m) • amp X n s := by
  induction n with
  | zero => simp [amp]
  | succ n ih =>
    rw [amp, amp, ih (fun m hm => h m (by omega)), h n (by omega), Matrix.smul_mul, Matrix.mul_smul, smul_smul,
      Finset.prod_range_succ]

theorem amp_zero_of {X : Tensors ℂ q D} {n m : ℕ} (hm : m < n) (h : ∀ s, X m s = 0) (s : Cfg q n) : amp X n s = 0 := by
  induction n with
  | zero => omega
  | succ n ih =>
    rw [amp]
    rcases Nat.lt_or_ge m n with hlt | hge
    · rw [ih hlt, Matrix.zero_mul]
    · obtain rfl : m = n := by omega
      rw [h, Matrix.mul_zero]

theorem randomizeGen_spec (N : ℕ) (rnd : Draws q D) (A : Tensors ℂ q D) :
    (∀ n, N ≤ n → randomizeGen N rnd A n = A n) ∧
    ∀ n < N, randomizeGen N rnd A n = fun s => (1 / (tenNorm (drawn rnd n) : ℂ)) • drawn rnd n s := by
  have h := foldPoint_spec (X := fun n => Ten ℂ (q n) (D n) (D (n + 1)))
    (fun n s => (1 / (tenNorm (drawn rnd n) : ℂ)) • drawn rnd n s) A 0 N
  exact ⟨fun n hn => h.1 n (by omega), fun n hn => h.2 n (by omega) (by omega)⟩

end Noise

open Noise

section
variable {q D : ℕ → ℕ} {N : ℕ}

/-- C88.  `randomize` of a finite chain, for all draws for which the product of the tensors drawn is not the zero state: every
tensor gets norm 1 and the state is a positive multiple of the one drawn, whatever the tensors were before. -/
theorem C88_randomize (rnd : Draws q D) (A : Tensors ℂ q D) (h0 : D 0 = 1) (hN : D N = 1)
    (hne : psi (N := N) (drawn rnd) h0 hN ≠ 0) :
    (∀ n < N, tenNorm (randomizeGen N rnd A n) = 1) ∧
    ∃ c : ℝ, 0 < c ∧ ∀ s : Cfg q N, psi (randomizeGen N rnd A) h0 hN s = (c : ℂ) * psi (drawn rnd) h0 hN s := by
  have hpos : ∀ n < N, tenNorm (drawn rnd n) ≠ 0 := by
    intro n hn hz
    refine hne (funext fun s => ?_)
    rw [psi, amp_zero_of hn (tenNorm_eq_zero hz)]
    rfl
  have hsp := (randomizeGen_spec N rnd A).2
  refine ⟨fun n hn => ?_, ∏ n ∈ Finset.range N, 1 / tenNorm (drawn rnd n), ?_, fun s => ?_⟩
  · rw [hsp n hn]
    exact tenNorm_smul _ (hpos n hn)
  · refine Finset.prod_pos fun n hn => ?_
    have := lt_of_le_of_ne (Real.sqrt_nonneg _) (hpos n (Finset.mem_range.1 hn)).symm
    exact one_div_pos.2 this
  · rw [psi, amp_scale (X := drawn rnd) (c := fun n => 1 / (tenNorm (drawn rnd n) : ℂ)) N
      (fun m hm s => by rw [hsp m hm])]
    simp [psi]

/-- C88.  `randomize()` with the update: the state is a positive multiple of the one drawn, has norm 1 and is in right
canonical form with consistent environments. -/
theorem C88_randomize_update (qr : QR ℂ) (eigh : Eigh ℂ) (diagL : Bool) (rnd : Draws q D) (S : MPS ℂ q D)
    (l' : Envs ℂ (rcfD q D N)) (hl : l' 0 = 1) (hr : S.r N = 1) (h0 : D 0 = 1) (hN : D N = 1)
    (hpos : 0 < N) (hq : ∀ n < N, 0 < q n) (hD : ∀ n ≤ N, 0 < D n) (hne : psi (N := N) (drawn rnd) h0 hN ≠ 0) :
    let S' := restoreRCFNorm qr eigh N diagL (by omega) (rcfD_pos hq hD 0 (by omega))
      { S with A := randomizeGen N rnd S.A } l'
    let h0' := (C17_bond_dims hq hD h0 hN).2.2.2.1
    let hN' := (C17_bond_dims hq hD h0 hN).2.2.2.2
    (∃ c : ℝ, 0 < c ∧ ∀ s : Cfg q N, psi S'.A h0' hN' s = (c : ℂ) * psi (drawn rnd) h0 hN s) ∧
      braket (psi (N := N) S'.A h0' hN') (psi S'.A h0' hN') = 1 ∧
      UpToDate N S'.A S'.l S'.r ∧ (∀ n < N, ∑ s, S'.A n s * (S'.A n s)ᴴ = 1) := by
  intro S' h0' hN'
  obtain ⟨-, c, hc, hs⟩ := C88_randomize rnd S.A h0 hN hne
  have hne' : braket (psi (N := N) (randomizeGen N rnd S.A) h0 hN) (psi (randomizeGen N rnd S.A) h0 hN) ≠ 0 := by
    obtain ⟨s, hs0⟩ := Function.ne_iff.1 hne
    have hs1 : psi (randomizeGen N rnd S.A) h0 hN s ≠ 0 := by
      rw [hs]
      exact mul_ne_zero (by exact_mod_cast hc.ne') hs0
    have e : braket (psi (N := N) (randomizeGen N rnd S.A) h0 hN) (psi (randomizeGen N rnd S.A) h0 hN)
        = ((∑ s, ‖psi (N := N) (randomizeGen N rnd S.A) h0 hN s‖ ^ 2 : ℝ) : ℂ) := by
      rw [braket, Complex.ofReal_sum]
      refine Finset.sum_congr rfl fun s _ => ?_
      rw [Complex.star_def, mul_comm, Complex.mul_conj, Complex.normSq_eq_norm_sq]
    rw [e, Complex.ofReal_ne_zero]
    refine (Finset.sum_pos' (fun s _ => by positivity) ⟨s, Finset.mem_univ _, ?_⟩).ne'
    have := norm_pos_iff.2 hs1
    positivity
  obtain ⟨⟨c', hc', hs'⟩, h1, h2, -, h3, -⟩ := C17_rcf_normalize qr eigh diagL { S with A := randomizeGen N rnd S.A } l' hl hr
    h0 hN hpos hq hD hne'
  refine ⟨⟨c' * c, mul_pos hc' hc, fun s => ?_⟩, h1, h2, h3⟩
  refine (hs' s).trans ?_
  simp only
  rw [hs]
  push_cast
  ring

/-- C88.  `add_noise(fac)` of a finite chain: for all draws the real and the imaginary part of every entry of every tensor of the
chain change by at most `|fac|`; in particular nothing changes for `fac = 0`.  The change is linear in the numbers drawn. -/
theorem C88_noise (fac : ℝ) (rnd : Draws q D) (A : Tensors ℂ q D)
    (hrnd : ∀ n s i j, (0 ≤ (rnd n s i j).1 ∧ (rnd n s i j).1 < 1) ∧ 0 ≤ (rnd n s i j).2 ∧ (rnd n s i j).2 < 1) :
    (∀ n < N, ∀ s i j, |(addNoiseGen N fac rnd A n s i j - A n s i j).re| ≤ |fac| ∧
      |(addNoiseGen N fac rnd A n s i j - A n s i j).im| ≤ |fac|) ∧
    (∀ n < N, ∀ s i j, addNoiseGen N fac rnd A n s i j - A n s i j
      = 2 * fac * (((rnd n s i j).1 - 1 / 2 : ℝ) + ((rnd n s i j).2 - 1 / 2 : ℝ) * Complex.I)) := by
  have h := foldMap_spec (X := fun n => Ten ℂ (q n) (D n) (D (n + 1))) (fun n A s => Matrix.of fun i j =>
    (⟨(A s i j).re + ((rnd n s i j).1 - 1 / 2) * 2 * fac, (A s i j).im + ((rnd n s i j).2 - 1 / 2) * 2 * fac⟩ : ℂ)) A 0 N
  have e : ∀ n < N, ∀ s i j, addNoiseGen N fac rnd A n s i j =
      ⟨(A n s i j).re + ((rnd n s i j).1 - 1 / 2) * 2 * fac, (A n s i j).im + ((rnd n s i j).2 - 1 / 2) * 2 * fac⟩ := by
    intro n hn s i j
    exact congrFun (congrFun (congrFun (h.2 n (by omega) (by omega)) s) i) j
  have hb : ∀ x : ℝ, 0 ≤ x → x < 1 → |(x - 1 / 2) * 2 * fac| ≤ |fac| := by
    intro x h1 h2
    rw [abs_mul]
    refine mul_le_of_le_one_left (abs_nonneg _) ?_
    rw [abs_le]
    constructor <;> linarith
  refine ⟨fun n hn s i j => ?_, fun n hn s i j => ?_⟩
  · rw [e n hn]
    obtain ⟨⟨a, b⟩, c, d⟩ := hrnd n s i j
    simp only [Complex.sub_re, Complex.sub_im, add_sub_cancel_left]
    exact ⟨hb _ a b, hb _ c d⟩
  · rw [e n hn]
    apply Complex.ext
    · simp
      ring
    · simp
      ring

end

namespace Uni

variable {q D : ℕ}

theorem foldA_spec (g : ℕ → Ten ℂ q D D → Ten ℂ q D D) (S : UMPS ℂ q D) (L : ℕ) :
    let T := (List.range L).foldl (fun (S : UMPS ℂ q D) k => { S with A := Function.update S.A k (g k (S.A k)) }) S
    T = { S with A := T.A } ∧ (∀ k, L ≤ k → T.A k = S.A k) ∧ ∀ k < L, T.A k = g k (S.A k) := by
  induction L with
  | zero => exact ⟨rfl, fun _ _ => rfl, fun k hk => by omega⟩
  | succ L ih =>
    obtain ⟨h1, h2, h3⟩ := ih
    rw [List.range_succ, List.foldl_append]
    simp only [List.foldl_cons, List.foldl_nil]
    refine ⟨?_, fun k hk => ?_, fun k hk => ?_⟩
    · conv_lhs => rw [h1]
    · rw [Function.update_of_ne (by omega), h2 k (by omega)]
    · rcases Nat.lt_or_ge k L with h | h
      · rw [Function.update_of_ne (by omega), h3 k h]
      · obtain rfl : k = L := by omega
        rw [Function.update_self, h2 k le_rfl]

end Uni

section
open Uni
variable {q D : ℕ}

/-- C88.  `randomize(do_update=False)` of a uniform chain: each tensor of the block is a positive multiple of the one drawn and
has norm 1, if it is not zero; nothing else changes. -/
theorem C88_uniform_randomize (rnd : ℕ → Fin q → Fin D → Fin D → ℝ × ℝ) (S : UMPS ℂ q D) :
    let T := randomizeUni rnd S
    T = { S with A := T.A } ∧ ∀ k < S.L, ∀ X : Ten ℂ q D D,
      (∀ s i j, X s i j = (((rnd k s i j).1 - 1 / 2 : ℝ) + Complex.I * ((rnd k s i j).2 - 1 / 2 : ℝ))) → X ≠ 0 →
      tenNorm (T.A k) = 1 ∧ ∃ c : ℝ, 0 < c ∧ ∀ s, T.A k s = (c : ℂ) • X s := by
  obtain ⟨h1, -, h3⟩ := foldA_spec (fun k _ s => (1 / (tenNorm (randomizeCmplx (-1 / 2) (1 / 2) (-1 / 2) (1 / 2) (rnd k)) : ℂ)) •
    randomizeCmplx (-1 / 2) (1 / 2) (-1 / 2) (1 / 2) (rnd k) s) S S.L
  refine ⟨h1, fun k hk X hX hne => ?_⟩
  have e : randomizeCmplx (-1 / 2) (1 / 2) (-1 / 2) (1 / 2) (rnd k) = X := by
    funext s
    ext i j
    rw [hX, randomizeCmplx, Matrix.of_apply]
    congr 2
    · norm_num
      ring
    · norm_num
      ring
  have hz : tenNorm X ≠ 0 := fun hz => hne (funext fun s => tenNorm_eq_zero hz s)
  have hA : (randomizeUni rnd S).A k = fun s => (1 / (tenNorm X : ℂ)) • X s := by
    refine (h3 k hk).trans ?_
    rw [e]
  rw [hA]
  refine ⟨tenNorm_smul X hz, 1 / tenNorm X, ?_, fun s => ?_⟩
  · exact one_div_pos.2 (lt_of_le_of_ne (Real.sqrt_nonneg _) hz.symm)
  · push_cast
    rfl

/-- C88.  `add_noise(fac)` of a uniform chain: the real part of every entry changes by at most `fac` times half the average size,
as announced; the imaginary part changes by up to `1/2` whatever `fac` is. -/
theorem C88_uniform_noise_partial (fac : ℝ) (rnd : ℕ → Fin q → Fin D → Fin D → ℝ × ℝ) (S : UMPS ℂ q D)
    (hrnd : ∀ k s i j, (0 ≤ (rnd k s i j).1 ∧ (rnd k s i j).1 < 1) ∧ 0 ≤ (rnd k s i j).2 ∧ (rnd k s i j).2 < 1) :
    let T := addNoiseUni fac rnd S
    T = { S with A := T.A } ∧ ∀ k < S.L, ∀ s i j,
      |(T.A k s i j - S.A k s i j).re| ≤ |fac| * (tenNorm (S.A k) / (q * D ^ 2)) / 2 ∧
      (T.A k s i j - S.A k s i j).im = (rnd k s i j).2 - 1 / 2 := by
  obtain ⟨h1, -, h3⟩ := foldA_spec (fun k A s => A s + randomizeCmplx (-(fac * (tenNorm A / (q * D ^ 2))) / 2)
    (fac * (tenNorm A / (q * D ^ 2)) / 2) (-1 / 2) (1 / 2) (rnd k) s) S S.L
  refine ⟨h1, fun k hk s i j => ?_⟩
  have hA : (addNoiseUni fac rnd S).A k s i j - S.A k s i j = randomizeCmplx (-(fac * (tenNorm (S.A k) / (q * D ^ 2))) / 2)
      (fac * (tenNorm (S.A k) / (q * D ^ 2)) / 2) (-1 / 2) (1 / 2) (rnd k) s i j := by
    have : (addNoiseUni fac rnd S).A k s i j = _ := congrFun (congrFun (congrFun (h3 k hk) s) i) j
    rw [this]
    simp
  rw [hA, randomizeCmplx, Matrix.of_apply]
  have hnn : 0 ≤ tenNorm (S.A k) / (q * D ^ 2) := div_nonneg (Real.sqrt_nonneg _) (by positivity)
  set g := tenNorm (S.A k) / (q * D ^ 2)
  obtain ⟨⟨a, b⟩, c, d⟩ := hrnd k s i j
  constructor
  · have : ((((fac * g / 2 - -(fac * g) / 2) * (rnd k s i j).1 + -(fac * g) / 2 : ℝ) : ℂ)
        + Complex.I * (((1 / 2 - -1 / 2) * (rnd k s i j).2 + -1 / 2 : ℝ) : ℂ)).re = fac * g * ((rnd k s i j).1 - 1 / 2) := by
      simp
      ring
    rw [this, abs_mul, abs_mul, abs_of_nonneg hnn]
    have h2 : |(rnd k s i j).1 - 1 / 2| ≤ 1 / 2 := by
      rw [abs_le]
      constructor <;> linarith
    have h4 := mul_le_mul_of_nonneg_left h2 (mul_nonneg (abs_nonneg fac) hnn)
    linarith
  · simp
    ring

/-- C88, violated: `add_noise(0)` of a uniform chain changes the state.  If the numbers drawn are zero every entry of every tensor
changes by `-i/2`, for every factor and every state. -/
theorem C88_uniform_noise_violated (S : UMPS ℂ q D) (k : ℕ) (hk : k < S.L) (s : Fin q) (i j : Fin D) :
    ((addNoiseUni 0 (fun _ _ _ _ => (0, 0)) S).A k s i j - S.A k s i j) = -Complex.I / 2 := by
  have h := (C88_uniform_noise_partial 0 (fun _ _ _ _ => (0, 0)) S (by simp)).2 k hk s i j
  simp only [abs_zero, zero_mul, zero_div] at h
  apply Complex.ext
  · have := abs_nonpos_iff.1 h.1
    rw [this]
    simp
  · rw [h.2]
    simp
    norm_num

end

namespace Ex88

/-- Two sites of dimension 2 with a bond of dimension 1, all numbers drawn are 3/4. -/
noncomputable def rnd : Draws (fun _ => 2) (fun _ => 1) := fun _ _ _ _ => (3 / 4, 3 / 4)

/-- The hypotheses of the theorems on finite chains hold for these draws. -/
example : psi (N := 2) (drawn rnd) rfl rfl ≠ 0 := by
  refine Function.ne_iff.2 ⟨fun _ => 0, ?_⟩
  simp [psi, amp, drawn, rnd, Matrix.mul_apply, Complex.ext_iff]
  norm_num

end Ex88

end EvoMPS
