import Verif.FidelityLemmas
import Verif.Spectral
import Verif.UniformBlockLemmas
import Verif.FidelitySpec

/-!
# Helper lemmas for the fidelity per site: powers of the mixed transfer map
-/

set_option linter.unusedSectionVars false

namespace EvoMPS.Uni

open Matrix Filter Topology
open scoped ComplexOrder

variable {q D D' L L' : ℕ} {A : ℕ → Ten ℂ q D D} {A' : ℕ → Ten ℂ q D' D'}

/-! ## Whole numbers of blocks -/

theorem mixed_shift {n : ℕ} (h : L ∣ n) (h' : L' ∣ n) (m : ℕ) (x : Matrix (Fin D) (Fin D') ℂ) :
    chainTransfer L L' A A' n m x = chainTransfer L L' A A' 0 m x := by
  have e1 : n % L = 0 % L := by rw [Nat.mod_eq_zero_of_dvd h, Nat.zero_mod]
  have e2 : n % L' = 0 % L' := by rw [Nat.mod_eq_zero_of_dvd h', Nat.zero_mod]
  simp only [chainTransfer, chainProd_shift L A e1, chainProd_shift L' A' e2]

theorem mixed_succ {M : ℕ} (h : L ∣ M) (h' : L' ∣ M) (m t : ℕ) (x : Matrix (Fin D) (Fin D') ℂ) :
    chainTransfer L L' A A' 0 ((m + 1) * M + t) x
      = chainTransfer L L' A A' 0 M (chainTransfer L L' A A' 0 (m * M + t) x) := by
  rw [show (m + 1) * M + t = M + (m * M + t) by ring, chainTransfer_add, Nat.zero_add, mixed_shift h h']

theorem mixedT_smul (k n : ℕ) (c : ℂ) (x : Matrix (Fin D) (Fin D') ℂ) :
    chainTransfer L L' A A' k n (c • x) = c • chainTransfer L L' A A' k n x := by
  simp only [chainTransfer, Matrix.mul_smul, Matrix.smul_mul, Finset.smul_sum]

theorem mixed_pow {M : ℕ} (h : L ∣ M) (h' : L' ∣ M) {V : Matrix (Fin D) (Fin D') ℂ} {w : ℂ}
    (hV : chainTransfer L L' A A' 0 M V = w • V) (m : ℕ) : chainTransfer L L' A A' 0 (m * M) V = w ^ m • V := by
  induction m with
  | zero => rw [Nat.zero_mul, chainTransfer_zero, pow_zero, one_smul]
  | succ m ih =>
    have := mixed_succ (A := A) (A' := A') h h' m 0 V
    simp only [Nat.add_zero] at this
    rw [this, ih, mixedT_smul, hV, smul_smul, pow_succ]

/-- The left map is the right map of the adjoint products. -/
theorem transferL_adj (n : ℕ) (x : Matrix (Fin D) (Fin D') ℂ) :
    ∑ s : Fin n → Fin q, (chainProd L' A' 0 n s)ᴴ * xᴴ * ((chainProd L A 0 n s)ᴴ)ᴴ = (chainTransferL L L' A A' 0 n x)ᴴ := by
  simp only [chainTransferL, Matrix.conjTranspose_sum, Matrix.conjTranspose_mul, Matrix.conjTranspose_conjTranspose, Matrix.mul_assoc]

section env
variable {l r : ℕ → Matrix (Fin D) (Fin D) ℂ}

theorem env_idx (hL : 0 < L) {n : ℕ} (h : L ∣ n) : (0 + n + L - 1) % L = L - 1 := by
  obtain ⟨m, rfl⟩ := h
  rw [show 0 + L * m + L - 1 = (L - 1) + L * m by omega, Nat.add_mul_mod_self_left, Nat.mod_eq_of_lt (by omega)]

theorem env_blockR (hL : 0 < L) (E : ChainEnv L A l r) {n : ℕ} (h : L ∣ n) :
    chainTransfer L L A A 0 n (r (L - 1)) = r (L - 1) := by
  have := E.transferR hL 0 n
  rwa [env_idx hL h, show (0 + L - 1) % L = L - 1 from env_idx hL (dvd_zero L)] at this

theorem env_blockL (hL : 0 < L) (E : ChainEnv L A l r) {n : ℕ} (h : L ∣ n) :
    chainTransferL L L A A 0 n (l (L - 1)) = l (L - 1) := by
  have := E.transferL hL 0 n
  rwa [env_idx hL h, show (0 + L - 1) % L = L - 1 from env_idx hL (dvd_zero L)] at this

/-- A fixed point of the transfer map of whole blocks is a multiple of the environment. -/
theorem fix_uniqueR {l r : Matrix (Fin D) (Fin D) ℂ} (hlim : ∀ x, Tendsto (fun m : ℕ => chainTransfer L L A A 0 (m * L) x) atTop (𝓝 (adot l x • r)))
    {M : ℕ} (hM : 0 < M) (h : L ∣ M) {x : Matrix (Fin D) (Fin D) ℂ} (hx : chainTransfer L L A A 0 M x = x) : x = adot l x • r := by
  obtain ⟨t, rfl⟩ := h
  have ht : 0 < t := Nat.pos_of_mul_pos_left hM
  have h1 : ∀ m, chainTransfer L L A A 0 (m * t * L) x = x := by
    intro m
    have := mixed_pow (A := A) (A' := A) (dvd_mul_right L t) (dvd_mul_right L t) (w := 1) (by rw [one_smul]; exact hx) m
    rwa [one_pow, one_smul, show m * (L * t) = m * t * L by ring] at this
  have h2 : Tendsto (fun m : ℕ => m * t) atTop atTop := tendsto_id.atTop_mul_const' ht
  have h3 := (hlim x).comp h2
  simp only [Function.comp_def, h1] at h3
  exact tendsto_nhds_unique tendsto_const_nhds h3

theorem fix_uniqueL {l r : Matrix (Fin D) (Fin D) ℂ} (hlim : ∀ x, Tendsto (fun m : ℕ => chainTransfer L L A A 0 (m * L) x) atTop (𝓝 (adot l x • r)))
    {M : ℕ} (hM : 0 < M) (h : L ∣ M) {x : Matrix (Fin D) (Fin D) ℂ} (hx : chainTransferL L L A A 0 M x = x) : x = star (adot x r) • l := by
  obtain ⟨t, rfl⟩ := h
  have ht : 0 < t := Nat.pos_of_mul_pos_left hM
  have h1 : ∀ m, chainTransferL L L A A 0 (m * t * L) x = x := by
    intro m
    rw [show m * t * L = m * (L * t) by ring]
    induction m with
    | zero => rw [Nat.zero_mul, chainTransferL_zero]
    | succ m ih =>
      have e : ∀ a b, chainTransferL L L A A 0 (a + b) x = chainTransferL L L A A (0 + a) b (chainTransferL L L A A 0 a x) := by
        intro a b
        simp only [chainTransferL, sum_append, chainProd_append, Matrix.conjTranspose_mul, Matrix.mul_sum, Matrix.sum_mul, Matrix.mul_assoc]
        exact Finset.sum_comm
      rw [Nat.succ_mul, e, ih, chainTransferL_shift L A (k' := 0) (by simp [Nat.mul_left_comm m L t]), hx]
  have h2 : Tendsto (fun m : ℕ => m * t) atTop atTop := tendsto_id.atTop_mul_const' ht
  have h3 := (EvoMPS.left_limit hlim x).comp h2
  simp only [Function.comp_def, h1] at h3
  exact tendsto_nhds_unique tendsto_const_nhds h3

end env

/-! ## The bound -/

section bound
variable {l r : ℕ → Matrix (Fin D) (Fin D) ℂ} {l' r' : ℕ → Matrix (Fin D') (Fin D') ℂ}

theorem right_bound (hL : 0 < L) (hL' : 0 < L') (E : ChainEnv L A l r) (E' : ChainEnv L' A' l' r') (hl : (l (L - 1)).PosDef)
    (hr' : (r' (L' - 1)).PosDef) {n : ℕ} (h : L ∣ n) (h' : L' ∣ n) {V : Matrix (Fin D) (Fin D') ℂ} {w : ℂ} (hV : V ≠ 0)
    (hw : chainTransfer L L' A A' 0 n V = w • V) :
    ‖w‖ ≤ 1 ∧ (‖w‖ = 1 → ∀ s : Fin n → Fin q, chainProd L A 0 n s * (V * (r' (L' - 1))⁻¹)
      = w • (V * (r' (L' - 1))⁻¹ * chainProd L' A' 0 n s)) := by
  have := mixed_core (B := fun s : Fin n → Fin q => chainProd L A 0 n s) (B' := fun s => chainProd L' A' 0 n s) hl
    (env_blockL hL E h) hr' (env_blockR hL' E' h') hV hw
  exact ⟨this.1, fun h1 => (this.2 h1).1⟩

theorem left_bound (hL : 0 < L) (hL' : 0 < L') (E : ChainEnv L A l r) (E' : ChainEnv L' A' l' r') (hl : (l (L - 1)).PosDef)
    (hr' : (r' (L' - 1)).PosDef) {n : ℕ} (h : L ∣ n) (h' : L' ∣ n) {X : Matrix (Fin D) (Fin D') ℂ} {w : ℂ} (hX : X ≠ 0)
    (hw : chainTransferL L L' A A' 0 n X = w • X) :
    ‖w‖ ≤ 1 ∧ (‖w‖ = 1 → ∀ s : Fin n → Fin q, chainProd L A 0 n s * ((l (L - 1))⁻¹ * X)
      = star w • ((l (L - 1))⁻¹ * X * chainProd L' A' 0 n s)) := by
  have hX' : Xᴴ ≠ 0 := fun h0 => hX (by rw [← Matrix.conjTranspose_conjTranspose X, h0, Matrix.conjTranspose_zero])
  have := mixed_core (B := fun s : Fin n → Fin q => (chainProd L' A' 0 n s)ᴴ) (B' := fun s => (chainProd L A 0 n s)ᴴ) (w := star w)
    (V := Xᴴ) hr' (by simp only [Matrix.conjTranspose_conjTranspose]; exact env_blockR hL' E' h') hl
    (by simp only [Matrix.conjTranspose_conjTranspose]; exact env_blockL hL E h) hX'
    (by rw [transferL_adj, hw, Matrix.conjTranspose_smul])
  rw [norm_star] at this
  refine ⟨this.1, fun h1 s => ?_⟩
  have h2 := congrArg Matrix.conjTranspose ((this.2 h1).1 s)
  simp only [Matrix.conjTranspose_mul, Matrix.conjTranspose_smul, Matrix.conjTranspose_conjTranspose, Matrix.conjTranspose_nonsing_inv,
    hl.isHermitian.eq, star_star] at h2
  have h3 : star w * w = 1 := by
    rw [Complex.star_def, mul_comm, Complex.mul_conj, Complex.normSq_eq_norm_sq, h1]
    simp
  rw [h2, smul_smul, h3, one_smul]

end bound

/-! ## Growth of the powers -/

/-- The overlap of basis pieces. -/
theorem basis_entry (n : ℕ) (i j : Fin D) (i' j' : Fin D') :
    chainTransfer L L' A A' 0 n (Matrix.single j j' 1) i i'
      = ∑ s, star (chainProd L' A' 0 n s i' j') * chainProd L A 0 n s i j := by
  rw [chainTransfer, Matrix.sum_apply]
  refine Finset.sum_congr rfl fun s _ => ?_
  rw [Matrix.mul_assoc, Matrix.mul_apply, Finset.sum_eq_single j]
  · rw [Matrix.single_mul_apply_same]
    simp [mul_comm]
  · intro k _ hk
    rw [Matrix.single_mul_apply_of_ne _ _ _ _ _ hk, mul_zero]
  · simp

/-- Entries of the powers of the mixed transfer map. -/
theorem mixed_growth {M : ℕ} (hM : 0 < M) (h : L ∣ M) (h' : L' ∣ M) {d : ℝ} (hd : 0 ≤ d)
    {E : Matrix (Fin (D * D')) (Fin (D * D')) ℂ} (hE : ∀ v, reshape (E *ᵥ v) = chainTransfer L L' A A' 0 M (reshape v))
    (hmax : ∀ ε : ℝ, 0 < ε → ∃ C : ℝ, 0 < C ∧ ∀ k i j, ‖(E ^ k) i j‖ ≤ C * (d ^ M + ε) ^ k) {ε : ℝ} (hε : 0 < ε) :
    ∃ C : ℝ, ∀ n i j i' j', ‖chainTransfer L L' A A' 0 n (Matrix.single j j' 1) i i'‖ ≤ C * (d + ε) ^ n := by
  have hp : 0 < d + ε := by linarith
  have h1 : 0 < (d + ε) ^ M - d ^ M := by
    have := pow_lt_pow_left₀ (show d < d + ε by linarith) hd hM.ne'
    linarith
  obtain ⟨C, hC, hCb⟩ := hmax _ h1
  rw [add_sub_cancel] at hCb
  have hpow : ∀ m t x, chainTransfer L L' A A' 0 (m * M + t) x
      = reshape ((E ^ m) *ᵥ ravel (chainTransfer L L' A A' 0 t x)) := by
    intro m t x
    induction m with
    | zero => rw [Nat.zero_mul, Nat.zero_add, pow_zero, Matrix.one_mulVec, reshape_ravel]
    | succ m ih => rw [mixed_succ h h', ih, ← hE, Matrix.mulVec_mulVec, ← pow_succ']
  let Y : ℕ → Fin D → Fin D' → Fin (D * D') → ℝ := fun t j j' k =>
    ‖(ravel (chainTransfer L L' A A' 0 t (Matrix.single j j' (1 : ℂ))) : Fin (D * D') → ℂ) k‖ * ((d + ε) ^ t)⁻¹
  have hY : ∀ t j j' k, 0 ≤ Y t j j' k := fun t j j' k => by positivity
  refine ⟨C * ∑ t ∈ Finset.range M, ∑ j, ∑ j', ∑ k, Y t j j' k, fun n i j i' j' => ?_⟩
  have hn : n = n / M * M + n % M := by rw [Nat.mul_comm]; exact (Nat.div_add_mod n M).symm
  set m := n / M with hm
  set t := n % M with ht
  have htM : t < M := Nat.mod_lt n hM
  rw [hn, hpow, reshape, Matrix.of_apply, Matrix.mulVec, dotProduct]
  refine (norm_sum_le _ _).trans ?_
  have h2 : ∀ k, ‖(E ^ m) (flat i i') k * (ravel (chainTransfer L L' A A' 0 t (Matrix.single j j' (1 : ℂ))) : Fin (D * D') → ℂ) k‖
      ≤ C * (d + ε) ^ (m * M + t) * Y t j j' k := by
    intro k
    rw [norm_mul]
    refine (mul_le_mul_of_nonneg_right (hCb m (flat i i') k) (norm_nonneg _)).trans (le_of_eq ?_)
    simp only [Y]
    rw [pow_add, ← pow_mul, Nat.mul_comm M m]
    field_simp
  refine (Finset.sum_le_sum fun k _ => h2 k).trans ?_
  rw [← Finset.mul_sum]
  have h3 : ∑ k, Y t j j' k ≤ ∑ t ∈ Finset.range M, ∑ j, ∑ j', ∑ k, Y t j j' k := by
    have a1 := Finset.single_le_sum (f := fun j' => ∑ k, Y t j j' k)
      (fun j' _ => Finset.sum_nonneg fun k _ => hY t j j' k) (Finset.mem_univ j')
    have a2 := Finset.single_le_sum (f := fun j => ∑ j', ∑ k, Y t j j' k)
      (fun j _ => Finset.sum_nonneg fun j' _ => Finset.sum_nonneg fun k _ => hY t j j' k) (Finset.mem_univ j)
    have a3 := Finset.single_le_sum (f := fun t => ∑ j, ∑ j', ∑ k, Y t j j' k)
      (fun t _ => Finset.sum_nonneg fun j _ => Finset.sum_nonneg fun j' _ => Finset.sum_nonneg fun k _ => hY t j j' k)
      (Finset.mem_range.2 htM)
    exact a1.trans (a2.trans a3)
  calc C * (d + ε) ^ (m * M + t) * ∑ k, Y t j j' k
      ≤ C * (d + ε) ^ (m * M + t) * ∑ t ∈ Finset.range M, ∑ j, ∑ j', ∑ k, Y t j j' k :=
        mul_le_mul_of_nonneg_left h3 (by positivity)
    _ = _ := by ring

/-! ## Fidelity one -/

section same
variable {l r : ℕ → Matrix (Fin D) (Fin D) ℂ} {l' r' : ℕ → Matrix (Fin D') (Fin D') ℂ}

/-- An eigenvalue of modulus one gives a gauge transformation. -/
theorem same_core (hL : 0 < L) (hL' : 0 < L') (E : ChainEnv L A l r) (E' : ChainEnv L' A' l' r')
    (hl : (l (L - 1)).PosDef) (hr : (r (L - 1)).PosDef) (hl' : (l' (L' - 1)).PosDef) (hr' : (r' (L' - 1)).PosDef)
    (hlim : ∀ x, Tendsto (fun m : ℕ => chainTransfer L L A A 0 (m * L) x) atTop (𝓝 (adot (l (L - 1)) x • r (L - 1))))
    (hlim' : ∀ x, Tendsto (fun m : ℕ => chainTransfer L' L' A' A' 0 (m * L') x) atTop (𝓝 (adot (l' (L' - 1)) x • r' (L' - 1))))
    {M : ℕ} (hM : 0 < M) (h : L ∣ M) (h' : L' ∣ M) {V : Matrix (Fin D) (Fin D') ℂ} {w : ℂ} (hV : V ≠ 0)
    (hw : chainTransfer L L' A A' 0 M V = w • V) (hw1 : ‖w‖ = 1) :
    ∃ (g : Matrix (Fin D) (Fin D') ℂ) (gi : Matrix (Fin D') (Fin D) ℂ), g * gi = 1 ∧ gi * g = 1 ∧
      (∀ (m : ℕ) (s : Fin (m * M) → Fin q), chainProd L A 0 (m * M) s = w ^ m • (g * chainProd L' A' 0 (m * M) s * gi)) ∧
      ∀ (m : ℕ) (O : (Fin (m * M) → Fin q) → (Fin (m * M) → Fin q) → ℂ),
        chainExpect L A l r 0 (m * M) O = chainExpect L' A' l' r' 0 (m * M) O := by
  obtain ⟨c, gi, hc, e1, e2, e3⟩ := mixed_gauge (B := fun s : Fin M → Fin q => chainProd L A 0 M s)
    (B' := fun s => chainProd L' A' 0 M s) hl (env_blockL hL E h) hr (env_blockR hL E h) hl' (env_blockL hL' E' h') hr'
    (env_blockR hL' E' h') (fun Z hZ => ⟨_, fix_uniqueR hlim hM h hZ⟩) (fun Z hZ => ⟨_, fix_uniqueR hlim' hM h' hZ⟩) hV hw hw1
  set g := V * (r' (L' - 1))⁻¹ with hg
  have hww : ∀ m, star w ^ m * w ^ m = 1 := by
    intro m
    rw [← mul_pow, Complex.star_def, mul_comm, Complex.mul_conj, Complex.normSq_eq_norm_sq, hw1]
    simp
  have hint : ∀ (m : ℕ) (s : Fin (m * M) → Fin q), chainProd L A 0 (m * M) s * g = w ^ m • (g * chainProd L' A' 0 (m * M) s) := by
    intro m s
    exact (right_bound hL hL' E E' hl hr' (Dvd.dvd.mul_left h m) (Dvd.dvd.mul_left h' m) hV (mixed_pow h h' hw m)).2
      (by rw [norm_pow, hw1, one_pow]) s
  have hprod : ∀ (m : ℕ) (s : Fin (m * M) → Fin q), chainProd L A 0 (m * M) s = w ^ m • (g * chainProd L' A' 0 (m * M) s * gi) := by
    intro m s
    rw [← Matrix.smul_mul, ← hint, Matrix.mul_assoc, e1, Matrix.mul_one]
  have hint1 : ∀ s : Fin M → Fin q, chainProd L A 0 M s * g = w • (g * chainProd L' A' 0 M s) :=
    fun s => (right_bound hL hL' E E' hl hr' h h' hV hw).2 hw1 s
  have hfix : chainTransferL L' L' A' A' 0 M (gᴴ * l (L - 1) * g) = gᴴ * l (L - 1) * g := by
    have hb := env_blockL hL E h
    conv_rhs => rw [← hb]
    simp only [chainTransferL, Matrix.mul_sum, Matrix.sum_mul]
    refine Finset.sum_congr rfl fun s _ => ?_
    rw [show gᴴ * ((chainProd L A 0 M s)ᴴ * l (L - 1) * chainProd L A 0 M s) * g
        = (chainProd L A 0 M s * g)ᴴ * l (L - 1) * (chainProd L A 0 M s * g) by
      simp only [Matrix.conjTranspose_mul, Matrix.mul_assoc], hint1]
    simp only [Matrix.conjTranspose_smul, Matrix.conjTranspose_mul, Matrix.smul_mul, Matrix.mul_smul, smul_smul, Matrix.mul_assoc]
    have := hww 1
    rw [pow_one, pow_one] at this
    rw [mul_comm w, this, one_smul]
  have hc' := fix_uniqueL hlim' hM h' hfix
  set c' := star (adot (gᴴ * l (L - 1) * g) (r' (L' - 1))) with hcd
  have hr0 : r (L - 1) = c⁻¹ • (g * r' (L' - 1) * gᴴ) := by rw [e3, smul_smul, inv_mul_cancel₀ hc, one_smul]
  have hcc : c⁻¹ * c' = 1 := by
    have n1 := E.norm (L - 1) (by omega)
    have n2 := E'.norm (L' - 1) (by omega)
    rw [hl.isHermitian.eq, hr0, Matrix.mul_smul, Matrix.trace_smul, ← Matrix.mul_assoc, Matrix.trace_mul_comm, ← Matrix.mul_assoc,
      ← Matrix.mul_assoc, hc', Matrix.smul_mul, Matrix.trace_smul, ← hl'.isHermitian.eq, n2] at n1
    simpa using n1
  refine ⟨g, gi, e1, e2, hprod, fun m O => ?_⟩
  rw [chainExpect, chainExpect]
  refine Finset.sum_congr rfl fun s _ => Finset.sum_congr rfl fun t _ => ?_
  congr 1
  rw [env_idx hL (Dvd.dvd.mul_left h m), env_idx hL' (Dvd.dvd.mul_left h' m), show (0 + L - 1) % L = L - 1 from env_idx hL (dvd_zero L),
    show (0 + L' - 1) % L' = L' - 1 from env_idx hL' (dvd_zero L'), hl.isHermitian.eq, hl'.isHermitian.eq, hprod m t, hprod m s, hr0]
  set P := chainProd L' A' 0 (m * M) t
  set Q := chainProd L' A' 0 (m * M) s
  have e4 : l (L - 1) * (w ^ m • (g * P * gi)) * (c⁻¹ • (g * r' (L' - 1) * gᴴ)) * (w ^ m • (g * Q * gi))ᴴ
      = c⁻¹ • (l (L - 1) * g * (P * r' (L' - 1) * Qᴴ * gᴴ)) := by
    simp only [Matrix.conjTranspose_smul, Matrix.conjTranspose_mul, Matrix.smul_mul, Matrix.mul_smul, smul_smul, Matrix.mul_assoc]
    rw [← Matrix.mul_assoc gi g, e2, Matrix.one_mul, ← Matrix.mul_assoc gᴴ giᴴ, ← Matrix.conjTranspose_mul, e2,
      Matrix.conjTranspose_one, Matrix.one_mul]
    congr 1
    rw [star_pow, mul_comm (star w ^ m), mul_assoc, mul_comm (w ^ m), hww, mul_one]
  have e5 : (l (L - 1) * g * (P * r' (L' - 1) * Qᴴ * gᴴ)).trace = c' * (l' (L' - 1) * P * r' (L' - 1) * Qᴴ).trace := by
    have e6 : l' (L' - 1) * P * r' (L' - 1) * Qᴴ = l' (L' - 1) * (P * r' (L' - 1) * Qᴴ) := by simp only [Matrix.mul_assoc]
    rw [e6, ← smul_eq_mul c', ← Matrix.trace_smul, ← Matrix.smul_mul, ← hc', ← Matrix.mul_assoc, Matrix.trace_mul_comm]
    simp only [Matrix.mul_assoc]
  rw [e4, Matrix.trace_smul, e5, smul_eq_mul, ← mul_assoc, hcc, one_mul]

end same

/-! ## Overlaps of pieces -/

theorem pieceOverlap_basis (u v : Fin D → ℂ) (u' v' : Fin D' → ℂ) (n : ℕ) :
    pieceOverlap L L' A A' u v u' v' n = ∑ i, ∑ j, ∑ i', ∑ j', u i * v j * star (u' i') * star (v' j')
      * ∑ s, star (chainProd L' A' 0 n s i' j') * chainProd L A 0 n s i j := by
  have e : ∀ (a : ℕ) (x y : Fin a → ℂ) (P : Matrix (Fin a) (Fin a) ℂ), x ⬝ᵥ (P *ᵥ y) = ∑ i, ∑ j, x i * y j * P i j := by
    intro a x y P
    simp only [dotProduct, Matrix.mulVec, Finset.mul_sum]
    exact Finset.sum_congr rfl fun i _ => Finset.sum_congr rfl fun j _ => by ring
  have e2 : ∀ s : Fin n → Fin q, star (pieceAmp L' A' u' v' 0 n s) * pieceAmp L A u v 0 n s
      = ∑ i, ∑ j, ∑ i', ∑ j', u i * v j * star (u' i') * star (v' j') * (star (chainProd L' A' 0 n s i' j') * chainProd L A 0 n s i j) := by
    intro s
    rw [pieceAmp, pieceAmp, e, e, mul_comm, Finset.sum_mul]
    refine Finset.sum_congr rfl fun i _ => ?_
    rw [Finset.sum_mul]
    refine Finset.sum_congr rfl fun j _ => ?_
    rw [star_sum, Finset.mul_sum]
    refine Finset.sum_congr rfl fun i' _ => ?_
    rw [star_sum, Finset.mul_sum]
    refine Finset.sum_congr rfl fun j' _ => ?_
    rw [star_mul', star_mul']
    ring
  simp only [pieceOverlap, e2]
  rw [Finset.sum_comm]
  refine Finset.sum_congr rfl fun i _ => ?_
  rw [Finset.sum_comm]
  refine Finset.sum_congr rfl fun j _ => ?_
  rw [Finset.sum_comm]
  refine Finset.sum_congr rfl fun i' _ => ?_
  rw [Finset.sum_comm]
  refine Finset.sum_congr rfl fun j' _ => ?_
  rw [Finset.mul_sum]

theorem pieceOverlap_single (i j : Fin D) (i' j' : Fin D') (n : ℕ) :
    pieceOverlap L L' A A' (Pi.single i 1) (Pi.single j 1) (Pi.single i' 1) (Pi.single j' 1) n
      = ∑ s, star (chainProd L' A' 0 n s i' j') * chainProd L A 0 n s i j := by
  simp only [pieceOverlap, pieceAmp, Matrix.mulVec_single_one, single_one_dotProduct, Matrix.col_apply]

theorem mixedL_pow {M : ℕ} (h : L ∣ M) (h' : L' ∣ M) {V : Matrix (Fin D) (Fin D') ℂ} {w : ℂ}
    (hV : chainTransferL L L' A A' 0 M V = w • V) (m : ℕ) : chainTransferL L L' A A' 0 (m * M) V = w ^ m • V := by
  have e : ∀ a b x, chainTransferL L L' A A' 0 (a + b) x = chainTransferL L L' A A' (0 + a) b (chainTransferL L L' A A' 0 a x) := by
    intro a b x
    simp only [chainTransferL, sum_append, chainProd_append, Matrix.conjTranspose_mul, Matrix.mul_sum, Matrix.sum_mul, Matrix.mul_assoc]
    exact Finset.sum_comm
  have es : ∀ (c : ℂ) x, chainTransferL L L' A A' 0 M (c • x) = c • chainTransferL L L' A A' 0 M x := by
    intro c x
    simp only [chainTransferL, Matrix.mul_smul, Matrix.smul_mul, Finset.smul_sum]
  induction m with
  | zero => rw [Nat.zero_mul, chainTransferL_zero, pow_zero, one_smul]
  | succ m ih =>
    have e1 : (0 + m * M) % L = 0 % L := by rw [Nat.zero_add, Nat.mod_eq_zero_of_dvd (Dvd.dvd.mul_left h m), Nat.zero_mod]
    have e2 : (0 + m * M) % L' = 0 % L' := by rw [Nat.zero_add, Nat.mod_eq_zero_of_dvd (Dvd.dvd.mul_left h' m), Nat.zero_mod]
    have e3 : ∀ x, chainTransferL L L' A A' (0 + m * M) M x = chainTransferL L L' A A' 0 M x := by
      intro x
      simp only [chainTransferL, chainProd_shift L A e1, chainProd_shift L' A' e2]
    rw [Nat.succ_mul, e, ih, e3, es, hV, smul_smul, pow_succ]

/-- An eigenvector bounds the largest entry of the map from below. -/
theorem eigen_lower {V : Matrix (Fin D) (Fin D') ℂ} (hV : V ≠ 0) : ∃ c : ℝ, 0 < c ∧
    ∀ (z : ℂ) (F : Fin D → Fin D' → Fin D → Fin D' → ℂ), (∀ i i', ∑ j, ∑ j', F i i' j j' * V j j' = (z • V) i i') →
      ∃ i i' j j', c * ‖z‖ ≤ ‖F i i' j j'‖ := by
  obtain ⟨i0, i0', h0⟩ : ∃ i i', V i i' ≠ 0 := by
    by_contra hn
    push Not at hn
    exact hV (by ext i i'; exact hn i i')
  have hp : 0 < ‖V i0 i0'‖ := norm_pos_iff.mpr h0
  set T := ∑ j, ∑ j', ‖V j j'‖ with hT
  have hT0 : 0 ≤ T := Finset.sum_nonneg fun j _ => Finset.sum_nonneg fun j' _ => norm_nonneg _
  refine ⟨‖V i0 i0'‖ / (1 + T), by positivity, fun z F hF => ?_⟩
  by_contra hn
  push Not at hn
  have h1 := hn i0 i0' i0 i0'
  have hz : 0 < ‖z‖ := by
    rcases (norm_nonneg z).eq_or_lt with h | h
    · rw [← h, mul_zero] at h1
      exact absurd h1 (not_lt.mpr (norm_nonneg _))
    · exact h
  have h2 : ‖z‖ * ‖V i0 i0'‖ ≤ ‖V i0 i0'‖ / (1 + T) * ‖z‖ * T := by
    rw [← norm_mul, ← smul_eq_mul, ← Matrix.smul_apply, ← hF, hT, Finset.mul_sum]
    refine (norm_sum_le _ _).trans (Finset.sum_le_sum fun j _ => ?_)
    rw [Finset.mul_sum]
    refine (norm_sum_le _ _).trans (Finset.sum_le_sum fun j' _ => ?_)
    rw [norm_mul]
    exact mul_le_mul_of_nonneg_right (hn _ _ _ _).le (norm_nonneg _)
  have h3 : ‖V i0 i0'‖ / (1 + T) * ‖z‖ * T < ‖z‖ * ‖V i0 i0'‖ := by
    rw [div_mul_eq_mul_div, div_mul_eq_mul_div, div_lt_iff₀ (by positivity)]
    nlinarith [mul_pos hz hp]
  linarith

/-- A factor on the first tensor of the block. -/
theorem chainProd_update0 (hL : 0 < L) (f : ℂ) (s : Fin L → Fin q) :
    chainProd L (Function.update A 0 fun s => f • A 0 s) 0 L s = f • chainProd L A 0 L s := by
  obtain ⟨n, rfl⟩ : ∃ n, L = n + 1 := ⟨L - 1, by omega⟩
  rw [chainProd_cons, chainProd_cons, Nat.zero_mod, Function.update_self, Matrix.smul_mul]
  congr 2
  simp only [chainProd]
  congr 2
  funext i
  have := i.isLt
  rw [Nat.mod_eq_of_lt (by omega), Function.update_of_ne (by omega)]

end EvoMPS.Uni
