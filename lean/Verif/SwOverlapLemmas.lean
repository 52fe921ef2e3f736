import Verif.SwOverlap
import Verif.FidelityMain
import Verif.Overlap

/-!
# The overlap of two sandwich states (helper lemmas)
-/

namespace EvoMPS.SW

open Matrix Uni Filter Topology
open scoped ComplexOrder

variable {q D D' : ℕ → ℕ} {qL qR m : ℕ}

theorem laInv_eq {a b : ℕ} {M : Matrix (Fin a) (Fin b) ℂ} {X : Matrix (Fin b) (Fin a) ℂ} (h1 : M * X = 1) (h2 : X * M = 1) :
    laInv M = some X := by
  unfold laInv
  have h : ∃ X : Matrix (Fin b) (Fin a) ℂ, M * X = 1 ∧ X * M = 1 := ⟨X, h1, h2⟩
  rw [dif_pos h]
  congr 1
  calc h.choose = (X * M) * h.choose := by rw [h2, Matrix.one_mul]
    _ = X := by rw [Matrix.mul_assoc, h.choose_spec.1, Matrix.mul_one]

theorem frobSq_smul_real {a b : ℕ} (k : ℝ) (M : Matrix (Fin a) (Fin b) ℂ) : frobSq ((k : ℂ) • M) = k ^ 2 * frobSq M := by
  simp only [frobSq, Finset.mul_sum]
  refine Finset.sum_congr rfl fun i _ => Finset.sum_congr rfl fun j _ => ?_
  rw [Matrix.smul_apply, smul_eq_mul, norm_mul, mul_pow, Complex.norm_real, Real.norm_eq_abs, sq_abs]

theorem frobSq_pos {a b : ℕ} {M : Matrix (Fin a) (Fin b) ℂ} (h : M ≠ 0) : 0 < frobSq M := by
  obtain ⟨i, j, hij⟩ : ∃ i j, M i j ≠ 0 := by
    by_contra hc
    push Not at hc
    exact h (by ext i j; exact hc i j)
  unfold frobSq
  refine lt_of_lt_of_le (pow_pos (norm_pos_iff.mpr hij) 2) ?_
  refine le_trans ?_ (Finset.single_le_sum (f := fun i => ∑ j, ‖M i j‖ ^ 2) (fun _ _ => by positivity) (Finset.mem_univ i))
  exact Finset.single_le_sum (f := fun j => ‖M i j‖ ^ 2) (fun _ _ => by positivity) (Finset.mem_univ j)

/-- The scale of the gauge matrices computed with norms. -/
theorem scale_fix {a : ℕ} {r X : Matrix (Fin a) (Fin a) ℂ} (hr : r ≠ 0) {k : ℝ} (hk : 0 < k) (hX : X = (k : ℂ) • r) :
    0 < laNorm r / laNorm X ∧ ((laNorm r / laNorm X : ℝ) : ℂ) • X = r := by
  have h0 : 0 < laNorm r := Real.sqrt_pos.mpr (frobSq_pos hr)
  have h1 : laNorm X = k * laNorm r := by
    rw [laNorm, laNorm, hX, frobSq_smul_real, Real.sqrt_mul (by positivity), Real.sqrt_sq hk.le]
  have h2 : laNorm r / laNorm X = k⁻¹ := by rw [h1]; field_simp
  rw [h2]
  refine ⟨by positivity, ?_⟩
  rw [hX, smul_smul, ← Complex.ofReal_mul, inv_mul_cancel₀ hk.ne', Complex.ofReal_one, one_smul]

/-- The gauge matrices computed from an eigenvector of the mixed transfer map. -/
theorem align_core {ι : Type*} [Fintype ι] {a b : ℕ} {B : ι → Matrix (Fin a) (Fin a) ℂ} {B' : ι → Matrix (Fin b) (Fin b) ℂ}
    {l r : Matrix (Fin a) (Fin a) ℂ} {l' r' : Matrix (Fin b) (Fin b) ℂ} {V : Matrix (Fin a) (Fin b) ℂ} {w : ℂ}
    (hl : l.PosDef) (hle : ∑ i, (B i)ᴴ * l * B i = l) (hr : r.PosDef) (hre : ∑ i, B i * r * (B i)ᴴ = r)
    (hl' : l'.PosDef) (hle' : ∑ i, (B' i)ᴴ * l' * B' i = l') (hr' : r'.PosDef) (hre' : ∑ i, B' i * r' * (B' i)ᴴ = r')
    (hu : ∀ Z, ∑ i, B i * Z * (B i)ᴴ = Z → ∃ c : ℂ, Z = c • r) (hu' : ∀ Z, ∑ i, B' i * Z * (B' i)ᴴ = Z → ∃ c : ℂ, Z = c • r')
    (hV : V ≠ 0) (h : ∑ i, B i * V * (B' i)ᴴ = w • V) (hw : ‖w‖ = 1) :
    ∃ Ri ri, laInv V = some Ri ∧ laInv r = some ri ∧ (Ri * r)ᴴ * (ri * V)ᴴ = 1 ∧ (ri * V)ᴴ * (Ri * r)ᴴ = 1 ∧
      0 < laNorm r / laNorm ((Ri * r)ᴴ * r' * ((Ri * r)ᴴ)ᴴ) ∧
      ((laNorm r / laNorm ((Ri * r)ᴴ * r' * ((Ri * r)ᴴ)ᴴ) : ℝ) : ℂ) • ((Ri * r)ᴴ * r' * ((Ri * r)ᴴ)ᴴ) = r ∧
      ∀ i, B i = w • ((Ri * r)ᴴ * B' i * (ri * V)ᴴ) := by
  have hri : r * r⁻¹ = 1 := Matrix.mul_nonsing_inv r ((Matrix.isUnit_iff_isUnit_det r).mp hr.isUnit)
  have hri' : r' * r'⁻¹ = 1 := Matrix.mul_nonsing_inv r' ((Matrix.isUnit_iff_isUnit_det r').mp hr'.isUnit)
  have hrj : r⁻¹ * r = 1 := mul_eq_one_comm.mp hri
  have hrj' : r'⁻¹ * r' = 1 := mul_eq_one_comm.mp hri'
  obtain ⟨c, gi, hc, e1, e2, e3⟩ := mixed_gauge hl hle hr hre hl' hle' hr' hre' hu hu' hV h hw
  have hB := ((mixed_core hl hle hr' hre' hV h).2 hw).1
  set g := V * r'⁻¹ with hg
  have hVg : g * r' = V := by rw [hg, Matrix.mul_assoc, hrj', Matrix.mul_one]
  have i1 : V * (r'⁻¹ * gi) = 1 := by rw [← Matrix.mul_assoc, ← hg, e1]
  have i2 : r'⁻¹ * gi * V = 1 := by
    rw [← hVg, Matrix.mul_assoc, ← Matrix.mul_assoc gi, e2, Matrix.one_mul, hrj']
  have hr0 : r = c⁻¹ • (g * r' * gᴴ) := by rw [e3, smul_smul, inv_mul_cancel₀ hc, one_smul]
  have hrh := hr.isHermitian.eq
  have hrh' := hr'.isHermitian.eq
  have hih' : (r'⁻¹)ᴴ = r'⁻¹ := by rw [Matrix.conjTranspose_nonsing_inv, hrh']
  have egi : gᴴ * giᴴ = 1 := by rw [← Matrix.conjTranspose_mul, e2, Matrix.conjTranspose_one]
  set gr := (r'⁻¹ * gi * r)ᴴ with hgr
  have hgrg : gr = c⁻¹ • g := by
    rw [hgr, Matrix.conjTranspose_mul, Matrix.conjTranspose_mul, hih', hrh]
    rw [hr0, Matrix.smul_mul]
    congr 1
    rw [show g * r' * gᴴ * (giᴴ * r'⁻¹) = g * (r' * (gᴴ * giᴴ) * r'⁻¹) by simp only [Matrix.mul_assoc], egi, Matrix.mul_one, hri',
      Matrix.mul_one]
  have j1 : gr * (r⁻¹ * V)ᴴ = 1 := by
    rw [hgr, ← Matrix.conjTranspose_mul, show r⁻¹ * V * (r'⁻¹ * gi * r) = r⁻¹ * (V * (r'⁻¹ * gi)) * r by simp only [Matrix.mul_assoc],
      i1, Matrix.mul_one, hrj, Matrix.conjTranspose_one]
  have j2 : (r⁻¹ * V)ᴴ * gr = 1 := by
    rw [hgr, ← Matrix.conjTranspose_mul, show r'⁻¹ * gi * r * (r⁻¹ * V) = r'⁻¹ * gi * ((r * r⁻¹) * V) by simp only [Matrix.mul_assoc],
      hri, Matrix.one_mul, i2, Matrix.conjTranspose_one]
  have hcpos : 0 < c := by
    have h1 : 0 < (l * (g * r' * gᴴ)).trace := weighted_pos hl hr' (fun h0 => hV (by rw [← hVg, h0, Matrix.zero_mul]))
    have h2 : 0 < (l * r).trace := by
      have hr00 : (1 : Matrix (Fin a) (Fin a) ℂ) ≠ 0 := by
        intro h0
        exact hV (by rw [← Matrix.one_mul V, h0, Matrix.zero_mul])
      have := weighted_pos hl hr hr00
      simpa using this
    rw [e3, Matrix.mul_smul, Matrix.trace_smul, smul_eq_mul] at h1
    have h3 : c = (c * (l * r).trace) * ((l * r).trace)⁻¹ := by
      rw [mul_assoc, mul_inv_cancel₀ h2.ne', mul_one]
    rw [h3]
    exact mul_pos h1 (by rw [Complex.pos_iff] at h2 ⊢; constructor
                         · rw [Complex.inv_re]; exact div_pos h2.1 (Complex.normSq_pos.mpr (by intro h0; simp [h0] at h2))
                         · rw [Complex.inv_im, ← h2.2]; simp)
  obtain ⟨k, hk, rfl⟩ : ∃ k : ℝ, 0 < k ∧ c = k := by
    rw [Complex.pos_iff] at hcpos
    exact ⟨c.re, hcpos.1, Complex.ext rfl (by simp [← hcpos.2])⟩
  have hX : gr * r' * grᴴ = ((k⁻¹ : ℝ) : ℂ) • r := by
    rw [hgrg, Matrix.conjTranspose_smul, Matrix.smul_mul, Matrix.smul_mul, Matrix.mul_smul, smul_smul, e3, smul_smul]
    congr 1
    rw [← Complex.ofReal_inv, Complex.star_def, Complex.conj_ofReal]
    push_cast
    field_simp
  have hr00 : r ≠ 0 := by
    rintro rfl
    refine hV ?_
    have : (1 : Matrix (Fin a) (Fin a) ℂ) = 0 := by rw [← hri, Matrix.zero_mul]
    rw [← Matrix.one_mul V, this, Matrix.zero_mul]
  obtain ⟨s1, s2⟩ := scale_fix hr00 (inv_pos.mpr hk) hX
  refine ⟨r'⁻¹ * gi, r⁻¹, laInv_eq i1 i2, laInv_eq hri hrj, j1, j2, s1, s2, fun i => ?_⟩
  have h5 : B i * gr = w • (gr * B' i) := by
    rw [hgrg, Matrix.mul_smul, hB i, Matrix.smul_mul, smul_comm]
  calc B i = B i * (gr * (r⁻¹ * V)ᴴ) := by rw [j1, Matrix.mul_one]
    _ = _ := by rw [← Matrix.mul_assoc, h5, Matrix.smul_mul]

/-- What is assumed of a bulk: its stored `l`, `r` are environments of full rank, and the powers of its transfer map converge to the
projection on them. -/
structure BulkReady {q D : ℕ} (S : UMPS ℂ q D) : Prop where
  pos : 0 < S.L
  env : ChainEnv S.L S.A S.l S.r
  left : (S.l (S.L - 1)).PosDef
  right : (S.r (S.L - 1)).PosDef
  lim : ∀ x, Tendsto (fun m : ℕ => chainTransfer S.L S.L S.A S.A 0 (m * S.L) x) atTop
      (𝓝 (((S.l (S.L - 1))ᴴ * x).trace • S.r (S.L - 1)))

section bulk
variable {q D D' : ℕ} {S : UMPS ℂ q D} {S' : UMPS ℂ q D'}

theorem alignR (h : BulkReady S) (h' : BulkReady S') {V : Matrix (Fin D) (Fin D') ℂ} {w : ℂ} (hV : V ≠ 0)
    (hw : chainTransfer S.L S'.L S.A S'.A 0 (Nat.lcm S.L S'.L) V = w • V) (hw1 : ‖w‖ = 1) :
    ∃ Ri ri, laInv V = some Ri ∧ laInv (S.r (S.L - 1)) = some ri ∧
      0 < laNorm (S.r (S.L - 1)) / laNorm ((Ri * S.r (S.L - 1))ᴴ * S'.r (S'.L - 1) * ((Ri * S.r (S.L - 1))ᴴ)ᴴ) ∧
      ((laNorm (S.r (S.L - 1)) / laNorm ((Ri * S.r (S.L - 1))ᴴ * S'.r (S'.L - 1) * ((Ri * S.r (S.L - 1))ᴴ)ᴴ) : ℝ) : ℂ)
        • ((Ri * S.r (S.L - 1))ᴴ * S'.r (S'.L - 1) * ((Ri * S.r (S.L - 1))ᴴ)ᴴ) = S.r (S.L - 1) ∧
      BulkGauge S.L S'.L S.A S'.A w (Ri * S.r (S.L - 1))ᴴ (ri * V)ᴴ := by
  have lim := h.lim
  have lim' := h'.lim
  simp only [← adot_eq_trace] at lim lim'
  have d := Nat.dvd_lcm_left S.L S'.L
  have d' := Nat.dvd_lcm_right S.L S'.L
  have hM := Nat.lcm_pos h.pos h'.pos
  obtain ⟨Ri, ri, a1, a2, a3, a4, a5, a6, a7⟩ := align_core (B := fun s : Fin (Nat.lcm S.L S'.L) → Fin q => chainProd S.L S.A 0 _ s)
    (B' := fun s => chainProd S'.L S'.A 0 _ s) h.left (env_blockL h.pos h.env d) h.right (env_blockR h.pos h.env d)
    h'.left (env_blockL h'.pos h'.env d') h'.right (env_blockR h'.pos h'.env d')
    (fun Z hZ => ⟨_, fix_uniqueR lim hM d hZ⟩) (fun Z hZ => ⟨_, fix_uniqueR lim' hM d' hZ⟩) hV hw hw1
  exact ⟨Ri, ri, a1, a2, a5, a6, a3, a4, hw1, a7⟩

theorem alignL (h : BulkReady S) (h' : BulkReady S') {V : Matrix (Fin D) (Fin D') ℂ} {w : ℂ} (hV : V ≠ 0)
    (hw : chainTransferL S.L S'.L S.A S'.A 0 (Nat.lcm S.L S'.L) V = w • V) (hw1 : ‖w‖ = 1) :
    ∃ Li li, laInv V = some Li ∧ laInv (S.l (S.L - 1)) = some li ∧
      0 < laNorm (S.l (S.L - 1)) / laNorm ((Li * S.l (S.L - 1))ᴴ * S'.l (S'.L - 1) * (Li * S.l (S.L - 1))) ∧
      ((laNorm (S.l (S.L - 1)) / laNorm ((Li * S.l (S.L - 1))ᴴ * S'.l (S'.L - 1) * (Li * S.l (S.L - 1))) : ℝ) : ℂ)
        • ((Li * S.l (S.L - 1))ᴴ * S'.l (S'.L - 1) * (Li * S.l (S.L - 1))) = S.l (S.L - 1) ∧
      BulkGauge S.L S'.L S.A S'.A (star w) (li * V) (Li * S.l (S.L - 1)) := by
  have lim := h.lim
  have lim' := h'.lim
  simp only [← adot_eq_trace] at lim lim'
  have d := Nat.dvd_lcm_left S.L S'.L
  have d' := Nat.dvd_lcm_right S.L S'.L
  have hM := Nat.lcm_pos h.pos h'.pos
  have eL := env_blockL h.pos h.env d
  have eR := env_blockR h.pos h.env d
  have eL' := env_blockL h'.pos h'.env d'
  have eR' := env_blockR h'.pos h'.env d'
  obtain ⟨Li, li, a1, a2, a3, a4, a5, a6, a7⟩ := align_core
    (B := fun s : Fin (Nat.lcm S.L S'.L) → Fin q => (chainProd S.L S.A 0 _ s)ᴴ)
    (B' := fun s => (chainProd S'.L S'.A 0 _ s)ᴴ) (V := V) (w := w) (l := S.r (S.L - 1)) (r := S.l (S.L - 1))
    (l' := S'.r (S'.L - 1)) (r' := S'.l (S'.L - 1)) h.right
    (by simp only [Matrix.conjTranspose_conjTranspose]; exact eR) h.left (by simp only [Matrix.conjTranspose_conjTranspose]; exact eL)
    h'.right (by simp only [Matrix.conjTranspose_conjTranspose]; exact eR') h'.left
    (by simp only [Matrix.conjTranspose_conjTranspose]; exact eL')
    (fun Z hZ => ⟨_, fix_uniqueL lim hM d (by simp only [Matrix.conjTranspose_conjTranspose] at hZ; exact hZ)⟩)
    (fun Z hZ => ⟨_, fix_uniqueL lim' hM d' (by simp only [Matrix.conjTranspose_conjTranspose] at hZ; exact hZ)⟩) hV
    (by simp only [Matrix.conjTranspose_conjTranspose]; exact hw) hw1
  simp only [Matrix.conjTranspose_conjTranspose] at a5 a6
  refine ⟨Li, li, a1, a2, a5, a6, ?_, ?_, by rw [norm_star, hw1], fun s => ?_⟩
  · have := congrArg Matrix.conjTranspose a3
    rwa [← Matrix.conjTranspose_mul, Matrix.conjTranspose_conjTranspose, Matrix.conjTranspose_one] at this
  · have := congrArg Matrix.conjTranspose a4
    rwa [← Matrix.conjTranspose_mul, Matrix.conjTranspose_conjTranspose, Matrix.conjTranspose_one] at this
  · have := congrArg Matrix.conjTranspose (a7 s)
    rw [Matrix.conjTranspose_conjTranspose] at this
    rw [this, Matrix.conjTranspose_smul]
    simp only [Matrix.conjTranspose_mul, Matrix.conjTranspose_conjTranspose, Matrix.mul_assoc]

/-- The gauge transformation between two bulks is unique up to a factor. -/
theorem bulkGauge_unique (h : BulkReady S) (h' : BulkReady S') {z z' : ℂ} {g g' : Matrix (Fin D) (Fin D') ℂ}
    {gi gi' : Matrix (Fin D') (Fin D) ℂ} (hg : BulkGauge S.L S'.L S.A S'.A z g gi) (hg' : BulkGauge S.L S'.L S.A S'.A z' g' gi') :
    ∃ c : ℂ, c ≠ 0 ∧ g' = c • g ∧ gi' = c⁻¹ • gi := by
  have lim := h.lim
  simp only [← adot_eq_trace] at lim
  have hM := Nat.lcm_pos h.pos h'.pos
  have d := Nat.dvd_lcm_left S.L S'.L
  have hz0 : z ≠ 0 := by intro h0; have := hg.phase; rw [h0, norm_zero] at this; exact zero_ne_one this
  set M := Nat.lcm S.L S'.L with hMd
  set r := S.r (S.L - 1) with hr
  set X := g' * gi with hX
  have i1 : X * (g * gi') = 1 := by
    rw [hX, show g' * gi * (g * gi') = g' * (gi * g) * gi' by simp only [Matrix.mul_assoc], hg.left_inv, Matrix.mul_one, hg'.right_inv]
  have hint : ∀ s : Fin M → Fin q, chainProd S.L S.A 0 M s * X = (z' * z⁻¹) • (X * chainProd S.L S.A 0 M s) := by
    intro s
    have e1 : chainProd S.L S.A 0 M s * g' = z' • (g' * chainProd S'.L S'.A 0 M s) := by
      rw [hg'.eq s, Matrix.smul_mul, Matrix.mul_assoc, hg'.left_inv, Matrix.mul_one]
    have e2 : gi * chainProd S.L S.A 0 M s = z • (chainProd S'.L S'.A 0 M s * gi) := by
      rw [hg.eq s, Matrix.mul_smul, ← Matrix.mul_assoc, ← Matrix.mul_assoc, hg.left_inv, Matrix.one_mul]
    rw [hX, ← Matrix.mul_assoc, e1, Matrix.mul_assoc, e2, Matrix.mul_smul, smul_smul, mul_assoc, inv_mul_cancel₀ hz0, mul_one,
      Matrix.smul_mul, Matrix.mul_assoc]
  set ζ := z' * z⁻¹ with hζ
  have hζ1 : ‖ζ‖ = 1 := by rw [hζ, norm_mul, norm_inv, hg.phase, hg'.phase, inv_one, mul_one]
  have hT : chainTransfer S.L S.L S.A S.A 0 M (X * r) = ζ • (X * r) := by
    have hb := env_blockR h.pos h.env d
    conv_rhs => rw [hr, ← hb]
    simp only [chainTransfer, Matrix.mul_sum, Finset.smul_sum]
    refine Finset.sum_congr rfl fun s _ => ?_
    rw [← Matrix.mul_assoc, hint s, Matrix.smul_mul, Matrix.smul_mul]
    simp only [Matrix.mul_assoc]
    rfl
  have hri : r * r⁻¹ = 1 := Matrix.mul_nonsing_inv _ ((Matrix.isUnit_iff_isUnit_det _).mp h.right.isUnit)
  have hD : (1 : Matrix (Fin D) (Fin D) ℂ) ≠ 0 := by
    intro h0
    have := h.env.norm (S.L - 1) (by have := h.pos; omega)
    rw [← Matrix.mul_one (S.r _), h0, Matrix.mul_zero, Matrix.mul_zero, Matrix.trace_zero] at this
    exact zero_ne_one this
  have hX0 : X * r ≠ 0 := by
    intro h0
    refine hD ?_
    have : X = 0 := by rw [← Matrix.mul_one X, ← hri, ← Matrix.mul_assoc, h0, Matrix.zero_mul]
    rw [← i1, this, Matrix.zero_mul]
  have hpow : ∀ m : ℕ, chainTransfer S.L S.L S.A S.A 0 (m * M) (X * r) = ζ ^ m • (X * r) := fun m => mixed_pow d d hT m
  obtain ⟨t, ht⟩ := d
  have ht0 : 0 < t := by
    rcases Nat.eq_zero_or_pos t with h0 | h0
    · rw [ht, h0, Nat.mul_zero] at hM; exact absurd hM (lt_irrefl 0)
    · exact h0
  have hl2 : Tendsto (fun m : ℕ => ζ ^ m • (X * r)) atTop (𝓝 (adot (S.l (S.L - 1)) (X * r) • r)) := by
    have h2 : Tendsto (fun m : ℕ => m * t) atTop atTop := tendsto_id.atTop_mul_const' ht0
    have h3 := (lim (X * r)).comp h2
    refine h3.congr fun m => ?_
    rw [Function.comp_apply, ← hpow m, show m * t * S.L = m * M by rw [ht]; ring]
  have hζe : ζ = 1 := by
    have h3 := (hl2.comp (tendsto_add_atTop_nat 1))
    have h4 : Tendsto (fun m : ℕ => ζ • (ζ ^ m • (X * r))) atTop (𝓝 (ζ • (adot (S.l (S.L - 1)) (X * r) • r))) := hl2.const_smul ζ
    have h5 := tendsto_nhds_unique (h3.congr fun m => by rw [Function.comp_apply, pow_succ', ← smul_smul]) h4
    set Y := adot (S.l (S.L - 1)) (X * r) • r with hY
    have hY0 : Y ≠ 0 := by
      intro h0
      obtain ⟨i, j, hij⟩ : ∃ i j, (X * r) i j ≠ 0 := by
        by_contra hc
        push Not at hc
        exact hX0 (by ext i j; exact hc i j)
      have h6 : Tendsto (fun m : ℕ => ζ ^ m * (X * r) i j) atTop (𝓝 (Y i j)) := by
        have := (tendsto_pi_nhds.mp ((tendsto_pi_nhds.mp hl2) i)) j
        simpa using this
      rw [h0, Matrix.zero_apply] at h6
      have h7 := h6.norm
      simp only [norm_mul, norm_pow, hζ1, one_pow, one_mul, norm_zero] at h7
      exact hij (norm_eq_zero.mp (tendsto_nhds_unique tendsto_const_nhds h7))
    have h8 : (1 - ζ) • Y = 0 := by rw [sub_smul, one_smul, ← h5, sub_self]
    rcases smul_eq_zero.mp h8 with h9 | h9
    · exact (sub_eq_zero.mp h9).symm
    · exact absurd h9 hY0
  have hfix : X * r = adot (S.l (S.L - 1)) (X * r) • r := by
    refine tendsto_nhds_unique (tendsto_const_nhds.congr fun m => ?_) hl2
    rw [hζe, one_pow, one_smul]
  set c := adot (S.l (S.L - 1)) (X * r) with hc
  have hXc : X = c • 1 := by
    rw [← Matrix.mul_one X, ← hri, ← Matrix.mul_assoc, hfix, Matrix.smul_mul, hri]
  have hc0 : c ≠ 0 := by
    intro h0
    rw [h0, zero_smul] at hXc
    exact hD (by rw [← i1, hXc, Matrix.zero_mul])
  refine ⟨c, hc0, ?_, ?_⟩
  · rw [← Matrix.mul_one g', ← hg.left_inv, ← Matrix.mul_assoc, ← hX, hXc, Matrix.smul_mul, Matrix.one_mul]
  · have e1 : c • (g * gi') = 1 := by rw [← i1, hXc, Matrix.smul_mul, Matrix.one_mul]
    rw [← Matrix.one_mul gi', ← hg.left_inv, Matrix.mul_assoc, show g * gi' = c⁻¹ • 1 by
      rw [← e1, smul_smul, inv_mul_cancel₀ hc0, one_smul], Matrix.mul_smul, Matrix.mul_one]

theorem bulkGauge_dim {L L' : ℕ} {A : ℕ → Ten ℂ q D D} {A' : ℕ → Ten ℂ q D' D'} {z : ℂ} {g gi}
    (h : BulkGauge L L' A A' z g gi) : D = D' := by
  have h1 := congrArg Matrix.trace h.right_inv
  rw [Matrix.trace_mul_comm, h.left_inv, Matrix.trace_one, Matrix.trace_one, Fintype.card_fin, Fintype.card_fin] at h1
  exact_mod_cast h1.symm

end bulk

/-! ## The contraction over the window -/

theorem overlapLoop_aux (A : Tensors ℂ q D) (A' : Tensors ℂ q D') (y0 : Matrix (Fin (D 0)) (Fin (D' 0)) ℂ) :
    ∀ (m : ℕ) (y : ∀ n, Matrix (Fin (D n)) (Fin (D' n)) ℂ),
    adot (mixL A A' y0 1) ((List.range' 1 m).reverse.foldl (fun y k => Function.update y k (epsR (y (k + 1)) (A k) (A' k))) y 1)
      = adot (mixL A A' y0 (m + 1)) (y (m + 1)) := by
  intro m
  induction m with
  | zero => intro y; rfl
  | succ m ih =>
    intro y
    rw [List.range'_concat, List.reverse_append, List.reverse_singleton, List.singleton_append, List.foldl_cons, ih]
    rw [show 1 + 1 * m = m + 1 by omega, Function.update_self, ← adot_mixL_step]

/-- The contraction over the window is the inner product of the window with the other one in the changed gauge. -/
theorem overlapWindow_eq (A : Tensors ℂ q D) (A' : Tensors ℂ q D') (l : Matrix (Fin (D 0)) (Fin (D 0)) ℂ) (hl : lᴴ = l)
    (gl : Matrix (Fin (D 0)) (Fin (D' 0)) ℂ) (m : ℕ) (r : Matrix (Fin (D (m + 2))) (Fin (D (m + 2))) ℂ)
    (gri : Matrix (Fin (D' (m + 2))) (Fin (D (m + 2))) ℂ) :
    overlapWindow A A' l gl (m + 1) r gri = some (commonInner l r (amp A (m + 2)) fun s => gl * amp A' (m + 2) s * gri) := by
  have e1 : ∀ x : Matrix (Fin (D 1)) (Fin (D' 1)) ℂ, adot l (epsR x (A 0) fun s => gl * A' 0 s) = adot (mixL A A' (l * gl) 1) x := by
    intro x
    rw [show mixL A A' (l * gl) 1 = mixL A A' (l * gl) (0 + 1) from rfl, adot_mixL_step, adot_eq_trace, adot_eq_trace, epsR_eq,
      epsR_eq, mixL, Matrix.conjTranspose_mul, Matrix.mul_assoc, Matrix.trace_mul_comm glᴴ]
    simp only [Matrix.conjTranspose_mul, Matrix.sum_mul, Matrix.mul_sum, Matrix.mul_assoc]
  have e2 : epsR r (A (m + 1)) (fun s => A' (m + 1) s * gri) = epsR (r * griᴴ) (A (m + 1)) (A' (m + 1)) := by
    simp only [epsR_eq, Matrix.conjTranspose_mul, Matrix.mul_assoc]
  show some _ = some _
  congr 1
  rw [e1, overlapLoop, overlapLoop_aux, Function.update_self, e2, ← adot_mixL_step, adot_eq_trace, mixL_amp, commonInner,
    Matrix.conjTranspose_sum, Matrix.sum_mul, Matrix.trace_sum]
  refine Finset.sum_congr rfl fun s _ => ?_
  simp only [Matrix.conjTranspose_mul, Matrix.conjTranspose_conjTranspose, hl]
  rw [show (amp A' (m + 2) s)ᴴ * (glᴴ * l * amp A (m + 2) s) * (r * griᴴ)
      = ((amp A' (m + 2) s)ᴴ * glᴴ) * (l * amp A (m + 2) s * r * griᴴ) by simp only [Matrix.mul_assoc], Matrix.trace_mul_comm]
  simp only [Matrix.mul_assoc]

/-! ## The inequality of Cauchy and Schwarz -/

section cs
variable {ι : Type*} [Fintype ι] {a b : ℕ} {l : Matrix (Fin a) (Fin a) ℂ} {r : Matrix (Fin b) (Fin b) ℂ}

/-- The bound for two states of norm one, and when it is attained. -/
theorem commonInner_cs (hl : l.PosDef) (hr : r.PosDef) {M M' : ι → Matrix (Fin a) (Fin b) ℂ} (h : commonInner l r M M = 1)
    (h' : commonInner l r M' M' = 1) :
    ‖commonInner l r M M'‖ ≤ 1 ∧ (‖commonInner l r M M'‖ = 1 → ∀ s, M s = commonInner l r M M' • M' s) := by
  set v := commonInner l r M M' with hv
  have hsm : ∀ (c : ℂ), commonInner l r (fun s => M s - c • M' s) (fun s => M s - c • M' s)
      = 1 - star c * v - c * star v + c * star c := by
    intro c
    have hlh := hl.isHermitian.eq
    have hrh := hr.isHermitian.eq
    have hsv : commonInner l r M' M = star v := by
      rw [hv, commonInner, commonInner, star_sum]
      refine Finset.sum_congr rfl fun s _ => ?_
      rw [← Matrix.trace_conjTranspose]
      simp only [Matrix.conjTranspose_mul, Matrix.conjTranspose_conjTranspose, hlh, hrh]
      rw [show l * M' s * r * (M s)ᴴ = l * (M' s * r * (M s)ᴴ) by simp only [Matrix.mul_assoc], Matrix.trace_mul_comm]
      simp only [Matrix.mul_assoc]
    rw [← h, ← hsv]
    conv_rhs => rw [← mul_one (c * star c), ← h']
    rw [hv]
    simp only [commonInner, Finset.mul_sum, ← Finset.sum_sub_distrib, ← Finset.sum_add_distrib]
    refine Finset.sum_congr rfl fun s _ => ?_
    simp only [Matrix.conjTranspose_sub, Matrix.conjTranspose_smul, Matrix.mul_sub, Matrix.sub_mul, Matrix.smul_mul, Matrix.mul_smul,
      Matrix.trace_sub, Matrix.trace_smul, smul_eq_mul]
    ring
  have hval := hsm v
  have hsq : star v * v = (‖v‖ ^ 2 : ℝ) := by
    rw [Complex.star_def, mul_comm, Complex.mul_conj, Complex.normSq_eq_norm_sq]
  have hval' : commonInner l r (fun s => M s - v • M' s) (fun s => M s - v • M' s) = ((1 - ‖v‖ ^ 2 : ℝ) : ℂ) := by
    rw [hval, mul_comm v (star v), hsq]
    push_cast
    ring
  have hterm : ∀ s, 0 ≤ (l * (M s - v • M' s) * r * (M s - v • M' s)ᴴ).trace := by
    intro s
    have := weighted_nonneg hl hr (M s - v • M' s)
    simpa only [Matrix.mul_assoc] using this
  constructor
  · have h0 : (0 : ℂ) ≤ ((1 - ‖v‖ ^ 2 : ℝ) : ℂ) := by rw [← hval']; exact Finset.sum_nonneg fun s _ => hterm s
    have h1 : 0 ≤ 1 - ‖v‖ ^ 2 := by exact_mod_cast h0
    nlinarith [norm_nonneg v]
  · intro hv1 s
    rw [hv1] at hval'
    simp only [one_pow, sub_self, Complex.ofReal_zero, commonInner] at hval'
    have h0 := (Finset.sum_eq_zero_iff_of_nonneg fun s _ => hterm s).mp hval' s (Finset.mem_univ s)
    by_contra hne
    have hp := weighted_pos hl hr (F := M s - v • M' s) (sub_ne_zero.mpr hne)
    simp only [Matrix.mul_assoc] at h0 hp
    rw [h0] at hp
    exact lt_irrefl _ hp

end cs

end EvoMPS.SW
