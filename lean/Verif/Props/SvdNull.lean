import Verif.SvdNull
import Verif.ContractsSvd
import Verif.LowRank
import Mathlib.LinearAlgebra.Dimension.RankNullity
import Mathlib.LinearAlgebra.FiniteDimensional.Basic
import Mathlib.Analysis.Normed.Field.Basic
import Mathlib.Analysis.Complex.Basic
import Mathlib.LinearAlgebra.Matrix.NonsingularInverse

/-!
# C74: rank and null space with a tolerance

`nullspace` and `rank` (nullspace.py:14-96).
-/

namespace EvoMPS

open Matrix

variable {m k : ℕ}

/-- The squared length of a vector. -/
noncomputable def vecSq {n : ℕ} (x : Fin n → ℂ) : ℝ := ∑ i, ‖x i‖ ^ 2

/-! ## Helpers -/

theorem vecSq_nonneg {n : ℕ} (x : Fin n → ℂ) : 0 ≤ vecSq x := Finset.sum_nonneg fun i _ => by positivity

theorem vecSq_eq_zero {n : ℕ} {x : Fin n → ℂ} (h : vecSq x ≤ 0) : x = 0 := by
  have h0 : vecSq x = 0 := le_antisymm h (vecSq_nonneg x)
  have := (Finset.sum_eq_zero_iff_of_nonneg (fun i _ => by positivity : ∀ i ∈ Finset.univ, 0 ≤ ‖x i‖ ^ 2)).1 h0
  funext i
  simpa using this i (Finset.mem_univ i)

theorem vecSq_complex {n : ℕ} (x : Fin n → ℂ) : ((vecSq x : ℝ) : ℂ) = star x ⬝ᵥ x := by
  rw [vecSq, dotProduct]
  push_cast
  refine Finset.sum_congr rfl fun i _ => ?_
  rw [← Complex.conj_mul']
  rfl

theorem vecSq_isometry {a b : ℕ} {V : Matrix (Fin a) (Fin b) ℂ} (h : Vᴴ * V = 1) (x : Fin b → ℂ) : vecSq (V *ᵥ x) = vecSq x := by
  have : ((vecSq (V *ᵥ x) : ℝ) : ℂ) = (vecSq x : ℝ) := by
    rw [vecSq_complex, vecSq_complex, star_mulVec, dotProduct_mulVec, vecMul_vecMul, h, vecMul_one]
  exact_mod_cast this

theorem nsCount_iff {s : Fin (min m k) → ℝ} (hs : Antitone s) (tol : ℝ) (i : Fin (min m k)) : tol ≤ s i ↔ i.val < nsCount s tol := by
  unfold nsCount
  constructor
  · intro h
    have : (Finset.Iic i).card ≤ (Finset.univ.filter fun i => tol ≤ s i).card := by
      refine Finset.card_le_card fun j hj => ?_
      rw [Finset.mem_Iic] at hj
      simpa using h.trans (hs hj)
    rw [Fin.card_Iic] at this
    omega
  · intro h
    by_contra hn
    have : (Finset.univ.filter fun i => tol ≤ s i).card ≤ (Finset.Iio i).card := by
      refine Finset.card_le_card fun j hj => ?_
      rw [Finset.mem_Iio]
      by_contra hj'
      have h1 : tol ≤ s j := by simpa using hj
      exact hn (h1.trans (hs (not_lt.1 hj')))
    rw [Fin.card_Iio] at this
    omega

theorem nsCount_le (s : Fin (min m k) → ℝ) (tol : ℝ) : nsCount s tol ≤ min m k := by
  unfold nsCount
  exact (Finset.card_le_univ _).trans (by simp)

/-- What the matrix does to a vector, in terms of the coordinates `vh x`. -/
theorem vecSq_apply {A : Matrix (Fin m) (Fin k) ℂ} {d : FullSvd m k} (h : d.Ok A) (x : Fin k → ℂ) :
    vecSq (A *ᵥ x) = ∑ j : Fin k, if hj : j.val < min m k then (d.s ⟨j, hj⟩) ^ 2 * ‖(d.vh *ᵥ x) j‖ ^ 2 else 0 := by
  have e1 : A *ᵥ x = d.u *ᵥ (d.sigma *ᵥ (d.vh *ᵥ x)) := by
    conv_lhs => rw [h.fac]
    rw [mulVec_mulVec, mulVec_mulVec]
  rw [e1, vecSq_isometry h.u_unit]
  generalize d.vh *ᵥ x = w
  let g : ℕ → ℝ := fun t => if h : t < min m k then d.s ⟨t, h⟩ ^ 2 * ‖w ⟨t, by omega⟩‖ ^ 2 else 0
  have e2 : ∀ i : Fin m, ‖(d.sigma *ᵥ w) i‖ ^ 2 = g i := by
    intro i
    have hi := i.isLt
    by_cases h1 : i.val < k
    · have : (d.sigma *ᵥ w) i = d.s ⟨i, by omega⟩ * w ⟨i, h1⟩ := by
        rw [mulVec, dotProduct, Finset.sum_eq_single ⟨i.val, h1⟩]
        · rw [FullSvd.sigma, dif_pos rfl]
        · intro j _ hj
          rw [FullSvd.sigma, dif_neg (fun h => hj (Fin.ext h.symm)), zero_mul]
        · exact fun h => absurd (Finset.mem_univ _) h
      simp only [g]
      rw [dif_pos (by omega), this, norm_mul, mul_pow, Complex.norm_real, Real.norm_eq_abs, sq_abs]
    · have : (d.sigma *ᵥ w) i = 0 := by
        rw [mulVec, dotProduct]
        refine Finset.sum_eq_zero fun j _ => ?_
        have := j.isLt
        rw [FullSvd.sigma, dif_neg (by omega), zero_mul]
      simp only [g]
      rw [dif_neg (by omega), this, norm_zero, zero_pow two_ne_zero]
  have e3 : ∀ n, min m k ≤ n → ∑ t ∈ Finset.range n, g t = ∑ t ∈ Finset.range (min m k), g t := by
    intro n hn
    refine (Finset.sum_subset (Finset.range_mono hn) fun t _ ht => ?_).symm
    rw [Finset.mem_range] at ht
    simp only [g]
    rw [dif_neg ht]
  rw [vecSq, Finset.sum_congr rfl fun i _ => e2 i, Fin.sum_univ_eq_sum_range g, e3 m (min_le_left _ _), ← e3 k (min_le_right _ _),
    ← Fin.sum_univ_eq_sum_range g]

theorem v_unit' {A : Matrix (Fin m) (Fin k) ℂ} {d : FullSvd m k} (h : d.Ok A) : d.vhᴴ * d.vh = 1 :=
  mul_eq_one_comm.1 h.v_unit

/-- The coordinates of a combination of the columns. -/
theorem coords_ns (vh : Matrix (Fin k) (Fin k) ℂ) (hv : vh * vhᴴ = 1) (n : ℕ) (y : Fin (k - n) → ℂ) (j : Fin k) :
    (vh *ᵥ (svTail vh n *ᵥ y)) j = if h : n ≤ j.val then y ⟨j - n, by have := j.isLt; omega⟩ else 0 := by
  have e : ∀ i : Fin (k - n), (vh * svTail vh n) j i = if j.val = n + i then 1 else 0 := by
    intro i
    have := congrFun (congrFun hv j) ⟨n + i, by have := i.isLt; omega⟩
    rw [Matrix.one_apply, Matrix.mul_apply] at this
    rw [Matrix.mul_apply]
    simp only [svTail, conjTranspose_apply, Fin.ext_iff] at this ⊢
    exact this
  rw [mulVec_mulVec, mulVec, dotProduct]
  simp only [e]
  split
  · rename_i h
    rw [Finset.sum_eq_single ⟨j - n, by have := j.isLt; omega⟩]
    · rw [if_pos (by simp; omega), one_mul]
    · intro i _ hi
      rw [if_neg (fun h' => hi (Fin.ext (by simp; omega))), zero_mul]
    · exact fun h => absurd (Finset.mem_univ _) h
  · refine Finset.sum_eq_zero fun i _ => ?_
    rw [if_neg (by omega), zero_mul]

theorem svTail_apply (vh : Matrix (Fin k) (Fin k) ℂ) (n : ℕ) (x : Fin k → ℂ) (i : Fin (k - n)) :
    ((svTail vh n)ᴴ *ᵥ x) i = (vh *ᵥ x) ⟨n + i, by have := i.isLt; omega⟩ := by
  simp only [svTail, mulVec, dotProduct, conjTranspose_apply, star_star]

theorem svTail_orth (vh : Matrix (Fin k) (Fin k) ℂ) (hv : vh * vhᴴ = 1) (n : ℕ) : (svTail vh n)ᴴ * svTail vh n = 1 := by
  ext i j
  have := congrFun (congrFun hv ⟨n + i, by have := i.isLt; omega⟩) ⟨n + j, by have := j.isLt; omega⟩
  rw [Matrix.mul_apply]
  rw [Matrix.mul_apply, Matrix.one_apply] at this
  simp only [svTail, conjTranspose_apply, star_star] at this ⊢
  rw [this, Matrix.one_apply]
  simp [Fin.ext_iff]

/-! ## The properties -/

/-- `smax` is the largest stretch of the matrix (its spectral norm): it bounds the stretch of all vectors and one vector of length one attains it. -/
def SpecNorm (A : Matrix (Fin m) (Fin k) ℂ) (smax : ℝ) : Prop :=
  0 ≤ smax ∧ (∀ x, vecSq (A *ᵥ x) ≤ smax ^ 2 * vecSq x) ∧ ∃ x, vecSq x = 1 ∧ vecSq (A *ᵥ x) = smax ^ 2

theorem SpecNorm.unique {A : Matrix (Fin m) (Fin k) ℂ} {a b : ℝ} (ha : SpecNorm A a) (hb : SpecNorm A b) : a = b := by
  obtain ⟨a0, a1, x, hx, hxa⟩ := ha
  obtain ⟨b0, b1, y, hy, hyb⟩ := hb
  have h1 := b1 x
  have h2 := a1 y
  rw [hxa, hx, mul_one] at h1
  rw [hyb, hy, mul_one] at h2
  exact le_antisymm (by nlinarith) (by nlinarith)

/-- The largest stretch is the first singular value. -/
theorem specNorm_first {A : Matrix (Fin m) (Fin k) ℂ} {d : FullSvd m k} (hs : d.Ok A) (h0 : 0 < min m k) : SpecNorm A (d.s ⟨0, h0⟩) := by
  refine ⟨hs.nonneg _, fun x => ?_, ?_⟩
  · rw [vecSq_apply hs, ← vecSq_isometry (v_unit' hs) x, vecSq, Finset.mul_sum]
    refine Finset.sum_le_sum fun j _ => ?_
    split
    · rename_i hj
      have : d.s ⟨j, hj⟩ ≤ d.s ⟨0, h0⟩ := hs.desc (Fin.mk_le_mk.2 (Nat.zero_le _))
      have := hs.nonneg ⟨j, hj⟩
      gcongr
    · positivity
  · refine ⟨d.vhᴴ *ᵥ Pi.single ⟨0, by omega⟩ 1, ?_, ?_⟩
    · rw [vecSq_isometry (by rw [conjTranspose_conjTranspose]; exact hs.v_unit), vecSq, Finset.sum_eq_single ⟨0, by omega⟩]
      · rw [Pi.single_eq_same, norm_one, one_pow]
      · intro j _ hj
        rw [Pi.single_eq_of_ne hj, norm_zero, zero_pow two_ne_zero]
      · exact fun h => absurd (Finset.mem_univ _) h
    · rw [vecSq_apply hs, mulVec_mulVec, hs.v_unit, one_mulVec, Finset.sum_eq_single ⟨0, by omega⟩]
      · rw [dif_pos h0, Pi.single_eq_same, norm_one, one_pow, mul_one]
      · intro j _ hj
        rw [Pi.single_eq_of_ne hj, norm_zero, zero_pow two_ne_zero]
        split
        · rw [mul_zero]
        · rfl
      · exact fun h => absurd (Finset.mem_univ _) h

/-- What `nullspace` and `rank` return. -/
theorem svdNullspace_some {svd : SvdFn} {A : Matrix (Fin m) (Fin k) ℂ} (hs : (svd m k A).Ok A) {atol rtol : ℝ}
    {ns : (n : ℕ) × Matrix (Fin k) (Fin n) ℂ} (h : svdNullspace svd A atol rtol = some ns) {smax : ℝ} (hm : SpecNorm A smax) :
    ∃ n, ns = ⟨k - n, svTail (svd m k A).vh n⟩ ∧ svdRank svd A atol rtol = some n ∧ n ≤ min m k ∧
      ∀ i, max atol (rtol * smax) ≤ (svd m k A).s i ↔ i.val < n := by
  unfold svdNullspace at h
  obtain ⟨tol, h1, h2⟩ := Option.map_eq_some_iff.1 h
  have h3 : tol = max atol (rtol * smax) := by
    unfold svTol at h1
    split at h1
    · rename_i h0
      rw [hm.unique (specNorm_first hs h0)]
      cases h1
      rfl
    · cases h1
  refine ⟨_, h2.symm, ?_, nsCount_le _ _, fun i => ?_⟩
  · rw [svdRank, h1]
    rfl
  · rw [← h3]
    exact nsCount_iff hs.desc tol i

/-- **C74**, `nullspace(A, atol, rtol)`: the columns are orthonormal, `A` shrinks every combination of them by at least the tolerance,
and it does not shrink what is orthogonal to them by more than that.  The tolerance is the larger one of `atol` and `rtol` times the largest
stretch of `A`. -/
theorem C74_nullspace (svd : SvdFn) (A : Matrix (Fin m) (Fin k) ℂ) (hs : (svd m k A).Ok A) (atol rtol smax : ℝ) (h0 : 0 ≤ atol)
    (hm : SpecNorm A smax) (ns : (n : ℕ) × Matrix (Fin k) (Fin n) ℂ) (h : svdNullspace svd A atol rtol = some ns) :
    ns.2ᴴ * ns.2 = 1 ∧ (∀ y, vecSq (A *ᵥ (ns.2 *ᵥ y)) ≤ max atol (rtol * smax) ^ 2 * vecSq y) ∧
      (∀ y, 0 < max atol (rtol * smax) → y ≠ 0 → vecSq (A *ᵥ (ns.2 *ᵥ y)) < max atol (rtol * smax) ^ 2 * vecSq y) ∧
      ∀ x, ns.2ᴴ *ᵥ x = 0 → max atol (rtol * smax) ^ 2 * vecSq x ≤ vecSq (A *ᵥ x) := by
  obtain ⟨n, rfl, -, hle, hcount⟩ := svdNullspace_some hs h hm
  have ht : 0 ≤ max atol (rtol * smax) := h0.trans (le_max_left _ _)
  generalize max atol (rtol * smax) = tol at *
  have term : ∀ (y : Fin (k - n) → ℂ) (j : Fin k), (if hj : j.val < min m k then ((svd m k A).s ⟨j, hj⟩) ^ 2
      * ‖((svd m k A).vh *ᵥ (svTail (svd m k A).vh n *ᵥ y)) j‖ ^ 2 else 0)
        ≤ tol ^ 2 * ‖((svd m k A).vh *ᵥ (svTail (svd m k A).vh n *ᵥ y)) j‖ ^ 2 := by
    intro y j
    split
    · rename_i hj
      rw [coords_ns _ hs.v_unit n]
      split
      · rename_i hj'
        have hlt : ¬ tol ≤ (svd m k A).s ⟨j, hj⟩ := by rw [hcount]; simpa using hj'
        have := hs.nonneg ⟨j, hj⟩
        have := (not_le.1 hlt).le
        gcongr
      · simp
    · positivity
  have size : ∀ y, vecSq y = ∑ j, ‖((svd m k A).vh *ᵥ (svTail (svd m k A).vh n *ᵥ y)) j‖ ^ 2 := fun y => by
    rw [← vecSq_isometry (svTail_orth _ hs.v_unit n) y, ← vecSq_isometry (v_unit' hs) (svTail _ n *ᵥ y)]
    rfl
  refine ⟨svTail_orth _ hs.v_unit n, fun y => ?_, fun y hpos hy => ?_, fun x hx => ?_⟩
  · rw [vecSq_apply hs, size, Finset.mul_sum]
    exact Finset.sum_le_sum fun j _ => term y j
  · rw [vecSq_apply hs, size, Finset.mul_sum]
    refine Finset.sum_lt_sum (fun j _ => term y j) ?_
    obtain ⟨i, hi⟩ : ∃ i, y i ≠ 0 := by
      by_contra hc
      push Not at hc
      exact hy (funext hc)
    have hi' := i.isLt
    simp only at hi'
    refine ⟨⟨n + i, by omega⟩, Finset.mem_univ _, ?_⟩
    have hw : ((svd m k A).vh *ᵥ (svTail (svd m k A).vh n *ᵥ y)) ⟨n + i, by omega⟩ = y i := by
      rw [coords_ns _ hs.v_unit n, dif_pos (by simp)]
      congr 1
      ext
      simp
    have hyi : 0 < ‖y i‖ ^ 2 := by have := norm_pos_iff.2 hi; positivity
    split
    · rename_i hj
      have hlt : ¬ tol ≤ (svd m k A).s ⟨n + i, hj⟩ := by rw [hcount]; simp
      have := hs.nonneg ⟨n + i, hj⟩
      have := not_le.1 hlt
      rw [hw]
      gcongr
    · rw [hw]
      positivity
  · rw [vecSq_apply hs, ← vecSq_isometry (v_unit' hs) x, vecSq, Finset.mul_sum]
    refine Finset.sum_le_sum fun j _ => ?_
    by_cases hj : j.val < n
    · have hm : j.val < min m k := by omega
      rw [dif_pos hm]
      have : tol ≤ (svd m k A).s ⟨j, hm⟩ := (hcount _).2 hj
      gcongr
    · have : ((svd m k A).vh *ᵥ x) j = 0 := by
        have := congrFun hx ⟨j - n, by have := j.isLt; simp only; omega⟩
        rw [svTail_apply] at this
        rw [Pi.zero_apply] at this
        rw [← this]
        congr 1
        ext
        simp
        omega
      rw [this, norm_zero, zero_pow two_ne_zero, mul_zero]
      split
      · simp
      · exact le_rfl

/-- With a positive tolerance the coordinates of a vector in the null space vanish for the counted values. -/
theorem coords_ker {A : Matrix (Fin m) (Fin k) ℂ} {d : FullSvd m k} (hs : d.Ok A) {x : Fin k → ℂ} (hx : A *ᵥ x = 0) (j : Fin k)
    (hj : j.val < min m k) (hp : d.s ⟨j, hj⟩ ≠ 0) : (d.vh *ᵥ x) j = 0 := by
  have h0 := vecSq_apply hs x
  rw [hx] at h0
  have h1 : vecSq (0 : Fin m → ℂ) = 0 := by simp [vecSq]
  rw [h1] at h0
  have h2 := (Finset.sum_eq_zero_iff_of_nonneg (fun i _ => by split <;> positivity)).1 h0.symm j (Finset.mem_univ _)
  rw [dif_pos hj] at h2
  have := (mul_eq_zero.1 h2).resolve_left (pow_ne_zero 2 hp)
  simpa using this

/-- **C74**: with a positive tolerance every vector in the null space is a combination of the columns, and `rank(A)`, the number of the
remaining columns, is at most the rank.  If `A` does not shrink anything orthogonal to its null space by more than the tolerance, the columns span exactly the
null space and `rank(A)` is the rank. -/
theorem C74_exact (svd : SvdFn) (A : Matrix (Fin m) (Fin k) ℂ) (hs : (svd m k A).Ok A) (atol rtol smax : ℝ) (hm : SpecNorm A smax)
    (h0 : 0 < max atol (rtol * smax)) (ns : (n : ℕ) × Matrix (Fin k) (Fin n) ℂ) (h : svdNullspace svd A atol rtol = some ns) :
    (∀ x, A *ᵥ x = 0 → x = ns.2 *ᵥ (ns.2ᴴ *ᵥ x)) ∧ (∃ r, svdRank svd A atol rtol = some r ∧ r + ns.1 = k ∧ r ≤ A.rank) ∧
      ((∀ x, (∀ z, A *ᵥ z = 0 → star z ⬝ᵥ x = 0) → max atol (rtol * smax) ^ 2 * vecSq x ≤ vecSq (A *ᵥ x)) →
        A * ns.2 = 0 ∧ svdRank svd A atol rtol = some A.rank) := by
  obtain ⟨n, rfl, hr, hle, hcount⟩ := svdNullspace_some hs h hm
  generalize max atol (rtol * smax) = tol at *
  have hk : n ≤ k := hle.trans (min_le_right _ _)
  have ker : ∀ x, A *ᵥ x = 0 → x = svTail (svd m k A).vh n *ᵥ ((svTail (svd m k A).vh n)ᴴ *ᵥ x) := by
    intro x hx
    have inj : Function.Injective fun v => (svd m k A).vh *ᵥ v := fun a b hab => by
      have := congrArg (fun v => (svd m k A).vhᴴ *ᵥ v) hab
      simpa [mulVec_mulVec, v_unit' hs] using this
    apply inj
    funext j
    beta_reduce
    rw [coords_ns _ hs.v_unit n]
    split
    · rw [svTail_apply]
      congr 1
      ext
      simp
      omega
    · rename_i hj
      have hm : j.val < min m k := by omega
      exact coords_ker hs hx j hm (h0.trans_le ((hcount _).2 (by simpa using hj))).ne'
  have inj : Function.Injective (svTail (svd m k A).vh n).mulVecLin := fun a b hab => by
    have := congrArg (fun v => (svTail (svd m k A).vh n)ᴴ *ᵥ v) hab
    simpa [mulVec_mulVec, svTail_orth _ hs.v_unit n] using this
  have hker : A.mulVecLin.ker ≤ (svTail (svd m k A).vh n).mulVecLin.range := fun x hx => by
    rw [LinearMap.mem_ker, mulVecLin_apply] at hx
    exact ⟨_, (ker x hx).symm⟩
  have hdim : Module.finrank ℂ (svTail (svd m k A).vh n).mulVecLin.range = k - n := by
    rw [LinearMap.finrank_range_of_inj inj]
    simp
  have hrn : A.rank + Module.finrank ℂ A.mulVecLin.ker = k := by
    have := A.mulVecLin.finrank_range_add_finrank_ker
    simpa [Matrix.rank] using this
  refine ⟨ker, ⟨n, hr, ?_, ?_⟩, fun gap => ?_⟩
  · simp only
    omega
  · have := Submodule.finrank_mono hker
    omega
  · have h1 : A * svTail (svd m k A).vh n = 0 := by
      ext a i
      have hi := i.isLt
      have hco : ∀ j : Fin k, ((svd m k A).vh *ᵥ (svTail (svd m k A).vh n *ᵥ Pi.single i 1)) j = if j.val = n + i then 1 else 0 := by
        intro j
        rw [coords_ns _ hs.v_unit n]
        by_cases hj : j.val = n + i
        · rw [dif_pos (by omega), if_pos hj]
          have : (⟨j - n, by have := j.isLt; omega⟩ : Fin (k - n)) = i := by ext; simp; omega
          rw [this, Pi.single_eq_same]
        · rw [if_neg hj]
          split
          · rw [Pi.single_eq_of_ne]
            intro hc
            have := congrArg Fin.val hc
            simp at this
            omega
          · rfl
      have hval : vecSq (A *ᵥ (svTail (svd m k A).vh n *ᵥ Pi.single i 1))
          = if hj : n + i.val < min m k then (svd m k A).s ⟨n + i, hj⟩ ^ 2 else 0 := by
        rw [vecSq_apply hs, Finset.sum_eq_single ⟨n + i, by omega⟩]
        · simp only [hco, if_true, norm_one, one_pow, mul_one]
        · intro j _ hj
          have : ¬ j.val = n + i := fun hc => hj (Fin.ext hc)
          simp only [hco, if_neg this, norm_zero, zero_pow two_ne_zero, mul_zero, dite_eq_ite, ite_self]
        · exact fun h => absurd (Finset.mem_univ _) h
      have hcol : vecSq (A *ᵥ (svTail (svd m k A).vh n *ᵥ Pi.single i 1)) ≤ 0 := by
        rw [hval]
        split
        · rename_i hj
          by_contra hne
          have hs0 : (svd m k A).s ⟨n + i, hj⟩ ≠ 0 := fun h0 => hne (by rw [h0]; norm_num)
          have hlt : (svd m k A).s ⟨n + i, hj⟩ < tol := by
            rw [← not_le, hcount]; simp
          have hg := gap (svTail (svd m k A).vh n *ᵥ Pi.single i 1) fun z hz => by
            have hz' := coords_ker hs hz ⟨n + i, by omega⟩ hj hs0
            have : star z ⬝ᵥ (svTail (svd m k A).vh n *ᵥ Pi.single i 1)
                = star ((svd m k A).vh *ᵥ z) ⬝ᵥ ((svd m k A).vh *ᵥ (svTail (svd m k A).vh n *ᵥ Pi.single i 1)) := by
              rw [star_mulVec, dotProduct_mulVec _ (svd m k A).vh, vecMul_vecMul, v_unit' hs, vecMul_one]
            rw [this, dotProduct]
            refine Finset.sum_eq_zero fun j _ => ?_
            rw [hco, Pi.star_apply]
            by_cases hj' : j.val = n + i
            · have : j = ⟨n + i, by omega⟩ := Fin.ext hj'
              rw [this, hz', star_zero, zero_mul]
            · rw [if_neg hj', mul_zero]
          have h1 : vecSq (svTail (svd m k A).vh n *ᵥ Pi.single i 1) = 1 := by
            rw [vecSq_isometry (svTail_orth _ hs.v_unit n), vecSq, Finset.sum_eq_single i]
            · rw [Pi.single_eq_same, norm_one, one_pow]
            · intro j _ hj
              rw [Pi.single_eq_of_ne hj, norm_zero, zero_pow two_ne_zero]
            · exact fun h => absurd (Finset.mem_univ _) h
          rw [h1, hval, dif_pos hj, mul_one] at hg
          have := hs.nonneg ⟨n + i, hj⟩
          nlinarith
        · exact le_rfl
      have := congrFun (vecSq_eq_zero hcol) a
      rw [mulVec_mulVec, mulVec_single_one] at this
      exact this
    refine ⟨h1, ?_⟩
    have : A.mulVecLin.ker = (svTail (svd m k A).vh n).mulVecLin.range := by
      refine le_antisymm hker ?_
      rintro _ ⟨y, rfl⟩
      rw [LinearMap.mem_ker, mulVecLin_apply, mulVecLin_apply, mulVec_mulVec, h1, zero_mulVec]
    rw [this, hdim] at hrn
    rw [hr]
    congr 1
    omega

/-- **C74**: an empty array raises in both. -/
theorem C74_empty (svd : SvdFn) (A : Matrix (Fin m) (Fin k) ℂ) (atol rtol : ℝ) :
    (svdNullspace svd A atol rtol = none ↔ m = 0 ∨ k = 0) ∧ (svdRank svd A atol rtol = none ↔ m = 0 ∨ k = 0) := by
  have : svTol (svd m k A).s atol rtol = none ↔ m = 0 ∨ k = 0 := by
    unfold svTol
    split
    · simp; omega
    · simp; omega
  rw [svdNullspace, svdRank, Option.map_eq_none_iff, Option.map_eq_none_iff]
  exact ⟨this, this⟩

/-- A routine that decomposes all matrices. -/
noncomputable def someSvdFn : SvdFn := fun _ _ A => let f := Classical.choice (exists_svd A); ⟨f.U, f.sv, f.Vh⟩

theorem someSvdFn_ok (A : Matrix (Fin m) (Fin k) ℂ) : (someSvdFn m k A).Ok A := by
  generalize hf : Classical.choice (exists_svd A) = f
  have h : someSvdFn m k A = ⟨f.U, f.sv, f.Vh⟩ := by rw [someSvdFn]; simp only [hf]
  rw [h]
  exact ⟨f.unitU, f.unitV, f.nonneg, fun i j => f.desc i j, svd_svMat f⟩

/-- The hypotheses of **C74** are met by a routine that decomposes all matrices and the projection on the first of two coordinates: a
tolerance of one half is below its only value that is not zero. -/
example : ∃ (svd : SvdFn) (A : Matrix (Fin 2) (Fin 2) ℂ) (ns : (n : ℕ) × Matrix (Fin 2) (Fin n) ℂ) (smax : ℝ),
    (svd 2 2 A).Ok A ∧ SpecNorm A smax ∧ (0 : ℝ) < max (1 / 2) (0 * smax) ∧ svdNullspace svd A (1 / 2) 0 = some ns ∧
      ∀ x, (∀ z, A *ᵥ z = 0 → star z ⬝ᵥ x = 0) → max (1 / 2 : ℝ) (0 * smax) ^ 2 * vecSq x ≤ vecSq (A *ᵥ x) := by
  have h0 : 0 < min 2 2 := by norm_num
  have ok := someSvdFn_ok (!![1, 0; 0, 0] : Matrix (Fin 2) (Fin 2) ℂ)
  have hns : ∃ ns, svdNullspace someSvdFn (!![1, 0; 0, 0] : Matrix (Fin 2) (Fin 2) ℂ) (1 / 2) 0 = some ns := by
    rw [← Option.ne_none_iff_exists', Ne, (C74_empty _ _ _ _).1]
    norm_num
  obtain ⟨ns, hns⟩ := hns
  refine ⟨someSvdFn, _, ns, _, ok, specNorm_first ok h0, by norm_num, hns, fun x hx => ?_⟩
  have h1 : x 1 = 0 := by
    have := hx ![0, 1] (by ext i; fin_cases i <;> simp [mulVec, dotProduct])
    simpa [dotProduct, Fin.sum_univ_two] using this
  have e : max (1 / 2 : ℝ) (0 * (someSvdFn 2 2 (!![1, 0; 0, 0] : Matrix (Fin 2) (Fin 2) ℂ)).s ⟨0, h0⟩) = 1 / 2 := by
    rw [zero_mul]; norm_num
  rw [e]
  simp only [vecSq, Fin.sum_univ_two, h1, mulVec, dotProduct]
  simp
  nlinarith [sq_nonneg ‖x 0‖]

end EvoMPS
