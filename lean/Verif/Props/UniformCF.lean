import Verif.UniformCFRank
import Verif.ContractsChol
import Verif.ContractsSvd

/-!
# C45: canonical forms of the uniform chain
-/

namespace EvoMPS

open Matrix Uni
open scoped ComplexOrder

variable {q D : ℕ}

/-- **C45** `restore_RCF`.  Let the right environments of the cuts `ks` have full rank.  Whatever the
library returns for the factorisations, the new tensors are `gi[k-1] A[k] g[k]` with invertible
`g[k]` (the identity at cuts not in `ks`), block traces, transfer maps up to similarity and all expectation
values are those of the old state, the new `l`, `r` are again environments of the new tensors, `r` is the identity and
`l` a diagonal matrix of nonnegative numbers with sum one at the cuts in `ks`, and the gauge matrices returned are
the ones used. -/
theorem C45_RCF (P : HermLib) {tol : ℝ} (h0 : 0 ≤ tol) (diagL : Bool) (ks : List ℕ) (S : UMPS ℂ q D)
    (hL : 0 < S.L) (hE : ChainEnv S.L S.A S.l S.r) (hnd : ks.Nodup)
    (hks : ∀ k ∈ ks, k < S.L ∧ AboveTol tol (S.r k) ∧ (S.l k).PosSemidef) :
    ∃ S' G Gi g gi, Uni.restoreRCF P tol diagL ks S = some (S', G, Gi) ∧ S'.L = S.L
      ∧ GaugeBy S.L g gi S.A S'.A
      ∧ SameChain S.L g gi S.A S.l S.r S'.A S'.l S'.r
      ∧ ChainEnv S.L S'.A S'.l S'.r
      ∧ (∀ k ∈ ks, S'.r k = 1 ∧ G k = some (g k) ∧ Gi k = some (gi k) ∧ (diagL = true →
          ∃ e : Fin D → ℝ, (∀ i, 0 ≤ e i) ∧ ∑ i, e i = 1 ∧ S'.l k = diagonal fun i => (e i : ℂ)))
      ∧ ∀ k, k ∉ ks → S'.l k = S.l k ∧ S'.r k = S.r k ∧ g k = 1 := by
  unfold Uni.restoreRCF
  rw [foldl_guard (rcfCut P tol diagL) S.L ks fun k hk => (hks k hk).1]
  obtain ⟨⟨S', Gs, Gis⟩, g, gi, h1, h2, _, _, _, h3, h4, h5, h6⟩ := cuts_fold
    (fun s : UMPS ℂ q D × GList D × GList D => s.1) (rcfCut P tol diagL) True
    (fun _ l r => r = 1 ∧ (diagL = true → ∃ e : Fin D → ℝ, (∀ i, 0 ≤ e i) ∧ l = diagonal fun i => (e i : ℂ)))
    (fun s k g gi => s.2.1 k = some g ∧ s.2.2 k = some gi)
    (S, fun _ => none, fun _ => none) ks (by
      rintro ⟨s, Gs, Gis⟩ k hk hsL hsl hsr
      simp only at hsL hsl hsr
      obtain ⟨_, hr, hl⟩ := hks k hk
      obtain ⟨G, Gi, lk, i1, i2, i3, i4, i5⟩ := rcfCut_spec P h0 diagL s Gs Gis k (hsr ▸ hr) (hsl ▸ hl)
      refine ⟨_, G, Gi, lk, 1, i1, rfl, i2, fun _ => ⟨i3, i4⟩, ⟨rfl, i5⟩, ⟨by simp, by simp⟩, ?_⟩
      intro k' hk' g gi hr
      simp only [Function.update_of_ne hk']
      exact hr) hnd (fun k hk => (hks k hk).1)
  simp only at h1 h2 h3 h4 h5 h6
  have hE' := (h4 trivial).env hL hE
  refine ⟨S', Gs, Gis, g, gi, h1, h2, h3, (h4 trivial).same hL, hE', ?_, fun k hk => ?_⟩
  · intro k hk
    obtain ⟨⟨a1, a2⟩, a3, a4⟩ := h5 k hk
    refine ⟨a1, a3, a4, fun hd => ?_⟩
    obtain ⟨e, b1, b2⟩ := a2 hd
    refine ⟨e, b1, ?_, b2⟩
    have := hE'.norm k (hks k hk).1
    rw [a1, b2, Matrix.mul_one, Matrix.diagonal_conjTranspose, Matrix.trace_diagonal] at this
    simp only [Pi.star_apply, Complex.star_def, Complex.conj_ofReal] at this
    exact_mod_cast this
  · obtain ⟨a1, a2, a3, _⟩ := h6 k hk
    exact ⟨a1, a2, a3⟩

/-- **C45** `restore_SCF`.  Let all environments have full rank.  The new tensors are `gi[k-1] A[k] g[k]` with
invertible `g[k]`, the state is unchanged, and at every cut `l` and `r` are the same diagonal matrix
of descending positive numbers whose squares sum to one. -/
theorem C45_SCF (P : HermLib) (svd : Svd) (hsvd : ∀ Z : Matrix (Fin D) (Fin D) ℂ, (svd Z).isSome)
    {tol : ℝ} (h0 : 0 ≤ tol) (forceEvd : Bool) (S : UMPS ℂ q D) (hL : 0 < S.L) (hE : ChainEnv S.L S.A S.l S.r)
    (hfull : ∀ k < S.L, AboveTol tol (S.l k) ∧ AboveTol tol (S.r k)) :
    ∃ S' g gi, restoreSCF P svd tol forceEvd S = some S' ∧ S'.L = S.L
      ∧ GaugeBy S.L g gi S.A S'.A
      ∧ SameChain S.L g gi S.A S.l S.r S'.A S'.l S'.r
      ∧ ChainEnv S.L S'.A S'.l S'.r
      ∧ ∀ k < S.L, ∃ e : Fin D → ℝ, S'.l k = (diagonal fun i => (e i : ℂ)) ∧ S'.r k = S'.l k
          ∧ (∀ i, 0 < e i) ∧ (∀ i j, i ≤ j → e j ≤ e i) ∧ ∑ i, e i ^ 2 = 1 := by
  unfold restoreSCF
  obtain ⟨S', g, gi, h1, h2, _, _, _, h3, h4, h5, h6⟩ := cuts_fold
    (fun s : UMPS ℂ q D => s) (scfCut P svd tol forceEvd) True
    (fun _ l r => ∃ e : Fin D → ℝ, l = (diagonal fun i => (e i : ℂ)) ∧ r = l ∧ (∀ i, 0 < e i)
      ∧ ∀ i j, i ≤ j → e j ≤ e i)
    (fun _ _ _ _ => True) S (List.range S.L) (by
      intro s k hk hsL hsl hsr
      obtain ⟨hl, hr⟩ := hfull k (List.mem_range.mp hk)
      obtain ⟨G, Gi, e, i1, i2, i3, i4, i5, i6⟩ := scfCut_spec P svd hsvd h0 forceEvd s k (hsl ▸ hl) (hsr ▸ hr)
      exact ⟨_, G, Gi, _, _, i1, rfl, i2, fun _ => ⟨i3, i4⟩,
        ⟨e, rfl, rfl, fun i => lt_of_le_of_lt h0 (i5 i), i6⟩, trivial, fun _ _ _ _ _ => trivial⟩)
    List.nodup_range (fun k hk => List.mem_range.mp hk)
  have hE' := (h4 trivial).env hL hE
  refine ⟨S', g, gi, h1, h2, h3, (h4 trivial).same hL, hE', fun k hk => ?_⟩
  obtain ⟨⟨e, a1, a2, a3, a4⟩, _⟩ := h5 k (List.mem_range.mpr hk)
  refine ⟨e, a1, a2, a3, a4, ?_⟩
  have := hE'.norm k hk
  rw [a2, a1, Matrix.diagonal_conjTranspose, Matrix.diagonal_mul_diagonal, Matrix.trace_diagonal] at this
  simp only [Pi.star_apply, Complex.star_def, Complex.conj_ofReal] at this
  simp only [pow_two]
  exact_mod_cast this

/-- **C45** `restore_LCF`, partial.  With `diag_r=False` the state is unchanged and `l` becomes the identity, as for
`restore_RCF`.  With `diag_r=True` only the tensors are shown to be gauge equivalent: the new `l` and `r`
are in general not their environments, see `C45_LCF_violated`. -/
theorem C45_LCF_partial (P : HermLib) {tol : ℝ} (h0 : 0 ≤ tol) (diagR : Bool) (ks : List ℕ) (S : UMPS ℂ q D)
    (hL : 0 < S.L) (hE : ChainEnv S.L S.A S.l S.r) (hnd : ks.Nodup)
    (hks : ∀ k ∈ ks, k < S.L ∧ AboveTol tol (S.l k) ∧ (S.r k).PosSemidef) :
    ∃ S' G Gi g gi, Uni.restoreLCF P tol diagR ks S = some (S', G, Gi) ∧ S'.L = S.L
      ∧ GaugeBy S.L g gi S.A S'.A
      ∧ (∀ k ∈ ks, S'.l k = 1 ∧ G k = some (g k) ∧ Gi k = some (gi k))
      ∧ (∀ k, k ∉ ks → S'.l k = S.l k ∧ S'.r k = S.r k ∧ g k = 1)
      ∧ (∀ k m (s : Fin (m * S.L) → Fin q),
          (chainProd S.L S'.A k (m * S.L) s).trace = (chainProd S.L S.A k (m * S.L) s).trace)
      ∧ (diagR = false → SameChain S.L g gi S.A S.l S.r S'.A S'.l S'.r ∧ ChainEnv S.L S'.A S'.l S'.r) := by
  unfold Uni.restoreLCF
  rw [foldl_guard (lcfCut P tol diagR) S.L ks fun k hk => (hks k hk).1]
  obtain ⟨⟨S', Gs, Gis⟩, g, gi, h1, h2, _, _, _, h3, h4, h5, h6⟩ := cuts_fold
    (fun s : UMPS ℂ q D × GList D × GList D => s.1) (lcfCut P tol diagR) (diagR = false)
    (fun _ l _ => l = 1)
    (fun s k g gi => s.2.1 k = some g ∧ s.2.2 k = some gi)
    (S, fun _ => none, fun _ => none) ks (by
      rintro ⟨s, Gs, Gis⟩ k hk hsL hsl hsr
      simp only at hsL hsl hsr
      obtain ⟨_, hl, hr⟩ := hks k hk
      obtain ⟨G, Gi, rk, i1, i2, i3⟩ := lcfCut_spec P h0 diagR s Gs Gis k (hsl ▸ hl) (hsr ▸ hr)
      refine ⟨_, G, Gi, 1, rk, i1, rfl, i2, fun hd => i3 hd, rfl, ⟨by simp, by simp⟩, ?_⟩
      intro k' hk' g gi hr
      simp only [Function.update_of_ne hk']
      exact hr) hnd (fun k hk => (hks k hk).1)
  simp only at h1 h2 h3 h4 h5 h6
  refine ⟨S', Gs, Gis, g, gi, h1, h2, h3, fun k hk => ?_, fun k hk => ?_, h3.trace hL,
    fun hd => ⟨(h4 hd).same hL, (h4 hd).env hL hE⟩⟩
  · exact ⟨(h5 k hk).1, (h5 k hk).2.1, (h5 k hk).2.2⟩
  · obtain ⟨a1, a2, a3, _⟩ := h6 k hk
    exact ⟨a1, a2, a3⟩

/-- **C45** `restore_RCF` for right environments of any rank.  Let all cuts be treated, let the left environments be
positive and let the zero eigenvalues of the right environments be the ones below the tolerance.  Then the new
`l` and `r` are environments of the new tensors and all expectation values are those of the old state; `r` keeps its
rank and becomes a diagonal matrix of zeros followed by ones, and `l` is diagonal.  The traces of the products are in
general not preserved, see `C45_RCF_violated`. -/
theorem C45_RCF_rank (P : HermLib) {tol : ℝ} (h0 : 0 ≤ tol) (diagL : Bool) (S : UMPS ℂ q D)
    (hL : 0 < S.L) (hE : ChainEnv S.L S.A S.l S.r)
    (h : ∀ k < S.L, (S.l k).PosDef ∧ (S.r k).PosSemidef ∧ ZeroOrAbove tol (S.r k)) :
    ∃ S' G Gi, Uni.restoreRCF P tol diagL (List.range S.L) S = some (S', G, Gi) ∧ S'.L = S.L
      ∧ ChainEnv S.L S'.A S'.l S'.r
      ∧ (∀ k n (O : (Fin n → Fin q) → (Fin n → Fin q) → ℂ),
          chainExpect S.L S'.A S'.l S'.r k n O = chainExpect S.L S.A S.l S.r k n O)
      ∧ ∀ k < S.L, (∃ m, S'.r k = diagonal fun i : Fin D => if D ≤ i + m then 1 else 0)
          ∧ (S'.r k).rank = (S.r k).rank
          ∧ (diagL = true → ∃ e : Fin D → ℝ, (∀ i, 0 ≤ e i) ∧ S'.l k = diagonal fun i => (e i : ℂ)) := by
  unfold Uni.restoreRCF
  rw [foldl_guard (rcfCut P tol diagL) S.L (List.range S.L) fun k hk => List.mem_range.mp hk]
  have hne : ∀ k < S.L, S.r k ≠ 0 := by
    intro k hk h1
    have := hE.norm k hk
    rw [h1, Matrix.mul_zero, Matrix.trace_zero] at this
    exact zero_ne_one this
  obtain ⟨⟨S', Gs, Gis⟩, g, gi, h1, h2, h3, h4, _⟩ := cuts_rank
    (fun s : UMPS ℂ q D × GList D × GList D => s.1) (rcfCut P tol diagL)
    (fun _ l r => (∃ m, 0 < m ∧ r = lastEye D m)
      ∧ (diagL = true → ∃ e : Fin D → ℝ, (∀ i, 0 ≤ e i) ∧ l = diagonal fun i => (e i : ℂ)))
    (S, fun _ => none, fun _ => none) (List.range S.L) (by
      rintro ⟨s, Gs, Gis⟩ k hk hsL hsl hsr
      simp only at hsL hsl hsr
      obtain ⟨hl, hr, hg⟩ := h k (List.mem_range.mp hk)
      obtain ⟨G, Gi, lk, rk, i1, i2, i3, i4⟩ := rcfCut_rank P h0 diagL s Gs Gis k (hsr ▸ hr)
        (hsr ▸ hne k (List.mem_range.mp hk)) (hsr ▸ hg) (hsl ▸ hl)
      exact ⟨_, G, Gi, lk, rk, i1, rfl, i2, i3, i4⟩)
    List.nodup_range (fun k hk => List.mem_range.mp hk)
  simp only at h1 h2 h3 h4
  have hS : SupportRel S.L g gi S.A S.l S.r S'.A S'.l S'.r :=
    ⟨h3, fun k hk => (h4 k (List.mem_range.mpr hk)).1, fun k hk => (h k hk).2.1⟩
  refine ⟨S', Gs, Gis, h1, h2, hS.env hL hE, hS.expect hL hE, fun k hk => ?_⟩
  obtain ⟨hc, ⟨m, _, hm⟩, hd⟩ := h4 k (List.mem_range.mpr hk)
  refine ⟨⟨m, hm⟩, le_antisymm ?_ ?_, hd⟩
  · rw [hc.right]
    exact (Matrix.rank_mul_le_left _ _).trans (Matrix.rank_mul_le_right _ _)
  · have : S.r k = g k * S'.r k * (g k)ᴴ := by
      have h5 := congrArg Matrix.conjTranspose hc.supp
      rw [Matrix.conjTranspose_mul, Matrix.conjTranspose_mul, (h k hk).2.1.isHermitian] at h5
      calc S.r k = g k * gi k * (S.r k * ((gi k)ᴴ * (g k)ᴴ)) := by rw [h5, hc.supp]
        _ = _ := by rw [hc.right]; simp only [Matrix.mul_assoc]
    rw [this]
    exact (Matrix.rank_mul_le_left _ _).trans (Matrix.rank_mul_le_right _ _)

/-! ### Cases that violate the claim -/

/-- Vectors of the demonstration state: `l = ∑ v vᴴ` and `r = ∑ u uᴴ`. -/
noncomputable def demoU : Fin 2 → Fin 2 → ℂ := ![![1/2, 1/4], ![7/10, 1/20]]
noncomputable def demoV : Fin 2 → Fin 2 → ℂ := ![![1, 0], ![0, 2]]

/-- A block of one site with `q = 4`, `D = 2` and full-rank environments. -/
noncomputable def demoLCF : UMPS ℂ 4 2 where
  L := 1
  A _ s := vecMulVec (demoU (Fin.divNat (m := 2) (n := 2) s)) (demoV (Fin.modNat (m := 2) (n := 2) s))
  AA _ _ := 0
  l _ := !![1, 0; 0, 4]
  r _ := !![74/100, 16/100; 16/100, 26/400]
  lL := 0
  rL := 0

theorem demoLCF_left (M : Matrix (Fin 2) (Fin 2) ℂ) : ∑ s, (demoLCF.A 0 s)ᴴ * M * demoLCF.A 0 s
    = (M * demoLCF.r 0).trace • demoLCF.l 0 := by
  ext i j
  fin_cases i <;> fin_cases j <;>
  simp [demoLCF, demoU, demoV, Fin.sum_univ_four, Matrix.mul_apply, Fin.sum_univ_two, vecMulVec, Fin.divNat, Fin.modNat,
    Matrix.trace, Complex.conj_ofNat] <;> ring

theorem demoLCF_right (M : Matrix (Fin 2) (Fin 2) ℂ) : ∑ s, demoLCF.A 0 s * M * (demoLCF.A 0 s)ᴴ
    = (demoLCF.l 0 * M).trace • demoLCF.r 0 := by
  ext i j
  fin_cases i <;> fin_cases j <;>
  simp [demoLCF, demoU, demoV, Fin.sum_univ_four, Matrix.mul_apply, Fin.sum_univ_two, vecMulVec, Fin.divNat, Fin.modNat,
    Matrix.trace, Matrix.vecMul, dotProduct, Complex.conj_ofNat] <;> ring

theorem demoLCF_env : ChainEnv 1 demoLCF.A demoLCF.l demoLCF.r where
  left k hk := by
    obtain rfl : k = 0 := by omega
    have := demoLCF_left (demoLCF.l 0)
    rw [show (0 + 1 - 1) % 1 = 0 from rfl, this]
    simp [demoLCF, Matrix.trace, Fin.sum_univ_two]
    norm_num
  right k hk := by
    obtain rfl : k = 0 := by omega
    have := demoLCF_right (demoLCF.r 0)
    rw [show (0 + 1 - 1) % 1 = 0 from rfl, this]
    simp [demoLCF, Matrix.trace, Fin.sum_univ_two]
    norm_num
  norm k hk := by
    simp [demoLCF, Matrix.trace, Fin.sum_univ_two, Matrix.mul_apply, Matrix.conjTranspose_apply, Complex.conj_ofNat]
    norm_num

theorem posDef_diag2 {a b : ℝ} (ha : 0 < a) (hb : 0 < b) :
    (!![(a : ℂ), 0; 0, (b : ℂ)] : Matrix (Fin 2) (Fin 2) ℂ).PosDef := by
  have : (!![(a : ℂ), 0; 0, (b : ℂ)] : Matrix (Fin 2) (Fin 2) ℂ) = diagonal ![(a : ℂ), (b : ℂ)] := by
    ext i j; fin_cases i <;> fin_cases j <;> simp
  rw [this, Matrix.posDef_diagonal_iff]
  intro i
  fin_cases i
  · simpa using ha
  · simpa using hb

theorem demoLCF_l : AboveTol (1/10) (demoLCF.l 0) := by
  have : demoLCF.l 0 - (((1/10 : ℝ) : ℂ)) • (1 : Matrix (Fin 2) (Fin 2) ℂ)
      = !![((9/10 : ℝ) : ℂ), 0; 0, ((39/10 : ℝ) : ℂ)] := by
    ext i j
    fin_cases i <;> fin_cases j <;> simp [demoLCF] <;> norm_num
  rw [AboveTol, this]
  exact posDef_diag2 (by norm_num) (by norm_num)

theorem demoLCF_r : AboveTol (1/100) (demoLCF.r 0) := by
  have : demoLCF.r 0 - (((1/100 : ℝ) : ℂ)) • (1 : Matrix (Fin 2) (Fin 2) ℂ)
      = (!![1, 0; 16/73, 1] : Matrix (Fin 2) (Fin 2) ℂ)
        * !![((73/100 : ℝ) : ℂ), 0; 0, ((55/1000 - 256/7300 : ℝ) : ℂ)] * (!![1, 0; 16/73, 1] : Matrix (Fin 2) (Fin 2) ℂ)ᴴ := by
    ext i j
    fin_cases i <;> fin_cases j <;>
      simp [demoLCF, Matrix.mul_apply, Fin.sum_univ_two, Complex.conj_ofNat] <;> norm_num
  rw [AboveTol, this]
  refine Matrix.PosDef.mul_mul_conjTranspose_same (posDef_diag2 (by norm_num) (by norm_num))
    (Matrix.vecMul_injective_of_isUnit ?_)
  rw [Matrix.isUnit_iff_isUnit_det, Matrix.det_fin_two]
  simp

/-- The Cholesky factor of `diag(1, 4)`. -/
theorem chol_demo (c : Chol) : c.fac false (demoLCF.l 0) = some !![1, 0; 0, 2] := by
  have hpd : (demoLCF.l 0).PosDef := demoLCF_l.posDef (by norm_num)
  obtain ⟨x, hx⟩ := c.ok false _ hpd
  obtain ⟨h1, h2, h3⟩ := c.upper _ x hpd hx
  rw [hx]
  congr 1
  have h10 : x 1 0 = 0 := h2 1 0 (by decide)
  have e00 := congrFun (congrFun h1 0) 0
  have e01 := congrFun (congrFun h1 0) 1
  have e11 := congrFun (congrFun h1 1) 1
  simp only [Matrix.mul_apply, Fin.sum_univ_two, Matrix.conjTranspose_apply, h10, star_zero, zero_mul, mul_zero, add_zero,
    demoLCF, Matrix.of_apply, Matrix.cons_val', Matrix.cons_val_zero, Matrix.cons_val_one, Matrix.cons_val_fin_one] at e00 e01 e11
  have p0 := h3 0
  have p1 := h3 1
  obtain ⟨r0, i0⟩ := Complex.lt_def.mp p0
  obtain ⟨r1, i1⟩ := Complex.lt_def.mp p1
  have c0 : x 0 0 = (((x 0 0).re : ℝ) : ℂ) := by apply Complex.ext <;> simp [← i0]
  have c1 : x 1 1 = (((x 1 1).re : ℝ) : ℂ) := by apply Complex.ext <;> simp [← i1]
  have d0 : (x 0 0).re = 1 := by
    rw [c0, Complex.star_def, Complex.conj_ofReal] at e00
    have : (x 0 0).re * (x 0 0).re = 1 := by exact_mod_cast e00
    simp only [Complex.zero_re] at r0
    nlinarith
  have x00 : x 0 0 = 1 := by rw [c0, d0]; simp
  have x01 : x 0 1 = 0 := by simpa [x00] using e01
  have d1 : (x 1 1).re = 2 := by
    rw [x01, mul_zero, zero_add, c1, Complex.star_def, Complex.conj_ofReal] at e11
    have : (x 1 1).re * (x 1 1).re = 4 := by exact_mod_cast e11
    simp only [Complex.zero_re] at r1
    nlinarith
  have x11 : x 1 1 = 2 := by rw [c1, d1]; simp
  ext i j
  fin_cases i <;> fin_cases j <;> simp [x00, x01, h10, x11]

/-- **C45** is violated by `restore_LCF()` (default arguments).  The state `demoLCF` has full-rank environments.  Whatever
the library returns, the `l` and `r` stored by the routine are not the environments of the new tensors
(lines 939-940 multiply the eigenvectors to the wrong side of the gauge matrices). -/
theorem C45_LCF_violated (P : HermLib) :
    (ChainEnv 1 demoLCF.A demoLCF.l demoLCF.r ∧ AboveTol (1/100) (demoLCF.l 0) ∧ AboveTol (1/100) (demoLCF.r 0)) ∧
    ∃ S' G Gi, Uni.restoreLCF P (1/100) true [0] demoLCF = some (S', G, Gi) ∧ ¬ ChainEnv 1 S'.A S'.l S'.r := by
  have hl : AboveTol (1/100) (demoLCF.l 0) := by
    have : demoLCF.l 0 - (((1/100 : ℝ) : ℂ)) • (1 : Matrix (Fin 2) (Fin 2) ℂ)
        = !![((99/100 : ℝ) : ℂ), 0; 0, ((399/100 : ℝ) : ℂ)] := by
      ext i j
      fin_cases i <;> fin_cases j <;> simp [demoLCF] <;> norm_num
    rw [AboveTol, this]
    exact posDef_diag2 (by norm_num) (by norm_num)
  refine ⟨⟨demoLCF_env, hl, demoLCF_r⟩, ?_⟩
  set x : Matrix (Fin 2) (Fin 2) ℂ := !![1, 0; 0, 2] with hx
  have hxi : x⁻¹ = !![1, 0; 0, 1/2] := by
    apply Matrix.inv_eq_right_inv
    rw [hx]
    ext i j
    fin_cases i <;> fin_cases j <;> simp
  set M : Matrix (Fin 2) (Fin 2) ℂ := x * (demoLCF.r 0 * xᴴ) with hM
  have hMv : M = !![74/100, 32/100; 32/100, 26/100] := by
    rw [hM, hx]
    ext i j
    fin_cases i <;> fin_cases j <;> simp [demoLCF, Matrix.mul_apply, Matrix.vecMul, dotProduct, Fin.sum_univ_two, Complex.conj_ofNat] <;> norm_num
  have hMh : M.IsHermitian := by
    rw [hMv]
    ext i j
    fin_cases i <;> fin_cases j <;> simp [Complex.conj_ofNat]
  set U := P.eigh.vec M with hU
  have hUU : Uᴴ * U = 1 := P.eigh.unit M hMh
  have hUU' := mul_eq_one_comm.mp hUU
  have hMU : M * U = U * diagonal (P.eigh.ev M) := P.eigh.eig M hMh
  have hrun : Uni.restoreLCF P (1/100) true [0] demoLCF = some ({ demoLCF with
      A := gaugeCut 1 0 (U * x⁻¹) (x * Uᴴ) demoLCF.A
      r := Function.update demoLCF.r 0 (diagonal (P.eigh.ev M))
      l := Function.update demoLCF.l 0 1 }, Function.update (fun _ => none) 0 (some (U * x⁻¹)),
        Function.update (fun _ => none) 0 (some (x * Uᴴ))) := by
    simp only [Uni.restoreLCF, List.foldl_cons, List.foldl_nil, Option.bind_some,
      if_pos (show 0 < demoLCF.L from Nat.one_pos), lcfCut, hermFac, chol_demo, Bool.false_eq_true, if_false, if_true,
      rankEye_full]
    rfl
  refine ⟨_, _, _, hrun, fun hC => ?_⟩
  have hleft := hC.left 0 Nat.one_pos
  simp only [gaugeCut, Function.update_self, show (0 + 1 - 1) % 1 = 0 from rfl, Matrix.mul_one] at hleft
  have hsum : ∀ s, (x * Uᴴ * demoLCF.A 0 s * (U * x⁻¹))ᴴ * (x * Uᴴ * demoLCF.A 0 s * (U * x⁻¹))
      = (U * x⁻¹)ᴴ * ((demoLCF.A 0 s)ᴴ * (U * xᴴ * x * Uᴴ) * demoLCF.A 0 s) * (U * x⁻¹) := by
    intro s
    simp only [Matrix.conjTranspose_mul, Matrix.conjTranspose_conjTranspose, Matrix.mul_assoc]
  simp only [hsum] at hleft
  rw [← Finset.sum_mul, ← Finset.mul_sum, demoLCF_left, Matrix.mul_smul, Matrix.smul_mul] at hleft
  generalize (U * xᴴ * x * Uᴴ * demoLCF.r 0).trace = c at hleft
  have hxx : x⁻¹ * x = 1 := by
    rw [hxi, hx]
    ext i j
    fin_cases i <;> fin_cases j <;> simp
  have hl4 : xᴴ * x = demoLCF.l 0 := by
    rw [hx]
    ext i j
    fin_cases i <;> fin_cases j <;> simp [demoLCF, Matrix.mul_apply, Fin.sum_univ_two, Complex.conj_ofNat] <;> norm_num
  have key : demoLCF.l 0 = c • (Uᴴ * demoLCF.l 0 * U) := by
    have h1 := congrArg (fun Z => xᴴ * Z * x) hleft
    simp only [Matrix.mul_one, Matrix.mul_smul, Matrix.smul_mul] at h1
    rw [hl4] at h1
    conv_lhs => rw [h1]
    congr 1
    have : xᴴ * ((U * x⁻¹)ᴴ * demoLCF.l 0 * (U * x⁻¹)) * x
        = (x⁻¹ * x)ᴴ * (Uᴴ * demoLCF.l 0 * U) * (x⁻¹ * x) := by
      simp only [Matrix.conjTranspose_mul, Matrix.mul_assoc]
    rw [this, hxx, Matrix.conjTranspose_one, Matrix.one_mul, Matrix.mul_one]
  have hc : c = 1 := by
    have h1 := congrArg Matrix.trace key
    rw [Matrix.trace_smul, Matrix.mul_assoc, Matrix.trace_mul_comm, Matrix.mul_assoc, hUU', Matrix.mul_one] at h1
    have h2 : (demoLCF.l 0).trace = 5 := by
      simp [demoLCF, Matrix.trace, Fin.sum_univ_two]; norm_num
    rw [h2, smul_eq_mul] at h1
    have h3 : (5 : ℂ) ≠ 0 := by norm_num
    exact (mul_right_cancel₀ h3 (by rw [one_mul]; exact h1.symm))
  rw [hc, one_smul] at key
  have comm : U * demoLCF.l 0 = demoLCF.l 0 * U := by
    conv_lhs => rw [key]
    rw [← Matrix.mul_assoc, ← Matrix.mul_assoc, hUU', Matrix.one_mul]
  have u10 : U 1 0 = 0 := by
    have := congrFun (congrFun comm 1) 0
    simp [demoLCF, Matrix.mul_apply, Fin.sum_univ_two] at this
    have h3 : (3 : ℂ) * U 1 0 = 0 := by linear_combination -this
    simpa using h3
  have u00 : U 0 0 ≠ 0 := by
    intro h
    have := congrFun (congrFun hUU 0) 0
    simp [Matrix.mul_apply, Fin.sum_univ_two, h, u10] at this
  have := congrFun (congrFun hMU 1) 0
  rw [Matrix.mul_diagonal, hMv] at this
  simp [Matrix.mul_apply, Fin.sum_univ_two, u10] at this
  exact u00 this

/-- A block of two sites carrying the tensors of `demoLCF`. -/
noncomputable def demoCF2 : UMPS ℂ 4 2 := { demoLCF with L := 2 }

theorem demoCF2_env : ChainEnv demoCF2.L demoCF2.A demoCF2.l demoCF2.r where
  left _ _ := demoLCF_env.left 0 Nat.one_pos
  right _ _ := demoLCF_env.right 0 Nat.one_pos
  norm _ _ := demoLCF_env.norm 0 Nat.one_pos

/-- The hypotheses of `C45_RCF` and `C45_LCF_partial` hold for this state and both cuts. -/
example (diagL : Bool) := C45_RCF someHermLib (tol := 1/100) (by norm_num) diagL [1, 0] demoCF2 Nat.two_pos
  demoCF2_env (by decide) (fun k hk => ⟨by
    have : k = 1 ∨ k = 0 := by simpa using hk
    show k < 2
    omega, demoLCF_r, (demoLCF_l.posDef (by norm_num)).posSemidef⟩)

example (diagR : Bool) := C45_LCF_partial someHermLib (tol := 1/100) (by norm_num) diagR [1, 0] demoCF2 Nat.two_pos
  demoCF2_env (by decide) (fun k hk => ⟨by
    have : k = 1 ∨ k = 0 := by simpa using hk
    show k < 2
    omega, (C45_LCF_violated someHermLib).1.2.1, (demoLCF_r.posDef (by norm_num)).posSemidef⟩)

/-- The hypotheses of `C45_SCF` hold for this state. -/
example (b : Bool) := C45_SCF someHermLib someSvd (fun _ => rfl) (tol := 1/100) (by norm_num) b demoCF2 Nat.two_pos
  demoCF2_env (fun _ _ => ⟨(C45_LCF_violated someHermLib).1.2.1, demoLCF_r⟩)

/-- **C45** `restore_SCF` with an environment that is not of full rank: the inverse square roots are taken of the
wrong entries (`Srti[-nonzeros:]`, line 745, while the singular values come in descending order), so that a division
by zero fills the tensors with non-finite numbers, whatever the library returns. -/
theorem C45_SCF_singular (P : HermLib) (svd : Svd) (tol : ℝ) (forceEvd : Bool) (S : UMPS ℂ q D)
    (hL : 0 < S.L) (hr : (S.r 0).PosSemidef) (hdet : (S.r 0).det = 0) :
    restoreSCF P svd tol forceEvd S = none := by
  have hcut : scfCut P svd tol forceEvd S 0 = none := by
    have hD : 0 < D := by
      rcases Nat.eq_zero_or_pos D with h | h
      · subst h
        rw [Matrix.det_fin_zero] at hdet
        exact absurd hdet one_ne_zero
      · exact h
    have hX : ∀ f, hermFac P true false forceEvd tol (S.r 0) = some f → f.x.det = 0 := by
      have hevd : ∀ f, hermFacEvd P.eigh true false tol (S.r 0) = some f → f.x.det = 0 := by
        intro f hf
        simp only [hermFacEvd, Bool.false_eq_true, if_false, if_true, Option.bind_some, Option.some.injEq] at hf
        subst hf
        have hh := hr.isHermitian
        have hev : ∃ i, P.eigh.ev (S.r 0) i = 0 := by
          have h1 := congrArg Matrix.det (P.eigh.eig (S.r 0) hh)
          rw [Matrix.det_mul, hdet, zero_mul, Matrix.det_mul, Matrix.det_diagonal] at h1
          have h2 : (P.eigh.vec (S.r 0)).det ≠ 0 := by
            intro h
            have := congrArg Matrix.det (P.eigh.unit (S.r 0) hh)
            rw [Matrix.det_mul, h, mul_zero, Matrix.det_one] at this
            exact zero_ne_one this
          obtain ⟨i, _, hi⟩ := Finset.prod_eq_zero_iff.mp ((mul_eq_zero.mp h1.symm).resolve_left h2)
          exact ⟨i, hi⟩
        obtain ⟨i, hi⟩ := hev
        have hlast : lastOnly (countAbove tol fun i => (P.eigh.ev (S.r 0) i).re)
            (fun i => csqrt (P.eigh.ev (S.r 0) i)) i = 0 := by
          rw [lastOnly]
          split
          · rw [hi, csqrt, Complex.zero_cpow (by norm_num)]
          · rfl
        rw [Matrix.det_mul, Matrix.det_diagonal, Finset.prod_eq_zero (Finset.mem_univ i) hlast, mul_zero]
      intro f hf
      cases forceEvd
      · unfold hermFac at hf
        rw [P.chol.fail true (S.r 0) hr.isHermitian (fun h =>
          (Matrix.isUnit_iff_isUnit_det _).mp h.isUnit |>.ne_zero hdet)] at hf
        exact hevd f hf
      · exact hevd f hf
    unfold scfCut
    rcases hfX : hermFac P true false forceEvd tol (S.r 0) with _ | fX
    · rfl
    rcases hfY : hermFac P false false forceEvd tol (S.l 0) with _ | fY
    · rfl
    simp only [Option.bind_some]
    rcases svd (fY.x * fX.x) with _ | f
    · rfl
    simp only [Option.bind_some]
    have hsv : ∃ i, f.sv (Fin.cast (Nat.min_self D).symm i) = 0 := by
      have h1 := congrArg Matrix.det (svd_square f)
      rw [Matrix.det_mul, hX fX hfX, mul_zero, Matrix.det_mul, Matrix.det_mul, Matrix.det_diagonal] at h1
      have hU : f.U.det ≠ 0 := by
        intro h
        have := congrArg Matrix.det f.unitU
        rw [Matrix.det_mul, h, mul_zero, Matrix.det_one] at this
        exact zero_ne_one this
      have hV : f.Vh.det ≠ 0 := by
        intro h
        have := congrArg Matrix.det f.unitV
        rw [Matrix.det_mul, h, zero_mul, Matrix.det_one] at this
        exact zero_ne_one this
      have h2 := ((mul_eq_zero.mp h1.symm).resolve_right hV)
      obtain ⟨i, _, hi⟩ := Finset.prod_eq_zero_iff.mp ((mul_eq_zero.mp h2).resolve_left hU)
      exact ⟨i, by exact_mod_cast hi⟩
    obtain ⟨i, hi⟩ := hsv
    have hlast : f.sv (Fin.cast (Nat.min_self D).symm ⟨D - 1, by omega⟩) = 0 := by
      apply le_antisymm _ (f.nonneg _)
      rw [← hi]
      apply f.desc
      rw [Fin.le_def]
      have := i.2
      simp only [Fin.val_cast]
      omega
    rw [lastRecip, if_pos ⟨⟨D - 1, by omega⟩, by
      rw [lastSlice]
      rcases Nat.eq_zero_or_pos (countAbove tol fun i => f.sv (Fin.cast (Nat.min_self D).symm i)) with h | h
      · exact Or.inl h
      · right
        simp only
        omega, by rw [hlast, Complex.ofReal_zero, csqrt, Complex.zero_cpow (by norm_num)]⟩]
    rfl
  unfold restoreSCF
  obtain ⟨m, hm⟩ := Nat.exists_eq_succ_of_ne_zero hL.ne'
  rw [hm, List.range_succ_eq_map, List.foldl_cons, Option.bind_some, hcut]
  generalize List.map Nat.succ (List.range m) = ks
  induction ks with
  | nil => rfl
  | cons k ks ih => simpa using ih

/-- A block of one site with `q = 1`, `D = 2`: the polarised product state and a second, decaying
component. -/
noncomputable def demoSingular : UMPS ℂ 1 2 where
  L := 1
  A _ _ := !![1, 0; 0, 1/2]
  AA _ _ := 0
  l _ := !![1, 0; 0, 0]
  r _ := !![1, 0; 0, 0]
  lL := 0
  rL := 0

theorem demoSingular_env : ChainEnv 1 demoSingular.A demoSingular.l demoSingular.r where
  left k hk := by
    ext i j
    fin_cases i <;> fin_cases j <;> simp [demoSingular, Matrix.mul_apply, Fin.sum_univ_two]
  right k hk := by
    ext i j
    fin_cases i <;> fin_cases j <;> simp [demoSingular, Matrix.vecMul, dotProduct, Fin.sum_univ_two]
  norm k hk := by
    simp [demoSingular, Matrix.trace, Fin.sum_univ_two, Matrix.mul_apply, Matrix.conjTranspose_apply]

theorem demoSingular_psd : (demoSingular.r 0).PosSemidef := by
  have : demoSingular.r 0 = diagonal ![1, 0] := by
    ext i j; fin_cases i <;> fin_cases j <;> simp [demoSingular]
  rw [this, Matrix.posSemidef_diagonal_iff]
  intro i
  fin_cases i <;> simp

/-- **C45** is violated by `restore_SCF` when an environment is singular. -/
theorem C45_SCF_violated (P : HermLib) (svd : Svd) (tol : ℝ) (forceEvd : Bool) :
    ChainEnv 1 demoSingular.A demoSingular.l demoSingular.r ∧ restoreSCF P svd tol forceEvd demoSingular = none :=
  ⟨demoSingular_env, C45_SCF_singular P svd tol forceEvd demoSingular Nat.one_pos demoSingular_psd
    (by simp [demoSingular, Matrix.det_fin_two])⟩

/-- A block of one site with `q = 2`, `D = 2`, a positive left environment and a right one of rank one. -/
noncomputable def demoRank : UMPS ℂ 2 2 where
  L := 1
  A _ := ![!![1, 0; 0, 0], !![0, 1/2; 0, 1/2]]
  AA _ _ := 0
  l _ := !![1, 0; 0, 1/3]
  r _ := !![1, 0; 0, 0]
  lL := 0
  rL := 0

theorem demoRank_env : ChainEnv demoRank.L demoRank.A demoRank.l demoRank.r where
  left k hk := by
    ext i j
    fin_cases i <;> fin_cases j <;>
      simp [demoRank, Fin.sum_univ_two, Matrix.mul_apply, Matrix.vecMul, dotProduct, Matrix.conjTranspose_apply,
        Complex.conj_ofNat] <;> norm_num
  right k hk := by
    ext i j
    fin_cases i <;> fin_cases j <;> simp [demoRank, Matrix.vecMul, dotProduct, Fin.sum_univ_two]
  norm k hk := by
    simp [demoRank, Matrix.trace, Fin.sum_univ_two, Matrix.mul_apply, Matrix.conjTranspose_apply]

theorem demoRank_hyp {tol : ℝ} (h1 : tol < 1) (k : ℕ) (hk : k < demoRank.L) :
    (demoRank.l k).PosDef ∧ (demoRank.r k).PosSemidef ∧ ZeroOrAbove tol (demoRank.r k) := by
  refine ⟨?_, ?_, ?_⟩
  · have : demoRank.l k = diagonal ![1, 1/3] := by
      ext i j; fin_cases i <;> fin_cases j <;> simp [demoRank]
    rw [this, Matrix.posDef_diagonal_iff]
    intro i
    fin_cases i
    · simp
    · simp [Complex.lt_def]
  · have : demoRank.r k = diagonal ![1, 0] := by
      ext i j; fin_cases i <;> fin_cases j <;> simp [demoRank]
    rw [this, Matrix.posSemidef_diagonal_iff]
    intro i
    fin_cases i <;> simp
  · intro μ v hv he
    have e0 := congrFun he 0
    have e1 := congrFun he 1
    simp [demoRank, Matrix.mulVec, dotProduct, Fin.sum_univ_two] at e0 e1
    rcases e1 with e1 | e1
    · exact Or.inl e1
    · right
      have hv0 : v 0 ≠ 0 := by
        intro h0
        apply hv
        funext i
        fin_cases i
        · exact h0
        · exact e1
      have : (1 - (μ : ℂ)) * v 0 = 0 := by linear_combination e0
      rcases mul_eq_zero.mp this with h | h
      · have : μ = 1 := by
          have h' := sub_eq_zero.mp h
          exact_mod_cast h'.symm
        rw [this]
        exact h1
      · exact absurd h hv0

/-- The hypotheses of `C45_RCF_rank` can be met with a singular right environment. -/
example : ∃ S' G Gi, Uni.restoreRCF someHermLib 0 true (List.range demoRank.L) demoRank = some (S', G, Gi) :=
  let ⟨S', G, Gi, h, _⟩ := C45_RCF_rank someHermLib le_rfl true demoRank Nat.one_pos demoRank_env
    (fun k hk => demoRank_hyp one_pos k hk)
  ⟨S', G, Gi, h⟩

/-- **C45** is violated by `restore_RCF` when the right environment is singular: whatever the library returns,
the trace of the product around the block changes. -/
theorem C45_RCF_violated (P : HermLib) {tol : ℝ} (h0 : 0 ≤ tol) (h1 : tol < 1) (diagL : Bool) :
    ChainEnv demoRank.L demoRank.A demoRank.l demoRank.r
      ∧ ∃ S' G Gi, Uni.restoreRCF P tol diagL (List.range demoRank.L) demoRank = some (S', G, Gi)
        ∧ (S'.A 0 1).trace = 0 ∧ (demoRank.A 0 1).trace = 1 / 2 := by
  refine ⟨demoRank_env, ?_⟩
  obtain ⟨hl, hr, hg⟩ := demoRank_hyp h1 0 Nat.one_pos
  have hne : demoRank.r 0 ≠ 0 := by
    intro h
    have := congrFun (congrFun h 0) 0
    simp [demoRank] at this
  obtain ⟨G, Gi, lk, rk, i1, i2, _⟩ := rcfCut_rank P h0 diagL demoRank (fun _ => none) (fun _ => none) 0 hr hne hg hl
  have hS : Uni.restoreRCF P tol diagL (List.range demoRank.L) demoRank
      = rcfCut P tol diagL (demoRank, fun _ => none, fun _ => none) 0 := by
    unfold Uni.restoreRCF
    rw [foldl_guard (rcfCut P tol diagL) demoRank.L (List.range demoRank.L) fun k hk => List.mem_range.mp hk]
    rw [show demoRank.L = 1 from rfl]
    rw [List.range_one]
    simp only [List.foldl_cons, List.foldl_nil, Option.bind_some]
  refine ⟨_, _, _, hS.trans i1, ?_, ?_⟩
  · simp only
    rw [show demoRank.L = 1 from rfl, gaugeCut_eq Nat.one_pos G Gi _ 0 Nat.one_pos]
    rw [show (0 + 1 - 1) % 1 = 0 from rfl]
    rw [Function.update_self, Function.update_self, i2.range]
    have : demoRank.A 0 1 * demoRank.r 0 = 0 := by
      ext i j
      fin_cases i <;> fin_cases j <;> simp [demoRank, Matrix.mul_apply, Fin.sum_univ_two]
    rw [Matrix.mul_assoc, ← Matrix.mul_assoc (demoRank.A 0 1), this, Matrix.zero_mul, Matrix.mul_zero,
      Matrix.trace_zero]
  · simp [demoRank, Matrix.trace, Fin.sum_univ_two]

end EvoMPS
