import Verif.UniformEig
import Mathlib.Tactic.FinCases

/-!
# C42: environments of the uniform chain

`ChainEnv`, `FixedEnds`, `chainTransfer` are defined in `UniformSpec.lean`.
-/

set_option linter.unusedSectionVars false

namespace EvoMPS

open Matrix Uni
open scoped ComplexOrder MatrixOrder

variable {q D : ℕ}

/-- **C42.**  Whatever eigenvalue back end is used: if its answers are fixed points of the two
block maps (of the tensors it has rescaled) with a real overlap -- not a small one if the
back end returns its work arrays -- then the environments `calc_lr` leaves behind obey the transfer
equations around the block and have scalar product one at every cut.  Without `symm_gauge` the last `r`
is scaled to trace `D`. -/
theorem C42_environments (be : Backend q D) (sg rescale : Bool) (S S' : UMPS ℂ q D) (hL : 0 < S.L)
    (H : ∀ S0 S1 l r, S0.L = S.L → be.run rescale S0 = some (S1, l, r) → S1.L = S.L ∧
      FixedEnds S.L S1.A l r ∧ (be.aliased = false ∨ 1e-10 ≤ |((lᴴ * r).trace).re|) ∧
      (sg = true ∨ r.trace.re ≠ 0))
    (h : calcLr be sg rescale S = some S') :
    S'.L = S.L ∧ ChainEnv S'.L S'.A S'.l S'.r ∧ (sg = false → (S'.r (S'.L - 1)).trace.re = D) ∧
      ∃ S0 S1 l r, be.run rescale S0 = some (S1, l, r) ∧ S'.A = S1.A := by
  unfold calcLr at h
  cases ht : lrTries be rescale 2 S 0 with
  | none => rw [ht] at h; cases h
  | some p =>
    obtain ⟨T0, norm⟩ := p
    rw [ht] at h
    simp only [Option.bind_some] at h
    obtain ⟨h1, h2, h3, S0, S1, l, r, h4, h5, h6, h7, h8⟩ := lrTries_spec be rescale S.L
      (fun S0 S1 l r a b => ⟨(H S0 S1 l r a b).1, (H S0 S1 l r a b).2.1, by
        rw [adot_eq_trace]; exact (H S0 S1 l r a b).2.2.1⟩) 1 S rfl 0 T0 norm ht
    have htr := (H S0 S1 l r h4 h5).2.2.2
    set T := setBefore T0 (T0.l (T0.L - 1)) (T0.r (T0.L - 1)) with hT
    have hTL : T.L = S.L := h1
    have hTA : T.A = T0.A := rfl
    have hTl : T.l = T0.l := rfl
    have hTr : T.r = T0.r := rfl
    have hnorm : norm = endNorm T := h3
    cases hn : normEnds sg T norm with
    | none => rw [hn] at h; cases h
    | some T' =>
      rw [hn] at h
      simp only [Option.bind_some, Option.some.injEq] at h
      rw [hnorm] at hn
      obtain ⟨g1, g2, g3, g4, g5, -⟩ := normEnds_spec sg T T' (by rw [hTL, hTA, hTl, hTr]; exact h2)
        (by rw [hTL, hTr, h8]; exact htr) hn
      rw [hTL] at g1 g3 g4 g5
      rw [hTA] at g2 g3
      have hL' : (fillL (fillR T')).L = S.L := g1
      have hr1 : (fillL (fillR T')).r (S.L - 1) = T'.r (S.L - 1) :=
        (fillR_fold (fun k x => epsR x (T'.A k) (T'.A k)) T'.r (T'.L - 1)).1 _ (by omega)
      subst h
      refine ⟨hL', ?_, fun hsg => ?_, S0, S1, l, r, h5, g2.trans h6⟩
      · exact fill_env T' (by rw [g1]; exact hL) (by rw [g1, g2]; exact g3.right)
          (by rw [g1, g2]; exact g3.left) (by rw [g1]; exact g4)
      · rw [hL', hr1]
        exact g5 hsg

/-- All environments are positive if those at the end of the block are. -/
theorem env_psd {L : ℕ} {A : ℕ → Ten ℂ q D D} {l r : ℕ → Matrix (Fin D) (Fin D) ℂ}
    (h : ChainEnv L A l r) (hl : (l (L - 1)).PosSemidef) (hr : (r (L - 1)).PosSemidef) :
    ∀ k < L, (l k).PosSemidef ∧ (r k).PosSemidef := by
  intro k hk
  constructor
  · induction k with
    | zero =>
      rw [h.left 0 hk, Nat.zero_add, Nat.mod_eq_of_lt (by omega)]
      exact Matrix.posSemidef_sum _ fun _ _ => hl.conjTranspose_mul_mul_same _
    | succ k ih =>
      rw [h.left _ hk, show k + 1 + L - 1 = k + L by omega, Nat.add_mod_right,
        Nat.mod_eq_of_lt (by omega)]
      exact Matrix.posSemidef_sum _ fun _ _ => (ih (by omega)).conjTranspose_mul_mul_same _
  · obtain ⟨j, hj⟩ : ∃ j, k = L - 1 - j := ⟨L - 1 - k, by omega⟩
    subst hj
    induction j with
    | zero => exact hr
    | succ j ih =>
      by_cases hj : j + 1 < L
      · have h1 := h.right (L - 1 - j) (by omega)
        rw [show L - 1 - j + L - 1 = L - 1 - (j + 1) + L by omega, Nat.add_mod_right,
          Nat.mod_eq_of_lt (by omega)] at h1
        rw [h1]
        exact Matrix.posSemidef_sum _ fun _ _ => (ih (by omega)).mul_mul_conjTranspose_same _
      · rw [show L - 1 - (j + 1) = L - 1 - j by omega]
        exact ih (by omega)

theorem psd_smul {P : Matrix (Fin D) (Fin D) ℂ} (hP : P.PosSemidef) {a : ℝ} (ha : 0 ≤ a) :
    ((a : ℂ) • P).PosSemidef :=
  hP.smul (by exact_mod_cast ha)

theorem trace_re_ne {P : Matrix (Fin D) (Fin D) ℂ} (hP : P.PosSemidef) (h0 : P ≠ 0) :
    P.trace.re ≠ 0 := by
  have := trace_psd_pos hP h0
  rw [Complex.lt_def] at this
  exact this.1.ne'

/-- **C42**, dense back end: if the dominant eigenvalue is not zero and its eigenvectors are
multiples of positive matrices that are not orthogonal, with LAPACK's normalisation of the phases,
then `calc_lr` succeeds with correct and positive environments.  Only `A[0]` has been rescaled. -/
theorem C42_brute (eig : EigFn D) (sg rescale : Bool) (S : UMPS ℂ q D) (hL : 0 < S.L)
    (w : List (EigTriple (D * D))) (e : EigTriple (D * D))
    (heig : ∀ E, denseBlock S.list S.list 0 = some E →
      eig E = some w ∧ E *ᵥ e.vr = e.ev • e.vr ∧ Eᴴ *ᵥ e.vl = star e.ev • e.vl)
    (hmax : argmaxAbs w = some e) (he : e.ev ≠ 0) (P Q : Matrix (Fin D) (Fin D) ℂ)
    (hP : P.PosSemidef) (hQ : Q.PosSemidef) (hPQ : (P * Q).trace ≠ 0) (cl cr : ℂ)
    (hl : ∀ i j, e.vl (finProdFinEquiv (i, j)) = cl * P i j)
    (hr : ∀ i j, e.vr (finProdFinEquiv (i, j)) = cr * Q i j)
    (hphl : FirstMaxPos e.vl) (hphr : FirstMaxPos e.vr) :
    ∃ S', calcLr (bruteBackend eig) sg rescale S = some S' ∧ S'.L = S.L ∧
      (∃ c : ℂ, S'.A = Function.update S.A 0 fun s => c • S.A 0 s) ∧
      ChainEnv S'.L S'.A S'.l S'.r ∧ (∀ k < S'.L, (S'.l k).PosSemidef ∧ (S'.r k).PosSemidef) ∧
      (sg = false → (S'.r (S'.L - 1)).trace.re = D) := by
  have hl' : e.vl = cl • ravel P := by
    funext p
    rw [← finProdFinEquiv.apply_symm_apply p]
    generalize finProdFinEquiv.symm p = x
    obtain ⟨i, j⟩ := x
    rw [hl, ← flat_eq]; simp [ravel]
  have hr' : e.vr = cr • ravel Q := by
    funext p
    rw [← finProdFinEquiv.apply_symm_apply p]
    generalize finProdFinEquiv.symm p = x
    obtain ⟨i, j⟩ := x
    rw [hr, ← flat_eq]; simp [ravel]
  obtain ⟨E, hE, hE1, hE2⟩ := dense_state S hL
  obtain ⟨hw, hvr, hvl⟩ := heig E hE
  have hcl : 0 < cl := firstMax_psd hP cl (hl' ▸ hphl)
  have hcr : 0 < cr := firstMax_psd hQ cr (hr' ▸ hphr)
  obtain ⟨hcl1, hcl2⟩ := nonneg_real hcl.le
  obtain ⟨hcr1, hcr2⟩ := nonneg_real hcr.le
  have hP0 : P ≠ 0 := by rintro rfl; simp at hPQ
  have hQ0 : Q ≠ 0 := by rintro rfl; simp at hPQ
  have rl : (reshape e.vl : Matrix (Fin D) (Fin D) ℂ) = cl • P := by
    rw [hl', reshape_smul, reshape_ravel]
  have rr : (reshape e.vr : Matrix (Fin D) (Fin D) ℂ) = cr • Q := by
    rw [hr', reshape_smul, reshape_ravel]
  -- the eigenvalue is positive
  have h1 := hE1 e.vr
  rw [hvr, reshape_smul] at h1
  have h1' : chainTransfer S.L S.L S.A S.A 0 S.L Q = e.ev • Q := by
    rw [rr, chainTransfer_smul, smul_comm] at h1
    exact (smul_right_injective _ hcr.ne' h1).symm
  have hev : 0 ≤ e.ev := eigenvalue_nonneg hQ hQ0 (chainTransfer_psd _ _ _ _ hQ) _ h1'
  obtain ⟨hev1, hev2⟩ := nonneg_real hev
  set ε := e.ev.re with hε
  have hε0 : 0 < ε := lt_of_le_of_ne hev2 fun h => he (by rw [hev1, ← h, Complex.ofReal_zero])
  have h2 := hE2 e.vl
  rw [hvl, reshape_smul, hev1, Complex.star_def, Complex.conj_ofReal] at h2
  -- the overlap
  have hov : adot (reshape e.vl : Matrix (Fin D) (Fin D) ℂ) (reshape e.vr)
      = ((cl.re * cr.re * (P * Q).trace.re : ℝ) : ℂ) := by
    rw [rl, rr, adot_smul_left, adot_smul_right, adot_eq_trace, hP.isHermitian.eq,
      (nonneg_real (trace_mul_psd hP hQ)).1]
    conv_lhs => rw [hcl1, hcr1]
    rw [Complex.star_def, Complex.conj_ofReal]
    push_cast
    simp only [Complex.ofReal_re]
    ring
  set ν := cl.re * cr.re * (P * Q).trace.re with hν
  have hν0 : 0 < ν := by
    have a1 : 0 < cl.re := (Complex.lt_def.1 hcl).1
    have a2 : 0 < cr.re := (Complex.lt_def.1 hcr).1
    have a3 := nonneg_real (trace_mul_psd hP hQ)
    have a4 : 0 < (P * Q).trace.re := lt_of_le_of_ne a3.2 fun h => hPQ (by
      rw [a3.1, ← h, Complex.ofReal_zero])
    positivity
  set c := 1 / csqrt (ε : ℂ) with hc
  have hcc : star c * c = ((1 / ε : ℝ) : ℂ) := star_mul_inv_csqrt hε0
  set d := 1 / csqrt (ν : ℂ) with hd
  have hdd : star d * d = ((1 / ν : ℝ) : ℂ) := star_mul_inv_csqrt hν0
  have hd0 : d ≠ 0 := by
    intro h
    rw [h, mul_zero] at hdd
    have : (1 / ν : ℝ) = 0 := by exact_mod_cast hdd.symm
    have h' : 0 < 1 / ν := by positivity
    exact h'.ne' this
  set S1 : UMPS ℂ q D := { S with A := Function.update S.A 0 fun s => c • S.A 0 s } with hS1
  have hrun : (bruteBackend eig).run rescale S
      = some (S1, d • reshape e.vl, d • reshape e.vr) := by
    simp only [bruteBackend, calcLrBrute, hE, hw, hmax, Option.bind_some, hov]
    rw [hev1]
  have hfix : FixedEnds S1.L S1.A (d • reshape e.vl) (d • reshape e.vr) := by
    refine ⟨?_, ?_, ?_⟩
    · rw [chainTransfer_smul]
      congr 1
      rw [show S1.L = S.L from rfl, hS1, chainTransfer_scale0 S.L hL, ← h1, hcc, hev1, smul_smul,
        ← Complex.ofReal_mul, one_div_mul_cancel hε0.ne', Complex.ofReal_one, one_smul]
    · rw [chainTransferL_smul]
      congr 1
      rw [show S1.L = S.L from rfl, hS1, chainTransferL_scale0 S.L hL, ← h2, hcc, smul_smul,
        ← Complex.ofReal_mul, one_div_mul_cancel hε0.ne', Complex.ofReal_one, one_smul]
    · rw [← adot_eq_trace, adot_smul_left, adot_smul_right, hov, ← mul_assoc, hdd,
        ← Complex.ofReal_mul, Complex.star_def, Complex.conj_ofReal]
  have hadot : adot (d • reshape e.vl : Matrix (Fin D) (Fin D) ℂ) (d • reshape e.vr) = 1 := by
    rw [adot_smul_left, adot_smul_right, hov, ← mul_assoc, hdd, ← Complex.ofReal_mul,
      one_div_mul_cancel hν0.ne', Complex.ofReal_one]
  have hdr : d = ((1 / Real.sqrt ν : ℝ) : ℂ) := by
    rw [hd, csqrt_ofReal hν0.le]; push_cast; rfl
  have hdp : 0 < 1 / Real.sqrt ν := by positivity
  have hpl : (d • reshape e.vl : Matrix (Fin D) (Fin D) ℂ).PosSemidef := by
    rw [rl, hdr, hcl1]; exact psd_smul (psd_smul hP hcl2) hdp.le
  have hpr : (d • reshape e.vr : Matrix (Fin D) (Fin D) ℂ).PosSemidef := by
    rw [rr, hdr, hcr1]; exact psd_smul (psd_smul hQ hcr2) hdp.le
  have hne : (d • reshape e.vr : Matrix (Fin D) (Fin D) ℂ) ≠ 0 := by
    intro h
    rw [h] at hadot
    simp [adot_eq_trace] at hadot
  have htp : 0 < (d • reshape e.vr : Matrix (Fin D) (Fin D) ℂ).trace.re :=
    (Complex.lt_def.1 (trace_psd_pos hpr hne)).1
  obtain ⟨S', k1, k2, k3, k4, k5, -, -, a, b, k6, k7, k8⟩ := calcLr_first (bruteBackend eig) sg rescale S S1
    _ _ hL hrun (by rw [hadot]; norm_num) hfix (Or.inr htp.ne')
  obtain ⟨ha, hb⟩ := k6 (Or.inr htp)
  have k2' : S'.L = S.L := k2
  refine ⟨S', k1, k2', ⟨c, k3⟩, k4, env_psd k4 ?_ ?_, k5⟩
  · rw [k2, k7]; exact psd_smul hpl ha.le
  · rw [k2, k8]; exact psd_smul hpr hb.le

theorem vec_psd {P : Matrix (Fin D) (Fin D) ℂ} {c : ℂ} {v : Fin (D * D) → ℂ}
    (h : ∀ i j, v (finProdFinEquiv (i, j)) = c * P i j) : v = c • ravel P := by
  funext p
  rw [← finProdFinEquiv.apply_symm_apply p]
  generalize finProdFinEquiv.symm p = x
  obtain ⟨i, j⟩ := x
  rw [h, ← flat_eq]; simp [ravel]

/-- **C42**, Arnoldi back end: if the solver returns eigenvectors that are multiples of positive
matrices which are not (nearly) orthogonal, of average not zero, and the eigenvalue is not zero, then
`calc_lr` succeeds with correct and positive environments.  All tensors have been rescaled by the
same factor. -/
theorem C42_arpack (eigsL eigsR : EigsFn D) (sg : Bool) (S : UMPS ℂ q D) (hL : 0 < S.L)
    (ev : ℂ) (v v' : Fin (D * D) → ℂ) (P Q : Matrix (Fin D) (Fin D) ℂ) (hP : P.PosSemidef)
    (hQ : Q.PosSemidef) (he : ev ≠ 0) (cl cr : ℂ)
    (hv : ∀ i j, v (finProdFinEquiv (i, j)) = cl * P i j)
    (hv' : ∀ i j, v' (finProdFinEquiv (i, j)) = cr * Q i j)
    (hmean : ∑ p, v p ≠ 0) (hmean' : ∑ p, v' p ≠ 0)
    (hov : 1e-10 ≤ ‖cl‖ * ‖cr‖ * (P * Q).trace.re)
    (hl : ∀ f, f = EOp.matvec ⟨(List.range S.L).map S.A, (List.range S.L).map S.A, true⟩ 0 →
      eigsL f S.lL = some (ev, v) ∧ f v = some (ev • v))
    (hr : ∀ (c : ℂ) B f, B = (List.range S.L).map (fun k s => c • S.A k s) →
      f = EOp.matvec ⟨B, B, false⟩ 0 →
      ∃ ev', eigsR f S.rL = some (ev', v') ∧ f v' = some (ev' • v')) :
    ∃ S', calcLr (arpackBackend eigsL eigsR) sg true S = some S' ∧ S'.L = S.L ∧
      (∃ c : ℂ, S'.A = fun k s => c • S.A k s) ∧
      ChainEnv S'.L S'.A S'.l S'.r ∧ (∀ k < S'.L, (S'.l k).PosSemidef ∧ (S'.r k).PosSemidef) ∧
      (sg = false → (S'.r (S'.L - 1)).trace.re = D) := by
  have hDD : ((D * D : ℕ) : ℂ) ≠ 0 := by
    intro h
    have h0 : D * D = 0 := by exact_mod_cast h
    apply hmean
    have : IsEmpty (Fin (D * D)) := by rw [h0]; infer_instance
    exact Finset.sum_of_isEmpty _
  have mn : ∀ w : Fin (D * D) → ℂ, ∑ p, w p ≠ 0 → mean w ≠ 0 := fun w h => by
    rw [mean, forSum_eq]
    exact div_ne_zero h hDD
  have hv1 := vec_psd hv
  have hv1' := vec_psd hv'
  obtain ⟨hcl, hphl⟩ := removePhase_psd hP cl (hv1 ▸ mn v hmean)
  obtain ⟨hcr, hphr⟩ := removePhase_psd hQ cr (hv1' ▸ mn v' hmean')
  rw [← hv1] at hphl
  rw [← hv1'] at hphr
  have hcl0 : cl ≠ 0 := norm_pos_iff.1 hcl
  have hcr0 : cr ≠ 0 := norm_pos_iff.1 hcr
  have hPQ : (P * Q).trace ≠ 0 := by
    intro h
    rw [h] at hov
    norm_num at hov
  have hP0 : P ≠ 0 := by rintro rfl; simp at hPQ
  have hQ0 : Q ≠ 0 := by rintro rfl; simp at hPQ
  obtain ⟨hl1, hl2⟩ := hl _ rfl
  change EOp.matvec ⟨S.list, S.list, true⟩ 0 v = _ at hl2
  rw [matvec_state_left S hL] at hl2
  have h1 : chainTransferL S.L S.L S.A S.A 0 S.L P = ev • P := by
    have h := congrArg reshape (Option.some.inj hl2)
    rw [reshape_ravel, reshape_smul, hv1, reshape_smul, reshape_ravel, chainTransferL_smul,
      smul_comm] at h
    exact smul_right_injective _ hcl0 h
  have hev : 0 ≤ ev := eigenvalue_nonneg hP hP0 (chainTransferL_psd _ _ _ _ hP) _ h1
  obtain ⟨hev1, hev2⟩ := nonneg_real hev
  set ε := ev.re with hε
  have hε0 : 0 < ε := lt_of_le_of_ne hev2 fun h => he (by rw [hev1, ← h, Complex.ofReal_zero])
  set c := (1 / csqrt (ε : ℂ)) ^ (1 / (S.L : ℂ)) with hc
  have hcL : c ^ S.L = 1 / csqrt (ε : ℂ) := by
    rw [hc, one_div (S.L : ℂ)]
    exact Complex.cpow_nat_inv_pow _ hL.ne'
  have hcc : star (c ^ S.L) * c ^ S.L = ((1 / ε : ℝ) : ℂ) := by rw [hcL]; exact star_mul_inv_csqrt hε0
  set S1 : UMPS ℂ q D := { S with A := fun k s => c • S.A k s } with hS1
  obtain ⟨ev', hr1, hr2⟩ := hr c S1.list _ rfl rfl
  have hL1 : 0 < S1.L := hL
  rw [matvec_state_right S1 hL1] at hr2
  have h2 : chainTransfer S1.L S1.L S1.A S1.A 0 S1.L Q = ev' • Q := by
    have h := congrArg reshape (Option.some.inj hr2)
    rw [reshape_ravel, reshape_smul, hv1', reshape_smul, reshape_ravel, chainTransfer_smul,
      smul_comm] at h
    exact smul_right_injective _ hcr0 h
  have h1' : chainTransferL S1.L S1.L S1.A S1.A 0 S1.L P = P := by
    have h := chainTransferL_scale S.L S.A c 0 S.L P
    rw [hcc, h1, hev1, smul_smul, ← Complex.ofReal_mul, one_div_mul_cancel hε0.ne', Complex.ofReal_one,
      one_smul] at h
    exact h
  have hPQ' : adot P Q = (P * Q).trace := by rw [adot_eq_trace, hP.isHermitian.eq]
  have hev' : ev' = 1 := by
    have h := adot_chainTransferL (L := S1.L) (L' := S1.L) (A := S1.A) (B := S1.A) 0 S1.L P Q
    rw [h1', h2, adot_smul_right, hPQ'] at h
    exact mul_right_cancel₀ hPQ ((one_mul _).trans h).symm
  rw [hev', one_smul] at h2
  set lv : Matrix (Fin D) (Fin D) ℂ := ((‖cl‖ : ℝ) : ℂ) • P with hlv
  set rv : Matrix (Fin D) (Fin D) ℂ := ((‖cr‖ : ℝ) : ℂ) • Q with hrv
  have hrun : (arpackBackend eigsL eigsR).run true S = some (S1, lv, rv) := by
    have e1 : calcLrArpack eigsL true true S S.lL = some (S1, lv) := by
      simp only [calcLrArpack, UMPS.list, hl1, Option.bind_some, hphl, if_true, reshape_smul, reshape_ravel]
      rw [hev1]
    have e2 : calcLrArpack eigsR false false S1 S1.rL = some (S1, rv) := by
      simp only [calcLrArpack, show S1.rL = S.rL from rfl, hr1, Option.bind_some, hphr,
        Bool.false_eq_true, if_false, reshape_smul, reshape_ravel]
      rfl
    simp only [arpackBackend, e1, e2, Option.bind_some]
  have hadot : adot lv rv = ((‖cl‖ * ‖cr‖ * (P * Q).trace.re : ℝ) : ℂ) := by
    rw [hlv, hrv, adot_smul_left, adot_smul_right, hPQ', (nonneg_real (trace_mul_psd hP hQ)).1,
      Complex.star_def, Complex.conj_ofReal, Complex.ofReal_re]
    push_cast
    ring
  have hfix : FixedEnds S1.L S1.A lv rv := by
    refine ⟨?_, ?_, ?_⟩
    · rw [chainTransfer_smul, h2]
    · rw [chainTransferL_smul, h1']
    · rw [← adot_eq_trace, hadot, Complex.star_def, Complex.conj_ofReal]
  have hpl : lv.PosSemidef := psd_smul hP hcl.le
  have hpr : rv.PosSemidef := psd_smul hQ hcr.le
  have htp : 0 < rv.trace.re := (Complex.lt_def.1 (trace_psd_pos hpr
    (smul_ne_zero (by exact_mod_cast hcr.ne') hQ0))).1
  obtain ⟨S', k1, k2, k3, k4, k5, -, -, a, b, k6, k7, k8⟩ := calcLr_first
    (arpackBackend eigsL eigsR) sg true S S1 _ _ hL hrun
    (by rw [hadot, Complex.ofReal_re]; exact hov)
    hfix (Or.inr htp.ne')
  obtain ⟨ha, hb⟩ := k6 (Or.inr htp)
  refine ⟨S', k1, k2, ⟨c, k3⟩, k4, env_psd k4 ?_ ?_, k5⟩
  · rw [k2, k7]; exact psd_smul hpl ha.le
  · rw [k2, k8]; exact psd_smul hpr hb.le

/-! ## The hypotheses can be met -/

/-- Two-site block of bond dimension 2 whose transfer operator has the identity as fixed points of
eigenvalue 8 on both sides. -/
def demoPauli : UMPS ℂ 2 2 where
  L := 1
  A := fun _ s => if s = 0 then !![2, 0; 0, 2] else !![0, 2; 2, 0]
  AA := 0
  l := 0
  r := 0
  lL := 1
  rL := 1

theorem demoPauli_right : chainTransfer 1 1 demoPauli.A demoPauli.A 0 1 1
    = (8 : ℂ) • (1 : Matrix (Fin 2) (Fin 2) ℂ) := by
  rw [chainTransfer_one, epsR_eq]
  ext i j
  fin_cases i <;> fin_cases j <;>
    simp [demoPauli, Fin.sum_univ_two, Matrix.vecMul, dotProduct, Matrix.conjTranspose_apply,
      Complex.conj_ofNat] <;> norm_num

theorem demoPauli_left : chainTransferL 1 1 demoPauli.A demoPauli.A 0 1 1
    = (8 : ℂ) • (1 : Matrix (Fin 2) (Fin 2) ℂ) := by
  rw [chainTransferL_one, epsL_eq]
  ext i j
  fin_cases i <;> fin_cases j <;>
    simp [demoPauli, Fin.sum_univ_two, Matrix.mul_apply, Matrix.conjTranspose_apply,
      Complex.conj_ofNat] <;> norm_num

/-- The vector of the 2 by 2 identity. -/
noncomputable def demoVec : Fin (2 * 2) → ℂ := ravel 1

theorem demoVec_at (i j : Fin 2) :
    demoVec (finProdFinEquiv (i, j)) = 1 * (1 : Matrix (Fin 2) (Fin 2) ℂ) i j := by
  have h := congrFun (congrFun (reshape_ravel (1 : Matrix (Fin 2) (Fin 2) ℂ)) i) j
  rw [← flat_eq, demoVec, one_mul]
  exact h

theorem demoVec_zero : demoVec (0 : Fin 4) = 1 := by
  have h := demoVec_at 0 0
  rw [one_mul, Matrix.one_apply_eq] at h
  exact h

theorem ravel_of_reshape {v w : Fin (D * D) → ℂ}
    (h : (reshape v : Matrix (Fin D) (Fin D) ℂ) = reshape w) : v = w := by
  funext p
  rw [← finProdFinEquiv.apply_symm_apply p]
  generalize finProdFinEquiv.symm p = x
  obtain ⟨i, j⟩ := x
  have := congrFun (congrFun h i) j
  simpa [reshape, flat_eq] using this

theorem demoVec_first : FirstMaxPos demoVec := by
  have h : ∀ p, ‖demoVec p‖ ≤ 1 := fun p => by
    rw [← finProdFinEquiv.apply_symm_apply p]
    generalize finProdFinEquiv.symm p = x
    obtain ⟨i, j⟩ := x
    rw [demoVec_at, one_mul, Matrix.one_apply]
    split_ifs <;> simp
  have h0 := demoVec_zero
  refine ⟨(0 : Fin 4), fun p => ?_, fun p hp => ?_, ?_⟩
  · rw [h0, norm_one]; exact h p
  · exact absurd hp (by simp)
  · rw [h0]; exact zero_lt_one

/-- `C42_brute` applies to this state and the solver that returns the exact answer. -/
example (sg rescale : Bool) :
    ∃ S', calcLr (bruteBackend fun _ => some [⟨8, demoVec, demoVec⟩]) sg rescale demoPauli = some S' ∧
      ChainEnv S'.L S'.A S'.l S'.r ∧ ∀ k < S'.L, (S'.l k).PosSemidef ∧ (S'.r k).PosSemidef := by
  obtain ⟨S', h1, -, -, h2, h3, -⟩ := C42_brute (fun _ => some [⟨8, demoVec, demoVec⟩]) sg rescale
    demoPauli (by decide) [⟨8, demoVec, demoVec⟩] ⟨8, demoVec, demoVec⟩ (fun E hE => by
      obtain ⟨E', hE', e1, e2⟩ := dense_state demoPauli (by decide)
      obtain rfl : E = E' := Option.some.inj (hE.symm.trans hE')
      refine ⟨rfl, ravel_of_reshape ?_, ravel_of_reshape ?_⟩
      · rw [e1, reshape_smul, demoVec, reshape_ravel]
        exact demoPauli_right
      · rw [e2, reshape_smul, demoVec, reshape_ravel]
        exact demoPauli_left.trans (by simp))
    rfl (by norm_num) 1 1 Matrix.PosSemidef.one Matrix.PosSemidef.one (by simp) 1 1 demoVec_at
    demoVec_at demoVec_first demoVec_first
  exact ⟨S', h1, h2, h3⟩

theorem demoVec_sum : ∑ p, demoVec p ≠ 0 := by
  rw [← finProdFinEquiv.sum_comp, Fintype.sum_prod_type]
  simp only [demoVec_at, Fin.sum_univ_two]
  norm_num

/-- `C42_arpack` applies to this state and solvers that return the exact answer. -/
example (sg : Bool) :
    ∃ S', calcLr (arpackBackend (fun _ _ => some (8, demoVec))
        (fun f _ => (f demoVec).bind fun w => some (w 0, demoVec))) sg true demoPauli = some S' ∧
      ChainEnv S'.L S'.A S'.l S'.r ∧ ∀ k < S'.L, (S'.l k).PosSemidef ∧ (S'.r k).PosSemidef := by
  obtain ⟨S', h1, -, -, h2, h3, -⟩ := C42_arpack (fun _ _ => some (8, demoVec))
    (fun f _ => (f demoVec).bind fun w => some (w 0, demoVec)) sg demoPauli (by decide) 8 demoVec
    demoVec 1 1 Matrix.PosSemidef.one Matrix.PosSemidef.one (by norm_num) 1 1 demoVec_at demoVec_at
    demoVec_sum demoVec_sum (by simp; norm_num) (fun f hf => by
      subst hf
      refine ⟨rfl, ?_⟩
      have h := matvec_state_left demoPauli (by decide) 0 demoVec
      rw [demoVec, reshape_ravel] at h
      exact h.trans (congrArg some (by
        rw [demoVec, ← ravel_smul]
        exact congrArg ravel demoPauli_left)))
    (fun c B f hB hf => by
      subst hf hB
      set S1 : UMPS ℂ 2 2 := { demoPauli with A := fun k s => c • demoPauli.A k s } with hS1
      have h := matvec_state_right S1 (show 0 < 1 by decide) 0 demoVec
      have hm : EOp.matvec ⟨S1.list, S1.list, false⟩ 0 demoVec
          = some ((star c * c * 8) • demoVec) := by
        rw [h, demoVec, reshape_ravel, ← ravel_smul]
        refine congrArg some (congrArg ravel ?_)
        have h8 := chainTransfer_scale 1 demoPauli.A c 0 1 1
        rw [demoPauli_right, pow_one, smul_smul] at h8
        exact h8
      refine ⟨star c * c * 8, ?_, hm⟩
      have h0 := demoVec_zero
      change (EOp.matvec ⟨S1.list, S1.list, false⟩ 0 demoVec).bind _ = _
      rw [hm, Option.bind_some, Pi.smul_apply, h0, smul_eq_mul, mul_one])
  exact ⟨S', h1, h2, h3⟩

/-! ## The phase of the eigenvectors matters -/

/-- One site of dimension one, tensor one. -/
def demoOne : UMPS ℂ 1 1 where
  L := 1
  A := fun _ _ => 1
  AA := 0
  l := 0
  r := 0
  lL := 1
  rL := 1

/-- A phase. -/
noncomputable def demoPhase : ℂ := ⟨3 / 5, 4 / 5⟩

/-- **C42**: the condition on the phases in `C42_brute` cannot be dropped.  The solver below returns unit
eigenvectors for the dominant eigenvalue, but the right one carries a phase, and the scalar product of the
environments is `1 + 4i/3`: the code normalises with the real part of the overlap only. -/
theorem C42_phase_needed :
    ∃ (eig : EigFn 1) (S S' : UMPS ℂ 1 1) (e : EigTriple (1 * 1)),
      (∀ E, denseBlock S.list S.list 0 = some E →
        eig E = some [e] ∧ E *ᵥ e.vr = e.ev • e.vr ∧ Eᴴ *ᵥ e.vl = star e.ev • e.vl) ∧
      ‖e.vl 0‖ = 1 ∧ ‖e.vr 0‖ = 1 ∧ calcLr (bruteBackend eig) true true S = some S' ∧
      ((S'.l 0)ᴴ * S'.r 0).trace = 1 + (4 / 3) * Complex.I := by
  set e : EigTriple (1 * 1) := ⟨1, fun _ => 1, fun _ => demoPhase⟩ with he
  obtain ⟨E, hE, e1, e2⟩ := dense_state demoOne (by decide)
  set z := demoPhase with hz
  have hz2 : z * star z = 1 := by
    rw [Complex.star_def, Complex.mul_conj, Complex.normSq_apply, hz, demoPhase]
    norm_num
  have hzn : ‖z‖ = 1 := by
    have h := congrArg norm hz2
    rw [norm_mul, norm_star, norm_one] at h
    nlinarith [norm_nonneg z]
  set c := csqrt z with hc
  have hcc : c * c = z := csqrt_sq z
  have hcn : ‖c‖ = 1 := by
    have h := congrArg norm hcc
    rw [norm_mul, hzn] at h
    nlinarith [norm_nonneg c]
  have hcs : star c * c = 1 := by
    rw [mul_comm, Complex.star_def, Complex.mul_conj, Complex.normSq_eq_norm_sq, hcn]; norm_num
  have hc0 : c ≠ 0 := norm_ne_zero_iff.1 (by rw [hcn]; norm_num)
  set lm : Matrix (Fin 1) (Fin 1) ℂ := reshape e.vl with hlm
  set rm : Matrix (Fin 1) (Fin 1) ℂ := reshape e.vr with hrm
  have hov : adot lm rm = z := by
    rw [adot_eq_trace]
    simp [hlm, hrm, he, reshape, Matrix.trace, Matrix.mul_apply]
  have hov2 : adot ((1 / c) • lm) ((1 / c) • rm) = z := by
    rw [adot_smul_left, adot_smul_right, hov, ← mul_assoc]
    have : star (1 / c) * (1 / c) = 1 := by
      rw [star_div₀, star_one, div_mul_div_comm, hcs]; norm_num
    rw [this, one_mul]
  set S1 : UMPS ℂ 1 1 := { demoOne with A := Function.update demoOne.A 0 fun s => (1 / csqrt 1) • demoOne.A 0 s }
    with hS1
  have hrun : (bruteBackend fun _ => some [e]).run true demoOne
      = some (S1, (1 / c) • lm, (1 / c) • rm) := by
    simp only [bruteBackend, calcLrBrute, hE, argmaxAbs, List.foldl_nil, Option.bind_some, ← hlm, ← hrm, hov]
    rfl
  have hre : z.re = 3 / 5 := rfl
  refine ⟨fun _ => some [e], demoOne, ?_, e, ?_, ?_, hzn, ?_, ?_⟩
  rotate_left
  · intro E' hE'
    obtain rfl : E = E' := Option.some.inj (hE.symm.trans hE')
    have t1 : ∀ x, chainTransfer demoOne.L demoOne.L demoOne.A demoOne.A 0 demoOne.L x = x := fun x => by
      rw [show demoOne.L = 1 from rfl, chainTransfer_one, epsR_eq]
      simp [demoOne]
    have t2 : ∀ x, chainTransferL demoOne.L demoOne.L demoOne.A demoOne.A 0 demoOne.L x = x := fun x => by
      rw [show demoOne.L = 1 from rfl, chainTransferL_one, epsL_eq]
      simp [demoOne]
    refine ⟨rfl, ravel_of_reshape ?_, ravel_of_reshape ?_⟩
    · rw [e1, t1]; simp [he]
    · rw [e2, t2]; simp [he]
  · simp [he]
  · unfold calcLr
    rw [lrTries_first _ _ 1 _ _ _ _ 0 hrun (by rw [hov2, hre]; norm_num [abs_of_pos])]
    simp only [Option.bind_some]
    rw [normEnds, if_neg (by rw [hov2, hre]; norm_num)]
    simp only [if_true, Option.bind_some]
    rfl
  · rw [← adot_eq_trace, hov2, hre]
    change adot (((1 / Real.sqrt (3 / 5) : ℝ) : ℂ) • (1 / c) • lm)
      (((1 / Real.sqrt (3 / 5) : ℝ) : ℂ) • (1 / c) • rm) = _
    rw [adot_smul_left, adot_smul_right, hov2, ← mul_assoc, Complex.star_def, Complex.conj_ofReal,
      ← Complex.ofReal_mul, div_mul_div_comm, Real.mul_self_sqrt (by norm_num)]
    apply Complex.ext
    · rw [Complex.re_ofReal_mul, hre]; norm_num
    · rw [Complex.im_ofReal_mul, show z.im = 4 / 5 from rfl]; norm_num

end EvoMPS
