import Verif.SwOverlapLemmas
import Verif.Props.Fidelity
import Verif.Props.SwGrad

/-!
# C72: the overlap of two sandwich states
-/

namespace EvoMPS

open Matrix Uni SW Filter Topology
open scoped ComplexOrder

variable {q D D' : ℕ → ℕ} {qL qR m : ℕ}

/-- The tensors of the infinite chain a sandwich object describes. -/
def _root_.EvoMPS.SW.Sw.chain {N : ℕ} (S : Sw q D qL qR N) : SwTensors q D qL qR N := ⟨S.uniL.L, S.uniL.A, S.A, S.uniR.L, S.uniR.A⟩

/-- The squared norm of the state. -/
noncomputable def _root_.EvoMPS.SW.Sw.normSq {N : ℕ} (S : Sw q D qL qR N) : ℂ :=
  commonInner (S.uniL.l (S.uniL.L - 1)) (S.uniR.r (S.uniR.L - 1)) (amp S.A N) (amp S.A N)

theorem fid_one {q D D' : ℕ} {S : UMPS ℂ q D} {S' : UMPS ℂ q D'} (h : BulkReady S) (h' : BulkReady S') {lib : SpecLib (D * D')}
    (hlib : lib.Ok) {o : SpecOpts} {left : Bool} {f} (hf : fidelity lib o left S S' = some f)
    (hs : ∃ z g gi, BulkGauge S.L S'.L S.A S'.A z g gi) : f.1 = 1 ∧ ‖f.2.1‖ = 1 := by
  obtain ⟨z, g, gi, hg⟩ := hs
  obtain ⟨d, w, v⟩ := f
  have hd := C63_converse hlib h.pos h'.pos h.env h'.env h.left h'.right hf g gi hg.left_inv z hg.phase hg.eq
  refine ⟨hd, ?_⟩
  obtain ⟨h1, -⟩ := fidelity_spec hlib h.pos h'.pos hf
  rw [hd] at h1
  have hM : ((Nat.lcm S.L S'.L : ℕ) : ℝ) ≠ 0 := by exact_mod_cast (Nat.lcm_pos h.pos h'.pos).ne'
  have := congrArg (fun x : ℝ => x ^ ((Nat.lcm S.L S'.L : ℕ) : ℝ)) h1
  simp only [Real.one_rpow] at this
  rw [← Real.rpow_mul (norm_nonneg w), one_div, inv_mul_cancel₀ hM, Real.rpow_one] at this
  exact this.symm

/-- The gauge matrices the method computes. -/
theorem overlap_core (lib : ∀ n, SpecLib n) (hlib : ∀ n, (lib n).Ok) (tol : ℝ) (htol : 0 < tol) (S : Sw q D qL qR (m + 1))
    (S' : Sw q D' qL qR (m + 1)) (bL : BulkReady S.uniL) (bL' : BulkReady S'.uniL) (bR : BulkReady S.uniR) (bR' : BulkReady S'.uniR)
    (sL : ∃ z g gi, BulkGauge S.uniL.L S'.uniL.L S.uniL.A S'.uniL.A z g gi)
    (sR : ∃ z g gi, BulkGauge S.uniR.L S'.uniR.L S.uniR.A S'.uniR.A z g gi)
    (retL : (fidelity (lib _) ⟨false, false, 64⟩ true S.uniL S'.uniL).isSome)
    (retR : (fidelity (lib _) ⟨false, false, 64⟩ false S.uniR S'.uniR).isSome) :
    ∃ zL zR gl gli gr gri, BulkGauge S.uniL.L S'.uniL.L S.uniL.A S'.uniL.A zL gl gli ∧
      BulkGauge S.uniR.L S'.uniR.L S.uniR.A S'.uniR.A zR gr gri ∧
      S.uniL.l (S.uniL.L - 1) = gliᴴ * S'.uniL.l (S'.uniL.L - 1) * gli ∧
      S.uniR.r (S.uniR.L - 1) = gr * S'.uniR.r (S'.uniR.L - 1) * grᴴ ∧
      overlapSw lib tol S S' = overlapWindow S.A S'.A (S.uniL.l (S.uniL.L - 1)) gl m (S.uniR.r (S.uniR.L - 1)) gri := by
  obtain ⟨fL, hfL⟩ := Option.isSome_iff_exists.1 retL
  obtain ⟨fR, hfR⟩ := Option.isSome_iff_exists.1 retR
  obtain ⟨dL, wL⟩ := fid_one bL bL' (hlib _) hfL sL
  obtain ⟨dR, wR⟩ := fid_one bR bR' (hlib _) hfR sR
  obtain ⟨-, vL, -, eL⟩ := fidelity_spec (hlib _) bL.pos bL'.pos (d := fL.1) (w := fL.2.1) (v := fL.2.2) hfL
  obtain ⟨-, vR, eR, -⟩ := fidelity_spec (hlib _) bR.pos bR'.pos (d := fR.1) (w := fR.2.1) (v := fR.2.2) hfR
  obtain ⟨Li, li, a1, a2, a3, a4, a5⟩ := alignL bL bL' vL (eL rfl).1 (by split <;> simp [wL])
  obtain ⟨Ri, ri, b1, b2, b3, b4, b5⟩ := alignR bR bR' vR (eR rfl).1 wR
  have hD : D 0 = D' 0 ∧ D (m + 1) = D' (m + 1) := by
    obtain ⟨_, _, _, h1⟩ := sL
    obtain ⟨_, _, _, h2⟩ := sR
    exact ⟨bulkGauge_dim h1, bulkGauge_dim h2⟩
  set zL := (if (D 0 * D' 0 ≤ (64 : ℕ) ∨ (false : Bool) = true) ∧ ¬ (false : Bool) = true then star fL.2.1 else fL.2.1) with hzL
  set kL := laNorm (S.uniL.l (S.uniL.L - 1)) / laNorm ((Li * S.uniL.l (S.uniL.L - 1))ᴴ * S'.uniL.l (S'.uniL.L - 1) *
    (Li * S.uniL.l (S.uniL.L - 1))) with hkL
  set kR := laNorm (S.uniR.r (S.uniR.L - 1)) / laNorm ((Ri * S.uniR.r (S.uniR.L - 1))ᴴ * S'.uniR.r (S'.uniR.L - 1) *
    ((Ri * S.uniR.r (S.uniR.L - 1))ᴴ)ᴴ) with hkR
  have scale : ∀ k : ℝ, 0 < k → ((1 / Real.sqrt k : ℝ) : ℂ) * (Real.sqrt k : ℂ) = 1 := by
    intro k hk
    rw [← Complex.ofReal_mul, one_div, inv_mul_cancel₀ (Real.sqrt_pos.mpr hk).ne', Complex.ofReal_one]
  have sq : ∀ k : ℝ, 0 < k → (Real.sqrt k : ℂ) * star (Real.sqrt k : ℂ) = k := by
    intro k hk
    rw [Complex.star_def, Complex.conj_ofReal, ← Complex.ofReal_mul, Real.mul_self_sqrt hk.le]
  refine ⟨star zL, fR.2.1, ((1 / Real.sqrt kL : ℝ) : ℂ) • (li * reshape fL.2.2), (Real.sqrt kL : ℂ) • (Li * S.uniL.l (S.uniL.L - 1)),
    (Real.sqrt kR : ℂ) • (Ri * S.uniR.r (S.uniR.L - 1))ᴴ, ((1 / Real.sqrt kR : ℝ) : ℂ) • (ri * reshape fR.2.2)ᴴ, ⟨?_, ?_, ?_, fun s => ?_⟩,
    ⟨?_, ?_, ?_, fun s => ?_⟩, ?_, ?_, ?_⟩
  · rw [Matrix.smul_mul, Matrix.mul_smul, smul_smul, scale _ a3, one_smul, a5.right_inv]
  · rw [Matrix.smul_mul, Matrix.mul_smul, smul_smul, mul_comm, scale _ a3, one_smul, a5.left_inv]
  · exact a5.phase
  · rw [Matrix.smul_mul, Matrix.mul_smul, Matrix.smul_mul, smul_smul (Real.sqrt kL : ℂ), mul_comm (Real.sqrt kL : ℂ), scale _ a3, one_smul]
    exact a5.eq s
  · rw [Matrix.smul_mul, Matrix.mul_smul, smul_smul, mul_comm, scale _ b3, one_smul, b5.right_inv]
  · rw [Matrix.smul_mul, Matrix.mul_smul, smul_smul, scale _ b3, one_smul, b5.left_inv]
  · exact b5.phase
  · rw [Matrix.smul_mul, Matrix.mul_smul, Matrix.smul_mul, smul_smul ((1 / Real.sqrt kR : ℝ) : ℂ), scale _ b3, one_smul]
    exact b5.eq s
  · rw [Matrix.conjTranspose_smul, Matrix.smul_mul, Matrix.mul_smul, Matrix.smul_mul, smul_smul, sq _ a3]
    exact a4.symm
  · rw [Matrix.conjTranspose_smul, Matrix.smul_mul, Matrix.mul_smul, Matrix.smul_mul, smul_smul, mul_comm, sq _ b3]
    exact b4.symm
  · unfold overlapSw
    simp only []
    rw [hfL, Option.bind_some, hfR, Option.bind_some, if_pos hD, b1, Option.bind_some, b2, Option.bind_some, a2, Option.bind_some,
      a1, Option.bind_some, dL, dR, sub_self, abs_zero, if_neg (not_not.2 htol), if_neg (not_not.2 htol)]

/-- **C72.** If the bulks of the two states agree up to gauge transformations and phases, `overlap(other)` returns the inner product of
the two states: in the gauge in which the bulks of the other state have the tensors (up to phases) and the environments of this one. -/
theorem C72_overlap (lib : ∀ n, SpecLib n) (hlib : ∀ n, (lib n).Ok) (tol : ℝ) (htol : 0 < tol) (S : Sw q D qL qR (m + 2))
    (S' : Sw q D' qL qR (m + 2)) (bL : BulkReady S.uniL) (bL' : BulkReady S'.uniL) (bR : BulkReady S.uniR) (bR' : BulkReady S'.uniR)
    (sL : ∃ z g gi, BulkGauge S.uniL.L S'.uniL.L S.uniL.A S'.uniL.A z g gi)
    (sR : ∃ z g gi, BulkGauge S.uniR.L S'.uniR.L S.uniR.A S'.uniR.A z g gi)
    (retL : (fidelity (lib _) ⟨false, false, 64⟩ true S.uniL S'.uniL).isSome)
    (retR : (fidelity (lib _) ⟨false, false, 64⟩ false S.uniR S'.uniR).isSome) :
    ∃ zL zR gl gli gr gri, BulkGauge S.uniL.L S'.uniL.L S.uniL.A S'.uniL.A zL gl gli ∧
      BulkGauge S.uniR.L S'.uniR.L S.uniR.A S'.uniR.A zR gr gri ∧
      S.uniL.l (S.uniL.L - 1) = gliᴴ * S'.uniL.l (S'.uniL.L - 1) * gli ∧
      S.uniR.r (S.uniR.L - 1) = gr * S'.uniR.r (S'.uniR.L - 1) * grᴴ ∧
      overlapSw lib tol S S' = some (commonInner (S.uniL.l (S.uniL.L - 1)) (S.uniR.r (S.uniR.L - 1)) (amp S.A (m + 2))
        fun s => gl * amp S'.A (m + 2) s * gri) := by
  obtain ⟨zL, zR, gl, gli, gr, gri, h1, h2, h3, h4, h5⟩ := overlap_core lib hlib tol htol S S' bL bL' bR bR' sL sR retL retR
  exact ⟨zL, zR, gl, gli, gr, gri, h1, h2, h3, h4, h5.trans (overlapWindow_eq S.A S'.A _ bL.left.isHermitian.eq _ m _ _)⟩

/-- **C72.** For two states of norm one the modulus of the result is at most one, and it is one exactly if the states are the same. -/
theorem C72_fidelity (lib : ∀ n, SpecLib n) (hlib : ∀ n, (lib n).Ok) (tol : ℝ) (htol : 0 < tol) (S : Sw q D qL qR (m + 2))
    (S' : Sw q D' qL qR (m + 2)) (bL : BulkReady S.uniL) (bL' : BulkReady S'.uniL) (bR : BulkReady S.uniR) (bR' : BulkReady S'.uniR)
    (sL : ∃ z g gi, BulkGauge S.uniL.L S'.uniL.L S.uniL.A S'.uniL.A z g gi)
    (sR : ∃ z g gi, BulkGauge S.uniR.L S'.uniR.L S.uniR.A S'.uniR.A z g gi)
    (norm : S.normSq = 1) (norm' : S'.normSq = 1) (v : ℂ) (hv : overlapSw lib tol S S' = some v) :
    ‖v‖ ≤ 1 ∧ (‖v‖ = 1 ↔ SameState S.chain S'.chain) := by
  have retL : (fidelity (lib _) ⟨false, false, 64⟩ true S.uniL S'.uniL).isSome := by
    obtain ⟨f, hf, -⟩ := Option.bind_eq_some_iff.1 hv
    rw [hf]; rfl
  have retR : (fidelity (lib _) ⟨false, false, 64⟩ false S.uniR S'.uniR).isSome := by
    obtain ⟨f, hf, h2⟩ := Option.bind_eq_some_iff.1 hv
    obtain ⟨f, hf, -⟩ := Option.bind_eq_some_iff.1 h2
    rw [hf]; rfl
  obtain ⟨zL, zR, gl, gli, gr, gri, hL, hR, el, er, ev⟩ := C72_overlap lib hlib tol htol S S' bL bL' bR bR' sL sR retL retR
  have hv' := Option.some.inj (hv.symm.trans ev)
  set M := amp S.A (m + 2) with hM
  set M' := fun s => gl * amp S'.A (m + 2) s * gri with hM'
  set l := S.uniL.l (S.uniL.L - 1) with hl
  set r := S.uniR.r (S.uniR.L - 1) with hr
  have ol : glᴴ * l * gl = S'.uniL.l (S'.uniL.L - 1) := by
    rw [el, show glᴴ * (gliᴴ * S'.uniL.l (S'.uniL.L - 1) * gli) * gl = (gli * gl)ᴴ * S'.uniL.l (S'.uniL.L - 1) * (gli * gl) by
      simp only [Matrix.conjTranspose_mul, Matrix.mul_assoc], hL.left_inv, Matrix.conjTranspose_one, Matrix.one_mul, Matrix.mul_one]
  have or' : gri * r * griᴴ = S'.uniR.r (S'.uniR.L - 1) := by
    rw [er, show gri * (gr * S'.uniR.r (S'.uniR.L - 1) * grᴴ) * griᴴ = (gri * gr) * S'.uniR.r (S'.uniR.L - 1) * (gri * gr)ᴴ by
      simp only [Matrix.conjTranspose_mul, Matrix.mul_assoc], hR.left_inv, Matrix.conjTranspose_one, Matrix.one_mul, Matrix.mul_one]
  have n2 : commonInner l r M' M' = 1 := by
    rw [← norm', Sw.normSq, ← ol, ← or', commonInner, commonInner]
    refine Finset.sum_congr rfl fun s _ => ?_
    simp only [hM', Matrix.conjTranspose_mul]
    rw [show l * (gl * amp S'.A (m + 2) s * gri) * r * (griᴴ * ((amp S'.A (m + 2) s)ᴴ * glᴴ))
      = (l * gl * amp S'.A (m + 2) s * gri * r * griᴴ * (amp S'.A (m + 2) s)ᴴ) * glᴴ by simp only [Matrix.mul_assoc],
      Matrix.trace_mul_comm]
    simp only [Matrix.mul_assoc]
  obtain ⟨c1, c2⟩ := commonInner_cs bL.left bR.right (M := M) (M' := M') norm n2
  rw [← hv'] at c1 c2
  refine ⟨c1, fun h1 => ⟨gl, gli, gr, gri, zL, zR, v, hL, hR, c2 h1⟩, ?_⟩
  rintro ⟨g, gi, h, hi, z, w, κ, k1, k2, k3⟩
  obtain ⟨c, hc, x1, -⟩ := bulkGauge_unique bL bL' k1 hL
  obtain ⟨d, hd, -, x2⟩ := bulkGauge_unique bR bR' k2 hR
  have hMM : ∀ s, M' s = (c * d⁻¹) • (g * amp S'.A (m + 2) s * hi) := by
    intro s
    simp only [hM']
    rw [x1, x2, Matrix.smul_mul, Matrix.mul_smul, Matrix.smul_mul, smul_smul, mul_comm]
  have hκ : κ ≠ 0 := by
    rintro rfl
    have : M = fun _ => 0 := by
      funext s
      rw [hM, show amp S.A (m + 2) s = _ from k3 s, zero_smul]
    rw [Sw.normSq, ← hM, this] at norm
    simp [commonInner] at norm
  set k := c * d⁻¹ * κ⁻¹ with hk
  have hMk : ∀ s, M' s = k • M s := by
    intro s
    rw [hMM, hM, show amp S.A (m + 2) s = _ from k3 s, smul_smul, hk, mul_assoc, inv_mul_cancel₀ hκ, mul_one]
    rfl
  have q1 : v = star k := by
    have : commonInner l r M M' = star k * commonInner l r M M := by
      simp only [commonInner, Finset.mul_sum]
      refine Finset.sum_congr rfl fun s _ => ?_
      rw [hMk, Matrix.conjTranspose_smul, Matrix.mul_smul, Matrix.trace_smul, smul_eq_mul]
    rw [hv', this, show commonInner l r M M = 1 from norm, mul_one]
  have q2 : k * star k = 1 := by
    rw [← n2]
    have : commonInner l r M' M' = k * star k * commonInner l r M M := by
      simp only [commonInner, Finset.mul_sum]
      refine Finset.sum_congr rfl fun s _ => ?_
      rw [hMk, Matrix.conjTranspose_smul, Matrix.mul_smul, Matrix.mul_smul, Matrix.smul_mul, Matrix.smul_mul, smul_smul,
        Matrix.trace_smul, smul_eq_mul, mul_comm (star k)]
    rw [this, show commonInner l r M M = 1 from norm, mul_one]
  rw [q1, norm_star]
  have := congrArg (fun x : ℂ => ‖x‖) q2
  beta_reduce at this
  rw [norm_mul, norm_star, norm_one] at this
  nlinarith [norm_nonneg k]

/-- **C72.** If the result is not zero, the fidelities per site of the bulks differ from one by less than the tolerance. -/
theorem C72_mismatch (lib : ∀ n, SpecLib n) (tol : ℝ) (S : Sw q D qL qR (m + 1)) (S' : Sw q D' qL qR (m + 1)) (v : ℂ)
    (hv : overlapSw lib tol S S' = some v) (h0 : v ≠ 0) :
    ∃ fL fR, fidelity (lib _) ⟨false, false, 64⟩ true S.uniL S'.uniL = some fL ∧
      fidelity (lib _) ⟨false, false, 64⟩ false S.uniR S'.uniR = some fR ∧ |fL.1 - 1| < tol ∧ |fR.1 - 1| < tol := by
  obtain ⟨fL, hfL, h⟩ := Option.bind_eq_some_iff.1 hv
  obtain ⟨fR, hfR, h⟩ := Option.bind_eq_some_iff.1 h
  refine ⟨fL, fR, hfL, hfR, ?_⟩
  by_cases hD : D 0 = D' 0 ∧ D (m + 1) = D' (m + 1)
  swap
  · rw [if_neg hD] at h; cases h
  rw [if_pos hD] at h
  obtain ⟨_, -, h⟩ := Option.bind_eq_some_iff.1 h
  obtain ⟨_, -, h⟩ := Option.bind_eq_some_iff.1 h
  obtain ⟨_, -, h⟩ := Option.bind_eq_some_iff.1 h
  obtain ⟨_, -, h⟩ := Option.bind_eq_some_iff.1 h
  by_cases h1 : ¬ |fL.1 - 1| < tol
  · rw [if_pos h1] at h
    exact absurd (Option.some.inj h).symm h0
  rw [if_neg h1] at h
  by_cases h2 : ¬ |fR.1 - 1| < tol
  · rw [if_pos h2] at h
    exact absurd (Option.some.inj h).symm h0
  exact ⟨not_not.1 h1, not_not.1 h2⟩

/-! ## Windows of one site -/

/-- The bulk of a product state. -/
theorem numState_ready : BulkReady (numState 1 fun _ => 1) where
  pos := Nat.one_pos
  env := numState_env _ _ (by simp)
  left := Matrix.PosDef.one
  right := Matrix.PosDef.one
  lim x := by
    refine tendsto_const_nhds.congr fun n => ?_
    rw [show chainTransfer (numState 1 fun _ => 1).L (numState 1 fun _ => 1).L (numState 1 fun _ => 1).A (numState 1 fun _ => 1).A 0
      (n * (numState 1 fun _ => 1).L) x = _ from numState_transfer 1 1 _ _ _ x]
    ext i j
    simp [numState, Subsingleton.elim i 0, Subsingleton.elim j 0, Matrix.trace]

theorem BulkGauge.refl {q D L : ℕ} (A : ℕ → Ten ℂ q D D) : BulkGauge L L A A 1 1 1 where
  right_inv := by simp
  left_inv := by simp
  phase := by simp
  eq s := by simp

/-- A single site with state `(a, b)` between product bulks. -/
noncomputable def demoOneSite (a b : ℂ) : Sw (fun _ => 2) (fun _ => 1) 1 1 1 where
  nc := 1
  A _ s := ![a, b] s • 1
  l _ := 1
  r _ := 1
  lEnd := 1
  rEnd := 1
  uniL := numState 1 fun _ => 1
  uniR := numState 1 fun _ => 1

theorem demoOneSite_inner (a b c d : ℂ) :
    commonInner (1 : Matrix (Fin 1) (Fin 1) ℂ) (1 : Matrix (Fin 1) (Fin 1) ℂ) (amp (demoOneSite a b).A 1) (amp (demoOneSite c d).A 1)
      = a * star c + b * star d := by
  rw [commonInner, sum_cfg_succ]
  simp [amp, demoOneSite, Fin.sum_univ_two, Cfg]
  change (starRingEnd ℂ) (![c, d] 0) * ![a, b] 0 + (starRingEnd ℂ) (![c, d] 1) * ![a, b] 1 = _
  simp
  ring

/-- **C72.** A window of one site is counted twice. Two states that differ in nothing but the state of the only site of the window, which
have norm one and the inner product `3/5`: `overlap` returns a number of modulus `9/25`. -/
theorem C72_single_violated (tol : ℝ) (htol : 0 < tol) : ∃ S S' : Sw (fun _ => 2) (fun _ => 1) 1 1 1, S.uniL = S'.uniL ∧ S.uniR = S'.uniR ∧
    BulkReady S.uniL ∧ BulkReady S.uniR ∧ S.normSq = 1 ∧ S'.normSq = 1 ∧
    commonInner (S.uniL.l (S.uniL.L - 1)) (S.uniR.r (S.uniR.L - 1)) (amp S.A 1) (amp S'.A 1) = 3 / 5 ∧
    ∃ v, overlapSw someSpecLib tol S S' = some v ∧ ‖v‖ = 9 / 25 := by
  refine ⟨demoOneSite 1 0, demoOneSite (3 / 5) (4 / 5), rfl, rfl, numState_ready, numState_ready, ?_, ?_, ?_, ?_⟩
  · exact (demoOneSite_inner 1 0 1 0).trans (by simp)
  · exact (demoOneSite_inner (3 / 5) (4 / 5) (3 / 5) (4 / 5)).trans (by simp; norm_num)
  · exact (demoOneSite_inner 1 0 (3 / 5) (4 / 5)).trans (by simp)
  · have ret : ∀ left, (fidelity (someSpecLib (1 * 1)) ⟨false, false, 64⟩ left (numState 1 fun _ => 1) (numState 1 fun _ => 1)).isSome := by
      intro left
      obtain ⟨f, hf⟩ := fidelity_returns (q := 1) Nat.one_pos Nat.one_pos (o := ⟨false, false, 64⟩) (by simp) left
        (numState 1 fun _ => 1) (numState 1 fun _ => 1) Nat.one_pos Nat.one_pos
      rw [hf]; rfl
    obtain ⟨zL, zR, gl, gli, gr, gri, h1, h2, h3, h4, h5⟩ := overlap_core someSpecLib (fun n => someSpecLib_ok n) tol htol (demoOneSite 1 0)
      (demoOneSite (3 / 5) (4 / 5)) numState_ready numState_ready numState_ready numState_ready ⟨1, 1, 1, BulkGauge.refl _⟩
      ⟨1, 1, 1, BulkGauge.refl _⟩ (ret true) (ret false)
    refine ⟨_, h5.trans (by unfold overlapWindow; exact dif_pos ⟨rfl, rfl⟩), ?_⟩
    have unit : ∀ g gi : ℂ, gi * star gi = 1 → g * gi = 1 → ‖g‖ = 1 := by
      intro g gi h6 h7
      have h8 := congrArg (fun x : ℂ => ‖x‖) h6
      have h9 := congrArg (fun x : ℂ => ‖x‖) h7
      beta_reduce at h8 h9
      rw [norm_mul, norm_star, norm_one] at h8
      rw [norm_mul, norm_one] at h9
      nlinarith [norm_nonneg gi, norm_nonneg g]
    have n1 : ‖gl 0 0‖ = 1 := by
      have h6 := congrFun (congrFun h3 0) 0
      have h7 := congrFun (congrFun h1.right_inv 0) 0
      refine unit _ (gli 0 0) ?_ ?_
      · simp [demoOneSite, numState, Matrix.mul_apply] at h6
        rw [Complex.star_def, mul_comm]
        exact h6.symm
      · simpa [Matrix.mul_apply] using h7
    have n2 : ‖gri 0 0‖ = 1 := by
      have h6 := congrFun (congrFun h4 0) 0
      have h7 := congrFun (congrFun h2.left_inv 0) 0
      refine unit _ (gr 0 0) ?_ ?_
      · simp [demoOneSite, numState, Matrix.mul_apply] at h6
        rw [Complex.star_def]
        exact h6.symm
      · simpa [Matrix.mul_apply] using h7
    rw [adot_eq_trace, epsR_eq, epsR_eq]
    simp [demoOneSite, numState, Fin.sum_univ_two, Matrix.mul_apply, Matrix.trace, n1, n2]
    norm_num

/-! ## A concrete case -/

theorem demoPauli4_ready (ham : UHam 4) : BulkReady (demoPauli4 ham).toUMPS where
  pos := Nat.one_pos
  env := demoPauli4_env ham
  left := by
    have : (demoPauli4 ham).toUMPS.l ((demoPauli4 ham).toUMPS.L - 1) = Matrix.diagonal fun _ => (1 / 2 : ℂ) := by
      ext i j; fin_cases i <;> fin_cases j <;> simp [demoPauli4]
    rw [this]
    exact Matrix.PosDef.diagonal fun i => by simp
  right := Matrix.PosDef.one
  lim x := by
    have := demoPauli4_limit ham x
    rw [adot_eq_trace] at this
    exact this

/-- A window of two sites with the tensor of the bulks, where the states of the first site are permuted. -/
noncomputable def demoPermuted (ham : UHam 4) (σ : Equiv.Perm (Fin 4)) : Sw (fun _ => 4) (fun _ => 2) 4 4 2 where
  nc := 1
  A n s := (demoPauli4 ham).A 0 (if n = 0 then σ s else s)
  l _ := 0
  r _ := 0
  lEnd := 0
  rEnd := 0
  uniL := (demoPauli4 ham).toUMPS
  uniR := (demoPauli4 ham).toUMPS

theorem demoPermuted_norm (ham : UHam 4) (σ : Equiv.Perm (Fin 4)) : (demoPermuted ham σ).normSq = 1 := by
  have h := overlapWindow_eq (demoPermuted ham σ).A (demoPermuted ham σ).A ((demoPauli4 ham).l 0)
    (demoPauli4_ready ham).left.isHermitian.eq 1 0 1 1
  have e1 : epsR 1 ((demoPermuted ham σ).A 1) (fun s => (demoPermuted ham σ).A 1 s * 1) = 1 := by
    have := demoPauli4_map ham 0 1
    rw [epsR_eq]
    simp only [Matrix.mul_one] at this ⊢
    refine Eq.trans this ?_
    simp
  have e0 : epsR 1 ((demoPermuted ham σ).A 0) (fun s => 1 * (demoPermuted ham σ).A 0 s) = 1 := by
    have := demoPauli4_map ham 0 1
    rw [epsR_eq]
    simp only [Matrix.one_mul]
    refine Eq.trans ((Equiv.sum_comp σ fun s => (demoPauli4 ham).A 0 s * 1 * ((demoPauli4 ham).A 0 s)ᴴ).trans this) ?_
    simp
  have h2 : overlapWindow (demoPermuted ham σ).A (demoPermuted ham σ).A ((demoPauli4 ham).l 0) 1 1 1 1 = some 1 := by
    unfold overlapWindow
    simp only [overlapLoop, List.range'_zero, List.reverse_nil, List.foldl_nil, Function.update_self]
    rw [e1, e0, adot_eq_trace]
    simp [demoPauli4, Matrix.trace, Complex.conj_ofNat]
    norm_num
  have h3 := Option.some.inj (h.symm.trans h2)
  simp only [Matrix.one_mul, Matrix.mul_one] at h3
  exact h3

theorem demoPermuted_returns (ham : UHam 4) (left : Bool) :
    (fidelity (someSpecLib (2 * 2)) ⟨false, false, 64⟩ left (demoPauli4 ham).toUMPS (demoPauli4 ham).toUMPS).isSome := by
  obtain ⟨f, hf⟩ := fidelity_returns (q := 4) Nat.two_pos Nat.two_pos (o := ⟨false, false, 64⟩) (by simp) left
    (demoPauli4 ham).toUMPS (demoPauli4 ham).toUMPS Nat.one_pos Nat.one_pos
  rw [hf]; rfl

/-- The hypotheses are satisfiable: two windows between the same bulks that differ by a permutation of the states of one site. -/
example (ham : UHam 4) (σ τ : Equiv.Perm (Fin 4)) : ∃ v, overlapSw someSpecLib (1 / 10 ^ 12) (demoPermuted ham σ) (demoPermuted ham τ) = some v
    ∧ ‖v‖ ≤ 1 ∧ (‖v‖ = 1 ↔ SameState (demoPermuted ham σ).chain (demoPermuted ham τ).chain) := by
  obtain ⟨zL, zR, gl, gli, gr, gri, -, -, -, -, h5⟩ := C72_overlap someSpecLib (fun n => someSpecLib_ok n) (1 / 10 ^ 12) (by positivity) (demoPermuted ham σ)
      (demoPermuted ham τ) (demoPauli4_ready ham) (demoPauli4_ready ham) (demoPauli4_ready ham) (demoPauli4_ready ham) ⟨1, 1, 1, BulkGauge.refl _⟩
      ⟨1, 1, 1, BulkGauge.refl _⟩ (demoPermuted_returns ham true) (demoPermuted_returns ham false)
  exact ⟨_, h5, C72_fidelity someSpecLib (fun n => someSpecLib_ok n) (1 / 10 ^ 12) (by positivity) (demoPermuted ham σ)
      (demoPermuted ham τ) (demoPauli4_ready ham) (demoPauli4_ready ham) (demoPauli4_ready ham) (demoPauli4_ready ham) ⟨1, 1, 1, BulkGauge.refl _⟩
      ⟨1, 1, 1, BulkGauge.refl _⟩ (demoPermuted_norm ham σ) (demoPermuted_norm ham τ) _ h5⟩

end EvoMPS
