import Verif.SwUpdate
import Verif.Props.UniformCF

/-!
# C62: canonical form and normalisation of a finite part between two uniform chains
-/

namespace EvoMPS

open Matrix Uni SW
open scoped ComplexOrder

variable {q D : ℕ → ℕ} {qL qR N : ℕ}

/-- **C62** `restore_CF()`.  `S0` is the state before the call, `S` the same with the environments of the bulk chains
computed by `calc_lr()`; `l0`, `r0` are the environments of the finite part and `c + 1` is `N_centre`.  Let the
bulk sites have the same dimension, let `l` left of the centre and `r` right of it (in the bulk and in the finite part) have full rank and let
the norm not vanish.  Whatever the library returns for the factorisations, `restore_CF` succeeds, and:
* the bulk tensors and the tensors of the finite part are the old ones up to invertible gauge matrices which match at the two
boundaries, and up to the factor `κ` of the centre tensor (`1/√ν` if the squared norm `ν` differs from one by more than `eps`,
else 1);
* so every operator on any number of blocks around the finite part has the expectation value of the old state times `κ²`, and
expectation values in the bulk chains are unchanged;
* the stored environments are those of the new tensors, `l` is the identity up to the centre, `r` the identity after it, and the other
one is a diagonal matrix of ascending nonnegative numbers; the norm is `κ² ν` at each bond. -/
theorem C62_canonical_partial (P : HermLib) {tol : ℝ} (h0 : 0 ≤ tol) (eps : ℝ) (hq : qL = qR) {clrL clrR}
    {S0 S : Sw q D qL qR N} {c : ℕ} (hnc : S0.nc = c + 1) (hc : c < N)
    (hclrL : clrL S0.uniL = some S.uniL) (hclrR : clrR S0.uniR = some S.uniR)
    (hS : S = { S0 with uniL := S.uniL, uniR := S.uniR }) {l0 r0 : Envs ℂ D}
    (pL : 0 < S.uniL.L) (pR : 0 < S.uniR.L)
    (envL : ChainEnv S.uniL.L S.uniL.A S.uniL.l S.uniL.r) (envR : ChainEnv S.uniR.L S.uniR.A S.uniR.l S.uniR.r)
    (env : SwEnv N S.A (S.uniL.l (S.uniL.L - 1)) (S.uniR.r (S.uniR.L - 1)) l0 r0)
    (bulkL : ∀ k < S.uniL.L, AboveTol tol (S.uniL.l k) ∧ (S.uniL.r k).PosSemidef)
    (bulkR : ∀ k < S.uniR.L, AboveTol tol (S.uniR.r k) ∧ (S.uniR.l k).PosSemidef)
    (left : ∀ n ≤ c, AboveTol tol (l0 n)) (right : ∀ n, c < n → n ≤ N → AboveTol tol (r0 n))
    (hne : ((l0 c)ᴴ * r0 c).trace ≠ 0) :
    ∃ S' gL giL gR giR g gi, ∃ ν κ : ℝ, restoreSwCF P tol eps clrL clrR S0 = some S' ∧
      S'.nc = S0.nc ∧ S'.uniL.L = S.uniL.L ∧ S'.uniR.L = S.uniR.L ∧
      -- the tensors
      (GaugeBy S.uniL.L gL giL S.uniL.A S'.uniL.A ∧ GaugeBy S.uniR.L gR giR S.uniR.A S'.uniR.A ∧
        SwGauge N c (κ : ℂ) g gi S.A S'.A ∧ (g 0 = gL (S.uniL.L - 1) ∧ gi 0 = giL (S.uniL.L - 1)) ∧
        (g N = gR (S.uniR.L - 1) ∧ gi N = giR (S.uniR.L - 1))) ∧
      -- the state
      (SameChain S.uniL.L gL giL S.uniL.A S.uniL.l S.uniL.r S'.uniL.A S'.uniL.l S'.uniL.r ∧
        SameChain S.uniR.L gR giR S.uniR.A S.uniR.l S.uniR.r S'.uniR.A S'.uniR.l S'.uniR.r ∧
        ∀ a b O, swExpect ⟨S.uniL.L, S'.uniL.A, S'.A, S.uniR.L, S'.uniR.A⟩ (S'.uniL.l (S.uniL.L - 1))
            (S'.uniR.r (S.uniR.L - 1)) a b O
          = (κ : ℂ) ^ 2 * swExpect ⟨S.uniL.L, S.uniL.A, S.A, S.uniR.L, S.uniR.A⟩ (S.uniL.l (S.uniL.L - 1))
            (S.uniR.r (S.uniR.L - 1)) a b O) ∧
      -- the environments
      (ChainEnv S.uniL.L S'.uniL.A S'.uniL.l S'.uniL.r ∧ ChainEnv S.uniR.L S'.uniR.A S'.uniR.l S'.uniR.r ∧
        SwEnv N S'.A (S'.uniL.l (S.uniL.L - 1)) (S'.uniR.r (S.uniR.L - 1)) S'.l S'.r ∧
        S'.lEnd = ∑ s, (S'.uniR.A 0 s)ᴴ * S'.l N * S'.uniR.A 0 s ∧ S'.rEnd = 1) ∧
      -- the canonical form
      ((∀ k < S.uniL.L, S'.uniL.l k = 1) ∧ (∀ k < S.uniR.L, S'.uniR.r k = 1) ∧
        (∀ n ≤ c, S'.l n = 1 ∧ AscendingDiag (S'.r n)) ∧ ∀ n, c < n → n ≤ N → S'.r n = 1 ∧ AscendingDiag (S'.l n)) ∧
      -- the norm
      0 < ν ∧ (∀ n ≤ N, ((l0 n)ᴴ * r0 n).trace = (ν : ℂ)) ∧ κ = (if eps < |1 - ν| then 1 / Real.sqrt ν else 1) ∧
      ∀ n ≤ N, ((S'.l n)ᴴ * S'.r n).trace = ((if eps < |1 - ν| then 1 else ν : ℝ) : ℂ) := by
  obtain ⟨S', ν, κ, gL, giL, gR, giR, g, gi, h1, h⟩ := restoreSwCF_spec P h0 eps hq hnc hc hclrL hclrR hS
    ⟨pL, pR, envL, envR, env, bulkL, bulkR, left, right⟩ hne
  refine ⟨S', gL, giL, gR, giR, g, gi, ν, κ, h1, ?_, h.LL, h.LR, ⟨h.relL.by_, h.relR.by_, h.gauge, h.g0, h.gN⟩,
    ⟨h.relL.same pL, h.relR.same pR, fun a b O => ?_⟩, ⟨h.relL.env pL envL, h.relR.env pR envR, h.env, h.lEnd, h.rEnd⟩,
    ⟨h.oneL, h.oneR, h.left, h.right⟩, h.norm.1, h.norm.2, h.factor, fun n hn => ?_⟩
  · rw [h.nc, hS]
  · have := swExpect_gauge (T := ⟨S.uniL.L, S.uniL.A, S.A, S.uniR.L, S.uniR.A⟩) hc pL pR h.relL.by_ h.relR.by_ h.gauge h.g0 h.gN
      a b (h.relL.left _ (Nat.sub_lt pL Nat.one_pos)) (h.relR.right _ (Nat.sub_lt pR Nat.one_pos)) O
    rw [this, Complex.star_def, Complex.conj_ofReal, pow_two]
  · rw [swNorm_gauge hc h.gauge env h.env (by rw [h.g0.1]; exact h.relL.left _ (Nat.sub_lt pL Nat.one_pos))
      (by rw [h.gN.2]; exact h.relR.right _ (Nat.sub_lt pR Nat.one_pos)) n hn, h.norm.2 n hn, ← factor_norm h.norm.1 h.factor]
    push_cast
    ring

/-- **C62** `update(restore_CF=False, normalize=False)`: the stored environments become those of the tensors, nothing else changes. -/
theorem C62_update (eps : ℝ) (S : Sw q D qL qR N) :
    ∃ l r lEnd, updateSw eps false S = some { S with l := l, r := r, lEnd := lEnd } ∧
      SwEnv N S.A (S.uniL.l (S.uniL.L - 1)) (S.uniR.r (S.uniR.L - 1)) l r ∧
      lEnd = ∑ s, (S.uniR.A 0 s)ᴴ * l N * S.uniR.A 0 s :=
  updateSw_plain eps S

/-- **C62** `update(restore_CF=False)`: let `ν > 0` be the squared norm of the state before.  Then the tensor of the centre is
multiplied by `1/√ν` (unless `ν` is one up to `eps`), the stored environments are those of the new tensors, so that the norm
is one (up to `eps`) at each bond, and nothing else changes. -/
theorem C62_update_normalized (eps : ℝ) (S : Sw q D qL qR N) {c : ℕ} (hnc : S.nc = c + 1) (hc : c < N) {l0 r0 : Envs ℂ D}
    (hE : SwEnv N S.A (S.uniL.l (S.uniL.L - 1)) (S.uniR.r (S.uniR.L - 1)) l0 r0) {ν : ℝ} (hν : 0 < ν)
    (hn : ((l0 0)ᴴ * r0 0).trace = (ν : ℂ)) :
    ∃ A l r lEnd, updateSw eps true S = some { S with A := A, l := l, r := r, lEnd := lEnd } ∧
      A = Function.update S.A c (fun s => ((if eps < |1 - ν| then 1 / Real.sqrt ν else 1 : ℝ) : ℂ) • S.A c s) ∧
      SwEnv N A (S.uniL.l (S.uniL.L - 1)) (S.uniR.r (S.uniR.L - 1)) l r ∧
      lEnd = ∑ s, (S.uniR.A 0 s)ᴴ * l N * S.uniR.A 0 s ∧
      ∀ n ≤ N, ((l n)ᴴ * r n).trace = ((if eps < |1 - ν| then 1 else ν : ℝ) : ℂ) := by
  obtain ⟨A, l, r, lEnd, h1, h2, h3, h4⟩ := updateSw_norm eps S hnc hc hE
  rw [hE.norm c hc.le, hn, renormFactor_pos eps hν] at h2
  refine ⟨A, l, r, lEnd, h1, h2, h3, h4, fun n hn' => ?_⟩
  have hg : SwGauge N c (((if eps < |1 - ν| then 1 / Real.sqrt ν else 1 : ℝ)) : ℂ) (fun n => 1) (fun n => 1) S.A A := by
    refine ⟨fun n _ => ⟨Matrix.mul_one _, Matrix.mul_one _⟩, fun n _ s => ?_⟩
    rw [Matrix.one_mul, Matrix.mul_one, h2]
    by_cases e : n = c
    · subst e
      rw [Function.update_self, if_pos rfl]
    · rw [Function.update_of_ne e, if_neg e, one_smul]
  rw [swNorm_gauge hc hg hE h3 (by simp) (by simp) n hn', hE.norm n hn', hn, ← factor_norm hν rfl]
  push_cast
  ring

/-- **C62** is violated by states with one site: the constructor sets `N_centre = N // 2`, which is 0 for `N = 1`, and then `restore_CF()` and
`update()` raise (the tensor `A[0]` does not exist). -/
theorem C62_single_site_violated (P : HermLib) (tol eps : ℝ) (clrL clrR) (S : Sw q D qL qR N) (h : S.nc = 0) :
    restoreSwCF P tol eps clrL clrR S = none ∧ updateSw eps true S = none := by
  constructor
  · unfold restoreSwCF
    rcases clrL S.uniL with _ | u
    · rfl
    rcases clrR S.uniR with _ | v
    · rfl
    simp only [Option.bind_some, h]
  · unfold updateSw
    simp only [if_true, h]

/-- **C62** is violated by chains with different dimension of the sites: if the sites to the left have a larger dimension than the sites
to the right, `restore_CF()` raises an exception, because the number of tensors of the right chain to be transformed is taken from the left
chain. -/
theorem C62_dimension_violated (P : HermLib) (tol eps : ℝ) (clrL clrR) (S : Sw q D qL qR N) (h : qR < qL) :
    restoreSwCF P tol eps clrL clrR S = none := by
  unfold restoreSwCF
  rcases clrL S.uniL with _ | u
  · rfl
  rcases clrR S.uniR with _ | v
  · rfl
  simp only [Option.bind_some]
  split
  · rfl
  · rename_i c _
    generalize restoreONR P tol c { S with uniL := u, uniR := v } = X
    rcases X with _ | X
    · rfl
    simp only [Option.bind_some, restoreDiag, gaugeEnds, le_refl, if_true, if_neg (Nat.not_le.mpr h), Option.bind_none]

/-! ## A concrete state -/

theorem AboveTol.smul {n : ℕ} {tol k : ℝ} (h0 : 0 ≤ tol) (hk : 1 ≤ k) {M : Matrix (Fin n) (Fin n) ℂ} (h : AboveTol tol M) :
    AboveTol tol ((k : ℂ) • M) := by
  have e : (k : ℂ) • M - (tol : ℂ) • 1 = (M - (tol : ℂ) • 1) + ((k - 1 : ℝ) : ℂ) • M := by
    push_cast
    rw [sub_smul, one_smul]
    abel
  rw [AboveTol, e]
  refine Matrix.PosDef.add_posSemidef h ?_
  refine (h.posDef h0).posSemidef.smul ?_
  exact_mod_cast sub_nonneg.mpr hk

/-- Two sites with `A = 2 demoLCF.A` between two chains `demoLCF`. -/
noncomputable def demoSw : Sw (fun _ => 4) (fun _ => 2) 4 4 2 where
  nc := 1
  A _ s := (2 : ℂ) • demoLCF.A 0 s
  l _ := 0
  r _ := 0
  lEnd := 0
  rEnd := 0
  uniL := demoLCF
  uniR := demoLCF

noncomputable def demoSwL (n : ℕ) : Matrix (Fin 2) (Fin 2) ℂ := ((4 ^ n : ℝ) : ℂ) • demoLCF.l 0
noncomputable def demoSwR (n : ℕ) : Matrix (Fin 2) (Fin 2) ℂ := ((4 ^ (2 - n) : ℝ) : ℂ) • demoLCF.r 0

theorem demoSw_env : SwEnv (q := fun _ => 4) (D := fun _ => 2) 2 demoSw.A (demoLCF.l 0) (demoLCF.r 0) demoSwL demoSwR where
  first := by simp [demoSwL]
  l_succ n hn := by
    have h := demoLCF_env.left 0 (by omega)
    rw [show (0 + 1 - 1) % 1 = 0 from rfl] at h
    simp only [demoSw, demoSwL, Matrix.conjTranspose_smul, Matrix.smul_mul, Matrix.mul_smul, smul_smul]
    rw [← Finset.smul_sum, ← h]
    congr 1
    simp [pow_succ]
    ring
  last := by simp [demoSwR]
  r_pred n hn := by
    have h := demoLCF_env.right 0 (by omega)
    rw [show (0 + 1 - 1) % 1 = 0 from rfl] at h
    simp only [demoSw, demoSwR, Matrix.conjTranspose_smul, Matrix.smul_mul, Matrix.mul_smul, smul_smul]
    rw [← Finset.smul_sum, ← h]
    congr 1
    rw [show 2 - n = 2 - (n + 1) + 1 by omega]
    simp [pow_succ]
    ring

theorem demoSw_norm : ((demoSwL 0)ᴴ * demoSwR 0).trace = ((16 : ℝ) : ℂ) := by
  have h := demoLCF_env.norm 0 (by omega)
  simp only [demoSwL, demoSwR, Matrix.conjTranspose_smul, Matrix.smul_mul, Matrix.mul_smul, Matrix.trace_smul, h]
  simp
  norm_num

/-- The demonstration state meets the hypotheses: it has squared norm 16 and `restore_CF` makes it one. -/
example (P : HermLib) : ∃ S', restoreSwCF P (1/100) (1/1000) some some demoSw = some S' ∧
    ∀ n ≤ 2, ((S'.l n)ᴴ * S'.r n).trace = 1 := by
  have hl : AboveTol (1/100) (demoLCF.l 0) := by
    have : demoLCF.l 0 - (((1/100 : ℝ) : ℂ)) • (1 : Matrix (Fin 2) (Fin 2) ℂ)
        = !![((99/100 : ℝ) : ℂ), 0; 0, ((399/100 : ℝ) : ℂ)] := by
      ext i j
      fin_cases i <;> fin_cases j <;> simp [demoLCF] <;> norm_num
    rw [AboveTol, this]
    exact posDef_diag2 (by norm_num) (by norm_num)
  have hn : ∀ n ≤ 2, ((demoSwL n)ᴴ * demoSwR n).trace = ((16 : ℝ) : ℂ) := fun n hn => by
    rw [demoSw_env.norm n hn, demoSw_norm]
  obtain ⟨S', _, _, _, _, _, _, ν, κ, h1, _, _, _, _, _, _, _, _, h2, _, h3⟩ := C62_canonical_partial P (tol := 1/100) (by norm_num) (1/1000)
    rfl (clrL := some) (clrR := some) (S0 := demoSw) (S := demoSw) (c := 0) rfl (by omega) rfl rfl rfl (l0 := demoSwL) (r0 := demoSwR)
    Nat.one_pos Nat.one_pos demoLCF_env demoLCF_env demoSw_env
    (fun k _ => ⟨hl, (demoLCF_r.posDef (by norm_num)).posSemidef⟩) (fun k _ => ⟨demoLCF_r, (hl.posDef (by norm_num)).posSemidef⟩)
    (fun n _ => hl.smul (by norm_num) (one_le_pow₀ (by norm_num))) (fun n _ _ => demoLCF_r.smul (by norm_num) (one_le_pow₀ (by norm_num)))
    (by rw [hn 0 (by omega)]; norm_num)
  refine ⟨S', h1, fun n hn' => ?_⟩
  have : ν = 16 := by
    have := h2 0 (by omega)
    rw [hn 0 (by omega)] at this
    exact_mod_cast this.symm
  rw [h3 n hn', this, if_pos (by norm_num [abs_of_nonneg, abs_of_neg])]
  simp

end EvoMPS
