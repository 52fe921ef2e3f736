import Verif.HalfChainLemmas
import Verif.Props.SwGrad
import Verif.Props.Fidelity

/-!
# C68: sums of one-site operators on the Schmidt vectors of a half chain

The model of `expect_sum_1s_density_hc` is in `Verif/HalfChain.lean`, the specification (`halfElem`, `halfSum`, `halfNorm`) in
`Verif/HalfChainSpec.lean`.
-/

namespace EvoMPS

open Matrix Uni

variable {q D : ℕ}

/-- The solver finds an exact solution of the linear system of the cut in front of site `k`. -/
def HalfSolver (S : UMPS ℂ q D) (solver : Solver D) (junk : Matrix (Fin D) (Fin D) ℂ) (k : ℕ) : Prop :=
  ∀ op x x0, PinvOp.new 0 (rotList k S.list) (rotList k S.list) (some (S.l ((k + S.L - 1) % S.L))) (some (S.r k)) false true = some op →
    op.matvec junk (solver (op.matvec junk) (ravel x) x0).1 = some (ravel x)

/-- The gauge at the cut in front of site `k`: the symmetric one with a diagonal matrix without zeros, or the right canonical one. -/
def HalfGauge (S : UMPS ℂ q D) (rm : ℕ → MM ℂ D D) (symm : Bool) (k : ℕ) : Prop :=
  if symm then ∃ d : Fin D → ℂ, rm ((k + S.L - 1) % S.L) = .diag d ∧ (∀ i, d i ≠ 0) ∧ S.r ((k + S.L - 1) % S.L) = Matrix.diagonal d
  else S.r ((k + S.L - 1) % S.L) = 1

/-- The vectors of the half chain are orthogonal in both gauges. -/
theorem C68_orthogonal (S : UMPS ℂ q D) (hL : 0 < S.L) (E : ChainEnv S.L S.A S.l S.r) (rm : ℕ → MM ℂ D D) (symm : Bool) (k n : ℕ)
    (hg : HalfGauge S rm symm k) (α β : Fin D) (h : α ≠ β) :
    halfElem S.L S.A S.r k n (tensorOp n fun _ => siteId) α β = 0 := by
  rw [halfElem_eq, chainOp_id, E.transferR hL]
  unfold HalfGauge at hg
  split_ifs at hg
  · obtain ⟨d, -, -, h3⟩ := hg
    rw [h3, Matrix.diagonal_apply_ne _ h]
  · rw [hg, Matrix.one_apply_ne h]

theorem lDot_rops (S : UMPS ℂ q D) (hL : 0 < S.L) (E : ChainEnv S.L S.A S.l S.r) (op : Fin q → Fin q → ℂ) (k : ℕ) (hk : k < S.L) :
    adot (S.l ((k + S.L - 1) % S.L)) (S.rops op k)
      = ∑ j ∈ Finset.range S.L, chainExpect S.L S.A S.l S.r (k + j) 1 (tensorOp 1 fun _ => op) := by
  rw [rops_eq S op k hk, adot_eq_trace, Matrix.mul_sum, Matrix.trace_sum]
  refine Finset.sum_congr rfl fun j _ => ?_
  rw [← adot_eq_trace, ← adot_chainTransferL, E.transferL hL, chainExpect_adot, chainOp_string_succ, chainOp_zero, Nat.add_zero,
    mod_pred_succ]
  rfl

/-- The sum over one period does not depend on the first site. -/
theorem sum_period {L : ℕ} (f : ℕ → ℂ) (hf : ∀ j, f (j % L) = f j) (k : ℕ) :
    ∑ j ∈ Finset.range L, f (k + j) = ∑ j ∈ Finset.range L, f j := by
  induction k with
  | zero => simp
  | succ k ih =>
    rw [← ih]
    have e : ∑ j ∈ Finset.range (L + 1), f (k + j) = ∑ j ∈ Finset.range L, f (k + j) + f k := by
      rw [Finset.sum_range_succ, ← hf (k + L), Nat.add_mod_right, hf]
    rw [Finset.sum_range_succ', Nat.add_zero] at e
    rw [← add_right_cancel e]
    exact Finset.sum_congr rfl fun j _ => by rw [show k + 1 + j = k + (j + 1) by ring]

theorem prev_eq_mod (L k : ℕ) (hk : k < L) : prev L k = (k + L - 1) % L := by
  unfold prev
  split_ifs with h
  · subst h
    rw [Nat.zero_add, Nat.mod_eq_of_lt (by omega)]
  · rw [show k + L - 1 = k - 1 + L by omega, Nat.add_mod_right, Nat.mod_eq_of_lt (by omega)]

/-- **C68.** For a state in canonical form whose correlations decay, and an operator whose sum has expectation value zero,
`expect_sum_1s_density_hc(op, k)` succeeds.  The entries of `virtop` are the matrix elements, between the vectors of the half chain that
starts at site `k`, of the sum of `op` over the first `m` blocks, in the limit of large `m` and divided by the squared norms; `expvals` are
the diagonal ones.  The second value is the expectation value per site. -/
theorem C68_sum_partial (S : UMPS ℂ q D) (hL : 0 < S.L) (hD : D ≠ 1) (E : ChainEnv S.L S.A S.l S.r)
    (hmix : BlockMixing S.L S.A (S.l (S.L - 1)) (S.r (S.L - 1))) (k : ℕ) (hk : k < S.L) (op : Fin q → Fin q → ℂ)
    (hzero : ∑ j ∈ Finset.range S.L, chainExpect S.L S.A S.l S.r j 1 (tensorOp 1 fun _ => op) = 0)
    (hlr : ((S.l ((k + S.L - 1) % S.L))ᴴ * S.r k).trace ≠ 0)
    (solver : Solver D) (junk : Matrix (Fin D) (Fin D) ℂ) (hsol : HalfSolver S solver junk k) (rm : ℕ → MM ℂ D D) (symm : Bool)
    (hg : HalfGauge S rm symm k) :
    ∃ expvals virtop, S.sumHc solver junk rm symm (.arr op) k false = some (.pair expvals 0) ∧
      S.sumHc solver junk rm symm (.arr op) k true = some (.triple expvals 0 virtop) ∧
      (∀ α β, Filter.Tendsto (fun m : ℕ => halfSum S.L S.A S.r k (m * S.L) op α β / halfNorm S.L S.A S.r k (m * S.L) α)
        Filter.atTop (nhds (virtop α β))) ∧
      ∀ α, Filter.Tendsto (fun m : ℕ => halfSum S.L S.A S.r k (m * S.L) op α α / halfNorm S.L S.A S.r k (m * S.L) α)
        Filter.atTop (nhds (expvals α)) := by
  have h0 : adot (S.l ((k + S.L - 1) % S.L)) (S.rops op k) = 0 := by
    rw [lDot_rops S hL E op k hk, sum_period (fun j => chainExpect S.L S.A S.l S.r j 1 (tensorOp 1 fun _ => op))
      (fun j => chainExpect_mod _ _ _ _ hL _ _ _) k, hzero]
  have hlen : 0 < (rotList k S.list).length := by rw [rotList_length, list_length]; exact hL
  obtain ⟨x0, hx0⟩ := pinv1mE_eq solver junk (S.rops op k) (rotList k S.list) (rotList k S.list) hlen (S.l ((k + S.L - 1) % S.L))
    (S.r k) 0 false true none
  set x : Matrix (Fin D) (Fin D) ℂ := reshape (solver ((PinvOp.mk 0 (rotList k S.list) (rotList k S.list)
    (some (S.l ((k + S.L - 1) % S.L))) (some (S.r k)) false true).matvec junk) (ravel (S.rops op k)) x0).1 with hx
  have hop := new_eq 0 (rotList k S.list) (rotList k S.list) hlen (S.l ((k + S.L - 1) % S.L)) (S.r k) false true
  have hs := hsol _ (S.rops op k) x0 hop
  rw [pinv_matvec_right 0 _ _ rfl hlen, ← hx] at hs
  have h1 := ravel_inj (Option.some.inj hs)
  rw [opR, if_pos rfl] at h1
  simp only [Complex.ofReal_zero, mul_zero, Complex.exp_zero, one_smul, blockMap_rot S k hk] at h1
  have hlx : ((S.l ((k + S.L - 1) % S.L))ᴴ * x).trace = 0 := by
    have h2 := congrArg (fun y => adot (S.l ((k + S.L - 1) % S.L)) y) h1
    simp only [h0] at h2
    rw [adot_eq_trace, Matrix.mul_sub, Matrix.mul_sub, Matrix.trace_sub, Matrix.trace_sub, ← adot_eq_trace _ (chainTransfer _ _ _ _ _ _ _),
      ← adot_chainTransferL, E.transferL hL, show (k + S.L + S.L - 1) % S.L = (k + S.L - 1) % S.L by
        rw [show k + S.L + S.L - 1 = k + S.L - 1 + S.L by omega, Nat.add_mod_right], adot_eq_trace, Matrix.mul_smul, Matrix.trace_smul,
      smul_eq_mul, sub_sub_cancel] at h2
    exact (mul_eq_zero.1 h2).resolve_right hlr
  have hfix : S.rops op k = x - chainTransfer S.L S.L S.A S.A k S.L x := by
    rw [← h1, hlx, zero_smul, sub_zero]
  have hsum : ∀ m : ℕ, ∑ b ∈ Finset.range m, chainTransfer S.L S.L S.A S.A k (b * S.L) (S.rops op k)
      = x - chainTransfer S.L S.L S.A S.A k (m * S.L) x := fun m => by
    induction m with
    | zero => simp [chainTransfer_zero]
    | succ m ih =>
      have e : chainTransfer S.L S.L S.A S.A k (m * S.L) (S.rops op k) + chainTransfer S.L S.L S.A S.A k ((m + 1) * S.L) x
          = chainTransfer S.L S.L S.A S.A k (m * S.L) x := by
        rw [Nat.add_mul, Nat.one_mul, chainTransfer_add, chainTransfer_shift S.L S.A (k := k + m * S.L) (k' := k)
          (by rw [Nat.add_mul_mod_self_right]), ← chainTransfer_addM, hfix, sub_add_cancel]
      rw [Finset.sum_range_succ, ih, ← e]
      abel
  have hlim : ∀ α β, Filter.Tendsto (fun m : ℕ => halfSum S.L S.A S.r k (m * S.L) op α β) Filter.atTop (nhds (x α β)) := fun α β => by
    have h3 := mixing_shift hL E hmix k hk x
    rw [hlx, zero_smul] at h3
    have h4 : Filter.Tendsto (fun m : ℕ => x α β - chainTransfer S.L S.L S.A S.A k (m * S.L) x α β) Filter.atTop (nhds (x α β - 0)) :=
      tendsto_const_nhds.sub (((continuous_id.matrix_elem α β).tendsto (0 : Matrix (Fin D) (Fin D) ℂ)).comp h3)
    rw [sub_zero] at h4
    refine h4.congr fun m => ?_
    rw [halfSum_eq hL E, sum_transfer_blocks, ← rops_eq S op k hk, hsum]
    rfl
  have hps : adot (S.l (prev S.L k)) (S.rops op k) / (S.L : ℂ) = 0 := by
    rw [prev_eq_mod S.L k hk, h0, zero_div]
  unfold HalfGauge at hg
  unfold UMPS.sumHc
  simp only [if_neg (not_le.2 hk), if_neg hD, hx0, Option.bind_some, hps, Bool.false_eq_true, if_false, if_true]
  cases symm with
  | false =>
    simp only [Bool.false_eq_true, if_false] at hg ⊢
    refine ⟨_, _, rfl, rfl, fun α β => ?_, fun α => ?_⟩
    all_goals
      simp only [halfNorm_eq hL E, hg, Matrix.one_apply_eq, div_one]
      exact hlim _ _
  | true =>
    simp only [if_true] at hg ⊢
    obtain ⟨d, hd, hd0, hrd⟩ := hg
    rw [hd]
    refine ⟨_, _, rfl, rfl, fun α β => ?_, fun α => ?_⟩
    all_goals
      simp only [halfNorm_eq hL E, hrd, Matrix.diagonal_apply_eq, MM.dot, MM.toArray, mmulDiagR, Matrix.transpose_apply, Matrix.of_apply,
        Matrix.diag_apply, one_div]
      simp only [div_eq_inv_mul]
      exact (hlim _ _).const_mul _

/-- **C68**, for the right canonical form (`symm_gauge` is `False`): the right matrices are identities, nothing about them has to be
assumed. -/
theorem C68_sum_rcf_partial (S : UMPS ℂ q D) (hL : 0 < S.L) (hD : D ≠ 1) (E : ChainEnv S.L S.A S.l S.r) (hr : ∀ k < S.L, S.r k = 1)
    (hmix : BlockMixing S.L S.A (S.l (S.L - 1)) (S.r (S.L - 1))) (k : ℕ) (hk : k < S.L) (op : Fin q → Fin q → ℂ)
    (hzero : ∑ j ∈ Finset.range S.L, chainExpect S.L S.A S.l S.r j 1 (tensorOp 1 fun _ => op) = 0)
    (solver : Solver D) (junk : Matrix (Fin D) (Fin D) ℂ) (hsol : HalfSolver S solver junk k) (rm : ℕ → MM ℂ D D) :
    ∃ expvals virtop, S.sumHc solver junk rm false (.arr op) k false = some (.pair expvals 0) ∧
      S.sumHc solver junk rm false (.arr op) k true = some (.triple expvals 0 virtop) ∧
      (∀ α β, Filter.Tendsto (fun m : ℕ => halfSum S.L S.A S.r k (m * S.L) op α β) Filter.atTop (nhds (virtop α β))) ∧
      ∀ α, Filter.Tendsto (fun m : ℕ => halfSum S.L S.A S.r k (m * S.L) op α α) Filter.atTop (nhds (expvals α)) := by
  have hm := Nat.mod_lt (k + S.L - 1) hL
  have hlr : ((S.l ((k + S.L - 1) % S.L))ᴴ * S.r k).trace ≠ 0 := by
    have := E.norm _ hm
    rw [hr _ hm] at this
    rw [hr k hk]
    intro h0
    rw [h0] at this
    exact zero_ne_one this
  obtain ⟨ev, V, h1, h2, h3, h4⟩ := C68_sum_partial S hL hD E hmix k hk op hzero hlr solver junk hsol rm false
    (by unfold HalfGauge; simp [hr _ hm])
  refine ⟨ev, V, h1, h2, fun α β => (h3 α β).congr fun m => ?_, fun α => (h4 α).congr fun m => ?_⟩ <;>
    rw [halfNorm_eq hL E, hr _ hm, Matrix.one_apply_eq, div_one]

/-- The second value of the result is the expectation value per site of any operator. -/
theorem C68_per_site (S : UMPS ℂ q D) (hL : 0 < S.L) (E : ChainEnv S.L S.A S.l S.r) (k : ℕ) (op : Fin q → Fin q → ℂ)
    (solver : Solver D) (junk : Matrix (Fin D) (Fin D) ℂ) (rm : ℕ → MM ℂ D D) (symm : Bool) (ev : Fin D → ℂ) (ps : ℂ)
    (h : S.sumHc solver junk rm symm (.arr op) k false = some (.pair ev ps)) :
    ps = (∑ j ∈ Finset.range S.L, chainExpect S.L S.A S.l S.r j 1 (tensorOp 1 fun _ => op)) / S.L := by
  unfold UMPS.sumHc at h
  by_cases hk : S.L ≤ k
  · simp [hk] at h
  · simp only [hk, if_false] at h
    by_cases hD : D = 1
    · rw [if_pos hD] at h
      exact absurd (Option.some.inj h) (by simp)
    · simp only [if_neg hD, Bool.false_eq_true, if_false] at h
      rw [Option.bind_eq_some_iff] at h
      obtain ⟨v, -, h⟩ := h
      rw [Option.map_eq_some_iff] at h
      obtain ⟨w, -, h⟩ := h
      rw [← sum_period (fun j => chainExpect S.L S.A S.l S.r j 1 (tensorOp 1 fun _ => op))
        (fun j => chainExpect_mod _ _ _ _ hL _ _ _) k, ← lDot_rops S hL E op k (by omega), ← prev_eq_mod S.L k (by omega)]
      exact (HcOut.pair.inj h).2.symm

/-- An offset outside the block raises an exception. -/
theorem C68_offset (S : UMPS ℂ q D) (solver : Solver D) (junk : Matrix (Fin D) (Fin D) ℂ) (rm : ℕ → MM ℂ D D) (symm retG : Bool)
    (op : OpArg q) (k : ℕ) (hk : S.L ≤ k) : S.sumHc solver junk rm symm op k retG = none := by
  cases op <;> simp [UMPS.sumHc, hk]

/-- **C68**, violated for `D = 1`: the result is one array, not the documented tuple, whatever `return_g` is. -/
theorem C68_D1_violated (S : UMPS ℂ q 1) (k : ℕ) (hk : k < S.L) (op : Fin q → Fin q → ℂ) (solver : Solver 1)
    (junk : Matrix (Fin 1) (Fin 1) ℂ) (rm : ℕ → MM ℂ 1 1) (symm retG : Bool) :
    S.sumHc solver junk rm symm (.arr op) k retG = some (.bare 0) := by
  simp [UMPS.sumHc, not_le.2 hk]

/-- **C68**, violated for a callable `op`, which the documentation allows: always an exception. -/
theorem C68_callable_violated (S : UMPS ℂ q D) (k : ℕ) (op : Fin q → Fin q → ℂ) (solver : Solver D)
    (junk : Matrix (Fin D) (Fin D) ℂ) (rm : ℕ → MM ℂ D D) (symm retG : Bool) :
    S.sumHc solver junk rm symm (.fn op) k retG = none := rfl

/-- An operator on the four-dimensional site of `demoPauli4` that exchanges the states `0` and `3`. -/
def demoFlip : Fin 4 → Fin 4 → ℂ := fun s t => if (s = 0 ∧ t = 3) ∨ (s = 3 ∧ t = 0) then 1 else 0

theorem demoFlip_site (ham : UHam 4) (j : ℕ) :
    epsROp1 ((demoPauli4 ham).r j) ((demoPauli4 ham).A j) ((demoPauli4 ham).A j) demoFlip = !![1 / 2, 0; 0, -1 / 2] := by
  rw [epsROp1_eq]
  ext a b
  fin_cases a <;> fin_cases b <;>
    simp [demoPauli4, demoFlip, Fin.sum_univ_four, Matrix.vecMul, dotProduct, Fin.sum_univ_two, Complex.conj_ofNat] <;> ring

theorem demoFlip_zero (ham : UHam 4) :
    ∑ j ∈ Finset.range 1, chainExpect 1 (demoPauli4 ham).A (demoPauli4 ham).l (demoPauli4 ham).r j 1 (tensorOp 1 fun _ => demoFlip) = 0 := by
  rw [Finset.sum_range_one, chainExpect_adot, chainOp_string_succ, chainOp_zero, adot_eq_trace]
  simp only [Nat.mod_one, demoFlip_site]
  simp [demoPauli4, Matrix.trace_fin_two, Matrix.mul_apply, Fin.sum_univ_two, Complex.conj_ofNat]
  ring

theorem demoPauli4_half (ham : UHam 4) : HalfSolver (demoPauli4 ham).toUMPS (fun _ b _ => (b, 0)) 0 0 := by
  intro op x x0 hop
  exact demoPauli4_exact ham op x x0 hop

theorem demoFlip_rops (ham : UHam 4) : (demoPauli4 ham).toUMPS.rops demoFlip 0 = !![1 / 2, 0; 0, -1 / 2] := by
  rw [rops_eq _ _ _ (demoPauli4_pos ham), show (demoPauli4 ham).toUMPS.L = 1 from rfl, Finset.sum_range_one, chainTransfer_zero]
  exact demoFlip_site ham _

theorem demoPauli4_gauge (ham : UHam 4) (symm : Bool) : HalfGauge (demoPauli4 ham).toUMPS (fun _ => .diag fun _ => 1) symm 0 := by
  unfold HalfGauge
  cases symm
  · rfl
  · exact ⟨fun _ => 1, rfl, fun _ => one_ne_zero, by simp [demoPauli4]⟩

theorem demoPauli4_overlap (ham : UHam 4) :
    (((demoPauli4 ham).l ((0 + (demoPauli4 ham).L - 1) % (demoPauli4 ham).L))ᴴ * (demoPauli4 ham).r 0).trace ≠ 0 := by
  have e : (0 + (demoPauli4 ham).L - 1) % (demoPauli4 ham).L = 0 := rfl
  rw [e, (demoPauli4_env ham).norm 0 one_pos]
  exact one_ne_zero

/-- All hypotheses of `C68_sum_partial` hold in both gauges. -/
example (ham : UHam 4) (symm : Bool) := C68_sum_partial (demoPauli4 ham).toUMPS (demoPauli4_pos ham) (by decide) (demoPauli4_env ham)
  (demoPauli4_mixing ham) 0 (demoPauli4_pos ham) demoFlip (demoFlip_zero ham) (demoPauli4_overlap ham) (fun _ b _ => (b, 0)) 0
  (demoPauli4_half ham) (fun _ => .diag fun _ => 1) symm (demoPauli4_gauge ham symm)

/-- The expectation values of this example are `1/2` and `-1/2`. -/
example (ham : UHam 4) : ∃ ps,
    (demoPauli4 ham).toUMPS.sumHc (fun _ b _ => (b, 0)) 0 (fun _ => .diag fun _ => 1) false (.arr demoFlip) 0 false
      = some (.pair (Matrix.diag !![1 / 2, 0; 0, -1 / 2]) ps) := by
  unfold UMPS.sumHc
  simp only []
  rw [if_neg (not_le.2 (demoPauli4_pos ham)), if_neg (by decide), demoFlip_rops]
  unfold pinv1mE
  rw [new_eq 0 _ _ (by rw [rotList_length, list_length]; exact demoPauli4_pos ham)]
  simp only [Option.bind_some, reshape_ravel_pinv, Bool.false_eq_true, if_false, Option.map_some]
  exact ⟨_, rfl⟩

/-- A state with `D = 1` as in `C68_D1_violated`. -/
example (L : ℕ) : ChainEnv L (numState L fun _ => 1).A (numState L fun _ => 1).l (numState L fun _ => 1).r :=
  numState_env L (fun _ => 1) fun _ => by simp

end EvoMPS
