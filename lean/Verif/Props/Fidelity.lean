import Verif.FidelityMain
import Verif.FidelitySpec
import Verif.ContractsSpec

/-!
# C63: fidelity per site and phase alignment

`M` is the least common multiple of the two block lengths.
-/

namespace EvoMPS

open Matrix Filter Topology Uni
open scoped ComplexOrder

section
variable {q D1 D2 : ℕ} {lib : SpecLib (D1 * D2)} {o : SpecOpts} {left : Bool} {S : UMPS ℂ q D1} {S' : UMPS ℂ q D2}
  {d : ℝ} {w : ℂ} {v : Fin (D1 * D2) → ℂ}

private theorem pow_d (hL : 0 < S.L) (hL' : 0 < S'.L) (hd : d = ‖w‖ ^ (1 / (Nat.lcm S.L S'.L : ℝ))) :
    0 ≤ d ∧ d ^ Nat.lcm S.L S'.L = ‖w‖ := by
  have hM : ((Nat.lcm S.L S'.L : ℕ) : ℝ) ≠ 0 := by
    exact_mod_cast (Nat.lcm_pos hL hL').ne'
  refine ⟨by rw [hd]; positivity, ?_⟩
  rw [hd, ← Real.rpow_natCast, ← Real.rpow_mul (norm_nonneg w), one_div, inv_mul_cancel₀ hM, Real.rpow_one]

/-- **C63.** The fidelity per site is the rate of decay of the overlap of the two chains: the overlaps of pieces of `n` sites are
bounded by a multiple of `(d + ε) ^ n` for every positive `ε` and all boundary vectors, and for every number of blocks there are
boundary vectors for which they are at least a fixed multiple of `d ^ n`. -/
theorem C63_rate (hlib : lib.Ok) (hL : 0 < S.L) (hL' : 0 < S'.L) (h : fidelity lib o left S S' = some (d, w, v)) :
    (∀ ε : ℝ, 0 < ε → ∀ u x u' x', ∃ C : ℝ, ∀ n,
      ‖pieceOverlap S.L S'.L S.A S'.A u x u' x' n‖ ≤ C * (d + ε) ^ n) ∧
    ∃ c : ℝ, 0 < c ∧ ∀ m : ℕ, ∃ i j i' j', c * d ^ (m * Nat.lcm S.L S'.L)
      ≤ ‖pieceOverlap S.L S'.L S.A S'.A (Pi.single i 1) (Pi.single j 1) (Pi.single i' 1) (Pi.single j' 1) (m * Nat.lcm S.L S'.L)‖ := by
  obtain ⟨h1, h2, h3, h4⟩ := fidelity_spec hlib hL hL' h
  obtain ⟨hd0, hdM⟩ := pow_d hL hL' h1
  obtain ⟨E, -, e1, e2, -⟩ := dense_mixed S S' hL hL'
  have hdv := Nat.dvd_lcm_left S.L S'.L
  have hdv' := Nat.dvd_lcm_right S.L S'.L
  have hM := Nat.lcm_pos hL hL'
  set M := Nat.lcm S.L S'.L
  constructor
  · intro ε hε u x u' x'
    have hmax : ∀ ε : ℝ, 0 < ε → ∃ C : ℝ, 0 < C ∧ ∀ k i j, ‖(E ^ k) i j‖ ≤ C * (d ^ M + ε) ^ k := by
      intro ε hε
      rw [hdM]
      cases left
      · refine pow_growth E (norm_nonneg w) (fun μ y hy hμ => ?_) hε
        exact (h3 rfl).2 μ (reshape y) (reshape_ne.mpr hy) (by rw [← e1, hμ, reshape_smul])
      · obtain ⟨C, hC, hb⟩ := pow_growth Eᴴ (norm_nonneg w) (fun μ y hy hμ =>
          (h4 rfl).2 μ (reshape y) (reshape_ne.mpr hy) (by rw [← e2, hμ, reshape_smul])) hε
        refine ⟨C, hC, fun k i j => ?_⟩
        have := hb k j i
        rwa [← Matrix.conjTranspose_pow, Matrix.conjTranspose_apply, norm_star] at this
    obtain ⟨C, hC⟩ := mixed_growth hM hdv hdv' hd0 e1 hmax hε
    refine ⟨∑ i, ∑ j, ∑ i', ∑ j', ‖u i * x j * star (u' i') * star (x' j')‖ * C, fun n => ?_⟩
    rw [pieceOverlap_basis]
    simp only [Finset.sum_mul]
    refine (norm_sum_le _ _).trans (Finset.sum_le_sum fun i _ => ?_)
    refine (norm_sum_le _ _).trans (Finset.sum_le_sum fun j _ => ?_)
    refine (norm_sum_le _ _).trans (Finset.sum_le_sum fun i' _ => ?_)
    refine (norm_sum_le _ _).trans (Finset.sum_le_sum fun j' _ => ?_)
    have hb := hC n i j i' j'
    rw [basis_entry] at hb
    refine (norm_mul_le _ _).trans ?_
    exact (mul_le_mul_of_nonneg_left hb (norm_nonneg (u i * x j * star (u' i') * star (x' j')))).trans (le_of_eq (by ring))
  · cases left
    · obtain ⟨c, hc, hlow⟩ := eigen_lower h2
      refine ⟨c, hc, fun m => ?_⟩
      have e := mixed_pow hdv hdv' (h3 rfl).1 m
      obtain ⟨i, i', j, j', hh⟩ := hlow (w ^ m) (fun i i' j j' => ∑ s, chainProd S.L S.A 0 (m * M) s i j * star (chainProd S'.L S'.A 0 (m * M) s i' j'))
        (fun i i' => by
          have := congrFun (congrFun e i) i'
          rw [chainTransfer, transfer_entry] at this
          exact this)
      refine ⟨i, j, i', j', ?_⟩
      rw [pieceOverlap_single, Nat.mul_comm m M, pow_mul, hdM, ← norm_pow]
      rw [Nat.mul_comm m M] at hh
      simpa only [mul_comm] using hh
    · obtain ⟨c, hc, hlow⟩ := eigen_lower h2
      refine ⟨c, hc, fun m => ?_⟩
      have e := mixedL_pow hdv hdv' (h4 rfl).1 m
      obtain ⟨i, i', j, j', hh⟩ := hlow _ (fun i i' j j' => star (∑ s, chainProd S.L S.A 0 (m * M) s j i * star (chainProd S'.L S'.A 0 (m * M) s j' i')))
        (fun i i' => by
          have := congrFun (congrFun e i) i'
          rw [chainTransferL, transferL_entry] at this
          exact this)
      refine ⟨j, i, j', i', ?_⟩
      have hz : ∀ p : Prop, ∀ [Decidable p], ‖(if p then star w else w) ^ m‖ = ‖w ^ m‖ := by
        intro p _
        split <;> simp
      rw [norm_star, hz] at hh
      rw [pieceOverlap_single, Nat.mul_comm m M, pow_mul, hdM, ← norm_pow]
      rw [Nat.mul_comm m M] at hh
      simpa only [mul_comm] using hh

/-- **C63.** Between normalised states the fidelity per site is a number between zero and one. -/
theorem C63_bound (hlib : lib.Ok) (hL : 0 < S.L) (hL' : 0 < S'.L) (E : ChainEnv S.L S.A S.l S.r) (E' : ChainEnv S'.L S'.A S'.l S'.r)
    (hl : (S.l (S.L - 1)).PosDef) (hr' : (S'.r (S'.L - 1)).PosDef) (h : fidelity lib o left S S' = some (d, w, v)) :
    0 ≤ d ∧ d ≤ 1 := by
  obtain ⟨h1, h2, h3, h4⟩ := fidelity_spec hlib hL hL' h
  have hw : ‖w‖ ≤ 1 := by
    cases left
    · exact (right_bound hL hL' E E' hl hr' (Nat.dvd_lcm_left _ _) (Nat.dvd_lcm_right _ _) h2 (h3 rfl).1).1
    · have := (left_bound hL hL' E E' hl hr' (Nat.dvd_lcm_left _ _) (Nat.dvd_lcm_right _ _) h2 (h4 rfl).1).1
      split at this
      · rwa [norm_star] at this
      · exact this
  exact ⟨(pow_d hL hL' h1).1, by rw [h1]; exact Real.rpow_le_one (norm_nonneg w) hw (by positivity)⟩

/-- **C63.** Fidelity one means the same state: the products of the tensors over any number of blocks agree up to a gauge
transformation and powers of a phase, and all expectation values agree.  The phase is the returned eigenvalue, conjugated if the
sparse solver is used with `left=True`. -/
theorem C63_same (hlib : lib.Ok) (hL : 0 < S.L) (hL' : 0 < S'.L) (E : ChainEnv S.L S.A S.l S.r) (E' : ChainEnv S'.L S'.A S'.l S'.r)
    (hl : (S.l (S.L - 1)).PosDef) (hr : (S.r (S.L - 1)).PosDef) (hl' : (S'.l (S'.L - 1)).PosDef) (hr' : (S'.r (S'.L - 1)).PosDef)
    (hlim : ∀ x, Tendsto (fun m : ℕ => chainTransfer S.L S.L S.A S.A 0 (m * S.L) x) atTop
      (𝓝 (((S.l (S.L - 1))ᴴ * x).trace • S.r (S.L - 1))))
    (hlim' : ∀ x, Tendsto (fun m : ℕ => chainTransfer S'.L S'.L S'.A S'.A 0 (m * S'.L) x) atTop
      (𝓝 (((S'.l (S'.L - 1))ᴴ * x).trace • S'.r (S'.L - 1))))
    (h : fidelity lib o left S S' = some (d, w, v)) (hd : d = 1) :
    ∃ (g : Matrix (Fin D1) (Fin D2) ℂ) (gi : Matrix (Fin D2) (Fin D1) ℂ), g * gi = 1 ∧ gi * g = 1 ∧
      (∀ (m : ℕ) (s : Fin (m * Nat.lcm S.L S'.L) → Fin q), chainProd S.L S.A 0 (m * Nat.lcm S.L S'.L) s
        = (if left ∧ ¬ ((D1 * D2 ≤ o.cutoff ∨ o.forceDense) ∧ ¬ o.forceSparse) then star w else w) ^ m
          • (g * chainProd S'.L S'.A 0 (m * Nat.lcm S.L S'.L) s * gi)) ∧
      ∀ (m : ℕ) (O : (Fin (m * Nat.lcm S.L S'.L) → Fin q) → (Fin (m * Nat.lcm S.L S'.L) → Fin q) → ℂ),
        chainExpect S.L S.A S.l S.r 0 (m * Nat.lcm S.L S'.L) O = chainExpect S'.L S'.A S'.l S'.r 0 (m * Nat.lcm S.L S'.L) O := by
  simp only [← adot_eq_trace] at hlim hlim'
  obtain ⟨h1, h2, h3, h4⟩ := fidelity_spec hlib hL hL' h
  have hw : ‖w‖ = 1 := by rw [← (pow_d hL hL' h1).2, hd, one_pow]
  have hM := Nat.lcm_pos hL hL'
  cases left
  · simp only [Bool.false_eq_true, false_and, if_false]
    exact same_core hL hL' E E' hl hr hl' hr' hlim hlim' hM (Nat.dvd_lcm_left _ _) (Nat.dvd_lcm_right _ _) h2 (h3 rfl).1 hw
  · obtain ⟨h5, -⟩ := h4 rfl
    set z := if (D1 * D2 ≤ o.cutoff ∨ o.forceDense) ∧ ¬ o.forceSparse then star w else w with hz
    have hz1 : ‖z‖ = 1 := by
      rw [hz]
      split
      · rw [norm_star, hw]
      · exact hw
    have hint := (left_bound hL hL' E E' hl hr' (Nat.dvd_lcm_left _ _) (Nat.dvd_lcm_right _ _) h2 h5).2 hz1
    have hphase : (if (true : Bool) = true ∧ ¬ ((D1 * D2 ≤ o.cutoff ∨ o.forceDense) ∧ ¬ o.forceSparse) then star w else w) = star z := by
      rw [hz]
      by_cases hh : (D1 * D2 ≤ o.cutoff ∨ o.forceDense) ∧ ¬ o.forceSparse
      · rw [if_pos hh, if_neg (fun hn => hn.2 hh), star_star]
      · rw [if_neg hh, if_pos ⟨rfl, hh⟩]
    rw [hphase]
    set G := (S.l (S.L - 1))⁻¹ * (reshape v : Matrix (Fin D1) (Fin D2) ℂ) with hG
    have hlu := (Matrix.isUnit_iff_isUnit_det _).mp hl.isUnit
    have hru := (Matrix.isUnit_iff_isUnit_det _).mp hr'.isUnit
    refine same_core (V := G * S'.r (S'.L - 1)) hL hL' E E' hl hr hl' hr' hlim hlim' hM (Nat.dvd_lcm_left _ _) (Nat.dvd_lcm_right _ _)
      (fun h0 => h2 ?_) ?_ (by rw [norm_star, hz1])
    · have e1 : G = 0 := by
        rw [← Matrix.mul_one G, ← Matrix.mul_nonsing_inv _ hru, ← Matrix.mul_assoc, h0, Matrix.zero_mul]
      rw [← Matrix.one_mul (reshape v : Matrix (Fin D1) (Fin D2) ℂ), ← Matrix.mul_nonsing_inv _ hlu, Matrix.mul_assoc, ← hG, e1,
        Matrix.mul_zero]
    · have hb := env_blockR hL' E' (Nat.dvd_lcm_right S.L S'.L)
      conv_rhs => rw [← hb]
      simp only [chainTransfer, Matrix.mul_sum, Finset.smul_sum]
      refine Finset.sum_congr rfl fun s _ => ?_
      rw [← Matrix.mul_assoc (chainProd S.L S.A 0 _ s), hint]
      simp only [Matrix.smul_mul, Matrix.mul_assoc]

/-- **C63.** The same state in another gauge, up to a phase, has fidelity one. -/
theorem C63_converse (hlib : lib.Ok) (hL : 0 < S.L) (hL' : 0 < S'.L) (E : ChainEnv S.L S.A S.l S.r) (E' : ChainEnv S'.L S'.A S'.l S'.r)
    (hl : (S.l (S.L - 1)).PosDef) (hr' : (S'.r (S'.L - 1)).PosDef) (h : fidelity lib o left S S' = some (d, w, v))
    (g : Matrix (Fin D1) (Fin D2) ℂ) (gi : Matrix (Fin D2) (Fin D1) ℂ) (hgi : gi * g = 1) (z : ℂ) (hz : ‖z‖ = 1)
    (hA : ∀ s : Fin (Nat.lcm S.L S'.L) → Fin q,
      chainProd S.L S.A 0 (Nat.lcm S.L S'.L) s = z • (g * chainProd S'.L S'.A 0 (Nat.lcm S.L S'.L) s * gi)) :
    d = 1 := by
  have hb := C63_bound hlib hL hL' E E' hl hr' h
  obtain ⟨h1, h2, h3, h4⟩ := fidelity_spec hlib hL hL' h
  have hn := E'.norm (S'.L - 1) (by omega)
  have hw : 1 ≤ ‖w‖ := by
    rw [← hz]
    cases left
    · refine (h3 rfl).2 z (g * S'.r (S'.L - 1)) (fun h0 => ?_) ?_
      · have : S'.r (S'.L - 1) = 0 := by rw [← Matrix.one_mul (S'.r _), ← hgi, Matrix.mul_assoc, h0, Matrix.mul_zero]
        rw [this, Matrix.mul_zero, Matrix.trace_zero] at hn
        exact zero_ne_one hn
      · have hb := env_blockR hL' E' (Nat.dvd_lcm_right S.L S'.L)
        conv_rhs => rw [← hb]
        simp only [chainTransfer, Matrix.mul_sum, Finset.smul_sum]
        refine Finset.sum_congr rfl fun s _ => ?_
        rw [hA]
        simp only [Matrix.smul_mul, Matrix.mul_assoc]
        rw [← Matrix.mul_assoc gi g, hgi, Matrix.one_mul]
    · rw [← norm_star z]
      refine (h4 rfl).2 (star z) (giᴴ * S'.l (S'.L - 1)) (fun h0 => ?_) ?_
      · have : S'.l (S'.L - 1) = 0 := by
          rw [← Matrix.one_mul (S'.l _), ← Matrix.conjTranspose_one, ← hgi, Matrix.conjTranspose_mul, Matrix.mul_assoc, h0,
            Matrix.mul_zero]
        rw [this, Matrix.conjTranspose_zero, Matrix.zero_mul, Matrix.trace_zero] at hn
        exact zero_ne_one hn
      · have hb := env_blockL hL' E' (Nat.dvd_lcm_right S.L S'.L)
        conv_rhs => rw [← hb]
        simp only [chainTransferL, Matrix.mul_sum, Finset.smul_sum]
        refine Finset.sum_congr rfl fun s _ => ?_
        rw [hA]
        simp only [Matrix.smul_mul, Matrix.mul_assoc, Matrix.conjTranspose_smul, Matrix.conjTranspose_mul]
        rw [← Matrix.mul_assoc gᴴ giᴴ, ← Matrix.conjTranspose_mul, hgi, Matrix.conjTranspose_one, Matrix.one_mul]
  refine le_antisymm hb.2 ?_
  rw [h1]
  exact Real.one_le_rpow hw (by positivity)

/-- **C63.** If the block length of the other state divides that of this state, `phase_align` multiplies the first tensor by a phase such
that a largest eigenvalue of the mixed transfer map becomes real and positive; nothing else is changed and the environments stay valid. -/
theorem C63_align_partial (hlib : lib.Ok) (hL : 0 < S.L) (hL' : 0 < S'.L) (hdvd : S'.L ∣ S.L) {T : UMPS ℂ q D1} {phi : ℂ}
    (h : phaseAlign lib S S' = some (T, phi)) (hphi : phi ≠ 0) :
    (T.L = S.L ∧ T.l = S.l ∧ T.r = S.r ∧ ∃ z : ℂ, ‖z‖ = 1 ∧ ∀ k s, T.A k s = if k = 0 then z • S.A k s else S.A k s) ∧
    (∃ V, V ≠ 0 ∧ chainTransfer T.L S'.L T.A S'.A 0 T.L V = (‖phi‖ : ℂ) • V) ∧
    (∀ (μ : ℂ) x, x ≠ 0 → chainTransfer T.L S'.L T.A S'.A 0 T.L x = μ • x → ‖μ‖ ≤ ‖phi‖) ∧
    (ChainEnv S.L S.A S.l S.r → ChainEnv T.L T.A T.l T.r) := by
  unfold phaseAlign at h
  obtain ⟨⟨d, w, v⟩, hf, h⟩ := Option.bind_eq_some_iff.mp h
  simp only [Option.some.injEq, Prod.mk.injEq] at h
  obtain ⟨rfl, rfl⟩ := h
  obtain ⟨-, h2, h3, -⟩ := fidelity_spec hlib hL hL' hf
  rw [Nat.lcm_eq_left hdvd] at h3
  obtain ⟨h4, h5⟩ := h3 rfl
  have hn : (‖w‖ : ℂ) ≠ 0 := by
    rw [Complex.ofReal_ne_zero]
    exact norm_ne_zero_iff.mpr hphi
  set f := star w / (‖w‖ : ℂ) with hfd
  have hf1 : ‖f‖ = 1 := by
    rw [hfd, norm_div, norm_star, Complex.norm_real, norm_norm, div_self (norm_ne_zero_iff.mpr hphi)]
  have hfw : f * w = (‖w‖ : ℂ) := by
    rw [hfd, div_mul_eq_mul_div, Complex.star_def, mul_comm, Complex.mul_conj, Complex.normSq_eq_norm_sq]
    field_simp
    push_cast
    ring
  have htr : ∀ x, chainTransfer S.L S'.L (Function.update S.A 0 fun s => f • S.A 0 s) S'.A 0 S.L x
      = f • chainTransfer S.L S'.L S.A S'.A 0 S.L x := by
    intro x
    simp only [chainTransfer, chainProd_update0 hL, Matrix.smul_mul, Finset.smul_sum]
  have hff : f * star f = 1 := by
    rw [Complex.star_def, Complex.mul_conj, Complex.normSq_eq_norm_sq, hf1]
    simp
  have hA : ∀ k s, Function.update S.A 0 (fun s => f • S.A 0 s) k s = if k = 0 then f • S.A k s else S.A k s := by
    intro k s
    by_cases hk : k = 0
    · subst hk
      simp
    · rw [Function.update_of_ne hk, if_neg hk]
  refine ⟨⟨rfl, rfl, rfl, f, hf1, hA⟩, ⟨_, h2, ?_⟩, ?_, fun E => ?_⟩
  · simp only
    rw [htr, h4, smul_smul, hfw]
  · intro μ x hx hμ
    simp only at hμ
    rw [htr] at hμ
    have : chainTransfer S.L S'.L S.A S'.A 0 S.L x = (star f * μ) • x := by
      rw [← smul_smul, ← hμ, smul_smul, mul_comm, hff, one_smul]
    have h6 := h5 _ x hx this
    rwa [norm_mul, norm_star, hf1, one_mul] at h6
  · refine ⟨fun k hk => ?_, fun k hk => ?_, E.norm⟩
    · simp only [hA]
      rw [E.left k hk]
      refine Finset.sum_congr rfl fun s _ => ?_
      split
      · rw [Matrix.conjTranspose_smul, Matrix.smul_mul, Matrix.smul_mul, Matrix.mul_smul, smul_smul, mul_comm, hff, one_smul]
      · rfl
    · simp only [hA]
      rw [E.right k hk]
      refine Finset.sum_congr rfl fun s _ => ?_
      split
      · rw [Matrix.conjTranspose_smul, Matrix.smul_mul, Matrix.smul_mul, Matrix.mul_smul, smul_smul, hff, one_smul]
      · rfl

end

/-! ## Examples -/

section
open Complex

/-- A product state with the given numbers as tensors. -/
def numState (L : ℕ) (a : ℕ → ℂ) : UMPS ℂ 1 1 where
  L := L
  A := fun k _ => a k • (1 : Matrix (Fin 1) (Fin 1) ℂ)
  AA := fun _ _ _ => 0
  l := fun _ => 1
  r := fun _ => 1
  lL := 1
  rL := 1

theorem numState_transfer (L L' : ℕ) (a a' : ℕ → ℂ) (n : ℕ) (x : Matrix (Fin 1) (Fin 1) ℂ) :
    chainTransfer L L' (numState L a).A (numState L' a').A 0 n x
      = (∏ i ∈ Finset.range n, a (i % L) * star (a' (i % L'))) • x := by
  induction n generalizing x with
  | zero => rw [chainTransfer_zero, Finset.prod_range_zero, one_smul]
  | succ n ih =>
    rw [chainTransfer_succ, ih, epsR_eq, Finset.prod_range_succ, mul_smul]
    simp [numState, smul_smul, mul_comm (a (n % L))]

theorem numState_env (L : ℕ) (a : ℕ → ℂ) (h : ∀ k, a k * star (a k) = 1) :
    ChainEnv L (numState L a).A (numState L a).l (numState L a).r where
  left k _ := by
    have := h k
    simp only [Complex.star_def] at this
    simp [numState, smul_smul, this]
  right k _ := by
    have := h k
    simp only [Complex.star_def] at this
    simp [numState, smul_smul, mul_comm _ (a k), this]
  norm k _ := by simp [numState]

/-- The tensors of the second state of the counterexample. -/
noncomputable def altNum (k : ℕ) : ℂ := if k = 1 then -I else 1

theorem altNum_unit (k : ℕ) : altNum k * star (altNum k) = 1 := by
  unfold altNum
  split <;> simp

/-- **C63.** If the common block is longer than the block of this state, `phase_align` does not achieve its purpose: the phase enters the
mixed transfer map several times. With `L = 1` and `L' = 2` the only eigenvalue is `i` before and `-i` after the call. -/
theorem C63_align_violated : ∃ (S S' : UMPS ℂ 1 1), 0 < S.L ∧ S.L ∣ S'.L ∧ ChainEnv S.L S.A S.l S.r ∧ ChainEnv S'.L S'.A S'.l S'.r ∧
    ∃ T, phaseAlign (someSpecLib (1 * 1)) S S' = some (T, I) ∧
      ∀ (V : Matrix (Fin 1) (Fin 1) ℂ) (μ : ℂ), V ≠ 0 → chainTransfer T.L S'.L T.A S'.A 0 (Nat.lcm T.L S'.L) V = μ • V → μ = -I := by
  refine ⟨numState 1 fun _ => 1, numState 2 altNum, Nat.one_pos, ⟨2, rfl⟩, numState_env _ _ (by simp), numState_env _ _ altNum_unit, ?_⟩
  obtain ⟨⟨d, w, v⟩, hf⟩ := fidelity_returns (q := 1) Nat.one_pos Nat.one_pos (o := ⟨false, false, 64⟩) (by simp) false
    (numState 1 fun _ => 1) (numState 2 altNum) Nat.one_pos Nat.two_pos
  have hsp := fidelity_spec (someSpecLib_ok (1 * 1)) Nat.one_pos Nat.two_pos hf
  obtain ⟨-, h2, h3, -⟩ := hsp
  have h4 := (h3 rfl).1
  have hl : Nat.lcm (numState 1 fun _ => 1).L (numState 2 altNum).L = 2 := rfl
  rw [hl] at h4
  have e1 := numState_transfer 1 2 (fun _ => 1) altNum 2 (reshape v)
  have hw : w = I := by
    have h5 : (w - I) • (reshape v : Matrix (Fin 1) (Fin 1) ℂ) = 0 := by
      rw [sub_smul, ← h4, sub_eq_zero]
      refine e1.trans ?_
      simp [Finset.prod_range_succ, altNum]
    rcases smul_eq_zero.mp h5 with h | h
    · exact sub_eq_zero.mp h
    · exact absurd h h2
  subst hw
  have hT : phaseAlign (someSpecLib (1 * 1)) (numState 1 fun _ => 1) (numState 2 altNum)
      = some ({ (numState 1 fun _ => 1) with A := Function.update (numState 1 fun _ => 1).A 0 fun s => (star I / (‖I‖ : ℂ)) • (numState 1 fun _ => 1).A 0 s }, I) := by
    unfold phaseAlign
    rw [hf]
    rfl
  refine ⟨_, hT, fun V μ hV hμ => ?_⟩
  have hA : (Function.update (numState 1 fun _ => 1).A 0 fun s => (star I / (‖I‖ : ℂ)) • (numState 1 fun _ => 1).A 0 s)
      = (numState 1 fun k => if k = 0 then -I else 1).A := by
    funext k s
    by_cases hk : k = 0
    · subst hk
      simp [numState]
    · rw [Function.update_of_ne hk]
      simp [numState, hk]
  simp only at hμ
  rw [hA] at hμ
  have e2 := numState_transfer 1 2 (fun k => if k = 0 then -I else 1) altNum 2 V
  have h5 : (μ + I) • V = 0 := by
    have h6 : μ • V = (-I) • V := by
      rw [← hμ]
      refine e2.trans ?_
      simp [Finset.prod_range_succ, altNum]
    rw [add_smul, h6, neg_smul, neg_add_cancel]
  rcases smul_eq_zero.mp h5 with h | h
  · exact eq_neg_of_add_eq_zero_left h
  · exact absurd h hV

/-- The hypotheses of `C63_same` and `C63_converse` can be met: two product states with tensors of modulus one. -/
example : ∃ d w v, fidelity (someSpecLib (1 * 1)) ⟨false, false, 64⟩ false (numState 1 fun _ => 1) (numState 2 altNum) = some (d, w, v) ∧
    d = 1 ∧ (∀ x, Tendsto (fun m : ℕ => chainTransfer 2 2 (numState 2 altNum).A (numState 2 altNum).A 0 (m * 2) x) atTop
      (𝓝 ((((numState 2 altNum).l 1)ᴴ * x).trace • (numState 2 altNum).r 1))) ∧
    ((numState 2 altNum).l 1).PosDef ∧ ((numState 2 altNum).r 1).PosDef := by
  obtain ⟨⟨d, w, v⟩, hf⟩ := fidelity_returns (q := 1) Nat.one_pos Nat.one_pos (o := ⟨false, false, 64⟩) (by simp) false
    (numState 1 fun _ => 1) (numState 2 altNum) Nat.one_pos Nat.two_pos
  refine ⟨d, w, v, hf, ?_, ?_, Matrix.PosDef.one, Matrix.PosDef.one⟩
  · refine C63_converse (someSpecLib_ok _) Nat.one_pos Nat.two_pos (numState_env _ _ (by simp)) (numState_env _ _ altNum_unit)
      Matrix.PosDef.one Matrix.PosDef.one hf 1 1 (by simp) I (by simp) fun s => ?_
    change chainProd 1 (numState 1 fun _ => 1).A 0 2 s = I • (1 * chainProd 2 (numState 2 altNum).A 0 2 s * 1)
    simp [chainProd, numState, altNum, smul_smul]
  · intro x
    have e : ∀ m, chainTransfer 2 2 (numState 2 altNum).A (numState 2 altNum).A 0 (m * 2) x = x := by
      intro m
      rw [numState_transfer]
      simp only [altNum_unit, Finset.prod_const_one, one_smul]
    simp only [e]
    have e2 : (((numState 2 altNum).l 1)ᴴ * x).trace • (numState 2 altNum).r 1 = x := by
      ext i j
      rw [Subsingleton.elim i 0, Subsingleton.elim j 0]
      simp [numState, Matrix.trace]
    rw [e2]
    exact tendsto_const_nhds

end

end EvoMPS
