import Verif.HalfStringLemmas
import Verif.Props.HalfChain
import Verif.Props.Fidelity
import Verif.ContractsString

/-!
# C69: string operators on the Schmidt vectors of a half chain

The model of `expect_string_1s_density_hc` and `expect_string_per_site_1s` is in `Verif/HalfString.lean`, the specification (`StringSym`,
`OpUnitary`, `StringAction`) in `Verif/HalfStringSpec.lean`.
-/

namespace EvoMPS

open Matrix Uni
open scoped ComplexOrder

variable {q D : ℕ}

/-- The canonical forms at the cut in front of site `k`, with the squared Schmidt coefficients `p`: the symmetric gauge, or the right canonical one. -/
def StrGauge (S : UMPS ℂ q D) (lm rm : ℕ → MM ℂ D D) (symm : Bool) (k : ℕ) (p : Fin D → ℝ) : Prop :=
  let kp := (k + S.L - 1) % S.L
  if symm then ∃ d : Fin D → ℝ, (∀ i, 0 < d i) ∧ (lm kp = .diag fun i => (d i : ℂ)) ∧ (rm kp = .diag fun i => (d i : ℂ)) ∧
    (S.l kp = Matrix.diagonal fun i => (d i : ℂ)) ∧ (S.r kp = Matrix.diagonal fun i => (d i : ℂ)) ∧ ∀ i, p i = d i ^ 2
  else (lm kp = .diag fun i => (p i : ℂ)) ∧ rm kp = .eye D ∧ (S.l kp = Matrix.diagonal fun i => (p i : ℂ)) ∧ S.r kp = 1

theorem strGauge_schmidt {S : UMPS ℂ q D} {lm rm : ℕ → MM ℂ D D} {symm : Bool} {k : ℕ} {p : Fin D → ℝ} (h : StrGauge S lm rm symm k p)
    (eigvals) : uSchmidtSq eigvals (lm ((k + S.L - 1) % S.L)) (rm ((k + S.L - 1) % S.L)) = fun i => (p i : ℂ) := by
  unfold StrGauge at h
  simp only at h
  split_ifs at h
  · obtain ⟨d, -, h1, h2, -, -, h3⟩ := h
    rw [h1, h2]
    funext i
    simp [uSchmidtSq, MM.dot, h3, sq]
  · obtain ⟨h1, h2, -, -⟩ := h
    rw [h1, h2]
    rfl

/-- The matrix before its phase is fixed, in both gauges. -/
theorem string_virtop (S : UMPS ℂ q D) (hL : 0 < S.L) (E : ChainEnv S.L S.A S.l S.r)
    (hmix : BlockMixing S.L S.A (S.l (S.L - 1)) (S.r (S.L - 1))) (k : ℕ) (hk : k < S.L) (op : Fin q → Fin q → ℂ)
    (V : ℕ → Matrix (Fin D) (Fin D) ℂ) (w : ℕ → ℂ) (Y : StringSym S.L S.A op V w) (hU : OpUnitary op) (lm rm : ℕ → MM ℂ D D) (symm : Bool)
    (p : Fin D → ℝ) (hg : StrGauge S lm rm symm k p) (x : Matrix (Fin D) (Fin D) ℂ) (hx : ∑ a, ∑ b, ‖x a b‖ ^ 2 = 1) (c : ℂ)
    (hc : x = c • (V ((k + S.L - 1) % S.L) * S.r ((k + S.L - 1) % S.L))) :
    (∃ z : ℂ, ‖z‖ = 1 ∧ (if symm then (rm ((k + S.L - 1) % S.L)).inv.map fun ri => (ri.dot (.dense x)).toArray
      else some (((Real.sqrt D : ℝ) : ℂ) • x)) = some (z • V ((k + S.L - 1) % S.L))) ∧
    V ((k + S.L - 1) % S.L) * (Matrix.diagonal fun i => (p i : ℂ)) = (Matrix.diagonal fun i => (p i : ℂ)) * V ((k + S.L - 1) % S.L) := by
  have hm := Nat.mod_lt (k + S.L - 1) hL
  have hD : 0 < D := by
    rcases Nat.eq_zero_or_pos D with h0 | h0
    · subst h0
      simp at hx
    · exact h0
  have hW := Y.unitary _ hm
  have hn := E.norm _ hm
  have hfr := frob_mul _ (S.r ((k + S.L - 1) % S.L)) hW c
  rw [← hc, hx] at hfr
  unfold StrGauge at hg
  simp only at hg
  split_ifs at hg with hs
  · obtain ⟨d, hd, -, h2, h3, h4, h5⟩ := hg
    have htr : (S.r ((k + S.L - 1) % S.L)).trace ≠ 0 := by
      rw [h4, Matrix.trace_diagonal, ← Complex.ofReal_sum]
      exact_mod_cast (Finset.sum_pos (fun i _ => hd i) ⟨⟨0, hD⟩, Finset.mem_univ _⟩).ne'
    obtain ⟨hcr, -⟩ := sym_commute hL Y E hmix hU k hk htr
    have hlr : S.l ((k + S.L - 1) % S.L) = S.r ((k + S.L - 1) % S.L) := by rw [h3, h4]
    rw [hlr] at hn
    rw [hn, mul_one] at hfr
    have hc1 : ‖c‖ = 1 := (pow_eq_one_iff_of_nonneg (norm_nonneg _) two_ne_zero).1 (by exact_mod_cast hfr.symm)
    refine ⟨⟨c, hc1, ?_⟩, ?_⟩
    · rw [if_pos hs, h2, hc, hcr, h4]
      simp only [MM.inv, Option.map_some, MM.dot, MM.toArray, mmulDiagR, Option.some.injEq]
      ext i j
      have : (d i : ℂ) ≠ 0 := by exact_mod_cast (hd i).ne'
      simp only [Matrix.transpose_apply, Matrix.of_apply, Matrix.smul_apply, Matrix.diagonal_mul, smul_eq_mul]
      field_simp
    · have e : (Matrix.diagonal fun i => (p i : ℂ)) = S.r ((k + S.L - 1) % S.L) * S.r ((k + S.L - 1) % S.L) := by
        rw [h4, Matrix.diagonal_mul_diagonal]
        congr 1
        funext i
        rw [h5, sq]
        push_cast
        rfl
      rw [e, ← Matrix.mul_assoc, hcr, Matrix.mul_assoc, hcr, Matrix.mul_assoc]
  · obtain ⟨-, -, h3, h4⟩ := hg
    have htr : (S.r ((k + S.L - 1) % S.L)).trace ≠ 0 := by
      rw [h4, Matrix.trace_one, Fintype.card_fin]
      exact_mod_cast hD.ne'
    obtain ⟨-, hcl⟩ := sym_commute hL Y E hmix hU k hk htr
    rw [h3] at hcl
    refine ⟨⟨((Real.sqrt D : ℝ) : ℂ) * c, ?_, ?_⟩, hcl⟩
    · rw [h4, Matrix.conjTranspose_one, Matrix.one_mul, Matrix.trace_one, Fintype.card_fin] at hfr
      have h6 : ‖c‖ ^ 2 * (D : ℝ) = 1 := by exact_mod_cast hfr.symm
      have h7 : (Real.sqrt D * ‖c‖) ^ 2 = 1 := by
        rw [mul_pow, Real.sq_sqrt (Nat.cast_nonneg D), mul_comm]
        exact h6
      rw [norm_mul, Complex.norm_real, Real.norm_of_nonneg (Real.sqrt_nonneg _)]
      exact (pow_eq_one_iff_of_nonneg (by positivity) two_ne_zero).1 h7
    · rw [if_neg hs, hc, h4, Matrix.mul_one, smul_smul]

theorem stringAction_of (L : ℕ) (A : ℕ → Ten ℂ q D D) (op : Fin q → Fin q → ℂ) (V : ℕ → Matrix (Fin D) (Fin D) ℂ) (w : ℕ → ℂ) (hL : 0 < L)
    (Y : StringSym L A op V w) (k : ℕ) (z : ℂ) (hz : ‖z‖ = 1) : StringAction L A op k (z • V ((k + L - 1) % L)) := fun n => by
  have hz2 : z * star z = 1 := by rw [Complex.star_def, Complex.mul_conj, Complex.normSq_eq_norm_sq, hz]; simp
  have hp : strPhase L w k n * star (strPhase L w k n) = 1 := by
    rw [Complex.star_def, Complex.mul_conj, Complex.normSq_eq_norm_sq, strPhase_norm hL Y]; simp
  have hV := unitary_left (Y.unitary _ (Nat.mod_lt (k + n + L - 1) hL))
  refine ⟨(star z * strPhase L w k n) • (V ((k + n + L - 1) % L))ᴴ, ?_, fun s => ?_⟩
  · rw [Matrix.conjTranspose_smul, Matrix.conjTranspose_conjTranspose, Matrix.smul_mul, Matrix.mul_smul, smul_smul, hV, star_mul, star_star,
      show star z * strPhase L w k n * (star (strPhase L w k n) * z) = (z * star z) * (strPhase L w k n * star (strPhase L w k n)) by ring,
      hz2, hp, one_mul, one_smul]
  · rw [string_amplitudes, sym_amplitudes hL Y, Matrix.smul_mul, Matrix.smul_mul, Matrix.mul_smul, smul_smul, ← mul_assoc, hz2, one_mul]

theorem mul_star_norm (z : ℂ) (h : ‖z‖ = 1) : z * star z = 1 := by
  rw [Complex.star_def, Complex.mul_conj, Complex.normSq_eq_norm_sq, h]
  simp

theorem cpow_root (e : ℂ) (L : ℕ) (hL : 0 < L) : (e ^ (1 / (L : ℂ))) ^ L = e := by
  rw [one_div]
  exact Complex.cpow_nat_inv_pow e hL.ne'

/-- **C69.** For a state in canonical form whose correlations decay, and a unitary operator whose string is a symmetry of the state: if the
largest Schmidt coefficient at the cut is not degenerate, `virtop` is unitary, it is up to a phase the gauge transformation that represents the
symmetry, it describes what the string does to the vectors of the half chain, and its entry for the largest Schmidt coefficient is one.  `expvals` is
its diagonal, and the overlap per site has modulus one. -/
theorem C69_string_partial (S : UMPS ℂ q D) (hL : 0 < S.L) (hD : D ≠ 1) (E : ChainEnv S.L S.A S.l S.r)
    (hmix : BlockMixing S.L S.A (S.l (S.L - 1)) (S.r (S.L - 1))) (k : ℕ) (hk : k < S.L) (op : OpArg q)
    (V : ℕ → Matrix (Fin D) (Fin D) ℂ) (w : ℕ → ℂ) (Y : StringSym S.L S.A op.array V w) (hU : OpUnitary op.array) (lm rm : ℕ → MM ℂ D D)
    (symm : Bool) (p : Fin D → ℝ) (hg : StrGauge S lm rm symm k p) (i : Fin D) (hi : ∀ j ≠ i, p j < p i)
    (eigs : Eigs1 (D * D)) (hok : eigs.Ok) (eigvals) (junk : Matrix (Fin D) (Fin D) ℂ) (out)
    (h : S.strHc eigs eigvals junk lm rm symm op k = some out) :
    ∃ (ol : ℂ) (G : Matrix (Fin D) (Fin D) ℂ), out = (some G.diag, ol, some G) ∧ G * Gᴴ = 1 ∧ G i i = 1 ∧
      (∃ z : ℂ, ‖z‖ = 1 ∧ G = z • V ((k + S.L - 1) % S.L)) ∧ StringAction S.L S.A op.array k G ∧
      ‖ol‖ = 1 ∧ ol ^ S.L = ∏ j ∈ Finset.range S.L, w ((k + j) % S.L) := by
  have hm := Nat.mod_lt (k + S.L - 1) hL
  unfold UMPS.strHc at h
  simp only [hD, dif_neg, not_false_iff] at h
  obtain ⟨⟨e, v⟩, he, h⟩ := Option.bind_eq_some_iff.1 h
  simp only at h
  obtain ⟨h1, h2, h3⟩ := hok _ _ _ he
  rw [string_matvec S op.array k hk] at h1
  have hv0 : (reshape v : Matrix (Fin D) (Fin D) ℂ) ≠ 0 := fun h0 => by
    rw [frob_reshape, h0] at h2
    simp at h2
  have h1' : chainTransfer S.L S.L (fun j => opTen op.array (S.A j)) S.A k S.L (reshape v) = e • reshape v := by
    have := congrArg (reshape (m := D) (n := D)) (Option.some.inj h1)
    rw [reshape_ravel_pinv] at this
    rw [this]
    rfl
  obtain ⟨hev, c, hc⟩ := sym_eigen hL Y E hmix k hk e (reshape v) hv0 h1' (fun μ x hx0 hx => by
    refine h3 μ (ravel x) (fun h0 => hx0 ?_) ?_
    · rw [← reshape_ravel_pinv x, h0]
      rfl
    · rw [string_matvec S op.array k hk, reshape_ravel_pinv, hx]
      rfl)
  rw [frob_reshape] at h2
  obtain ⟨⟨z, hz, hvt⟩, hcom⟩ := string_virtop S hL E hmix k hk op.array V w Y hU lm rm symm p hg (reshape v) h2 c hc
  rw [hvt, Option.bind_some, strGauge_schmidt hg] at h
  obtain ⟨ind, hind, h⟩ := Option.map_eq_some_iff.1 h
  have hW := Y.unitary _ hm
  set W := V ((k + S.L - 1) % S.L) with hWdef
  have hii : ind = i := by
    by_contra hne
    have h4 := argmaxRe_spec hind i
    have h5 := hi ind hne
    simp only [Complex.ofReal_re] at h4
    linarith
  subst hii
  have hWi : ‖W ind ind‖ = 1 := commute_diag hW _ hcom ind fun j hj => by exact_mod_cast (hi j hj).ne
  set a : ℂ := z * W ind ind with ha
  have han : ‖a‖ = 1 := by rw [ha, norm_mul, hz, hWi, one_mul]
  have ha0 : a ≠ 0 := fun h0 => by rw [h0, norm_zero] at han; exact zero_ne_one han
  have hae : (z • W).diag ind = a := rfl
  rw [hae, if_neg ha0, han] at h
  have hsa : ‖star a / ((1 : ℝ) : ℂ) * z‖ = 1 := by
    rw [Complex.ofReal_one, div_one, norm_mul, norm_star, han, hz, one_mul]
  have hol : ‖e ^ (1 / (S.L : ℂ))‖ = 1 := by
    refine (pow_eq_one_iff_of_nonneg (norm_nonneg _) hL.ne').1 ?_
    rw [← norm_pow, cpow_root e S.L hL, hev]
    exact strPhase_norm hL Y k S.L
  refine ⟨e ^ (1 / (S.L : ℂ)), (star a / ((1 : ℝ) : ℂ)) • z • W, h.symm, ?_, ?_, ⟨star a / ((1 : ℝ) : ℂ) * z, hsa, by rw [smul_smul]⟩, ?_, hol, ?_⟩
  · rw [smul_smul, Matrix.conjTranspose_smul, Matrix.smul_mul, Matrix.mul_smul, smul_smul, hW, mul_star_norm _ hsa, one_smul]
  · have : (star a / ((1 : ℝ) : ℂ)) * a = 1 := by
      rw [Complex.ofReal_one, div_one, Complex.star_def, mul_comm, Complex.mul_conj, Complex.normSq_eq_norm_sq, han]
      simp
    exact this
  · rw [smul_smul]
    exact stringAction_of S.L S.A op.array V w hL Y k _ hsa
  · rw [cpow_root e S.L hL, hev]
    rfl

/-- The state with the operator applied to every site. -/
def opState (S : UMPS ℂ q D) (op : Fin q → Fin q → ℂ) : UMPS ℂ q D := { S with A := fun j s => ∑ t, op s t • S.A j t }

/-- `las.eigs` as one of the solvers of `fidelity_per_site`. -/
def eigsLib {n : ℕ} (eigs : Eigs1 n) : SpecLib n := ⟨fun _ _ => none, fun T => (eigs T).map fun p => [p]⟩

theorem eigsLib_ok {n : ℕ} {eigs : Eigs1 n} (h : eigs.Ok) : (eigsLib eigs).Ok where
  eig E left ps h := by cases h
  eigs T ps hp := by
    obtain ⟨⟨e, v⟩, h1, rfl⟩ := Option.map_eq_some_iff.1 hp
    obtain ⟨h2, h3, h4⟩ := h T e v h1
    refine ⟨fun p hp => ?_, fun μ x hx0 hx => ⟨(e, v), List.mem_singleton.2 rfl, h4 μ x hx0 hx⟩⟩
    rw [List.mem_singleton.1 hp]
    refine ⟨fun h0 => ?_, h2⟩
    have h0 : v = 0 := h0
    rw [h0] at h3
    simp at h3

/-- The per-site factor of a string is the fidelity per site of the state and the transformed state. -/
theorem perSite_fidelity (S : UMPS ℂ q D) (hL : 0 < S.L) (hD : D ≠ 1) (op : OpArg q) (eigs : Eigs1 (D * D)) (junk : Matrix (Fin D) (Fin D) ℂ)
    (ev : ℂ) (h : S.strPerSite eigs junk op = some ev) :
    ∃ v, fidelity (eigsLib eigs) ⟨false, true, 0⟩ false (opState S op.array) S = some (‖ev‖, ev ^ S.L, v) := by
  unfold UMPS.strPerSite at h
  simp only [hD, dif_neg, not_false_iff] at h
  obtain ⟨⟨e, v⟩, h1, rfl⟩ := Option.map_eq_some_iff.1 h
  have hT : (EOp.mk (S.list.map (opTen op.array)) S.list false).matvec junk = (largestOp (opState S op.array).list S.list 0 false).matvec 0 := by
    funext x
    obtain ⟨E, -, e1, -, e3, -⟩ := dense_mixed (opState S op.array) S hL hL
    have h2 := string_matvec S op.array 0 hL junk x
    have hr : rotList 0 S.list = S.list := by simp [rotList]
    rw [hr] at h2
    rw [e3, h2]
    have h3 := e1 x
    rw [show (opState S op.array).L = S.L from rfl, Nat.lcm_self] at h3
    have h4 := congrArg ravel h3
    rw [ravel_reshape] at h4
    rw [h4]
    rfl
  refine ⟨v, ?_⟩
  unfold fidelity largestEigs
  rw [if_neg (by simp), if_neg (by simp [opState]; omega)]
  rw [hT] at h1
  simp only [eigsLib, h1, Option.map_some, Option.bind_some, argmaxPair, List.foldl_nil]
  rw [cpow_root e S.L hL]
  have hl : (opState S op.array).L * S.L / ((opState S op.array).L.gcd S.L) = S.L := by
    rw [show (opState S op.array).L = S.L from rfl, Nat.gcd_self, Nat.mul_div_cancel _ hL]
  rw [hl]
  have : ‖e ^ (1 / (S.L : ℂ))‖ = ‖e‖ ^ (1 / (S.L : ℝ)) := by
    have := Complex.norm_cpow_real e (1 / (S.L : ℝ))
    push_cast at this
    exact this
  rw [this]

/-- **C69.** The modulus of the per-site factor of a string is the rate of its expectation values: pieces of `n` sites with arbitrary ends are
bounded by a multiple of `(|f| + ε) ^ n`, and for every number of blocks there are ends for which they are at least a fixed multiple of `|f| ^ n`. -/
theorem C69_rate (S : UMPS ℂ q D) (hL : 0 < S.L) (hD : D ≠ 1) (op : OpArg q) (eigs : Eigs1 (D * D)) (hok : eigs.Ok)
    (junk : Matrix (Fin D) (Fin D) ℂ) (f : ℂ) (h : S.strPerSite eigs junk op = some f) :
    (∀ ε : ℝ, 0 < ε → ∀ u x u' x', ∃ C : ℝ, ∀ n,
      ‖pieceOverlap S.L S.L (fun j s => ∑ t, op.array s t • S.A j t) S.A u x u' x' n‖ ≤ C * (‖f‖ + ε) ^ n) ∧
    ∃ c : ℝ, 0 < c ∧ ∀ m : ℕ, ∃ i j i' j', c * ‖f‖ ^ (m * S.L) ≤ ‖pieceOverlap S.L S.L (fun j s => ∑ t, op.array s t • S.A j t) S.A
      (Pi.single i 1) (Pi.single j 1) (Pi.single i' 1) (Pi.single j' 1) (m * S.L)‖ := by
  obtain ⟨v, hv⟩ := perSite_fidelity S hL hD op eigs junk f h
  have := C63_rate (S := opState S op.array) (S' := S) (eigsLib_ok hok) hL hL hv
  rwa [show (opState S op.array).L = S.L from rfl, Nat.lcm_self] at this

theorem opState_env (S : UMPS ℂ q D) (op : Fin q → Fin q → ℂ) (hU : OpUnitary op) (E : ChainEnv S.L S.A S.l S.r) :
    ChainEnv (opState S op).L (opState S op).A (opState S op).l (opState S op).r := by
  have key : ∀ (B : Fin q → Matrix (Fin D) (Fin D) ℂ) (f : Matrix (Fin D) (Fin D) ℂ → Matrix (Fin D) (Fin D) ℂ → Matrix (Fin D) (Fin D) ℂ)
      (_ : ∀ (c c' : Fin q → ℂ), f (∑ t, c t • B t) (∑ t, c' t • B t) = ∑ t, ∑ t', (c t * star (c' t')) • f (B t) (B t')),
      ∑ s, f (∑ t, op s t • B t) (∑ t, op s t • B t) = ∑ s, f (B s) (B s) := fun B f hf => by
    simp only [hf]
    rw [Finset.sum_comm]
    refine Finset.sum_congr rfl fun t _ => ?_
    rw [Finset.sum_comm]
    have hU' := hU t
    simp only [← Finset.sum_smul, hU', ite_smul, one_smul, zero_smul, Finset.sum_ite_eq, Finset.mem_univ, if_true]
  constructor
  · intro k hk
    refine (E.left k hk).trans ?_
    have := key (S.A k) (fun X Y => Yᴴ * S.l ((k + S.L - 1) % S.L) * X) (fun c c' => by
      simp only [Matrix.conjTranspose_sum, Matrix.conjTranspose_smul, Matrix.sum_mul, Matrix.mul_sum, Matrix.smul_mul, Matrix.mul_smul,
        Finset.smul_sum, smul_smul])
    exact this.symm
  · intro k hk
    refine (E.right k hk).trans ?_
    have := key (S.A k) (fun X Y => X * S.r k * Yᴴ) (fun c c' => by
      simp only [Matrix.conjTranspose_sum, Matrix.conjTranspose_smul, Matrix.sum_mul, Matrix.mul_sum, Matrix.smul_mul, Matrix.mul_smul,
        Finset.smul_sum, smul_smul]
      rw [Finset.sum_comm]
      refine Finset.sum_congr rfl fun t _ => Finset.sum_congr rfl fun t' _ => ?_
      rw [mul_comm])
    exact this.symm
  · exact E.norm

/-- **C69.** For a unitary operator the per-site factor is at most one in modulus. -/
theorem C69_bound (S : UMPS ℂ q D) (hL : 0 < S.L) (hD : D ≠ 1) (E : ChainEnv S.L S.A S.l S.r) (hl : (S.l (S.L - 1)).PosDef)
    (hr : (S.r (S.L - 1)).PosDef) (op : OpArg q) (hU : OpUnitary op.array) (eigs : Eigs1 (D * D)) (hok : eigs.Ok)
    (junk : Matrix (Fin D) (Fin D) ℂ) (f : ℂ) (h : S.strPerSite eigs junk op = some f) : ‖f‖ ≤ 1 := by
  obtain ⟨v, hv⟩ := perSite_fidelity S hL hD op eigs junk f h
  exact (C63_bound (S := opState S op.array) (S' := S) (eigsLib_ok hok) hL hL (opState_env S op.array hU E) E hl hr hv).2

/-- **C69.** The per-site factor of a string that is a symmetry has modulus one. -/
theorem C69_symmetric (S : UMPS ℂ q D) (hL : 0 < S.L) (hD : D ≠ 1) (E : ChainEnv S.L S.A S.l S.r)
    (hmix : BlockMixing S.L S.A (S.l (S.L - 1)) (S.r (S.L - 1))) (op : OpArg q) (V : ℕ → Matrix (Fin D) (Fin D) ℂ) (w : ℕ → ℂ)
    (Y : StringSym S.L S.A op.array V w) (eigs : Eigs1 (D * D)) (hok : eigs.Ok)
    (junk : Matrix (Fin D) (Fin D) ℂ) (f : ℂ) (h : S.strPerSite eigs junk op = some f) :
    ‖f‖ = 1 ∧ f ^ S.L = ∏ j ∈ Finset.range S.L, w j := by
  unfold UMPS.strPerSite at h
  simp only [hD, dif_neg, not_false_iff] at h
  obtain ⟨⟨e, v⟩, he, rfl⟩ := Option.map_eq_some_iff.1 h
  obtain ⟨h1, h2, h3⟩ := hok _ _ _ he
  have hm : ∀ x, (EOp.mk (S.list.map (opTen op.array)) S.list false).matvec junk x
      = some (ravel (chainTransfer S.L S.L (fun j => opTen op.array (S.A j)) S.A 0 S.L (reshape x))) := fun x => by
    have := string_matvec S op.array 0 hL junk x
    rwa [show rotList 0 S.list = S.list by simp [rotList]] at this
  rw [hm] at h1
  have hv0 : (reshape v : Matrix (Fin D) (Fin D) ℂ) ≠ 0 := fun h0 => by
    rw [frob_reshape, h0] at h2
    simp at h2
  have h1' : chainTransfer S.L S.L (fun j => opTen op.array (S.A j)) S.A 0 S.L (reshape v) = e • reshape v := by
    have := congrArg (reshape (m := D) (n := D)) (Option.some.inj h1)
    rw [reshape_ravel_pinv] at this
    rw [this]
    rfl
  obtain ⟨hev, -⟩ := sym_eigen hL Y E hmix 0 hL e (reshape v) hv0 h1' (fun μ x hx0 hx => by
    refine h3 μ (ravel x) (fun h0 => hx0 ?_) ?_
    · rw [← reshape_ravel_pinv x, h0]
      rfl
    · rw [hm, reshape_ravel_pinv, hx]
      rfl)
  simp only
  have hp : (e ^ (1 / (S.L : ℂ))) ^ S.L = strPhase S.L w 0 S.L := by rw [cpow_root e S.L hL, hev]
  refine ⟨(pow_eq_one_iff_of_nonneg (norm_nonneg _) hL.ne').1 ?_, ?_⟩
  · rw [← norm_pow, hp]
    exact strPhase_norm hL Y 0 S.L
  · rw [hp, strPhase]
    refine Finset.prod_congr rfl fun j hj => ?_
    rw [Nat.zero_add, Nat.mod_eq_of_lt (Finset.mem_range.1 hj)]

/-- **C69.** Conversely, if the per-site factor of a unitary operator has modulus one, the string is a change of gauge of every number of blocks. -/
theorem C69_detects (S : UMPS ℂ q D) (hL : 0 < S.L) (hD : D ≠ 1) (E : ChainEnv S.L S.A S.l S.r) (hl : (S.l (S.L - 1)).PosDef)
    (hr : (S.r (S.L - 1)).PosDef) (hmix : BlockMixing S.L S.A (S.l (S.L - 1)) (S.r (S.L - 1))) (op : OpArg q) (hU : OpUnitary op.array)
    (hmix' : BlockMixing S.L (fun j s => ∑ t, op.array s t • S.A j t) (S.l (S.L - 1)) (S.r (S.L - 1)))
    (eigs : Eigs1 (D * D)) (hok : eigs.Ok) (junk : Matrix (Fin D) (Fin D) ℂ) (f : ℂ) (h : S.strPerSite eigs junk op = some f) (hf : ‖f‖ = 1) :
    ∃ g gi : Matrix (Fin D) (Fin D) ℂ, g * gi = 1 ∧ ∀ (m : ℕ) (s : Fin (m * S.L) → Fin q),
      ∑ t, tensorOp (m * S.L) (fun _ => op.array) s t • chainProd S.L S.A 0 (m * S.L) t
        = (f ^ S.L) ^ m • (g * chainProd S.L S.A 0 (m * S.L) s * gi) := by
  obtain ⟨v, hv⟩ := perSite_fidelity S hL hD op eigs junk f h
  obtain ⟨g, gi, h1, -, h2, -⟩ := C63_same (S := opState S op.array) (S' := S) (eigsLib_ok hok) hL hL (opState_env S op.array hU E) E hl hr hl hr hmix' hmix hv hf
  refine ⟨g, gi, h1, fun m s => ?_⟩
  rw [show (opState S op.array).L = S.L from rfl, Nat.lcm_self] at h2
  rw [string_amplitudes]
  have := h2 m s
  simp only [Bool.false_eq_true, false_and, if_false] at this
  exact this

/-! ## Product states -/

theorem string_one (S : UMPS ℂ q 1) (op : Fin q → Fin q → ℂ) (n : ℕ) (x : Matrix (Fin 1) (Fin 1) ℂ) :
    chainOp S.L S.A 0 n (tensorOp n fun _ => op) x
      = (∏ i ∈ Finset.range n, ∑ s, opTen op (S.A (i % S.L)) s 0 0 * star (S.A (i % S.L) s 0 0)) • x := by
  induction n generalizing x with
  | zero => rw [chainOp_zero, Finset.prod_range_zero, one_smul]
  | succ n ih =>
    rw [chainOp_string_succ, ih, Finset.prod_range_succ, mul_smul, Nat.zero_add]
    congr 1
    ext i j
    fin_cases i
    fin_cases j
    simp only [epsROp1_eq, opTen, Fin.zero_eta, Matrix.sum_apply, Matrix.smul_apply, Matrix.mul_apply, Finset.univ_unique, Fin.default_eq_zero,
      Finset.sum_singleton, Matrix.conjTranspose_apply, smul_eq_mul, Finset.sum_mul]
    refine Finset.sum_congr rfl fun s _ => Finset.sum_congr rfl fun t _ => ?_
    ring

theorem prod_period (L : ℕ) (d : ℕ → ℂ) (m : ℕ) :
    ∏ i ∈ Finset.range (m * L), d (i % L) = (∏ i ∈ Finset.range L, d (i % L)) ^ m := by
  induction m with
  | zero => simp
  | succ m ih =>
    rw [Nat.add_mul, Nat.one_mul, Finset.prod_range_add, ih, pow_succ]
    congr 1
    refine Finset.prod_congr rfl fun i _ => ?_
    rw [Nat.add_comm, Nat.add_mul_mod_self_right]

/-- **C69.** For a product state the per-site factor gives the expectation values of the strings: on `m` blocks it is the factor to the power of
the number of sites. -/
theorem C69_product (S : UMPS ℂ q 1) (hL : 0 < S.L) (E : ChainEnv S.L S.A S.l S.r) (op : OpArg q) (eigs : Eigs1 (1 * 1))
    (junk : Matrix (Fin 1) (Fin 1) ℂ) :
    ∃ f, S.strPerSite eigs junk op = some f ∧
      ∀ m, chainExpect S.L S.A S.l S.r 0 (m * S.L) (tensorOp (m * S.L) fun _ => op.array) = f ^ (m * S.L) := by
  refine ⟨_, by unfold UMPS.strPerSite; rw [dif_pos rfl], fun m => ?_⟩
  have e : stringD1 (S.list.map (opTen op.array)) S.list ⟨0, Nat.one_pos⟩
      = ∏ i ∈ Finset.range S.L, ∑ s, opTen op.array (S.A (i % S.L)) s 0 0 * star (S.A (i % S.L) s 0 0) := by
    unfold stringD1
    rw [list_length]
    have key : ∀ n ≤ S.L, (List.range n).foldl (fun ev j => ev * ∑ s, ((S.list.map (opTen op.array)).getD j 0) s ⟨0, Nat.one_pos⟩ ⟨0, Nat.one_pos⟩
        * star ((S.list.getD j 0) s ⟨0, Nat.one_pos⟩ ⟨0, Nat.one_pos⟩)) 1
        = ∏ i ∈ Finset.range n, ∑ s, opTen op.array (S.A (i % S.L)) s 0 0 * star (S.A (i % S.L) s 0 0) := fun n hn => by
      induction n with
      | zero => simp
      | succ n ih =>
        have h1 : S.list.getD n 0 = S.A (n % S.L) := by
          rw [Nat.mod_eq_of_lt (by omega)]
          simp [UMPS.list, List.getD_eq_getElem?_getD, List.getElem?_range (show n < S.L by omega)]
        have h2 : (S.list.map (opTen op.array)).getD n 0 = opTen op.array (S.A (n % S.L)) := by
          rw [Nat.mod_eq_of_lt (by omega)]
          simp [UMPS.list, List.getD_eq_getElem?_getD, List.getElem?_range (show n < S.L by omega)]
        rw [List.range_succ, List.foldl_append, List.foldl_cons, List.foldl_nil, ih (by omega), Finset.prod_range_succ, h1, h2]
        rfl
    exact key S.L le_rfl
  rw [mul_comm m, pow_mul, cpow_root _ _ hL, e, ← prod_period S.L (fun j => ∑ s, opTen op.array (S.A j) s 0 0 * star (S.A j s 0 0)), chainExpect_adot, string_one, mul_comm S.L, adot_eq_trace, Matrix.mul_smul, Matrix.trace_smul]
  have h1 : (0 + m * S.L + S.L - 1) % S.L = (0 + S.L - 1) % S.L := by
    rw [show 0 + m * S.L + S.L - 1 = (0 + S.L - 1) + m * S.L by omega, Nat.add_mul_mod_self_right]
  rw [h1, E.norm _ (Nat.mod_lt _ hL), smul_eq_mul, mul_one]

/-! ## The functions return -/

/-- With an eigenvalue solver that finds an eigenvector if there is one, both functions return. -/
theorem string_returns (S : UMPS ℂ q D) (hD : 0 < D) (junk : Matrix (Fin D) (Fin D) ℂ) (op : OpArg q) (hL : 0 < S.L) :
    (∃ f, S.strPerSite (someEigs1 _) junk op = some f) ∧
    ∀ (eigvals) (lm rm : ℕ → MM ℂ D D) (symm : Bool) (k : ℕ), k < S.L → (∀ j, (rm j).inv ≠ none) →
      ∃ out, S.strHc (someEigs1 _) eigvals junk lm rm symm op k = some out := by
  refine ⟨?_, fun eigvals lm rm symm k hk hinv => ?_⟩
  · unfold UMPS.strPerSite
    simp only
    split_ifs
    · exact ⟨_, rfl⟩
    · obtain ⟨p, hp⟩ := someEigs1_string S hD op.array 0 hL junk
      rw [show rotList 0 S.list = S.list by simp [rotList]] at hp
      rw [hp]
      exact ⟨_, rfl⟩
  · unfold UMPS.strHc
    have h1 : ∃ p : ℂ × (Fin (D * D) → ℂ), (if h : D = 1 then
        some (stringD1 ((rotList k S.list).map (opTen op.array)) (rotList k S.list) ⟨0, by omega⟩, fun _ => 1)
        else someEigs1 (D * D) ((EOp.mk ((rotList k S.list).map (opTen op.array)) (rotList k S.list) false).matvec junk)) = some p := by
      split_ifs
      · exact ⟨_, rfl⟩
      · exact someEigs1_string S hD op.array k hk junk
    obtain ⟨p, hp⟩ := h1
    simp only [hp, Option.bind_some]
    obtain ⟨ri, hri⟩ := Option.ne_none_iff_exists'.1 (hinv ((k + S.L - 1) % S.L))
    obtain ⟨ind, hind⟩ := argmaxRe_some (uSchmidtSq eigvals (lm ((k + S.L - 1) % S.L)) (rm ((k + S.L - 1) % S.L))) ⟨0, hD⟩
    rw [hri, hind]
    split_ifs <;> exact ⟨_, rfl⟩

/-! ## Concrete cases -/

/-- The operator `diag(1, 1, -1, -1)`. -/
def demoZ : Fin 4 → Fin 4 → ℂ := fun s t => if s = t then (if s.val < 2 then 1 else -1) else 0

theorem demoZ_sym (ham : UHam 4) : StringSym (demoPauli4 ham).L (demoPauli4 ham).A demoZ (fun _ => !![0, 1; 1, 0]) (fun _ => 1) where
  unitary j _ := by
    ext a b
    fin_cases a <;> fin_cases b <;> simp [Matrix.mul_apply, Fin.sum_univ_two]
  phase j _ := by simp
  site j _ s := by
    ext a b
    fin_cases s <;> fin_cases a <;> fin_cases b <;>
      simp [demoPauli4, demoZ, Matrix.vecMul, Matrix.vecHead, Matrix.vecTail] <;> ring

theorem demoZ_unitary : OpUnitary demoZ := fun t t' => by
  fin_cases t <;> fin_cases t' <;> simp [demoZ]

theorem demoPauli4_str (ham : UHam 4) : StrGauge (demoPauli4 ham).toUMPS (fun _ => .diag fun _ => ((1 / 2 : ℝ) : ℂ)) (fun _ => .eye 2) false 0 (fun _ => 1 / 2) := by
  refine ⟨rfl, rfl, ?_, rfl⟩
  ext a b
  fin_cases a <;> fin_cases b <;> simp [demoPauli4]

/-- **C69.** Violated by states with a degenerate largest Schmidt coefficient: there is a state in canonical form with decaying correlations and a
unitary operator whose string is a symmetry, for which the arrays returned are NaN.  The phase is fixed with the first entry of the diagonal, which can be zero. -/
theorem C69_degenerate_violated (ham : UHam 4) (eigs : Eigs1 (2 * 2)) (hok : eigs.Ok) (eigvals) (junk : Matrix (Fin 2) (Fin 2) ℂ) (out)
    (h : (demoPauli4 ham).toUMPS.strHc eigs eigvals junk (fun _ => .diag fun _ => ((1 / 2 : ℝ) : ℂ)) (fun _ => .eye 2) false (.arr demoZ) 0 = some out) :
    out.1 = none ∧ out.2.2 = none := by
  have hL := demoPauli4_pos ham
  have hL1 : (demoPauli4 ham).L = 1 := rfl
  unfold UMPS.strHc at h
  simp only [show ¬ (2 = 1) by norm_num, dif_neg, not_false_iff] at h
  obtain ⟨⟨e, v⟩, he, h⟩ := Option.bind_eq_some_iff.1 h
  simp only at h
  obtain ⟨h1, h2, h3⟩ := hok _ _ _ he
  rw [string_matvec _ _ 0 hL] at h1
  have hv0 : (reshape v : Matrix (Fin 2) (Fin 2) ℂ) ≠ 0 := fun h0 => by
    rw [frob_reshape, h0] at h2
    simp at h2
  have h1' : chainTransfer (demoPauli4 ham).L (demoPauli4 ham).L (fun j => opTen demoZ ((demoPauli4 ham).A j)) (demoPauli4 ham).A 0 (demoPauli4 ham).L
      (reshape v) = e • reshape v := by
    have := congrArg (reshape (m := 2) (n := 2)) (Option.some.inj h1)
    rw [reshape_ravel_pinv] at this
    exact this
  obtain ⟨hev, c, hc⟩ := sym_eigen hL (demoZ_sym ham) (demoPauli4_env ham) (demoPauli4_mixing ham) 0 hL e (reshape v) hv0 h1' (fun μ x hx0 hx => by
    refine h3 μ (ravel x) (fun h0 => hx0 ?_) ?_
    · rw [← reshape_ravel_pinv x, h0]
      rfl
    · rw [string_matvec _ _ 0 hL, reshape_ravel_pinv]
      exact congrArg (fun M => some (ravel M)) hx)
  rw [frob_reshape] at h2
  obtain ⟨⟨z, hz, hvt⟩, -⟩ := string_virtop (demoPauli4 ham).toUMPS hL (demoPauli4_env ham) (demoPauli4_mixing ham) 0 hL demoZ _ _ (demoZ_sym ham)
    demoZ_unitary _ _ false _ (demoPauli4_str ham) (reshape v) h2 c hc
  rw [hvt, Option.bind_some] at h
  obtain ⟨ind, -, h⟩ := Option.map_eq_some_iff.1 h
  have h0 : (z • (!![0, 1; 1, 0] : Matrix (Fin 2) (Fin 2) ℂ)).diag ind = 0 := by fin_cases ind <;> simp
  rw [if_pos h0] at h
  rw [← h]
  exact ⟨rfl, rfl⟩

/-- The call of the previous theorem returns. -/
example (ham : UHam 4) (eigvals) (junk : Matrix (Fin 2) (Fin 2) ℂ) : ∃ out, (demoPauli4 ham).toUMPS.strHc (someEigs1 _) eigvals junk
    (fun _ => .diag fun _ => ((1 / 2 : ℝ) : ℂ)) (fun _ => .eye 2) false (.arr demoZ) 0 = some out ∧ out.1 = none := by
  obtain ⟨out, h⟩ := (string_returns (demoPauli4 ham).toUMPS (by norm_num) junk (.arr demoZ) (demoPauli4_pos ham)).2 eigvals
    (fun _ => .diag fun _ => ((1 / 2 : ℝ) : ℂ)) (fun _ => .eye 2) false 0 (demoPauli4_pos ham) (fun j => by simp [MM.inv])
  exact ⟨out, h, (C69_degenerate_violated ham _ (someEigs1_ok _) eigvals junk out h).1⟩

/-- The per-site factor of this string has modulus one, and the converse applies. -/
example (ham : UHam 4) (junk : Matrix (Fin 2) (Fin 2) ℂ) : ∃ f, (demoPauli4 ham).toUMPS.strPerSite (someEigs1 _) junk (.arr demoZ) = some f ∧ f = 1 := by
  obtain ⟨f, h⟩ := (string_returns (demoPauli4 ham).toUMPS (by norm_num) junk (.arr demoZ) (demoPauli4_pos ham)).1
  have := (C69_symmetric (demoPauli4 ham).toUMPS (demoPauli4_pos ham) (by norm_num) (demoPauli4_env ham) (demoPauli4_mixing ham) (.arr demoZ) _ _
    (demoZ_sym ham) _ (someEigs1_ok _) junk f h).2
  refine ⟨f, h, ?_⟩
  simpa [demoPauli4] using this

/-- A state with the squared Schmidt coefficients `16/25` and `9/25`. -/
noncomputable def demoOrd : UMPS ℂ 4 2 where
  L := 1
  A := fun _ => ![!![4 / 5, 0; 0, 0], !![0, 3 / 5; 0, 0], !![0, 0; 4 / 5, 0], !![0, 0; 0, 3 / 5]]
  AA := 0
  l := fun _ => !![16 / 25, 0; 0, 9 / 25]
  r := fun _ => 1
  lL := 0
  rL := 0

/-- The operator `diag(1, -1, -1, 1)`. -/
def demoParity : Fin 4 → Fin 4 → ℂ := fun s t => if s = t then (if s = 0 ∨ s = 3 then 1 else -1) else 0

theorem demoOrd_env : ChainEnv demoOrd.L demoOrd.A demoOrd.l demoOrd.r where
  left k _ := by
    ext i j
    fin_cases i <;> fin_cases j <;> simp [demoOrd, Fin.sum_univ_four, Matrix.mul_apply, Fin.sum_univ_two, Complex.conj_ofNat] <;> norm_num
  right k _ := by
    ext i j
    fin_cases i <;> fin_cases j <;> simp [demoOrd, Fin.sum_univ_four, Matrix.vecMul, Matrix.vecHead, Matrix.vecTail, dotProduct, Fin.sum_univ_two, Complex.conj_ofNat] <;> norm_num
  norm k _ := by
    simp [demoOrd, Matrix.trace_fin_two]
    norm_num

theorem demoOrd_mixing : BlockMixing demoOrd.L demoOrd.A (demoOrd.l (demoOrd.L - 1)) (demoOrd.r (demoOrd.L - 1)) := fun x => by
  have e : ∀ m, chainTransfer demoOrd.L demoOrd.L demoOrd.A demoOrd.A 0 (m + 1) x = ((demoOrd.l 0)ᴴ * x).trace • demoOrd.r 0 := fun m => by
    have e1 : epsR x (demoOrd.A ((0 + m) % demoOrd.L)) (demoOrd.A ((0 + m) % demoOrd.L)) = ((demoOrd.l 0)ᴴ * x).trace • demoOrd.r 0 := by
      rw [epsR_eq]
      ext i j
      fin_cases i <;> fin_cases j <;>
        simp [demoOrd, Fin.sum_univ_four, Matrix.mul_apply, Fin.sum_univ_two, Complex.conj_ofNat, Matrix.trace_fin_two, Matrix.vecMul, dotProduct,
          Matrix.vecHead, Matrix.vecTail] <;> ring
    rw [chainTransfer_succ, e1, chainTransfer_smul]
    exact congrArg _ (demoOrd_env.transferR Nat.one_pos 0 m)
  refine (Filter.tendsto_add_atTop_iff_nat 1).1 (tendsto_const_nhds.congr fun m => ?_)
  rw [show (m + 1) * demoOrd.L = m + 1 from Nat.mul_one _, e]
  rfl

theorem demoOrd_sym : StringSym demoOrd.L demoOrd.A demoParity (fun _ => !![1, 0; 0, -1]) (fun _ => 1) where
  unitary j _ := by
    ext a b
    fin_cases a <;> fin_cases b <;> simp [Matrix.mul_apply, Fin.sum_univ_two]
  phase j _ := by simp
  site j _ s := by
    ext a b
    fin_cases s <;> fin_cases a <;> fin_cases b <;>
      simp [demoOrd, demoParity, Matrix.vecMul, Matrix.vecHead, Matrix.vecTail]

/-- The hypotheses of `C69_string_partial` are met, and `virtop` is `diag(1, -1)`. -/
example (eigvals) (junk : Matrix (Fin 2) (Fin 2) ℂ) : ∃ ol, demoOrd.strHc (someEigs1 _) eigvals junk (fun _ => .diag fun i => ((![16 / 25, 9 / 25] i : ℝ) : ℂ))
    (fun _ => .eye 2) false (.arr demoParity) 0 = some (some (![1, -1]), ol, some !![1, 0; 0, -1]) := by
  obtain ⟨out, h⟩ := (string_returns demoOrd (by norm_num) junk (.arr demoParity) Nat.one_pos).2 eigvals
    (fun _ => .diag fun i => ((![16 / 25, 9 / 25] i : ℝ) : ℂ)) (fun _ => .eye 2) false 0 Nat.one_pos (fun j => by simp [MM.inv])
  obtain ⟨ol, G, rfl, -, h1, ⟨z, -, rfl⟩, -⟩ := C69_string_partial demoOrd Nat.one_pos (by norm_num) demoOrd_env demoOrd_mixing 0 Nat.one_pos (.arr demoParity) _ _ demoOrd_sym
    (fun t t' => by fin_cases t <;> fin_cases t' <;> simp [OpArg.array, demoParity])
    _ _ false ![16 / 25, 9 / 25] ⟨rfl, rfl, by ext a b; fin_cases a <;> fin_cases b <;> simp [demoOrd], rfl⟩ 0
    (fun j hj => by fin_cases j; exact absurd rfl hj; norm_num) _ (someEigs1_ok _) eigvals junk out h
  have hz : z = 1 := by simpa using h1
  subst hz
  refine ⟨ol, h.trans ?_⟩
  have e : ((1 : ℂ) • (!![1, 0; 0, -1] : Matrix (Fin 2) (Fin 2) ℂ)).diag = ![1, -1] := by
    funext i
    fin_cases i <;> simp
  rw [e, one_smul]

/-- `C69_bound` and `C69_rate` apply to the two states above. -/
example (junk : Matrix (Fin 2) (Fin 2) ℂ) : ∃ f, demoOrd.strPerSite (someEigs1 _) junk (.arr demoZ) = some f ∧ ‖f‖ ≤ 1 := by
  obtain ⟨f, h⟩ := (string_returns demoOrd (by norm_num) junk (.arr demoZ) Nat.one_pos).1
  have hp : (demoOrd.l (demoOrd.L - 1)).PosDef := by
    have : demoOrd.l (demoOrd.L - 1) = Matrix.diagonal ![16 / 25, 9 / 25] := by
      ext a b
      fin_cases a <;> fin_cases b <;> simp [demoOrd]
    rw [this]
    refine Matrix.PosDef.diagonal fun i => ?_
    fin_cases i <;> simp
  exact ⟨f, h, C69_bound demoOrd Nat.one_pos (by norm_num) demoOrd_env hp Matrix.PosDef.one (.arr demoZ) demoZ_unitary _ (someEigs1_ok _) junk f h⟩

end EvoMPS
