import Verif.TangentGauge
import Verif.RenormLemmas
import Verif.Props.Schmidt
import Verif.Contracts
import Mathlib.Analysis.Matrix.PosDef

/-!
# C29 - C31: the TDVP tangent vector

`oneSite A k b` is the state with the tensor of site `k` replaced by `b` and `tangent A B` the sum of
these states (`TangentSpec.lean`).  The numerical routines (`P : Num`) are arbitrary routines with the
documented behaviour, `P.Ok` says that `scipy.sqrt` returns the square root of non-negative numbers
and that `zero_tol` is not negative.
-/

namespace EvoMPS

open Matrix ComplexOrder

section
variable {q D : ℕ → ℕ} {N : ℕ}

/-- The matrix objects `lm`, `rm` stored in `self.l`, `self.r` stand for the matrices `l`, `r`. -/
def Stored (N : ℕ) (lm rm : ∀ n, MM ℂ (D n) (D n)) (l r : Envs ℂ D) : Prop :=
  ∀ n ≤ N, (lm n).toArray = l n ∧ (rm n).toArray = r n

/-- All eigenvalues of all matrices `x n` are larger than `tol`. -/
def Above (N : ℕ) (tol : ℝ) (x : Envs ℂ D) : Prop := ∀ n ≤ N, (x n - (tol : ℂ) • 1).PosDef

/-! ## Helpers that speak about the routines and the definitions above -/

theorem Stored.roots_l {P : Num} (hP : P.Ok) {A : Tensors ℂ q D} {l r : Envs ℂ D} {lm rm}
    (hst : Stored N lm rm l r) (h : UpToDate N A l r) {n : ℕ} (hn : n ≤ N) :
    Roots (l n) (P.roots (lm n)).1 (P.roots (lm n)).2 P.tol := by
  have := roots_spec hP (lm n) (by rw [(hst n hn).1]; exact h.l_herm n hn)
  rwa [(hst n hn).1] at this

theorem Stored.roots_r {P : Num} (hP : P.Ok) {A : Tensors ℂ q D} {l r : Envs ℂ D} {lm rm}
    (hst : Stored N lm rm l r) (h : UpToDate N A l r) {n : ℕ} (hn : n ≤ N) :
    Roots (r n) (P.roots (rm n)).1 (P.roots (rm n)).2 P.tol := by
  have := roots_spec hP (rm n) (by rw [(hst n hn).2]; exact h.r_herm n hn)
  rwa [(hst n hn).2] at this

theorem above_isUnit {n : ℕ} {tol : ℝ} (h0 : 0 ≤ tol) {x : Matrix (Fin n) (Fin n) ℂ}
    (hx : (x - (tol : ℂ) • 1).PosDef) : IsUnit x.det := by
  have h1 : ((tol : ℂ) • (1 : Matrix (Fin n) (Fin n) ℂ)).PosSemidef :=
    Matrix.PosSemidef.one.smul (by exact_mod_cast h0)
  have h2 := hx.add_posSemidef h1
  rw [sub_add_cancel] at h2
  exact h2.det_pos.ne'.isUnit

/-- What `_calc_B_r_n` returns. -/
theorem calcBrn_cases {P : Num} {ham : Ham ℂ q} {S : TDVP ℂ q D} {lm rm} {k : ℕ} {Bn}
    (h : calcBrn P N ham S lm rm k = some Bn) :
    (¬ D k < q k * D (k + 1) ∧ Bn = none) ∨
    ∃ Vsh x, calcVsh P.qr (S.A k) (P.roots (rm (k + 1))).1 = some Vsh ∧
      calcXn N ham S k Vsh (P.roots (lm k)).1 (P.roots (lm k)).2 (P.roots (rm (k + 1))).1
        (P.roots (rm (k + 1))).2 = some x ∧
      Bn = some (tenR (P.roots (lm k)).2 (P.roots (rm (k + 1))).2 Vsh x, adot x x) := by
  unfold calcBrn at h
  split at h
  · right
    obtain ⟨Vsh, h1, h2⟩ := Option.bind_eq_some_iff.mp h
    obtain ⟨x, h3, h4⟩ := Option.map_eq_some_iff.mp h2
    exact ⟨Vsh, x, h1, h3, h4.symm⟩
  · next hlt => exact Or.inl ⟨hlt, (Option.some.inj h).symm⟩

theorem calcBln_cases {P : Num} {ham : Ham ℂ q} {S : TDVP ℂ q D} {lm rm} {k : ℕ} {Bn}
    (h : calcBln P N ham S lm rm k = some Bn) :
    (¬ D (k + 1) < q k * D k ∧ Bn = none) ∨
    ∃ Vsh x, calcVshl P.qr (S.A k) (P.roots (lm k)).1 = some Vsh ∧
      calcXln N ham S k Vsh (P.roots (lm k)).1 (P.roots (lm k)).2 (P.roots (rm (k + 1))).1
        (P.roots (rm (k + 1))).2 = some x ∧
      Bn = some (tenL (P.roots (lm k)).2 (P.roots (rm (k + 1))).2 Vsh x, adot x x) := by
  unfold calcBln at h
  split at h
  · right
    obtain ⟨Vsh, h1, h2⟩ := Option.bind_eq_some_iff.mp h
    obtain ⟨x, h3, h4⟩ := Option.map_eq_some_iff.mp h2
    exact ⟨Vsh, x, h1, h3, h4.symm⟩
  · next hlt => exact Or.inl ⟨hlt, (Option.some.inj h).symm⟩

/-! ## C29 -/

/-- **C29** (any parameter matrix).  Whatever the matrices `y` and `x`, the tensor
`B[s] = y x (r^(-1/2) V[s])ᴴ` satisfies the right gauge-fixing condition. -/
theorem C29_any_parameter (P : Num) (hP : P.Ok) (A : Tensors ℂ q D) (l r : Envs ℂ D)
    (h : UpToDate N A l r) (lm rm) (hst : Stored N lm rm l r) (k : ℕ) (hk : k < N) (Vsh)
    (hV : calcVsh P.qr (A k) (P.roots (rm (k + 1))).1 = some Vsh) (y x) :
    RightGauge (A k) (tenR y (P.roots (rm (k + 1))).2 Vsh x) (r (k + 1)) := by
  have hr := hst.roots_r hP h (n := k + 1) hk
  exact tenR_gauge hV hr.si_herm hr.si_mul y x

/-- **C29.**  Every tensor `calc_B` returns satisfies the right gauge-fixing condition; the tangent
vector is orthogonal to the state and the contributions of different sites are orthogonal to each other.
There is no condition on the rank of the environments. -/
theorem C29_gauge (P : Num) (hP : P.Ok) (ham : Ham ℂ q) (S : TDVP ℂ q D)
    (h : UpToDate N S.A S.l S.r) (h0 : D 0 = 1) (hN : D N = 1) (lm rm)
    (hst : Stored N lm rm S.l S.r) (out : TangentOut q D)
    (hout : calcB P .right N ham S lm rm = some out) :
    (∀ k < N, ∀ b, out.B k = some b → RightGauge (S.A k) b (S.r (k + 1))) ∧
    (∀ k < N, out.B k = none ↔ q k * D (k + 1) ≤ D k) ∧
    braket (psi S.A h0 hN) (tangent (N := N) S.A h0 hN out.B) = 0 ∧
    (∀ j < N, ∀ k < N, j ≠ k → ∀ b, out.B j = some b → ∀ c, out.B k = some c →
      braket (oneSite (N := N) S.A h0 hN j b) (oneSite S.A h0 hN k c) = 0) := by
  obtain ⟨hB, _, _⟩ := calcB_spec hout
  have hg : ∀ k < N, ∀ b, out.B k = some b → RightGauge (S.A k) b (S.r (k + 1)) := by
    intro k hk b hb
    obtain ⟨Bn, h1, h2, _⟩ := hB k hk
    rcases calcBrn_cases h1 with ⟨_, rfl⟩ | ⟨Vsh, x, hV, _, rfl⟩
    · rw [hb] at h2; simp at h2
    · rw [hb] at h2
      rw [Option.some.inj h2]
      exact C29_any_parameter P hP S.A S.l S.r h lm rm hst k hk Vsh hV _ x
  refine ⟨hg, fun k hk => ?_, ?_, fun j hj k hk hjk b hb c hc =>
    right_cross h h0 hN hj hk hjk b (hg j hj b hb) c (hg k hk c hc)⟩
  · obtain ⟨Bn, h1, h2, _⟩ := hB k hk
    rcases calcBrn_cases h1 with ⟨hlt, rfl⟩ | ⟨Vsh, x, hV, _, rfl⟩
    · rw [h2]; simp; omega
    · rw [h2]
      have := (calcVsh_some hV).1
      rw [Nat.mul_comm] at this
      simp; omega
  · unfold tangent
    rw [braket_sum_right]
    refine Finset.sum_eq_zero fun k hk => ?_
    rw [Finset.mem_range] at hk
    cases hb : out.B k with
    | none => simp [braket]
    | some b => exact right_orth h h0 hN k hk b (hg k hk b hb) _ fun _ _ _ => rfl

/-- **C29** (left gauge).  The same with `gauge_fixing = 'left'`. -/
theorem C29_gauge_left (P : Num) (hP : P.Ok) (ham : Ham ℂ q) (S : TDVP ℂ q D)
    (h : UpToDate N S.A S.l S.r) (h0 : D 0 = 1) (hN : D N = 1) (lm rm)
    (hst : Stored N lm rm S.l S.r) (out : TangentOut q D)
    (hout : calcB P .left N ham S lm rm = some out) :
    (∀ k < N, ∀ b, out.B k = some b → LeftGauge (S.A k) b (S.l k)) ∧
    (∀ k < N, out.B k = none ↔ q k * D k ≤ D (k + 1)) ∧
    braket (psi S.A h0 hN) (tangent (N := N) S.A h0 hN out.B) = 0 ∧
    (∀ j < N, ∀ k < N, j ≠ k → ∀ b, out.B j = some b → ∀ c, out.B k = some c →
      braket (oneSite (N := N) S.A h0 hN j b) (oneSite S.A h0 hN k c) = 0) := by
  obtain ⟨hB, _, _⟩ := calcB_spec hout
  have hg : ∀ k < N, ∀ b, out.B k = some b → LeftGauge (S.A k) b (S.l k) := by
    intro k hk b hb
    obtain ⟨Bn, h1, h2, _⟩ := hB k hk
    rcases calcBln_cases h1 with ⟨_, rfl⟩ | ⟨Vsh, x, hV, _, rfl⟩
    · rw [hb] at h2; simp at h2
    · rw [hb] at h2
      rw [Option.some.inj h2]
      have hl := hst.roots_l hP h (n := k) hk.le
      exact tenL_gauge hV hl.s_herm hl.mul_si _ x
  refine ⟨hg, fun k hk => ?_, ?_, fun j hj k hk hjk b hb c hc =>
    left_cross h h0 hN hj hk hjk b (hg j hj b hb) c (hg k hk c hc)⟩
  · obtain ⟨Bn, h1, h2, _⟩ := hB k hk
    rcases calcBln_cases h1 with ⟨hlt, rfl⟩ | ⟨Vsh, x, hV, _, rfl⟩
    · rw [h2]; simp; omega
    · rw [h2]
      have := (calcVshl_some hV).1
      simp; omega
  · unfold tangent
    rw [braket_sum_right]
    refine Finset.sum_eq_zero fun k hk => ?_
    rw [Finset.mem_range] at hk
    cases hb : out.B k with
    | none => simp [braket]
    | some b =>
      have := left_orth h h0 hN k hk b (hg k hk b hb) S.A fun _ _ => rfl
      rw [← braket_swap] at this
      exact star_eq_zero.mp this

/-! ## C30 -/

/-- `calc_B` returns for every two-site Hamiltonian, missing terms included, and for every three-site
Hamiltonian without missing terms. -/
theorem C30_returns (P : Num) (hP : P.Ok) (ham : Ham ℂ q)
    (hall : ∀ hm, ham = .three hm → ∀ k, k + 2 < N → hm k ≠ none) (S : TDVP ℂ q D)
    (h : UpToDate N S.A S.l S.r) (h0 : D 0 = 1) (lm rm) (hst : Stored N lm rm S.l S.r) :
    ∃ out, calcB P .right N ham (calcKs N ham h0 (calcCs N ham S)) lm rm = some out := by
  obtain ⟨hM, hC⟩ := calcCs_spec (N := N) ham S
  have hM' := (calcKs_spec (N := N) ham h0 (calcCs N ham S)).1.trans hM
  have hC' := calcKs_current (N := N) ham h0 _ hC
  generalize calcKs N ham h0 (calcCs N ham S) = T at *
  refine calcB_isSome fun k hk => ?_
  simp only [calcBn, calcBrn]
  split
  · next hlt =>
    obtain ⟨Vsh, hV⟩ := calcVsh_isSome (qr := P.qr) (A := T.A k) (r_s := (P.roots (rm (k + 1))).1) hlt
    rw [hV, Option.bind_some, Option.isSome_map, calcXn_eq hC' ?_ k hk]
    · rfl
    · rw [hM']; exact (hst.roots_l hP h hk.le).si_mul
    · rw [hM']; exact (hst.roots_r hP h hk).mul_si
    · cases ham with
      | two _ => trivial
      | three hm => exact hall hm rfl
  · rfl

/-- **C30** (gauge-fixed competitors).  Whenever `calc_B` returns, the overlap of the tangent vector
it describes with any gauge-fixed tangent vector is the overlap of `H|ψ⟩` with it. -/
theorem C30_projection (P : Num) (hP : P.Ok) (ham : Ham ℂ q) (S : TDVP ℂ q D)
    (h : UpToDate N S.A S.l S.r) (h0 : D 0 = 1) (hN : D N = 1) (lm rm)
    (hst : Stored N lm rm S.l S.r) (hl : Above N P.tol S.l) (hr : Above N P.tol S.r)
    (out : TangentOut q D)
    (hout : calcB P .right N ham (calcKs N ham h0 (calcCs N ham S)) lm rm = some out)
    (B' : ∀ k, Option (Ten ℂ (q k) (D k) (D (k + 1))))
    (hB' : ∀ k < N, ∀ b, B' k = some b → RightGauge (S.A k) b (S.r (k + 1))) :
    braket (tangent S.A h0 hN B') (tangent (N := N) S.A h0 hN out.B)
      = matElem (tangent S.A h0 hN B') (ham.total (N := N)) (psi S.A h0 hN) := by
  obtain ⟨hM, hC⟩ := calcCs_spec (N := N) ham S
  have hK := (calcKs_spec (N := N) ham h0 (calcCs N ham S)).2.1
  have hM1 := (calcKs_spec (N := N) ham h0 (calcCs N ham S)).1
  have hM' := hM1.trans hM
  have hC' := calcKs_current (N := N) ham h0 _ hC
  have hK' : ∀ k < N, (calcKs N ham h0 (calcCs N ham S)).K k = if k + ham.sites ≤ N then
      epsR ((calcKs N ham h0 (calcCs N ham S)).K (k + 1)) ((calcKs N ham h0 (calcCs N ham S)).A k)
        ((calcKs N ham h0 (calcCs N ham S)).A k) + hrOf ham (calcKs N ham h0 (calcCs N ham S)) k
      else 0 := by
    intro k hk
    rw [calcKs_hrOf, hM1]
    exact hK k hk
  generalize calcKs N ham h0 (calcCs N ham S) = T at *
  have hA : T.A = S.A := congrArg MPS.A hM'
  have hTl : T.l = S.l := congrArg MPS.l hM'
  have hTr : T.r = S.r := congrArg MPS.r hM'
  rw [← hA, ← hTl, ← hTr] at h
  rw [← hTl] at hl hst
  rw [← hTr] at hr hst
  simp only [← hA, ← hTr] at hB' ⊢
  obtain ⟨hg, _, _, _⟩ := C29_gauge P hP ham T h h0 hN lm rm hst out hout
  obtain ⟨hB, _, _⟩ := calcB_spec hout
  rw [tangent_braket h0 hN B' out.B fun j hj k hk hjk b hb c hc =>
    right_cross h h0 hN hj hk hjk b (hB' j hj b hb) c (hg k hk c hc)]
  unfold tangent
  rw [matElem_sum_left]
  refine Finset.sum_congr rfl fun k hk => ?_
  rw [Finset.mem_range] at hk
  cases hb : B' k with
  | none => simp [braket, matElem]
  | some b =>
    have hbg := hB' k hk b hb
    have Rl := hst.roots_l hP h hk.le
    have Rr := hst.roots_r hP h hk
    obtain ⟨fl1, fl2⟩ := Rl.full (hl k hk.le)
    obtain ⟨fr1, fr2⟩ := Rr.full (hr (k + 1) hk)
    have hu : IsUnit (∑ s, T.A k s * T.r (k + 1) * (T.A k s)ᴴ).det := by
      rw [← h.r_pred k hk]; exact above_isUnit hP.tol (hr k hk.le)
    obtain ⟨Bn, h1, h2, _⟩ := hB k hk
    rcases calcBrn_cases h1 with ⟨hlt, rfl⟩ | ⟨Vsh, x, hV, hx, rfl⟩
    · have hz : b = 0 := by
        have hW := vsh_trivial P.qr hlt (by rw [Rr.s_herm, fr2]; exact hu)
          (fun s => (P.roots (rm (k + 1))).1 * (b s)ᴴ) (by
            rw [← rightGauge_conj (h.r_herm (k + 1) hk) hbg]
            refine Finset.sum_congr rfl fun s _ => ?_
            rw [Rr.s_herm, Matrix.mul_assoc, ← Matrix.mul_assoc (P.roots (rm (k + 1))).1, fr2,
              Matrix.mul_assoc])
        funext s
        have e := congrArg (fun M => ((P.roots (rm (k + 1))).2 * M)ᴴ) (hW s)
        simp only [← Matrix.mul_assoc, mul_eq_one_comm.mp fr1, Matrix.one_mul,
          conjTranspose_conjTranspose, Matrix.mul_zero, conjTranspose_zero] at e
        exact e
      subst hz
      simp only [Option.elim_some, oneSite_zero T.A h0 hN hk, h2, Option.map_none, Option.elim_none]
      simp [braket, matElem]
    · have hxv := calcXn_val k Vsh _ _ _ _ Rl.si_mul Rr.mul_si hx
      rw [h2]
      simp only [Option.map_some, Option.elim_some]
      obtain ⟨x', hx'⟩ : ∃ x', b = tenR (P.roots (lm k)).2 (P.roots (rm (k + 1))).2 Vsh x' :=
        ⟨_, (tenR_surj hV Rr.s_herm Rr.si_herm fr1 fr2 (h.r_herm (k + 1) hk)
          (mul_eq_one_comm.mp fl1) hu b hbg).symm⟩
      have hel : (fun s => oneSite (N := N) T.A h0 hN k b s) = oneSite T.A h0 hN k b := rfl
      rw [matElem_grad h h0 hN hC' hK' k hk b hbg, overlap_same h h0 hN k hk, hx', pair_tenR _ Rl.si_herm,
        ← hxv]
      refine tenR_overlap hV Rr.si_herm Rr.si_mul fr1 (h.l_herm k hk.le) Rl.si_herm Rl.mul_si x x' ?_
      rw [mul_eq_one_comm.mp fl1, Matrix.one_mul]

/-- **C30.**  The tangent vector `calc_B` describes is the orthogonal projection of `H|ψ⟩` on the
tangent vectors orthogonal to the state: it is one of them (C29), and its overlap with each of them is the
overlap of `H|ψ⟩` with it.  No gauge condition on the competitor `B'`. -/
theorem C30_optimal (P : Num) (hP : P.Ok) (ham : Ham ℂ q) (S : TDVP ℂ q D)
    (h : UpToDate N S.A S.l S.r) (h0 : D 0 = 1) (hN : D N = 1) (hpos : 0 < N) (lm rm)
    (hst : Stored N lm rm S.l S.r) (hl : Above N P.tol S.l) (hr : Above N P.tol S.r)
    (out : TangentOut q D)
    (hout : calcB P .right N ham (calcKs N ham h0 (calcCs N ham S)) lm rm = some out)
    (B' : ∀ k, Option (Ten ℂ (q k) (D k) (D (k + 1))))
    (horth : braket (psi S.A h0 hN) (tangent (N := N) S.A h0 hN B') = 0) :
    braket (tangent S.A h0 hN B') (tangent (N := N) S.A h0 hN out.B)
      = matElem (tangent S.A h0 hN B') (ham.total (N := N)) (psi S.A h0 hN) := by
  have hu : ∀ k < N, IsUnit (S.r k).det := fun k hk => above_isUnit hP.tol (hr k hk.le)
  obtain ⟨C, y, hC, hs⟩ := gauge_split h h0 hN hpos hu fun k => (B' k).getD 0
  have e1 : tangent (N := N) S.A h0 hN B'
      = fun s => tangent (N := N) S.A h0 hN (fun k => some (C k)) s + y * psi S.A h0 hN s := by
    funext s
    have : tangent (N := N) S.A h0 hN B' s
        = ∑ k ∈ Finset.range N, oneSite S.A h0 hN k ((B' k).getD 0) s := by
      refine Finset.sum_congr rfl fun k hk => ?_
      cases B' k with
      | none => exact (oneSite_zero S.A h0 hN (Finset.mem_range.mp hk) s).symm
      | some b => rfl
    rw [this, hs s]
    rfl
  have hψC : braket (psi S.A h0 hN) (tangent (N := N) S.A h0 hN fun k => some (C k)) = 0 := by
    unfold tangent
    rw [braket_sum_right]
    refine Finset.sum_eq_zero fun k hk => ?_
    rw [Finset.mem_range] at hk
    exact right_orth h h0 hN k hk (C k) (hC k hk) _ fun _ _ _ => rfl
  have hnorm : braket (psi (N := N) S.A h0 hN) (psi S.A h0 hN) ≠ 0 := by
    intro hz
    have h1 := adot_mixL_last2 h S.A S.A h0 hN 0 (by omega) (fun _ _ _ => rfl) fun _ _ _ => rfl
    rw [hz] at h1
    have hd : (S.r 0).det = 0 := by
      have hsub : ∀ i : Fin (D 0), i = ⟨0, by omega⟩ := fun i => Fin.ext (by have := i.2; simp; omega)
      have h2 : S.r 0 = 0 := by
        ext i j
        rw [hsub i, hsub j, Matrix.zero_apply, h1, adot_eq_trace]
        change _ = ((1 : Matrix (Fin (D 0)) (Fin (D 0)) ℂ)ᴴ * S.r 0).trace
        rw [conjTranspose_one, Matrix.one_mul, Matrix.trace, Finset.sum_eq_single ⟨0, by omega⟩
          (fun i _ hi => absurd (hsub i) hi) (fun h => absurd (Finset.mem_univ _) h)]
        rfl
      rw [h2]
      have : Nonempty (Fin (D 0)) := ⟨⟨0, by omega⟩⟩
      exact Matrix.det_zero
    have := hu 0 hpos
    rw [hd] at this
    exact not_isUnit_zero this
  have hy : y = 0 := by
    rw [e1] at horth
    have : braket (psi (N := N) S.A h0 hN)
        (fun s => tangent (N := N) S.A h0 hN (fun k => some (C k)) s + y * psi S.A h0 hN s)
        = braket (psi S.A h0 hN) (tangent (N := N) S.A h0 hN fun k => some (C k))
          + y * braket (psi (N := N) S.A h0 hN) (psi S.A h0 hN) := by
      simp only [braket, mul_add, Finset.sum_add_distrib, Finset.mul_sum]
      congr 1
      exact Finset.sum_congr rfl fun s _ => by ring
    rw [this, hψC, zero_add] at horth
    exact (mul_eq_zero.mp horth).resolve_right hnorm
  have e2 : tangent (N := N) S.A h0 hN B' = tangent S.A h0 hN fun k => some (C k) := by
    rw [e1, hy]; simp
  rw [e2]
  exact C30_projection P hP ham S h h0 hN lm rm hst hl hr out hout _ fun k hk b hb =>
    Option.some.inj hb ▸ hC k hk

/-- **C30** (best approximation).  Among all tangent vectors orthogonal to the state the one
`calc_B` describes is closest to `H|ψ⟩`: the squared distance of any other is larger by the squared
distance of the two. -/
theorem C30_closest (P : Num) (hP : P.Ok) (ham : Ham ℂ q) (S : TDVP ℂ q D)
    (h : UpToDate N S.A S.l S.r) (h0 : D 0 = 1) (hN : D N = 1) (hpos : 0 < N) (lm rm)
    (hst : Stored N lm rm S.l S.r) (hl : Above N P.tol S.l) (hr : Above N P.tol S.r)
    (out : TangentOut q D)
    (hout : calcB P .right N ham (calcKs N ham h0 (calcCs N ham S)) lm rm = some out)
    (B' : ∀ k, Option (Ten ℂ (q k) (D k) (D (k + 1))))
    (horth : braket (psi S.A h0 hN) (tangent (N := N) S.A h0 hN B') = 0) :
    let Hψ : Cfg q N → ℂ := fun s => ∑ t, ham.total s t * psi S.A h0 hN t
    let T := tangent (N := N) S.A h0 hN out.B
    let Φ := tangent (N := N) S.A h0 hN B'
    braket (Hψ - Φ) (Hψ - Φ) = braket (Hψ - T) (Hψ - T) + braket (T - Φ) (T - Φ) := by
  intro Hψ T Φ
  have hm : ∀ φ : Cfg q N → ℂ, matElem φ (ham.total (N := N)) (psi S.A h0 hN) = braket φ Hψ := by
    intro φ
    simp only [matElem, braket, Hψ, Finset.mul_sum, mul_assoc]
  have hM' : (calcKs N ham h0 (calcCs N ham S)).toMPS = S.toMPS :=
    (calcKs_spec (N := N) ham h0 (calcCs N ham S)).1.trans (calcCs_spec (N := N) ham S).1
  have hT0 : braket (psi S.A h0 hN) T = 0 := by
    have := (C29_gauge P hP ham (calcKs N ham h0 (calcCs N ham S)) (by rw [hM']; exact h) h0 hN lm rm
      (by rw [hM']; exact hst) out hout).2.2.1
    rw [hM'] at this
    exact this
  have e1 : braket Φ T = braket Φ Hψ := by
    rw [← hm]; exact C30_optimal P hP ham S h h0 hN hpos lm rm hst hl hr out hout B' horth
  have e2 : braket T T = braket T Hψ := by
    rw [← hm]; exact C30_optimal P hP ham S h h0 hN hpos lm rm hst hl hr out hout out.B hT0
  have e3 : braket T Φ = braket Hψ Φ := by rw [← braket_swap, e1, braket_swap]
  have e4 : braket T T = braket Hψ T := by rw [← braket_swap, e2, braket_swap]
  have hsub : ∀ a b c d : Cfg q N → ℂ, braket (a - b) (c - d)
      = braket a c - braket a d - braket b c + braket b d := by
    intro a b c d
    simp only [braket, Pi.sub_apply, star_sub, sub_mul, mul_sub, Finset.sum_sub_distrib]
    ring
  rw [hsub, hsub, hsub]
  linear_combination e1 + e3 - e2 - e4

/-- A three-site Hamiltonian with a missing term makes `calc_B` raise an exception, unless the site the
missing term ends on has no tangent vector. -/
theorem C30_three_site_missing_raises (P : Num) (hm) (S : TDVP ℂ q D) (h0 : D 0 = 1) (lm rm) (k : ℕ)
    (hk : k + 2 < N) (hnone : hm k = none) (hroom : D (k + 2) < q (k + 2) * D (k + 2 + 1)) :
    calcB P .right N (.three hm) (calcKs N (.three hm) h0 (calcCs N (.three hm) S)) lm rm = none := by
  have hC := calcKs_current (N := N) (.three hm) h0 _ (calcCs_spec (N := N) (.three hm) S).2
  generalize calcKs N (.three hm) h0 (calcCs N (.three hm) S) = T at *
  refine calcB_raises hk ?_
  simp only [calcBn, calcBrn, if_pos hroom]
  obtain ⟨Vsh, hV⟩ := calcVsh_isSome (qr := P.qr) (A := T.A (k + 2))
    (r_s := (P.roots (rm (k + 2 + 1))).1) hroom
  rw [hV, Option.bind_some, Option.map_eq_none_iff]
  by_contra hne
  obtain ⟨x, hx⟩ := Option.ne_none_iff_exists'.mp hne
  rw [calcXn] at hx
  have := (calcX3_val _ _ _ _ _ _ _ _ _ _ _ _ _ _ _ _ _ _ hx).2 rfl
  rw [TDVP.c3, if_pos (by omega), hC.C3 hm rfl k hk, hnone] at this
  simp at this

/-- With `gauge_fixing = 'left'` a missing two-site term makes `calc_B` raise an exception, unless the
site the missing term ends on has no tangent vector. -/
theorem C30_left_two_site_missing_raises (P : Num) (hm) (S : TDVP ℂ q D)
    (hC : CurrentC N (.two hm) S) (lm rm) (k : ℕ)
    (hk : k + 1 < N) (hnone : hm k = none) (hroom : D (k + 1 + 1) < q (k + 1) * D (k + 1)) :
    calcB P .left N (.two hm) S lm rm = none := by
  refine calcB_raises hk ?_
  simp only [calcBn, calcBln, if_pos hroom]
  obtain ⟨Vsh, hV⟩ := calcVshl_isSome (qr := P.qr) (A := S.A (k + 1))
    (l_s := (P.roots (lm (k + 1))).1) hroom
  rw [hV, Option.bind_some, Option.map_eq_none_iff]
  have hc : S.C2 k = none := by rw [hC.C2 hm rfl k hk, hnone]; rfl
  match k with
  | 0 => simp only [calcXln, calcXl, hc, Option.map_none]
  | k + 1 => simp only [calcXln, calcXl, hc, Option.map_none]

/-! ## C31 -/

/-- **C31.**  `eta_sq[n]` is the squared norm of the contribution of site `n`, the sum is the squared
norm of the whole tangent vector and `eta` its norm.  The right environments have full rank, there is no
condition on the left ones. -/
theorem C31_norm_partial (P : Num) (hP : P.Ok) (ham : Ham ℂ q) (S : TDVP ℂ q D)
    (h : UpToDate N S.A S.l S.r) (h0 : D 0 = 1) (hN : D N = 1) (lm rm)
    (hst : Stored N lm rm S.l S.r) (hr : Above N P.tol S.r)
    (out : TangentOut q D) (hout : calcB P .right N ham S lm rm = some out) :
    (∀ k < N, ∀ b, out.B k = some b →
      out.etaSq k = braket (oneSite (N := N) S.A h0 hN k b) (oneSite S.A h0 hN k b)) ∧
    (∀ k, out.B k = none → out.etaSq k = 0) ∧
    ∑ k ∈ Finset.range N, out.etaSq k
      = braket (tangent S.A h0 hN out.B) (tangent (N := N) S.A h0 hN out.B) ∧
    out.eta = (Real.sqrt
      (braket (tangent S.A h0 hN out.B) (tangent (N := N) S.A h0 hN out.B)).re : ℂ) := by
  obtain ⟨hB, hB2, heta⟩ := calcB_spec hout
  obtain ⟨hg, _, _, hcross⟩ := C29_gauge P hP ham S h h0 hN lm rm hst out hout
  have hsite : ∀ k < N, ∀ b, out.B k = some b →
      out.etaSq k = braket (oneSite (N := N) S.A h0 hN k b) (oneSite S.A h0 hN k b) := by
    intro k hk b hb
    have Rl := hst.roots_l hP h hk.le
    have Rr := hst.roots_r hP h hk
    obtain ⟨fr1, fr2⟩ := Rr.full (hr (k + 1) hk)
    obtain ⟨Bn, h1, h2, h3⟩ := hB k hk
    rcases calcBrn_cases h1 with ⟨hlt, rfl⟩ | ⟨Vsh, x, hV, hx, rfl⟩
    · rw [hb] at h2; simp at h2
    · rw [hb] at h2
      rw [Option.some.inj h2, h3, overlap_same h h0 hN k hk]
      refine (tenR_overlap hV Rr.si_herm Rr.si_mul fr1 (h.l_herm k hk.le) Rl.si_herm Rl.mul_si x x ?_).symm
      rw [calcXn_val k Vsh _ _ _ _ Rl.si_mul Rr.mul_si hx, ← Matrix.mul_assoc, Rl.proj]
  have hnone : ∀ k, out.B k = none → out.etaSq k = 0 := by
    intro k hb
    rcases Nat.lt_or_ge k N with hk | hk
    · obtain ⟨Bn, h1, h2, h3⟩ := hB k hk
      rw [hb] at h2
      rw [h3, Option.map_eq_none_iff.mp h2.symm]
      rfl
    · exact (hB2 k hk).2
  have hsum : ∑ k ∈ Finset.range N, out.etaSq k
      = braket (tangent S.A h0 hN out.B) (tangent (N := N) S.A h0 hN out.B) := by
    rw [tangent_braket h0 hN out.B out.B hcross]
    refine Finset.sum_congr rfl fun k hk => ?_
    cases hb : out.B k with
    | none => rw [hnone k hb]; simp [braket]
    | some b => exact hsite k (Finset.mem_range.mp hk) b hb
  refine ⟨hsite, hnone, hsum, ?_⟩
  obtain ⟨e1, e2⟩ := braket_self_re (tangent (N := N) S.A h0 hN out.B)
  rw [heta, hsum, e1, hP.sq _ e2, Complex.ofReal_re]

end

/-! ## A concrete case: the two-site state `|00⟩ + 2|11⟩` -/

namespace Ex29

open Ex51

/-- The routines, with a tolerance of one half. -/
noncomputable def P : Num := ⟨fullQR, specEigh, fun z => (Real.sqrt z.re : ℂ), 1 / 2⟩

theorem ok : P.Ok := ⟨fun x _ => by simp [P], by norm_num [P]⟩

theorem one_above (n : ℕ) : ((1 : Matrix (Fin n) (Fin n) ℂ) - (1 / 2 : ℂ) • 1).PosDef := by
  rw [show (1 : Matrix (Fin n) (Fin n) ℂ) - (1 / 2 : ℂ) • 1 = diagonal fun _ => (1 / 2 : ℂ) by
    ext i j
    by_cases hij : i = j
    · subst hij; simp; norm_num
    · simp [hij]]
  exact Matrix.PosDef.diagonal fun _ => by norm_num [Complex.lt_def]

theorem diag_above : ((diagonal ![1, 4] : Matrix (Fin 2) (Fin 2) ℂ) - (1 / 2 : ℂ) • 1).PosDef := by
  rw [show (diagonal ![1, 4] : Matrix (Fin 2) (Fin 2) ℂ) - (1 / 2 : ℂ) • 1
      = diagonal ![1 / 2, 7 / 2] by
    ext i j; fin_cases i <;> fin_cases j <;> simp <;> norm_num]
  exact Matrix.PosDef.diagonal fun i => by fin_cases i <;> norm_num [Complex.lt_def]

theorem five_above : ((!![5] : Matrix (Fin 1) (Fin 1) ℂ) - (1 / 2 : ℂ) • 1).PosDef := by
  rw [show (!![5] : Matrix (Fin 1) (Fin 1) ℂ) - (1 / 2 : ℂ) • 1 = diagonal fun _ => (9 / 2 : ℂ) by
    ext i j; fin_cases i; fin_cases j; simp; norm_num]
  exact Matrix.PosDef.diagonal fun _ => by norm_num [Complex.lt_def]

theorem above_l : Above (1 + 1) P.tol l := by
  intro n hn
  rw [show ((P.tol : ℝ) : ℂ) = 1 / 2 by simp [P]]
  interval_cases n
  · exact one_above 1
  · exact diag_above
  · exact five_above

theorem above_r : Above (1 + 1) P.tol r := by
  intro n hn
  rw [show ((P.tol : ℝ) : ℂ) = 1 / 2 by simp [P]]
  interval_cases n
  · exact five_above
  · exact one_above 2
  · exact one_above 1

/-- A state whose environments are current; the other fields do not matter. -/
def S : TDVP ℂ (fun _ => 2) D :=
  ⟨⟨A, l, r⟩, fun _ _ _ => 0, fun _ _ _ _ => 0, fun _ => none, fun _ => none, fun _ => 0, fun _ => 0,
    fun _ => 0, none⟩

theorem stored : Stored (1 + 1) (fun n => MM.dense (l n)) (fun n => MM.dense (r n)) l r :=
  fun _ _ => ⟨toArray_dense _, toArray_dense _⟩

/-- All hypotheses hold for every two-site Hamiltonian; site 0 has a tangent vector, site 1 none. -/
example (ham : Ham ℂ fun _ => 2) (hall : ∀ hm, ham ≠ .three hm) :
    ∃ out, calcB P .right (1 + 1) ham (calcKs (1 + 1) ham rfl (calcCs (1 + 1) ham S))
        (fun n => MM.dense (l n)) (fun n => MM.dense (r n)) = some out ∧
      (∀ B' : ∀ k, Option (Ten ℂ 2 (D k) (D (k + 1))),
        braket (psi A rfl rfl) (tangent (N := 1 + 1) A rfl rfl B') = 0 →
        braket (tangent A rfl rfl B') (tangent (N := 1 + 1) A rfl rfl out.B)
          = matElem (tangent A rfl rfl B') (ham.total (N := 1 + 1)) (psi A rfl rfl)) := by
  obtain ⟨out, hout⟩ := C30_returns (N := 1 + 1) P ok ham (fun hm h => absurd h (hall hm)) S upToDate
    rfl _ _ stored
  exact ⟨out, hout, C30_optimal P ok ham S upToDate rfl rfl (by omega) _ _ stored above_l above_r out hout⟩

/-- The hypotheses of the theorems on gauge and norm hold as well. -/
example (ham : Ham ℂ fun _ => 2) (out) (hout : calcB P .right (1 + 1) ham S
    (fun n => MM.dense (l n)) (fun n => MM.dense (r n)) = some out) :=
  And.intro (C29_gauge (N := 1 + 1) P ok ham S upToDate rfl rfl _ _ stored out hout)
    (C31_norm_partial (N := 1 + 1) P ok ham S upToDate rfl rfl _ _ stored above_r out hout)

/-- A chain of three sites without any three-site term: the exception. -/
example (T : TDVP ℂ (fun _ => 2) fun _ => 1) (lm rm) :=
  C30_three_site_missing_raises (N := 3) P (fun _ => none) T rfl lm rm 0 (by omega) rfl (by omega)

/-- A chain of two sites without any two-site term in the left gauge: the exception. -/
example (T : TDVP ℂ (fun _ => 2) fun _ => 1) (lm rm) :=
  C30_left_two_site_missing_raises (N := 2) P (fun _ => none) (calcCs 2 (.two fun _ => none) T)
    (calcCs_spec _ T).2 lm rm 0 (by omega) rfl (by omega)

end Ex29

end EvoMPS
