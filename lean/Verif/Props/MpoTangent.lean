import Verif.MpoTangentLemmas
import Verif.Props.Tangent
import Verif.Props.Mpo

/-!
# C76: the tangent vector for a Hamiltonian in matrix product form

`mpoOp 0 N W` are the matrix elements of the operator with one MPO tensor `W n` per site
(`Spec.lean`), `oneSite`, `tangent`, `RightGauge` are those of `TangentSpec.lean`, `Stored` and `Above`
those of C29 - C31.
-/

namespace EvoMPS

open Matrix ComplexOrder

section
variable {q D M : ℕ → ℕ} {N : ℕ}

/-- Helper: a tangent vector orthogonal to the state can be gauge fixed. -/
theorem orth_gauge_fixed {A : Tensors ℂ q D} {l r : Envs ℂ D} (h : UpToDate N A l r) (h0 : D 0 = 1)
    (hN : D N = 1) (hpos : 0 < N) (hu : ∀ k < N, IsUnit (r k).det)
    (B' : ∀ k, Option (Ten ℂ (q k) (D k) (D (k + 1))))
    (horth : braket (psi A h0 hN) (tangent (N := N) A h0 hN B') = 0) :
    ∃ C : ∀ k, Ten ℂ (q k) (D k) (D (k + 1)), (∀ k < N, RightGauge (A k) (C k) (r (k + 1))) ∧
      tangent (N := N) A h0 hN B' = tangent A h0 hN fun k => some (C k) := by
  obtain ⟨C, y, hC, hs⟩ := gauge_split h h0 hN hpos hu fun k => (B' k).getD 0
  have e1 : tangent (N := N) A h0 hN B'
      = fun s => tangent (N := N) A h0 hN (fun k => some (C k)) s + y * psi A h0 hN s := by
    funext s
    have : tangent (N := N) A h0 hN B' s
        = ∑ k ∈ Finset.range N, oneSite A h0 hN k ((B' k).getD 0) s := by
      refine Finset.sum_congr rfl fun k hk => ?_
      cases B' k with
      | none => exact (oneSite_zero A h0 hN (Finset.mem_range.mp hk) s).symm
      | some b => rfl
    rw [this, hs s]
    rfl
  have hψC : braket (psi A h0 hN) (tangent (N := N) A h0 hN fun k => some (C k)) = 0 := by
    unfold tangent
    rw [braket_sum_right]
    refine Finset.sum_eq_zero fun k hk => ?_
    rw [Finset.mem_range] at hk
    exact right_orth h h0 hN k hk (C k) (hC k hk) _ fun _ _ _ => rfl
  have hnorm : braket (psi (N := N) A h0 hN) (psi A h0 hN) ≠ 0 := by
    intro hz
    have h1 := adot_mixL_last2 h A A h0 hN 0 (by omega) (fun _ _ _ => rfl) fun _ _ _ => rfl
    rw [hz] at h1
    have hd : (r 0).det = 0 := by
      have hsub : ∀ i : Fin (D 0), i = ⟨0, by omega⟩ := fun i => Fin.ext (by have := i.2; simp; omega)
      have h2 : r 0 = 0 := by
        ext i j
        rw [hsub i, hsub j, Matrix.zero_apply, h1, adot_eq_trace]
        change _ = ((1 : Matrix (Fin (D 0)) (Fin (D 0)) ℂ)ᴴ * r 0).trace
        rw [conjTranspose_one, Matrix.one_mul, Matrix.trace, Finset.sum_eq_single ⟨0, by omega⟩
          (fun i _ hi => absurd (hsub i) hi) (fun h => absurd (Finset.mem_univ _) h)]
        rfl
      rw [h2]
      have : Nonempty (Fin (D 0)) := ⟨⟨0, by omega⟩⟩
      exact Matrix.det_zero
    have := hu 0 hpos
    rw [hd] at this
    exact not_isUnit_zero this
  have hy : y = 0 := by
    rw [e1] at horth
    have : braket (psi (N := N) A h0 hN)
        (fun s => tangent (N := N) A h0 hN (fun k => some (C k)) s + y * psi A h0 hN s)
        = braket (psi A h0 hN) (tangent (N := N) A h0 hN fun k => some (C k))
          + y * braket (psi (N := N) A h0 hN) (psi A h0 hN) := by
      simp only [braket, mul_add, Finset.sum_add_distrib, Finset.mul_sum]
      congr 1
      exact Finset.sum_congr rfl fun s _ => by ring
    rw [this, hψC, zero_add] at horth
    exact (mul_eq_zero.mp horth).resolve_right hnorm
  exact ⟨C, hC, by rw [e1, hy]; simp⟩

/-- Helper: a vector of norm zero is zero. -/
theorem braket_self_eq_zero {q : ℕ → ℕ} {N : ℕ} (φ : Cfg q N → ℂ) (h : braket φ φ = 0) : φ = 0 := by
  have h1 : ∑ s, ‖φ s‖ ^ 2 = 0 := by
    have : ((∑ s, ‖φ s‖ ^ 2 : ℝ) : ℂ) = braket φ φ := by
      rw [braket, Complex.ofReal_sum]
      refine Finset.sum_congr rfl fun s _ => ?_
      rw [Complex.star_def, ← Complex.normSq_eq_conj_mul_self, Complex.normSq_eq_norm_sq]
    rw [h] at this
    exact_mod_cast this
  funext s
  have := (Finset.sum_eq_zero_iff_of_nonneg fun s _ => sq_nonneg ‖φ s‖).mp h1 s (Finset.mem_univ _)
  simpa using this

variable (W : ∀ n, Fin (M n) → Fin (M (n + 1)) → Fin (q n) → Fin (q n) → ℂ)

/-- **C76** (return).  `calc_B_MPO` returns exactly if the outer bond dimensions of the state and of the
MPO are one. -/
theorem C76_returns_iff (P : Num) (S : MPS ℂ q D) (lm rm) (eta0 : ℕ → ℂ) :
    (∃ out, calcBMPO P N W S lm rm eta0 = some out) ↔ D 0 = 1 ∧ M 0 = 1 ∧ D N = 1 ∧ M N = 1 := by
  unfold calcBMPO
  split
  · next h => exact ⟨fun _ => h, fun _ => ⟨_, rfl⟩⟩
  · next h => exact ⟨by rintro ⟨_, h'⟩; simp at h', fun h' => absurd h' h⟩

/-- **C76** (energy).  `H_expect` is the expectation value of the MPO, the value `expect_MPO` returns
for it.  The numerical routines and the stored environments do not matter. -/
theorem C76_energy (P : Num) (S : MPS ℂ q D) (h0 : D 0 = 1) (hN : D N = 1) (hM0 : M 0 = 1)
    (hMN : M N = 1) (lm rm) (eta0 : ℕ → ℂ) (out : MpoTangentOut q D)
    (hout : calcBMPO P N W S lm rm eta0 = some out) :
    out.Hexpect = matElem (psi S.A h0 hN) (mpoOp (N := N) 0 N hM0 hMN W) (psi S.A h0 hN) ∧
    (UpToDate N S.A S.l S.r → (∀ n, N ≤ n → M n = 1) →
      expectMPO N S 0 N W = some out.Hexpect) := by
  have e : out.Hexpect = matElem (psi S.A h0 hN) (mpoOp (N := N) 0 N hM0 hMN W) (psi S.A h0 hN) := by
    rw [(calcBMPO_spec hout).2.2.2.2, mpoHL_eq W S.A N le_rfl,
      matElem_mpo W S.A h0 hN hM0 hMN S.A N le_rfl fun _ _ _ => rfl]
  refine ⟨e, fun h hM => ?_⟩
  rw [C08_expect_MPO S h h0 hN 0 N (by omega) (fun n hn => by
    rcases hn with hn | hn
    · obtain rfl : n = 0 := by omega
      exact hM0
    · exact hM n (by omega)), e]

/-- **C76** (gauge).  Every tensor returned satisfies the right gauge-fixing condition, there is one for
every site with room for one, and the tangent vector is orthogonal to the state. -/
theorem C76_gauge (P : Num) (hP : P.Ok) (S : MPS ℂ q D)
    (h : UpToDate N S.A S.l S.r) (h0 : D 0 = 1) (hN : D N = 1) (lm rm)
    (hst : Stored N lm rm S.l S.r) (eta0 : ℕ → ℂ) (out : MpoTangentOut q D)
    (hout : calcBMPO P N W S lm rm eta0 = some out) :
    (∀ k < N, ∀ b, out.B k = some b → RightGauge (S.A k) b (S.r (k + 1))) ∧
    (∀ k < N, out.B k = none ↔ q k * D (k + 1) ≤ D k) ∧
    braket (psi S.A h0 hN) (tangent (N := N) S.A h0 hN out.B) = 0 ∧
    (∀ j < N, ∀ k < N, j ≠ k → ∀ b, out.B j = some b → ∀ c, out.B k = some c →
      braket (oneSite (N := N) S.A h0 hN j b) (oneSite S.A h0 hN k c) = 0) := by
  obtain ⟨hB, _⟩ := calcBMPO_spec hout
  have hg : ∀ k < N, ∀ b, out.B k = some b → RightGauge (S.A k) b (S.r (k + 1)) := by
    intro k hk b hb
    rcases hB k hk with ⟨_, h2, _⟩ | ⟨Vh, hV, h2, _⟩
    · rw [hb] at h2; simp at h2
    · rw [hb] at h2
      rw [Option.some.inj h2]
      exact C29_any_parameter P hP S.A S.l S.r h lm rm hst k hk Vh hV _ _
  refine ⟨hg, fun k hk => ?_, ?_, fun j hj k hk hjk b hb c hc =>
    right_cross h h0 hN hj hk hjk b (hg j hj b hb) c (hg k hk c hc)⟩
  · rcases hB k hk with ⟨h1, h2, _⟩ | ⟨Vh, hV, h2, _⟩
    · rw [h2]
      by_contra hne
      obtain ⟨Vh, hV⟩ := calcVsh_isSome (qr := P.qr) (A := S.A k) (r_s := (P.roots (rm (k + 1))).1)
        (by simp at hne; omega)
      rw [hV] at h1
      simp at h1
    · rw [h2]
      have := (calcVsh_some hV).1
      rw [Nat.mul_comm] at this
      simp; omega
  · unfold tangent
    rw [braket_sum_right]
    refine Finset.sum_eq_zero fun k hk => ?_
    rw [Finset.mem_range] at hk
    cases hb : out.B k with
    | none => simp [braket]
    | some b => exact right_orth h h0 hN k hk b (hg k hk b hb) _ fun _ _ _ => rfl

/-- **C76** (projection).  The tangent vector is the orthogonal projection of `H|ψ⟩`, `H` the operator
of the MPO, on the tangent vectors orthogonal to the state: its overlap with each of them is the overlap
of `H|ψ⟩` with it.  The MPO need not be Hermitian. -/
theorem C76_optimal (P : Num) (hP : P.Ok) (S : MPS ℂ q D)
    (h : UpToDate N S.A S.l S.r) (h0 : D 0 = 1) (hN : D N = 1) (hpos : 0 < N) (hM0 : M 0 = 1)
    (hMN : M N = 1) (lm rm)
    (hst : Stored N lm rm S.l S.r) (hl : Above N P.tol S.l) (hr : Above N P.tol S.r)
    (eta0 : ℕ → ℂ) (out : MpoTangentOut q D) (hout : calcBMPO P N W S lm rm eta0 = some out)
    (B' : ∀ k, Option (Ten ℂ (q k) (D k) (D (k + 1))))
    (horth : braket (psi S.A h0 hN) (tangent (N := N) S.A h0 hN B') = 0) :
    braket (tangent S.A h0 hN B') (tangent (N := N) S.A h0 hN out.B)
      = matElem (tangent S.A h0 hN B') (mpoOp (N := N) 0 N hM0 hMN W) (psi S.A h0 hN) := by
  have hu : ∀ k < N, IsUnit (S.r k).det := fun k hk => above_isUnit hP.tol (hr k hk.le)
  obtain ⟨C, hC, e2⟩ := orth_gauge_fixed h h0 hN hpos hu B' horth
  rw [e2]
  obtain ⟨hg, _, _, _⟩ := C76_gauge W P hP S h h0 hN lm rm hst eta0 out hout
  obtain ⟨hB, _⟩ := calcBMPO_spec hout
  rw [tangent_braket h0 hN (fun k => some (C k)) out.B fun j hj k hk hjk b hb c hc =>
    right_cross h h0 hN hj hk hjk b (Option.some.inj hb ▸ hC j hj) c (hg k hk c hc)]
  unfold tangent
  rw [matElem_sum_left]
  refine Finset.sum_congr rfl fun k hk => ?_
  rw [Finset.mem_range] at hk
  have hbg := hC k hk
  simp only [Option.elim_some]
  generalize C k = b at hbg
  have Rl := hst.roots_l hP h hk.le
  have Rr := hst.roots_r hP h hk
  obtain ⟨fl1, fl2⟩ := Rl.full (hl k hk.le)
  obtain ⟨fr1, fr2⟩ := Rr.full (hr (k + 1) hk)
  have hu' : IsUnit (∑ s, S.A k s * S.r (k + 1) * (S.A k s)ᴴ).det := by
    rw [← h.r_pred k hk]; exact hu k hk
  rcases hB k hk with ⟨h1, h2, _⟩ | ⟨Vh, hV, h2, _⟩
  · have hlt : ¬ D k < q k * D (k + 1) := by
      intro hlt
      obtain ⟨Vh, hV⟩ := calcVsh_isSome (qr := P.qr) (A := S.A k) (r_s := (P.roots (rm (k + 1))).1) hlt
      rw [hV] at h1
      simp at h1
    have hz : b = 0 := by
      have hW := vsh_trivial P.qr hlt (by rw [Rr.s_herm, fr2]; exact hu')
        (fun s => (P.roots (rm (k + 1))).1 * (b s)ᴴ) (by
          rw [← rightGauge_conj (h.r_herm (k + 1) hk) hbg]
          refine Finset.sum_congr rfl fun s _ => ?_
          rw [Rr.s_herm, Matrix.mul_assoc, ← Matrix.mul_assoc (P.roots (rm (k + 1))).1, fr2,
            Matrix.mul_assoc])
      funext s
      have e := congrArg (fun M => ((P.roots (rm (k + 1))).2 * M)ᴴ) (hW s)
      simp only [← Matrix.mul_assoc, mul_eq_one_comm.mp fr1, Matrix.one_mul,
        conjTranspose_conjTranspose, Matrix.mul_zero, conjTranspose_zero] at e
      exact e
    subst hz
    simp only [oneSite_zero S.A h0 hN hk, h2, Option.elim_none]
    simp [braket, matElem]
  · rw [h2]
    simp only [Option.elim_some]
    obtain ⟨x', hx'⟩ : ∃ x', b = tenR (P.roots (lm k)).2 (P.roots (rm (k + 1))).2 Vh x' :=
      ⟨_, (tenR_surj hV Rr.s_herm Rr.si_herm fr1 fr2 (h.r_herm (k + 1) hk)
        (mul_eq_one_comm.mp fl1) hu' b hbg).symm⟩
    rw [matElem_mpoGrad W S.A h0 hN hM0 hMN k hk b, overlap_same h h0 hN k hk, hx',
      pair_tenR _ Rl.si_herm]
    refine tenR_overlap hV Rr.si_herm Rr.si_mul fr1 (h.l_herm k hk.le) Rl.si_herm Rl.mul_si _ x' ?_
    rw [mul_eq_one_comm.mp fl1, Matrix.one_mul]

/-- **C76** (consistency).  If the MPO has the same matrix elements as the local Hamiltonian, `calc_B`
and `calc_B_MPO` describe the same tangent vector. -/
theorem C76_same (P : Num) (hP : P.Ok) (ham : Ham ℂ q) (S : TDVP ℂ q D)
    (h : UpToDate N S.A S.l S.r) (h0 : D 0 = 1) (hN : D N = 1) (hpos : 0 < N) (hM0 : M 0 = 1)
    (hMN : M N = 1) (hH : ham.total (N := N) = mpoOp 0 N hM0 hMN W) (lm rm)
    (hst : Stored N lm rm S.l S.r) (hl : Above N P.tol S.l) (hr : Above N P.tol S.r)
    (out1 : TangentOut q D)
    (hout1 : calcB P .right N ham (calcKs N ham h0 (calcCs N ham S)) lm rm = some out1)
    (eta0 : ℕ → ℂ) (out : MpoTangentOut q D)
    (hout : calcBMPO P N W S.toMPS lm rm eta0 = some out) :
    tangent (N := N) S.A h0 hN out.B = tangent S.A h0 hN out1.B := by
  have hM' : (calcKs N ham h0 (calcCs N ham S)).toMPS = S.toMPS :=
    (calcKs_spec (N := N) ham h0 (calcCs N ham S)).1.trans (calcCs_spec (N := N) ham S).1
  have o1 : braket (psi S.A h0 hN) (tangent (N := N) S.A h0 hN out1.B) = 0 := by
    have := (C29_gauge P hP ham (calcKs N ham h0 (calcCs N ham S)) (by rw [hM']; exact h) h0 hN lm rm
      (by rw [hM']; exact hst) out1 hout1).2.2.1
    rw [hM'] at this
    exact this
  have o2 := (C76_gauge W P hP S.toMPS h h0 hN lm rm hst eta0 out hout).2.2.1
  have a1 := C30_optimal P hP ham S h h0 hN hpos lm rm hst hl hr out1 hout1
  have a2 := C76_optimal W P hP S.toMPS h h0 hN hpos hM0 hMN lm rm hst hl hr eta0 out hout
  rw [hH] at a1
  have e11 := (a1 out1.B o1).trans (a2 out1.B o1).symm
  have e21 := (a1 out.B o2).trans (a2 out.B o2).symm
  have hz : braket (tangent (N := N) S.A h0 hN out.B - tangent S.A h0 hN out1.B)
      (tangent (N := N) S.A h0 hN out.B - tangent S.A h0 hN out1.B) = 0 := by
    have hsub : ∀ a b c d : Cfg q N → ℂ, braket (a - b) (c - d)
        = braket a c - braket a d - braket b c + braket b d := by
      intro a b c d
      simp only [braket, Pi.sub_apply, star_sub, sub_mul, mul_sub, Finset.sum_sub_distrib]
      ring
    rw [hsub]
    linear_combination e11 - e21
  exact sub_eq_zero.mp (braket_self_eq_zero _ hz)

/-- **C76** (norm).  If `eta_sq` was zero before on the sites without room for a tangent vector (and at
python's index 0), `eta_sq[n]` is the squared norm of the contribution of site `n` and `eta` is the norm
of the tangent vector. -/
theorem C76_norm_partial (P : Num) (hP : P.Ok) (S : MPS ℂ q D)
    (h : UpToDate N S.A S.l S.r) (h0 : D 0 = 1) (hN : D N = 1) (lm rm)
    (hst : Stored N lm rm S.l S.r) (hr : Above N P.tol S.r) (eta0 : ℕ → ℂ) (hz : eta0 0 = 0)
    (hroom : ∀ k < N, q k * D (k + 1) ≤ D k → eta0 (k + 1) = 0)
    (out : MpoTangentOut q D) (hout : calcBMPO P N W S lm rm eta0 = some out) :
    (∀ k < N, ∀ b, out.B k = some b →
      out.etaSq (k + 1) = braket (oneSite (N := N) S.A h0 hN k b) (oneSite S.A h0 hN k b)) ∧
    (∀ k < N, out.B k = none → out.etaSq (k + 1) = 0) ∧
    out.eta = (Real.sqrt
      (braket (tangent S.A h0 hN out.B) (tangent (N := N) S.A h0 hN out.B)).re : ℂ) := by
  obtain ⟨hB, _, hz', heta, _⟩ := calcBMPO_spec hout
  obtain ⟨hg, hnone', _, hcross⟩ := C76_gauge W P hP S h h0 hN lm rm hst eta0 out hout
  have hsite : ∀ k < N, ∀ b, out.B k = some b →
      out.etaSq (k + 1) = braket (oneSite (N := N) S.A h0 hN k b) (oneSite S.A h0 hN k b) := by
    intro k hk b hb
    have Rl := hst.roots_l hP h hk.le
    have Rr := hst.roots_r hP h hk
    obtain ⟨fr1, fr2⟩ := Rr.full (hr (k + 1) hk)
    rcases hB k hk with ⟨_, h2, _⟩ | ⟨Vh, hV, h2, h3⟩
    · rw [hb] at h2; simp at h2
    · rw [hb] at h2
      have e : braket (oneSite (N := N) S.A h0 hN k b) (oneSite S.A h0 hN k b)
          = adot (mpoX P N W S.A lm rm k Vh) (mpoX P N W S.A lm rm k Vh) := by
        rw [Option.some.inj h2, overlap_same h h0 hN k hk]
        refine tenR_overlap hV Rr.si_herm Rr.si_mul fr1 (h.l_herm k hk.le) Rl.si_herm Rl.mul_si _ _ ?_
        rw [mpoX, ← Matrix.mul_assoc, Rl.proj]
      rw [h3, ← e]
      exact (braket_self_re _).1.symm
  have hnone : ∀ k < N, out.B k = none → out.etaSq (k + 1) = 0 := by
    intro k hk hb
    rcases hB k hk with ⟨_, h2, h3⟩ | ⟨Vh, hV, h2, h3⟩
    · rw [h3]; exact hroom k hk ((hnone' k hk).mp hb)
    · rw [hb] at h2; simp at h2
  have hsum : ∑ n ∈ Finset.range (N + 1), out.etaSq n
      = braket (tangent S.A h0 hN out.B) (tangent (N := N) S.A h0 hN out.B) := by
    rw [Finset.sum_range_succ', hz', hz, add_zero, tangent_braket h0 hN out.B out.B hcross]
    refine Finset.sum_congr rfl fun k hk => ?_
    rw [Finset.mem_range] at hk
    cases hb : out.B k with
    | none => rw [hnone k hk hb]; simp [braket]
    | some b => exact hsite k hk b hb
  refine ⟨hsite, hnone, ?_⟩
  obtain ⟨e1, e2⟩ := braket_self_re (tangent (N := N) S.A h0 hN out.B)
  rw [heta, hsum, e1, hP.sq _ e2, Complex.ofReal_re]

end

/-! ## A concrete case: the two-site state `|00⟩ + 2|11⟩` of C29 -/

namespace Ex76

open Ex51 Ex29

/-- All hypotheses hold for every MPO with inner bond dimension 3. -/
example (W : ∀ n, Fin (if n = 1 then 3 else 1) → Fin (if n + 1 = 1 then 3 else 1) → Fin 2 → Fin 2 → ℂ) :
    ∃ out, calcBMPO (M := fun n => if n = 1 then 3 else 1) P (1 + 1) W S.toMPS
        (fun n => MM.dense (l n)) (fun n => MM.dense (r n)) 0 = some out ∧
      (∀ B' : ∀ k, Option (Ten ℂ 2 (D k) (D (k + 1))),
        braket (psi A rfl rfl) (tangent (N := 1 + 1) A rfl rfl B') = 0 →
        braket (tangent A rfl rfl B') (tangent (N := 1 + 1) A rfl rfl out.B)
          = matElem (tangent A rfl rfl B')
            (mpoOp (M := fun n => if n = 1 then 3 else 1) (N := 1 + 1) 0 (1 + 1) rfl rfl W)
            (psi A rfl rfl)) ∧
      out.eta = (Real.sqrt (braket (tangent A rfl rfl out.B)
        (tangent (N := 1 + 1) A rfl rfl out.B)).re : ℂ) := by
  obtain ⟨out, hout⟩ := (C76_returns_iff (N := 1 + 1) (M := fun n => if n = 1 then 3 else 1) W P S.toMPS
    (fun n => MM.dense (l n)) (fun n => MM.dense (r n)) 0).mpr ⟨rfl, rfl, rfl, rfl⟩
  exact ⟨out, hout, C76_optimal (N := 1 + 1) W P ok S.toMPS upToDate rfl rfl (by omega) rfl rfl _ _ stored
    above_l above_r 0 out hout, (C76_norm_partial (N := 1 + 1) W P ok S.toMPS upToDate rfl rfl _ _ stored
    above_r 0 rfl (fun _ _ _ => rfl) out hout).2.2⟩

/-- The Hamiltonian of one term `o ⊗ o'`, as a two-site term and as an MPO. -/
theorem same_op (o o' : Fin 2 → Fin 2 → ℂ) :
    (Ham.two (q := fun _ => 2) fun k => if k = 0 then some fun s s' t t' => o s t * o' s' t' else none).total
        (N := 1 + 1)
      = mpoOp (M := fun _ => 1) 0 (1 + 1) rfl rfl (fun n _ _ s t => if n = 0 then o s t else o' s t) := by
  funext s t
  rw [mpoOp_full]
  simp only [Ham.total, Finset.sum_range_succ, Finset.sum_range_zero, Ham.term]
  simp [mpoProd, siteOp2, Matrix.mul_apply]

/-- All hypotheses of the comparison with `calc_B` hold for it. -/
example (o o' : Fin 2 → Fin 2 → ℂ) (out1 out hout1 hout) :=
  C76_same (N := 1 + 1) (M := fun _ => 1) (fun n _ _ s t => if n = 0 then o s t else o' s t) P ok
    (.two fun k => if k = 0 then some fun s s' t t' => o s t * o' s' t' else none) S upToDate rfl rfl
    (by omega) rfl rfl (same_op o o') (fun n => MM.dense (l n)) (fun n => MM.dense (r n)) stored above_l
    above_r out1 hout1 0 out hout

end Ex76

/-- **C76** (violated without the condition on `eta_sq`).  `calc_B_MPO` does not reset `eta_sq`: a value
left on a site that has no room for a tangent vector counts.  The state is `|00⟩ + 2|11⟩`, where site 2
has no room, the MPO is zero; no tangent vector is left, `eta` is one. -/
theorem C76_norm_violated : ∃ (eta0 : ℕ → ℂ) (out : MpoTangentOut (fun _ => 2) Ex51.D),
    calcBMPO (M := fun _ => 1) Ex29.P (1 + 1) (fun _ _ _ _ _ => 0) Ex29.S.toMPS
      (fun n => MM.dense (Ex51.l n)) (fun n => MM.dense (Ex51.r n)) eta0 = some out ∧
    (∀ s, tangent (N := 1 + 1) Ex51.A rfl rfl out.B s = 0) ∧ out.eta = 1 := by
  obtain ⟨out, hout⟩ := (C76_returns_iff (N := 1 + 1) (M := fun _ => 1) (D := Ex51.D)
    (fun _ _ _ _ _ => 0) Ex29.P Ex29.S.toMPS (fun n => MM.dense (Ex51.l n))
    (fun n => MM.dense (Ex51.r n)) fun n => if n = 2 then 1 else 0).mpr ⟨rfl, rfl, rfl, rfl⟩
  refine ⟨_, out, hout, ?_⟩
  obtain ⟨hB, _, hz, heta, _⟩ := calcBMPO_spec hout
  have hX : ∀ (k v : ℕ) (Vh : Fin 2 → Matrix (Fin (Ex51.D (k + 1))) (Fin v) ℂ),
      mpoX (M := fun _ => 1) Ex29.P (1 + 1) (fun _ _ _ _ _ => 0) Ex29.S.A
        (fun n => MM.dense (Ex51.l n)) (fun n => MM.dense (Ex51.r n)) k Vh = 0 := by
    intro k v Vh
    have hT : ∀ s, mpoT (M := fun _ => 1) (D := Ex51.D) (fun _ _ _ _ _ => (0 : ℂ)) Ex29.S.A k s = 0 := by
      intro s
      ext i j
      simp [mpoT, applyMPOLocal, forSum_eq]
    simp [mpoX, mpoGrad, hT]
  constructor
  · intro s
    unfold tangent
    refine Finset.sum_eq_zero fun k hk => ?_
    rw [Finset.mem_range] at hk
    rcases hB k hk with ⟨_, h2, _⟩ | ⟨Vh, _, h2, _⟩
    · rw [h2]; rfl
    · rw [h2, hX]
      simp only [Option.elim_some]
      have : tenR (Ex29.P.roots (MM.dense (Ex51.l k))).2 (Ex29.P.roots (MM.dense (Ex51.r (k + 1)))).2 Vh
          0 = 0 := by funext s; simp [tenR]
      rw [this]
      exact oneSite_zero Ex51.A rfl rfl hk s
  · have e1 : out.etaSq 1 = 0 := by
      rcases hB 0 (by omega) with ⟨_, _, h3⟩ | ⟨Vh, _, _, h3⟩
      · rw [h3]; rfl
      · rw [h3, hX]; simp [adot_eq_trace]
    have e2 : out.etaSq 2 = 1 := by
      rcases hB 1 (by omega) with ⟨_, _, h3⟩ | ⟨Vh, hV, _, _⟩
      · rw [h3]; rfl
      · exact absurd (calcVsh_some hV).1 (by change ¬ 2 < 1 * 2; omega)
    rw [heta, Finset.sum_range_succ, Finset.sum_range_succ, Finset.sum_range_succ, Finset.sum_range_zero,
      hz, e1, e2]
    have := Ex29.ok.sq 1 zero_le_one
    simpa using this

end EvoMPS
