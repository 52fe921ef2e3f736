import Verif.CanonLeftLemmas
import Verif.Witness
import Verif.Props.Canon

/-!
# Property C19: left canonical form
-/

set_option linter.unusedSectionVars false

namespace EvoMPS

open Matrix

section
variable {R : Type*} [CommRing R] [StarRing R] {q D : ℕ → ℕ} {N : ℕ}

/-- C19, shapes. -/
theorem C19_bond_dims (hq : ∀ n < N, 0 < q n) (hD : ∀ n ≤ N, 0 < D n) (h0 : D 0 = 1)
    (hN : D N = 1) :
    (∀ n ≤ N, lcfD q D N n ≤ D n) ∧ (∀ n ≤ N, 0 < lcfD q D N n) ∧
      (∀ n < N, lcfD q D N (n + 1) ≤ q n * lcfD q D N n) ∧
      lcfD q D N 0 = 1 ∧ lcfD q D N N = 1 := by
  have h1 := lcfD_pos hq hD
  refine ⟨lcfD_le, h1, fun n hn => ?_, h0, ?_⟩
  · rw [lcfD_succ hn]
    exact min_le_left _ _
  · have a := lcfD_le (q := q) (D := D) (N := N) N le_rfl
    have b := h1 N le_rfl
    omega

/-- C19, `restore_LCF(normalize_mps=False)`, without the claim about the stored `l`.
No amplitude changes; all tensors but the last are left orthonormal; the `r` matrices are
consistent with the new tensors and, with `diag_r=True`, diagonal.  `Λ` are the true left
environments of the new tensors; the stored list `l` agrees with them if no bond shrinks
(missing: agreement when a bond shrinks, which is false, see `C19_stored_l_violated`). -/
theorem C19_lcf_keep_partial (qr : QR R) (eigh : Eigh R) (diagR : Bool) (S : MPS R q D)
    (r' : Envs R (lcfD q D N)) (hl : S.l 0 = 1) (hr : r' N = 1) (h0 : D 0 = 1) (hN : D N = 1)
    (hpos : 0 < N) (hq : ∀ n < N, 0 < q n) (hD : ∀ n ≤ N, 0 < D n) :
    let S' := restoreLCFKeep qr eigh N diagR (by omega) (lcfD_pos hq hD N le_rfl) S r'
    let h0' := (C19_bond_dims hq hD h0 hN).2.2.2.1
    let hN' := (C19_bond_dims hq hD h0 hN).2.2.2.2
    (∀ s : Cfg q N, psi S'.A h0' hN' s = psi S.A h0 hN s) ∧
      (∀ n, n + 1 < N → ∑ s, (S'.A n s)ᴴ * S'.A n s = 1) ∧
      ∃ Λ : Envs R (lcfD q D N), UpToDate N S'.A Λ S'.r ∧ (∀ n < N, Λ n = 1) ∧
        (diagR = true → ∀ n < N, (S'.r n).IsDiag) ∧
        ((∀ n ≤ N, lcfD q D N n = D n) → ∀ n ≤ N, S'.l n = ⟨lcfD q D N n, Λ n⟩) := by
  intro S' h0' hN'
  obtain ⟨g, φ, Λ, h1, h2, h3, h4, h5, h6, h7⟩ := restoreLCF_spec qr eigh (fun g => g)
    (fun g => star g * g) diagR S r' hl hr h0 hN h0' hN' hpos
  obtain ⟨a1, a2, a3⟩ := h7 rfl
  refine ⟨fun s => (a1 s).trans (h1 s).symm, fun n hn => ?_, Λ, a2, h3, fun hd n hn => ?_,
    fun hsame n hn => ?_⟩
  · have := a2.l_succ n (by omega)
    rw [h3 n (by omega), h3 (n + 1) hn] at this
    simp only [Matrix.mul_one] at this
    exact this.symm
  · obtain ⟨M, -, e⟩ := a3 hd n hn
    have e : S'.r n = diagonal (eigh.ev M) := e
    rw [e]
    exact Matrix.isDiag_diagonal _
  · rcases Nat.lt_or_ge n N with h | h
    · rw [h3 n h]
      refine (h4 n h).trans ?_
      rw [hsame n hn]
    · obtain rfl : n = N := by omega
      rw [h5]
      refine h6.trans ?_
      rw [hsame n hn]

/-- C19, what is stored: for `n < N` the list `l` holds the identity of the size the bond had
*before* the sweep. -/
theorem C19_stored_l (qr : QR R) (eigh : Eigh R) (diagR : Bool) (S : MPS R q D)
    (r' : Envs R (lcfD q D N)) (hl : S.l 0 = 1) (hr : r' N = 1) (h0 : D 0 = 1) (hN : D N = 1)
    (hpos : 0 < N) (hq : ∀ n < N, 0 < q n) (hD : ∀ n ≤ N, 0 < D n) :
    let S' := restoreLCFKeep qr eigh N diagR (by omega) (lcfD_pos hq hD N le_rfl) S r'
    ∀ n < N, S'.l n = ⟨D n, 1⟩ := by
  intro S'
  have h0' := (C19_bond_dims hq hD h0 hN).2.2.2.1
  have hN' := (C19_bond_dims hq hD h0 hN).2.2.2.2
  obtain ⟨g, φ, Λ, h1, h2, h3, h4, -⟩ := restoreLCF_spec qr eigh (fun g => g)
    (fun g => star g * g) diagR S r' hl hr h0 hN h0' hN' hpos
  exact h4

end

section
variable {q D : ℕ → ℕ} {N : ℕ}

/-- C19, `restore_LCF(normalize_mps=True)` on a state of non-zero norm; same remark about the
stored `l` as in `C19_lcf_keep_partial`. -/
theorem C19_lcf_normalize_partial (qr : QR ℂ) (eigh : Eigh ℂ) (diagR : Bool) (S : MPS ℂ q D)
    (r' : Envs ℂ (lcfD q D N)) (hl : S.l 0 = 1) (hr : r' N = 1) (h0 : D 0 = 1) (hN : D N = 1)
    (hpos : 0 < N) (hq : ∀ n < N, 0 < q n) (hD : ∀ n ≤ N, 0 < D n)
    (hne : braket (psi (N := N) S.A h0 hN) (psi S.A h0 hN) ≠ 0) :
    let S' := restoreLCFNorm qr eigh N diagR (by omega) (lcfD_pos hq hD N le_rfl) S r'
    let h0' := (C19_bond_dims hq hD h0 hN).2.2.2.1
    let hN' := (C19_bond_dims hq hD h0 hN).2.2.2.2
    (∃ c : ℝ, 0 < c ∧ ∀ s : Cfg q N, psi S'.A h0' hN' s = (c : ℂ) * psi S.A h0 hN s) ∧
      braket (psi (N := N) S'.A h0' hN') (psi S'.A h0' hN') = 1 ∧
      (∀ n < N, ∑ s, (S'.A n s)ᴴ * S'.A n s = 1) ∧
      UpToDate N S'.A (fun _ => 1) S'.r ∧
      (diagR = true → ∀ n < N, (S'.r n).IsDiag ∧ (S'.r n).trace = 1 ∧
        (eigh.Ascending → ∀ i j, i ≤ j → (S'.r n i i).re ≤ (S'.r n j j).re)) ∧
      ((∀ n ≤ N, lcfD q D N n = D n) → ∀ n ≤ N, S'.l n = ⟨lcfD q D N n, 1⟩) := by
  intro S' h0' hN'
  obtain ⟨g, φ, Λ, h1, h2, h3, h4, h5, h6, h7⟩ := restoreLCF_spec qr eigh
    (fun g => g / (‖g‖ : ℂ)) (fun _ => 1) diagR S r' hl hr h0 hN h0' hN' hpos
  have hg : g ≠ 0 := by
    rintro rfl
    apply hne
    simp only [braket, h1]
    simp
  have hn : (‖g‖ : ℂ) ≠ 0 := by simpa using hg
  have hgg : g * star g = (‖g‖ : ℂ) * ‖g‖ := by
    have := Complex.mul_conj g
    rw [Complex.normSq_eq_norm_sq, pow_two, Complex.ofReal_mul] at this
    exact this
  have hph : (1 : ℂ) = star (g / (‖g‖ : ℂ)) * (g / (‖g‖ : ℂ)) := by
    rw [star_div₀]
    have : star (‖g‖ : ℂ) = (‖g‖ : ℂ) := Complex.conj_ofReal _
    rw [this, div_mul_div_comm, mul_comm, hgg, div_self (mul_ne_zero hn hn)]
  obtain ⟨a1, a2, a3⟩ := h7 hph
  have hΛ : ∀ n ≤ N, Λ n = 1 := by
    intro n hn
    rcases Nat.lt_or_ge n N with h | h
    · exact h3 n h
    · obtain rfl : n = N := by omega
      rw [h5, one_smul]
  have hnorm : braket (psi (N := N) S'.A h0' hN') (psi S'.A h0' hN') = 1 := by
    rw [← h2]
    have : psi (N := N) S'.A h0' hN' = fun s => g / (‖g‖ : ℂ) * φ s := funext a1
    simp only [braket, this]
    refine Finset.sum_congr rfl fun s _ => ?_
    rw [star_mul', mul_mul_mul_comm, ← hph, one_mul]
  have hU : UpToDate N S'.A (fun _ => 1) S'.r := by
    refine ⟨rfl, fun n hn => ?_, a2.r_last, a2.r_pred⟩
    have := a2.l_succ n hn
    rwa [hΛ n (by omega), hΛ (n + 1) (by omega)] at this
  refine ⟨⟨‖g‖⁻¹, inv_pos.2 (norm_pos_iff.2 hg), fun s => ?_⟩, hnorm, fun n hn => ?_, hU,
    fun hd n hn => ?_, fun hsame n hn => ?_⟩
  · refine (a1 s).trans ?_
    rw [h1 s, Complex.ofReal_inv]
    field_simp
  · have := hU.l_succ n hn
    simp only [Matrix.mul_one] at this
    exact this.symm
  · obtain ⟨M, hM, e⟩ := a3 hd n hn
    have e : S'.r n = diagonal (eigh.ev M) := e
    refine ⟨by rw [e]; exact Matrix.isDiag_diagonal _, ?_, fun hasc i j hij => ?_⟩
    · have := hU.norm_eq h0' hN' n (by omega)
      rw [adot_eq_trace, Matrix.conjTranspose_one, Matrix.one_mul, hnorm] at this
      exact this
    · rw [e, Matrix.diagonal_apply_eq, Matrix.diagonal_apply_eq]
      exact hasc M hM i j hij
  · rcases Nat.lt_or_ge n N with h | h
    · refine (h4 n h).trans ?_
      rw [hsame n hn]
    · obtain rfl : n = N := by omega
      refine h6.trans ?_
      rw [hsame n hn, one_smul]

end

/-- C19 is false when a bond shrinks: for the two-site state of `Ex17` the stored `l[1]` does
not even have the size of the bond it belongs to. -/
theorem C19_stored_l_violated (qr : QR ℂ) (eigh : Eigh ℂ) (diagR : Bool)
    (hN : 0 < Ex17.D 2) (hz : 0 < lcfD (fun _ => 2) Ex17.D 2 2) :
    ((restoreLCFKeep qr eigh 2 diagR hN hz Ex17.S (fun _ => 1)).l 1).1
      ≠ lcfD (fun _ => 2) Ex17.D 2 1 := by
  have := C19_stored_l (N := 2) qr eigh diagR Ex17.S (fun _ => 1) rfl rfl rfl rfl (by omega)
    (by simp) Ex17.D_pos 1 (by omega)
  rw [this]
  simp [lcfD, Ex17.D]

/-- The hypotheses of the C19 theorems hold for that state. -/
example (qr : QR ℂ) (eigh : Eigh ℂ) (diagR : Bool) :=
  C19_lcf_normalize_partial (N := 2) qr eigh diagR Ex17.S (fun _ => 1) rfl rfl rfl rfl (by omega)
    (by simp) Ex17.D_pos Ex17.norm_ne

/-- There are states with two inner bonds for which no bond shrinks: `q = 2`, `D = 1, 2, 2, 1`. -/
example : ∀ n ≤ 3, lcfD (fun _ => 2) (fun n => if n = 1 ∨ n = 2 then 2 else 1) 3 n
    = (fun n => if n = 1 ∨ n = 2 then 2 else 1) n := by
  decide

end EvoMPS
