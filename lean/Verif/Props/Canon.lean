import Verif.CanonLemmas
import Verif.Witness

/-!
# Properties C17, C18: right canonical form
-/

set_option linter.unusedSectionVars false

namespace EvoMPS

open Matrix

section
variable {R : Type*} [CommRing R] [StarRing R] {q D : ℕ → ℕ} {N : ℕ}

/-! ## C17 -/

/-- C17, shapes.  The bond dimensions do not grow, the outer ones stay 1, no bond vanishes,
and each bond dimension is at most that of its right neighbour times the site dimension. -/
theorem C17_bond_dims (hq : ∀ n < N, 0 < q n) (hD : ∀ n ≤ N, 0 < D n) (h0 : D 0 = 1)
    (hN : D N = 1) :
    (∀ n, rcfD q D N n ≤ D n) ∧ (∀ n ≤ N, 0 < rcfD q D N n) ∧
      (∀ n < N, rcfD q D N n ≤ q n * rcfD q D N (n + 1)) ∧
      rcfD q D N 0 = 1 ∧ rcfD q D N N = 1 := by
  have h1 := rcfD_pos hq hD
  refine ⟨rcfD_le, h1, fun n hn => ?_, ?_, by rw [rcfD_ge le_rfl, hN]⟩
  · conv_lhs => rw [rcfD_lt hn]
    exact min_le_left _ _
  · have a := rcfD_le (q := q) (D := D) (N := N) 0
    have b := h1 0 (by omega)
    omega

/-- C17, `restore_RCF(normalize_mps=False)`: no amplitude changes, the environments are
consistent with the new tensors, `r[n]` is the identity for `n ≥ 1` (so all tensors but the
first are right orthonormal).  For both values of `diag_l`, and for every result the QR and
eigenvalue routines may return. -/
theorem C17_rcf_keep (qr : QR R) (eigh : Eigh R) (diagL : Bool) (S : MPS R q D)
    (l' : Envs R (rcfD q D N)) (hl : l' 0 = 1) (hr : S.r N = 1) (h0 : D 0 = 1) (hN : D N = 1)
    (hpos : 0 < N) (hq : ∀ n < N, 0 < q n) (hD : ∀ n ≤ N, 0 < D n) :
    let S' := restoreRCFKeep qr eigh N diagL (by omega) (rcfD_pos hq hD 0 (by omega)) S l'
    let h0' := (C17_bond_dims hq hD h0 hN).2.2.2.1
    let hN' := (C17_bond_dims hq hD h0 hN).2.2.2.2
    (∀ s : Cfg q N, psi S'.A h0' hN' s = psi S.A h0 hN s) ∧
      UpToDate N S'.A S'.l S'.r ∧ (∀ n, 1 ≤ n → n ≤ N → S'.r n = 1) ∧
      (∀ n, 1 ≤ n → n < N → ∑ s, S'.A n s * (S'.A n s)ᴴ = 1) := by
  intro S' h0' hN'
  obtain ⟨g, φ, h1, -, h3⟩ := restoreRCF_spec qr eigh (fun g => g) (fun g => g * star g) diagL S l'
    hl hr h0 hN h0' hN' hpos
  obtain ⟨a1, a2, a3, -⟩ := h3 rfl
  refine ⟨fun s => (a1 s).trans (h1 s).symm, a2, a3, fun n hn1 hn2 => ?_⟩
  have := a2.r_pred n hn2
  rw [a3 n hn1 (by omega), a3 (n + 1) (by omega) (by omega)] at this
  simp only [Matrix.mul_one] at this
  exact this.symm

/-! ## C18 -/

/-- C18.  With `diag_l=True` every `l[n]`, `n ≥ 1`, is diagonal and its trace is the squared
norm of the state.  (That amplitudes and right orthonormality survive the second sweep and
that the `l` matrices are consistent is part of `C17_rcf_keep`.) -/
theorem C18_diag_l (qr : QR R) (eigh : Eigh R) (S : MPS R q D)
    (l' : Envs R (rcfD q D N)) (hl : l' 0 = 1) (hr : S.r N = 1) (h0 : D 0 = 1) (hN : D N = 1)
    (hpos : 0 < N) (hq : ∀ n < N, 0 < q n) (hD : ∀ n ≤ N, 0 < D n) :
    let S' := restoreRCFKeep qr eigh N true (by omega) (rcfD_pos hq hD 0 (by omega)) S l'
    ∀ n, 1 ≤ n → n ≤ N → (S'.l n).IsDiag ∧ (S'.l n)ᴴ = S'.l n ∧
      (S'.l n).trace = braket (psi (N := N) S.A h0 hN) (psi S.A h0 hN) := by
  intro S' n hn1 hn2
  have h0' := (C17_bond_dims hq hD h0 hN).2.2.2.1
  have hN' := (C17_bond_dims hq hD h0 hN).2.2.2.2
  obtain ⟨g, φ, h1, -, h3⟩ := restoreRCF_spec qr eigh (fun g => g) (fun g => g * star g) true S l'
    hl hr h0 hN h0' hN' hpos
  obtain ⟨a1, a2, a3, a4⟩ := h3 rfl
  have hherm : (S'.l n)ᴴ = S'.l n := a2.l_herm n hn2
  have hdiag : (S'.l n).IsDiag := by
    obtain ⟨M, -, hd⟩ := a4 rfl n hn1 hn2
    change (restoreRCF qr eigh N _ _ true _ _ S l').l n = _ at hd
    have : S'.l n = diagonal (eigh.ev M) := hd
    rw [this]
    exact Matrix.isDiag_diagonal _
  refine ⟨hdiag, hherm, ?_⟩
  have := a2.norm_eq h0' hN' n hn2
  rw [adot_eq_trace, a3 n hn1 hn2, Matrix.mul_one] at this
  have e : (S'.l n).trace = ((S'.l n)ᴴ).trace := by rw [hherm]
  rw [e]
  refine this.trans ?_
  simp only [braket]
  refine Finset.sum_congr rfl fun s _ => ?_
  have : psi (restoreRCF qr eigh N (fun g => g) (fun g => g * star g) true (by omega)
    (by omega) S l').A h0' hN' s = psi S.A h0 hN s := (a1 s).trans (h1 s).symm
  rw [this]

end

section
variable {q D : ℕ → ℕ} {N : ℕ}

/-- C17 and C18, `restore_RCF(normalize_mps=True)` on a state of non-zero norm: the amplitudes are
divided by a positive number, the norm is 1, the environments are consistent and all tensors
are right orthonormal; with `diag_l=True` the `l` matrices are diagonal with trace 1, and if the
eigenvalue routine returns ascending eigenvalues their entries are non-negative and ascending. -/
theorem C17_rcf_normalize (qr : QR ℂ) (eigh : Eigh ℂ) (diagL : Bool) (S : MPS ℂ q D)
    (l' : Envs ℂ (rcfD q D N)) (hl : l' 0 = 1) (hr : S.r N = 1) (h0 : D 0 = 1) (hN : D N = 1)
    (hpos : 0 < N) (hq : ∀ n < N, 0 < q n) (hD : ∀ n ≤ N, 0 < D n)
    (hne : braket (psi (N := N) S.A h0 hN) (psi S.A h0 hN) ≠ 0) :
    let S' := restoreRCFNorm qr eigh N diagL (by omega) (rcfD_pos hq hD 0 (by omega)) S l'
    let h0' := (C17_bond_dims hq hD h0 hN).2.2.2.1
    let hN' := (C17_bond_dims hq hD h0 hN).2.2.2.2
    (∃ c : ℝ, 0 < c ∧ ∀ s : Cfg q N, psi S'.A h0' hN' s = (c : ℂ) * psi S.A h0 hN s) ∧
      braket (psi (N := N) S'.A h0' hN') (psi S'.A h0' hN') = 1 ∧
      UpToDate N S'.A S'.l S'.r ∧ (∀ n ≤ N, S'.r n = 1) ∧
      (∀ n < N, ∑ s, S'.A n s * (S'.A n s)ᴴ = 1) ∧
      (diagL = true → ∀ n, 1 ≤ n → n ≤ N → (S'.l n).IsDiag ∧ (S'.l n).trace = 1 ∧
        (eigh.Ascending → ∀ i j, i ≤ j → 0 ≤ (S'.l n i i).re ∧
          (S'.l n i i).re ≤ (S'.l n j j).re)) := by
  intro S' h0' hN'
  obtain ⟨g, φ, h1, h2, h3⟩ := restoreRCF_spec qr eigh (fun g => g / (‖g‖ : ℂ)) (fun _ => 1) diagL
    S l' hl hr h0 hN h0' hN' hpos
  have hg : g ≠ 0 := by
    rintro rfl
    apply hne
    simp only [braket, h1]
    simp
  have hn : (‖g‖ : ℂ) ≠ 0 := by simpa using hg
  have hgg : g * star g = (‖g‖ : ℂ) * ‖g‖ := by
    have := Complex.mul_conj g
    rw [Complex.normSq_eq_norm_sq, pow_two, Complex.ofReal_mul] at this
    exact this
  have hph : (1 : ℂ) = g / (‖g‖ : ℂ) * star (g / (‖g‖ : ℂ)) := by
    rw [star_div₀]
    have : star (‖g‖ : ℂ) = (‖g‖ : ℂ) := Complex.conj_ofReal _
    rw [this, div_mul_div_comm, hgg, div_self (mul_ne_zero hn hn)]
  obtain ⟨a1, a2, a3, a4⟩ := h3 hph
  have hnorm : braket (psi (N := N) S'.A h0' hN') (psi S'.A h0' hN') = 1 := by
    rw [← h2]
    have : psi (N := N) S'.A h0' hN' = fun s => g / (‖g‖ : ℂ) * φ s := funext a1
    simp only [braket, this]
    refine Finset.sum_congr rfl fun s _ => ?_
    rw [star_mul', mul_mul_mul_comm, mul_comm (star (g / (‖g‖ : ℂ))), ← hph, one_mul]
  have hr0 : S'.r 0 = 1 := by
    have hU : UpToDate N S'.A S'.l S'.r := a2
    have e := hU.norm_eq h0' hN' 0 (by omega)
    rw [hnorm, adot_one_entry' h0' _ _ hU.l_zero] at e
    exact eq_one_of_entry h0' _ e
  have hrn : ∀ n ≤ N, S'.r n = 1 := by
    intro n hn
    rcases Nat.eq_zero_or_pos n with rfl | hp
    · exact hr0
    · exact a3 n hp hn
  have hU : UpToDate N S'.A S'.l S'.r := a2
  refine ⟨⟨‖g‖⁻¹, inv_pos.2 (norm_pos_iff.2 hg), fun s => ?_⟩, hnorm, a2, hrn, fun n hn => ?_,
    fun hd n hn1 hn2 => ?_⟩
  · refine (a1 s).trans ?_
    rw [h1 s, Complex.ofReal_inv]
    field_simp
  · have := hU.r_pred n hn
    rw [hrn n (by omega), hrn (n + 1) (by omega)] at this
    simp only [Matrix.mul_one] at this
    exact this.symm
  · obtain ⟨M, hM, hd⟩ := a4 hd n hn1 hn2
    have hd : S'.l n = diagonal (eigh.ev M) := hd
    refine ⟨by rw [hd]; exact Matrix.isDiag_diagonal _, ?_, fun hasc i j hij => ⟨?_, ?_⟩⟩
    · have := hU.norm_eq h0' hN' n hn2
      rw [adot_eq_trace, hrn n hn2, Matrix.mul_one, hnorm, hU.l_herm n hn2] at this
      exact this
    · exact hU.l_diag_nonneg n hn2 i
    · rw [hd, Matrix.diagonal_apply_eq, Matrix.diagonal_apply_eq]
      exact hasc M hM i j hij

end

namespace Ex17

/-- Bond dimensions 1, 3, 1: the inner one is larger than needed for `q = 2`. -/
def D (n : ℕ) : ℕ := if n = 1 then 3 else 1

theorem D_pos (n : ℕ) (_ : n ≤ 2) : 0 < D n := by
  unfold D
  split <;> omega

/-- Two sites, all tensor entries 1, environments not computed yet. -/
def S : MPS ℂ (fun _ => 2) D := ⟨fun _ _ => Matrix.of fun _ _ => 1, fun _ => 1, fun _ => 1⟩

theorem psi_eq (s : Cfg (fun _ => 2) 2) : psi S.A rfl rfl s = 3 := by
  have : ∀ k : ℕ, k = 3 → ∑ _x : Fin k, (1 : ℂ) = 3 := by rintro k rfl; simp
  simp only [psi, amp, Matrix.one_mul]
  rw [Matrix.mul_apply]
  simp only [S, Matrix.of_apply, mul_one]
  exact this (D 1) rfl

theorem norm_ne : braket (psi (N := 2) S.A rfl rfl) (psi S.A rfl rfl) ≠ 0 := by
  simp only [braket, psi_eq]
  simp

/-- The hypotheses of the C17 and C18 theorems hold for this state, whose middle bond shrinks
from 3 to 2; routines that satisfy the contracts exist (`exists_qr`, `exists_eigh`). -/
example (qr : QR ℂ) (eigh : Eigh ℂ) (diagL : Bool) : rcfD (fun _ => 2) D 2 1 = 2 ∧ D 1 = 3 ∧
    ∃ S' : MPS ℂ (fun _ => 2) (rcfD (fun _ => 2) D 2), UpToDate 2 S'.A S'.l S'.r := by
  refine ⟨by simp [rcfD, D], rfl, _, (C17_rcf_normalize (N := 2) qr eigh diagL S (fun _ => 1) rfl rfl
    rfl rfl (by omega) (by simp) D_pos norm_ne).2.2.1⟩

end Ex17

end EvoMPS
