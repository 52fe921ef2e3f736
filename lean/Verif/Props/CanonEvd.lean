import Verif.CanonEvdLemmas
import Verif.Witness
import Verif.ContractsChol

/-!
# Property C89: canonical forms with `use_QR=False`
-/

set_option linter.unusedSectionVars false

namespace EvoMPS

open Matrix Uni
open scoped ComplexOrder

section
variable {q D : ℕ → ℕ} {N : ℕ}

/-- The diagonal matrix whose last `k` entries are 1 and whose other entries are 0. -/
def onesAtEnd (n k : ℕ) : Matrix (Fin n) (Fin n) ℂ := diagonal fun i => if n ≤ i.val + k then 1 else 0

theorem norm_factor {g : ℂ} (hg : g ≠ 0) : (1 : ℂ) = g / (‖g‖ : ℂ) * star (g / (‖g‖ : ℂ)) := by
  have hn : (‖g‖ : ℂ) ≠ 0 := by simpa using hg
  have hgg : g * star g = (‖g‖ : ℂ) * ‖g‖ := by
    have := Complex.mul_conj g
    rw [Complex.normSq_eq_norm_sq, pow_two, Complex.ofReal_mul] at this
    exact this
  rw [star_div₀]
  have : star (‖g‖ : ℂ) = (‖g‖ : ℂ) := Complex.conj_ofReal _
  rw [this, div_mul_div_comm, hgg, div_self (mul_ne_zero hn hn)]

theorem keep_factor (g : ℂ) : ((‖g‖ ^ 2 : ℝ) : ℂ) = g * star g := by
  have := Complex.mul_conj g
  rw [Complex.normSq_eq_norm_sq] at this
  exact this.symm

theorem env_first_ne {A : Tensors ℂ q D} {lam ρ : Envs ℂ D} (h : UpToDate N A lam ρ) (h0 : D 0 = 1) (hN : D N = 1)
    (hne : braket (psi (N := N) A h0 hN) (psi A h0 hN) ≠ 0) : ρ 0 ≠ 0 ∧ lam N ≠ 0 := by
  constructor
  · intro hz
    apply hne
    rw [← h.norm_eq h0 hN 0 (by omega), hz, adot_eq_trace]
    simp
  · intro hz
    apply hne
    rw [← h.norm_eq h0 hN N le_rfl, hz, adot_eq_trace]
    simp

theorem braket_smul_self {c : ℂ} {φ ψ : Cfg q N → ℂ} (h : ∀ s, ψ s = c * φ s) :
    braket ψ ψ = c * star c * braket φ φ := by
  simp only [braket, h, Finset.mul_sum]
  refine Finset.sum_congr rfl fun s _ => ?_
  rw [star_mul']
  ring

/-! ## Right canonical form -/

/-- C89, `restore_RCF(use_QR=False, normalize_mps=False)` on a state that is not zero.  `lam`, `ρ` are the environments of its
tensors (the stored arrays may be out of date except for the outer entries), and every eigenvalue of the `ρ n` is 0 or
larger than `zero_tol`.  Then the call succeeds, keeps the bond dimensions and all amplitudes, and stores in `r[n]`, `n ≥ 1`, the
projector on the last `rank (ρ n)` entries; the stored `l` are the left environments of the new tensors, and diagonal with
`diag_l=True`.  The stored `r` are the right environments of the new tensors if `diag_l=False` or if on each bond one of the two
environments of the input has full rank.  Not covered: `r` with `diag_l=True` where both are rank deficient. -/
theorem C89_rcf_keep_partial (P : HermLib) {tol : ℝ} (htol : 0 ≤ tol) (diagL : Bool) (S : MPS ℂ q D) (lam ρ : Envs ℂ D)
    (hl : S.l 0 = 1) (hr : S.r N = 1) (h0 : D 0 = 1) (hN : D N = 1) (hpos : 0 < N) (hu : UpToDate N S.A lam ρ)
    (hne : braket (psi (N := N) S.A h0 hN) (psi S.A h0 hN) ≠ 0) (hgap : ∀ n < N, ZeroOrAbove tol (ρ n)) :
    ∃ S', restoreRCFEvdKeep P tol N diagL (by omega) S = some S' ∧
      (∀ s : Cfg q N, psi S'.A h0 hN s = psi S.A h0 hN s) ∧
      (∀ n, 1 ≤ n → n ≤ N → S'.r n = onesAtEnd (D n) (ρ n).rank) ∧
      S'.l 0 = 1 ∧ (∀ n < N, S'.l (n + 1) = ∑ s, (S'.A n s)ᴴ * S'.l n * S'.A n s) ∧
      (diagL = true → ∀ n, 1 ≤ n → n ≤ N → (S'.l n).IsDiag) ∧
      ((diagL = true → ∀ n, 1 ≤ n → n < N → (ρ n).PosDef ∨ (lam n).PosDef) → UpToDate N S'.A S'.l S'.r) := by
  obtain ⟨S', g, φ, e1, -, e3, e4, e5, e6, -, e8, e9, e10⟩ := restoreRCFEvd_spec (N := N) P htol (fun g => g)
    (fun g => ((‖g‖ ^ 2 : ℝ) : ℂ)) diagL S ρ lam hl hr h0 hN hpos ⟨hu.r_last, hu.r_pred⟩ ⟨hu.l_zero, hu.l_succ⟩
    (env_first_ne hu h0 hN hne).1 hgap (fun g hg => hg) (fun g _ => keep_factor g)
  exact ⟨S', e1, fun s => (e5 s).trans (e3 s).symm, e8, e6.l_zero, e6.l_succ, e9, e10⟩

/-- C89, `restore_RCF(use_QR=False, normalize_mps=True)`: as `C89_rcf_keep_partial`, but the amplitudes are divided by a positive
number such that the norm is 1, and `r[0] = 1`. -/
theorem C89_rcf_norm_partial (P : HermLib) {tol : ℝ} (htol : 0 ≤ tol) (diagL : Bool) (S : MPS ℂ q D) (lam ρ : Envs ℂ D)
    (hl : S.l 0 = 1) (hr : S.r N = 1) (h0 : D 0 = 1) (hN : D N = 1) (hpos : 0 < N) (hu : UpToDate N S.A lam ρ)
    (hne : braket (psi (N := N) S.A h0 hN) (psi S.A h0 hN) ≠ 0) (hgap : ∀ n < N, ZeroOrAbove tol (ρ n)) :
    ∃ S', restoreRCFEvdNorm P tol N diagL (by omega) S = some S' ∧
      (∃ c : ℝ, 0 < c ∧ ∀ s : Cfg q N, psi S'.A h0 hN s = (c : ℂ) * psi S.A h0 hN s) ∧
      braket (psi (N := N) S'.A h0 hN) (psi S'.A h0 hN) = 1 ∧ S'.r 0 = 1 ∧
      (∀ n, 1 ≤ n → n ≤ N → S'.r n = onesAtEnd (D n) (ρ n).rank) ∧
      S'.l 0 = 1 ∧ (∀ n < N, S'.l (n + 1) = ∑ s, (S'.A n s)ᴴ * S'.l n * S'.A n s) ∧
      (diagL = true → ∀ n, 1 ≤ n → n ≤ N → (S'.l n).IsDiag) ∧
      ((diagL = true → ∀ n, 1 ≤ n → n < N → (ρ n).PosDef ∨ (lam n).PosDef) → UpToDate N S'.A S'.l S'.r) := by
  obtain ⟨S', g, φ, e1, e2, e3, e4, e5, e6, e7, e8, e9, e10⟩ := restoreRCFEvd_spec (N := N) P htol (fun g => g / (‖g‖ : ℂ))
    (fun _ => 1) diagL S ρ lam hl hr h0 hN hpos ⟨hu.r_last, hu.r_pred⟩ ⟨hu.l_zero, hu.l_succ⟩
    (env_first_ne hu h0 hN hne).1 hgap (fun g hg => div_ne_zero hg (by simpa using hg)) (fun g hg => norm_factor hg)
  refine ⟨S', e1, ⟨‖g‖⁻¹, inv_pos.2 (norm_pos_iff.2 e2), fun s => ?_⟩, ?_, ?_, e8, e6.l_zero, e6.l_succ, e9, e10⟩
  · rw [e5, e3, Complex.ofReal_inv]
    have hn : (‖g‖ : ℂ) ≠ 0 := by simpa using e2
    field_simp
  · rw [braket_smul_self e5, e4, mul_one, ← norm_factor e2]
  · rw [e7, one_smul]

/-! ## Left canonical form -/

/-- C89, `restore_LCF(use_QR=False, normalize_mps=False)`: the mirror image.  Unlike with `use_QR=True` (`C19_stored_l_violated`)
the stored `l` fit the tensors. -/
theorem C89_lcf_keep_partial (P : HermLib) {tol : ℝ} (htol : 0 ≤ tol) (diagR : Bool) (S : MPS ℂ q D) (lam ρ : Envs ℂ D)
    (hl : S.l 0 = 1) (hr : S.r N = 1) (h0 : D 0 = 1) (hN : D N = 1) (hpos : 0 < N) (hu : UpToDate N S.A lam ρ)
    (hne : braket (psi (N := N) S.A h0 hN) (psi S.A h0 hN) ≠ 0)
    (hgap : ∀ n, 1 ≤ n → n ≤ N → ZeroOrAbove tol (lam n)) :
    ∃ S', restoreLCFEvdKeep P tol N diagR (by omega) S = some S' ∧
      (∀ s : Cfg q N, psi S'.A h0 hN s = psi S.A h0 hN s) ∧
      (∀ n < N, S'.l n = onesAtEnd (D n) (lam n).rank) ∧
      S'.r N = 1 ∧ (∀ n < N, S'.r n = ∑ s, S'.A n s * S'.r (n + 1) * (S'.A n s)ᴴ) ∧
      (diagR = true → ∀ n < N, (S'.r n).IsDiag) ∧
      ((diagR = true → ∀ n, 1 ≤ n → n < N → (ρ n).PosDef ∨ (lam n).PosDef) → UpToDate N S'.A S'.l S'.r) := by
  obtain ⟨S', g, φ, e1, -, e3, e4, e5, e6, -, e8, e9, e10⟩ := restoreLCFEvd_spec (N := N) P htol (fun g => g)
    (fun g => ((‖g‖ ^ 2 : ℝ) : ℂ)) diagR S ρ lam hl hr h0 hN hpos ⟨hu.r_last, hu.r_pred⟩ ⟨hu.l_zero, hu.l_succ⟩
    (env_first_ne hu h0 hN hne).2 hgap (fun g hg => hg) (fun g _ => keep_factor g)
  exact ⟨S', e1, fun s => (e5 s).trans (e3 s).symm, e8, e6.r_last, e6.r_pred, e9, e10⟩

/-- C89, `restore_LCF(use_QR=False, normalize_mps=True)`. -/
theorem C89_lcf_norm_partial (P : HermLib) {tol : ℝ} (htol : 0 ≤ tol) (diagR : Bool) (S : MPS ℂ q D) (lam ρ : Envs ℂ D)
    (hl : S.l 0 = 1) (hr : S.r N = 1) (h0 : D 0 = 1) (hN : D N = 1) (hpos : 0 < N) (hu : UpToDate N S.A lam ρ)
    (hne : braket (psi (N := N) S.A h0 hN) (psi S.A h0 hN) ≠ 0)
    (hgap : ∀ n, 1 ≤ n → n ≤ N → ZeroOrAbove tol (lam n)) :
    ∃ S', restoreLCFEvdNorm P tol N diagR (by omega) S = some S' ∧
      (∃ c : ℝ, 0 < c ∧ ∀ s : Cfg q N, psi S'.A h0 hN s = (c : ℂ) * psi S.A h0 hN s) ∧
      braket (psi (N := N) S'.A h0 hN) (psi S'.A h0 hN) = 1 ∧ S'.l N = 1 ∧
      (∀ n < N, S'.l n = onesAtEnd (D n) (lam n).rank) ∧
      S'.r N = 1 ∧ (∀ n < N, S'.r n = ∑ s, S'.A n s * S'.r (n + 1) * (S'.A n s)ᴴ) ∧
      (diagR = true → ∀ n < N, (S'.r n).IsDiag) ∧
      ((diagR = true → ∀ n, 1 ≤ n → n < N → (ρ n).PosDef ∨ (lam n).PosDef) → UpToDate N S'.A S'.l S'.r) := by
  obtain ⟨S', g, φ, e1, e2, e3, e4, e5, e6, e7, e8, e9, e10⟩ := restoreLCFEvd_spec (N := N) P htol (fun g => g / (‖g‖ : ℂ))
    (fun _ => 1) diagR S ρ lam hl hr h0 hN hpos ⟨hu.r_last, hu.r_pred⟩ ⟨hu.l_zero, hu.l_succ⟩
    (env_first_ne hu h0 hN hne).2 hgap (fun g hg => div_ne_zero hg (by simpa using hg)) (fun g hg => norm_factor hg)
  refine ⟨S', e1, ⟨‖g‖⁻¹, inv_pos.2 (norm_pos_iff.2 e2), fun s => ?_⟩, ?_, ?_, e8, e6.r_last, e6.r_pred, e9, e10⟩
  · rw [e5, e3, Complex.ofReal_inv]
    have hn : (‖g‖ : ℂ) ≠ 0 := by simpa using e2
    field_simp
  · rw [braket_smul_self e5, e4, mul_one, ← norm_factor e2]
  · rw [e7, one_smul]

/-- C89: a bond whose environment has full rank gets the identity. -/
theorem C89_full_rank {n : ℕ} {M : Matrix (Fin n) (Fin n) ℂ} (h : M.PosDef) : onesAtEnd n M.rank = 1 := by
  rw [posDef_rank h]
  exact lastEye_full n

end

namespace Ex89

/-- Two sites of dimension 2, bond dimension 2. -/
def D : ℕ → ℕ
  | 1 => 2
  | _ => 1

/-- The state `|1 0>`, with a bond dimension larger than needed. -/
def A : Tensors ℂ (fun _ => 2) D
  | 0 => fun s => Matrix.of fun _ b => if b.val = s.val then 1 else 0
  | 1 => fun s => Matrix.of fun a _ => if a.val = 1 ∧ s.val = 0 then 1 else 0
  | _ => 0

/-- Its left environments have full rank, -/
def lam : Envs ℂ D := fun _ => 1

/-- its right environment on the middle bond has rank 1. -/
def ρ : Envs ℂ D
  | 1 => diagonal fun i : Fin 2 => if i = 1 then 1 else 0
  | _ => 1

theorem upToDate : UpToDate 2 A lam ρ := by
  refine ⟨rfl, fun n hn => ?_, rfl, fun n hn => ?_⟩
  · interval_cases n
    · ext i j
      rw [Matrix.sum_apply]
      change (1 : Matrix (Fin 2) (Fin 2) ℂ) i j = ∑ s : Fin 2, ((Matrix.of fun (_ : Fin 1) (b : Fin 2) => if b.val = s.val then (1 : ℂ) else 0)ᴴ
        * (1 : Matrix (Fin 1) (Fin 1) ℂ) * (Matrix.of fun (_ : Fin 1) (b : Fin 2) => if b.val = s.val then (1 : ℂ) else 0)) i j
      change Fin 2 at i j
      fin_cases i <;> fin_cases j <;> simp [Matrix.mul_apply, Fin.sum_univ_two]
    · ext i j
      rw [Matrix.sum_apply]
      change (1 : Matrix (Fin 1) (Fin 1) ℂ) i j = ∑ s : Fin 2, ((Matrix.of fun (a : Fin 2) (_ : Fin 1) => if a.val = 1 ∧ s.val = 0 then (1 : ℂ) else 0)ᴴ
        * (1 : Matrix (Fin 2) (Fin 2) ℂ) * (Matrix.of fun (a : Fin 2) (_ : Fin 1) => if a.val = 1 ∧ s.val = 0 then (1 : ℂ) else 0)) i j
      change Fin 1 at i j
      fin_cases i <;> fin_cases j <;> simp [Matrix.mul_apply, Fin.sum_univ_two]
  · interval_cases n
    · ext i j
      rw [Matrix.sum_apply]
      change (1 : Matrix (Fin 1) (Fin 1) ℂ) i j = ∑ s : Fin 2, ((Matrix.of fun (_ : Fin 1) (b : Fin 2) => if b.val = s.val then (1 : ℂ) else 0)
        * (diagonal fun i : Fin 2 => if i = 1 then (1 : ℂ) else 0) * (Matrix.of fun (_ : Fin 1) (b : Fin 2) => if b.val = s.val then (1 : ℂ) else 0)ᴴ) i j
      change Fin 1 at i j
      fin_cases i <;> fin_cases j <;> simp [Matrix.mul_apply, Fin.sum_univ_two]
    · ext i j
      rw [Matrix.sum_apply]
      change (diagonal fun i : Fin 2 => if i = 1 then (1 : ℂ) else 0) i j = ∑ s : Fin 2, ((Matrix.of fun (a : Fin 2) (_ : Fin 1) => if a.val = 1 ∧ s.val = 0 then (1 : ℂ) else 0)
        * (1 : Matrix (Fin 1) (Fin 1) ℂ) * (Matrix.of fun (a : Fin 2) (_ : Fin 1) => if a.val = 1 ∧ s.val = 0 then (1 : ℂ) else 0)ᴴ) i j
      change Fin 2 at i j
      fin_cases i <;> fin_cases j <;> simp [Matrix.mul_apply, Fin.sum_univ_two]

theorem norm_one : braket (psi (N := 2) A rfl rfl) (psi A rfl rfl) = 1 := by
  have h : LOk 2 A lam := ⟨upToDate.l_zero, upToDate.l_succ⟩
  rw [← h.last_entry rfl rfl]
  rfl

theorem gap_one (n : ℕ) : ZeroOrAbove (1 / 2) (1 : Matrix (Fin n) (Fin n) ℂ) := by
  intro μ v hv h
  right
  rw [Matrix.one_mulVec] at h
  obtain ⟨i, hi⟩ := Function.ne_iff.mp hv
  have := congrFun h i
  simp only [Pi.smul_apply, smul_eq_mul] at this
  have hi : v i ≠ 0 := hi
  have h1 : (μ : ℂ) = 1 := mul_right_cancel₀ hi (this.symm.trans (one_mul _).symm)
  have h2 : μ = 1 := by exact_mod_cast h1
  rw [h2]
  norm_num

theorem gap_diag : ZeroOrAbove (1 / 2) (diagonal fun i : Fin 2 => if i = 1 then (1 : ℂ) else 0) := by
  intro μ v hv h
  have h0 := congrFun h (0 : Fin 2)
  have h1 := congrFun h (1 : Fin 2)
  rw [Matrix.mulVec_diagonal] at h0 h1
  simp only [Pi.smul_apply, smul_eq_mul, if_true, one_mul, zero_ne_one, if_false, zero_mul] at h0 h1
  by_cases hz : v (0 : Fin 2) = 0
  · have hv1 : v (1 : Fin 2) ≠ 0 := by
      intro hz1
      apply hv
      funext i
      fin_cases i
      · exact hz
      · exact hz1
    right
    have h1 : (μ : ℂ) = 1 := mul_right_cancel₀ hv1 (h1.symm.trans (one_mul _).symm)
    have h2 : μ = 1 := by exact_mod_cast h1
    rw [h2]
    norm_num
  · left
    have := (mul_eq_zero.mp h0.symm).resolve_right hz
    exact_mod_cast this

theorem gap_ρ (n : ℕ) (hn : n < 2) : ZeroOrAbove (1 / 2) (ρ n) := by
  interval_cases n
  · exact gap_one 1
  · exact gap_diag

/-- The hypotheses of the C89 theorems hold for this state, stored with environments that have not been computed; its right
environments are rank deficient, its left environments are not.  Routines with the assumed behaviour exist
(`someHermLib`). -/
example (P : HermLib) : (∃ S', restoreRCFEvdNorm P (1 / 2) 2 true (by decide) ⟨A, fun _ => 1, fun _ => 1⟩ = some S' ∧
      UpToDate 2 S'.A S'.l S'.r ∧ S'.r 1 = onesAtEnd 2 (ρ 1).rank) ∧
    ∃ S', restoreLCFEvdKeep P (1 / 2) 2 true (by decide) ⟨A, fun _ => 1, fun _ => 1⟩ = some S' ∧
      UpToDate 2 S'.A S'.l S'.r := by
  have hne : braket (psi (N := 2) A rfl rfl) (psi A rfl rfl) ≠ 0 := by
    rw [norm_one]
    exact one_ne_zero
  have hpd : ∀ n, (lam n).PosDef := fun n => Matrix.PosDef.one
  obtain ⟨S1, e1, -, -, -, e2, -, -, -, e3⟩ := C89_rcf_norm_partial (N := 2) P (tol := 1 / 2) (by norm_num) true
    ⟨A, fun _ => 1, fun _ => 1⟩ lam ρ rfl rfl rfl rfl (by omega) upToDate hne gap_ρ
  obtain ⟨S2, f1, -, -, -, -, -, f2⟩ := C89_lcf_keep_partial (N := 2) P (tol := 1 / 2) (by norm_num) true
    ⟨A, fun _ => 1, fun _ => 1⟩ lam ρ rfl rfl rfl rfl (by omega) upToDate hne fun n _ _ => gap_one (D n)
  exact ⟨⟨S1, e1, e3 fun _ n _ _ => Or.inr (hpd n), e2 1 le_rfl (by omega)⟩, S2, f1, f2 fun _ n _ _ => Or.inr (hpd n)⟩

end Ex89

end EvoMPS
