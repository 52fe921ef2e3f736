import Verif.SchmidtLemmas
import Mathlib.LinearAlgebra.Matrix.Charpoly.Eigs
import Mathlib.Analysis.Complex.Polynomial.Basic
import Mathlib.Analysis.SpecialFunctions.Log.Base
import Mathlib.Tactic.IntervalCases
import Mathlib.Tactic.FinCases
import Mathlib.LinearAlgebra.Matrix.Notation

/-!
# C51: Schmidt coefficients and entropy

The cut is between the first `n` and the last `m` sites of a chain of `n + m` sites; `joinCfg s t`
is the configuration with `s` on the left and `t` on the right.
-/

namespace EvoMPS

open Matrix Polynomial

section
variable {q D : ℕ → ℕ} {n m : ℕ}

/-- The reduced density matrix of the left part. -/
def rhoLeft (ψ : Cfg q (n + m) → ℂ) : Matrix (Cfg q n) (Cfg q n) ℂ :=
  Matrix.of fun s s' => ∑ t : Cfg (fun k => q (n + k)) m, ψ (joinCfg s t) * star (ψ (joinCfg s' t))

section
variable {A : Tensors ℂ q D} {l r : Envs ℂ D}

theorem l_left (h : UpToDate (n + m) A l r) (h0 : D 0 = 1) (i j : Fin (D n)) :
    l n i j = braket (fun s => amp A n s ⟨0, by omega⟩ i) (fun s => amp A n s ⟨0, by omega⟩ j) := by
  rw [h.l_amp (by omega), Matrix.sum_apply]
  refine Finset.sum_congr rfl fun s _ => ?_
  rw [mul_apply, fin_sum_one h0, conjTranspose_apply]

theorem r_right (h : UpToDate (n + m) A l r) (hN : D (n + m) = 1) (i j : Fin (D n)) :
    r n i j = braket (q := fun k => q (n + k)) (N := m)
      (fun t => amp (shiftT n A) m t j ⟨0, by omega⟩)
      (fun t => amp (shiftT n A) m t i ⟨0, by omega⟩) := by
  rw [h.r_amp, Matrix.sum_apply]
  refine Finset.sum_congr rfl fun s _ => ?_
  rw [mul_apply, fin_sum_one hN, conjTranspose_apply, mul_comm]

theorem psi_join (h0 : D 0 = 1) (hN : D (n + m) = 1) (s : Cfg q n) (t : Cfg (fun k => q (n + k)) m) :
    psi A h0 hN (joinCfg s t) =
      ∑ i, amp A n s ⟨0, by omega⟩ i * amp (shiftT n A) m t i ⟨0, by omega⟩ := by
  rw [psi, amp_join, mul_apply]

/-- The left vectors as the columns of a matrix. -/
def leftMat (A : Tensors ℂ q D) (h0 : D 0 = 1) (n : ℕ) : Matrix (Cfg q n) (Fin (D n)) ℂ :=
  Matrix.of fun s i => amp A n s ⟨0, by omega⟩ i

theorem leftMat_gram (h : UpToDate (n + m) A l r) (h0 : D 0 = 1) :
    (leftMat A h0 n)ᴴ * leftMat A h0 n = l n := by
  ext i j
  rw [l_left h h0, mul_apply]
  rfl

theorem rhoLeft_eq (h : UpToDate (n + m) A l r) (h0 : D 0 = 1) (hN : D (n + m) = 1) :
    rhoLeft (psi A h0 hN) = leftMat A h0 n * (r n * (leftMat A h0 n)ᴴ) := by
  ext s s'
  simp only [rhoLeft, of_apply, mul_apply, psi_join, leftMat, conjTranspose_apply,
    r_right h hN, braket, star_sum, star_mul']
  simp only [Finset.sum_mul, Finset.mul_sum]
  rw [Finset.sum_comm]
  conv_rhs => rw [Finset.sum_comm]
  refine Finset.sum_congr rfl fun i _ => ?_
  rw [Finset.sum_comm]
  refine Finset.sum_congr rfl fun j _ => Finset.sum_congr rfl fun t _ => ?_
  ring

theorem trace_lr (h : UpToDate (n + m) A l r) (h0 : D 0 = 1) (hN : D (n + m) = 1) :
    Matrix.trace (l n * r n) = braket (psi A h0 hN) (psi A h0 hN) := by
  have e : braket (psi A h0 hN) (psi A h0 hN) = Matrix.trace (rhoLeft (psi A h0 hN)) := by
    rw [braket, sum_join]
    refine Finset.sum_congr rfl fun s _ => Finset.sum_congr rfl fun t _ => ?_
    rw [mul_comm]
  rw [e, rhoLeft_eq h h0 hN, Matrix.trace_mul_comm (leftMat A h0 n), Matrix.mul_assoc,
    leftMat_gram h h0, Matrix.trace_mul_comm]

/-- In canonical form (both environments are identity or diagonal objects, not both the identity)
`schmidt_sq` returns the squared coefficients of a Schmidt decomposition: the state is the sum over
`i` of products of a left vector and a right vector, the vectors on each side are pairwise
orthogonal, and the `i`-th returned number is the product of their squared norms.  The numbers add
up to the squared norm of the state. -/
theorem C51_schmidt_decomposition (eig : EigVals) (h0 : D 0 = 1) (hN : D (n + m) = 1)
    (h : UpToDate (n + m) A l r) (lo ro : MM ℂ (D n) (D n)) (hlo : lo.toArray = l n)
    (hro : ro.toArray = r n) (hld : ∀ M, lo ≠ .dense M) (hrd : ∀ M, ro ≠ .dense M)
    (hne : ¬ (lo = .eye _ ∧ ro = .eye _)) :
    ∃ (φ : Fin (D n) → Cfg q n → ℂ) (χ : Fin (D n) → Cfg (fun k => q (n + k)) m → ℂ),
      (∀ s t, psi A h0 hN (joinCfg s t) = ∑ i, φ i s * χ i t) ∧
      (∀ i j, i ≠ j → braket (φ i) (φ j) = 0 ∧ braket (χ i) (χ j) = 0) ∧
      (∀ i, schmidtSq eig lo ro i = braket (φ i) (φ i) * braket (χ i) (χ i)) ∧
      (ro = .eye _ → ∀ i, braket (χ i) (χ i) = 1) ∧
      (lo = .eye _ → ∀ i, braket (φ i) (φ i) = 1) ∧
      ∑ i, schmidtSq eig lo ro i = braket (psi A h0 hN) (psi A h0 hN) := by
  have hl := l_left h h0
  have hr := r_right h hN
  have key : ∀ i, schmidtSq eig lo ro i = l n i i * r n i i := by
    intro i
    rw [← hlo, ← hro]
    cases lo with
    | dense M => exact absurd rfl (hld M)
    | eye =>
      cases ro with
      | dense M => exact absurd rfl (hrd M)
      | eye => exact absurd ⟨rfl, rfl⟩ hne
      | diag e =>
        show e i = _
        simp
    | diag d =>
      cases ro with
      | dense M => exact absurd rfl (hrd M)
      | eye =>
        show d i = _
        simp
      | diag e =>
        show e i * d i = _
        simp [mul_comm]
  have hlz : ∀ i j, i ≠ j → l n i j = 0 := by
    intro i j hij
    rw [← hlo]
    cases lo with
    | dense M => exact absurd rfl (hld M)
    | eye => simp [one_apply_ne hij]
    | diag d => simp [diagonal_apply_ne _ hij]
  have hrz : ∀ i j, i ≠ j → r n i j = 0 := by
    intro i j hij
    rw [← hro]
    cases ro with
    | dense M => exact absurd rfl (hrd M)
    | eye => simp [one_apply_ne hij]
    | diag d => simp [diagonal_apply_ne _ hij]
  refine ⟨fun i s => amp A n s ⟨0, by omega⟩ i,
    fun i t => amp (shiftT n A) m t i ⟨0, by omega⟩, fun s t => psi_join h0 hN s t, ?_, ?_, ?_, ?_, ?_⟩
  · intro i j hij
    exact ⟨by rw [← hl, hlz i j hij], by rw [← hr, hrz j i (Ne.symm hij)]⟩
  · intro i
    rw [key, hl, hr]
  · intro he i
    rw [← hr, ← hro, he]
    simp
  · intro he i
    rw [← hl, ← hlo, he]
    simp
  · simp only [key]
    have e : ∀ i, l n i i * r n i i = ∑ j, l n i j * r n j i := by
      intro i
      rw [Finset.sum_eq_single i]
      · intro j _ hj
        rw [hlz i j (Ne.symm hj), zero_mul]
      · simp
    simp only [e]
    rw [← trace_lr h h0 hN]
    simp only [Matrix.trace, Matrix.diag_apply, mul_apply]

/-- Whatever form the state is in: the numbers returned by `schmidt_sq` are, apart from zeros, the
eigenvalues (with multiplicities) of the reduced density matrix of the left part, and they add up
to the squared norm. -/
theorem C51_spectrum (eig : EigVals) (h0 : D 0 = 1) (hN : D (n + m) = 1)
    (h : UpToDate (n + m) A l r) (lo ro : MM ℂ (D n) (D n)) (hlo : lo.toArray = l n)
    (hro : ro.toArray = r n) :
    X ^ D n * (rhoLeft (psi A h0 hN)).charpoly =
        X ^ Fintype.card (Cfg q n) * ∏ i, (X - C (schmidtSq eig lo ro i)) ∧
      ∑ i, schmidtSq eig lo ro i = braket (psi A h0 hN) (psi A h0 hN) := by
  have hdiag : ∀ d : Fin (D n) → ℂ, (Matrix.diagonal d).charpoly = ∏ i, (X - C (d i)) :=
    fun d => Matrix.charpoly_diagonal d
  have key : ∏ i, (X - C (schmidtSq eig lo ro i)) = (l n * r n).charpoly := by
    have hm : (lo.mmul (.cons ro (.nil _))).toArray = l n * r n := by
      rw [MM.mmul_toArray, ← hlo, ← hro]
      simp [MChain.prod]
    rw [← hm, schmidtSq]
    generalize lo.mmul (.cons ro (.nil _)) = x
    cases x with
    | eye => exact (eig.spec _).symm
    | diag d => rw [toArray_diag, hdiag]
    | dense M => exact (eig.spec _).symm
  constructor
  · rw [key, rhoLeft_eq h h0 hN]
    have := Matrix.charpoly_mul_comm' (leftMat A h0 n) (r n * (leftMat A h0 n)ᴴ)
    rw [Fintype.card_fin] at this
    rw [this, Matrix.mul_assoc, leftMat_gram h h0, Matrix.charpoly_mul_comm]
  · rw [← trace_lr h h0 hN, Matrix.trace_eq_sum_roots_charpoly, ← key]
    have e : ∏ i, (X - C (schmidtSq eig lo ro i)) =
        ((Finset.univ.val.map (schmidtSq eig lo ro)).map fun a => X - C a).prod := by
      rw [Multiset.map_map]
      rfl
    rw [e, Polynomial.roots_multiset_prod_X_sub_C]
    rfl

/-- `entropy` of a state with non-negative numbers `λ_i` is `-Σ λ_i log2 λ_i` (with `0 log2 0 = 0`);
it is not negative if the state is normalised, and it vanishes for a product state (one `λ_i` is 1,
the others vanish). -/
theorem C51_entropy (eig : EigVals) (log2 : ℂ → ℂ)
    (hlog : ∀ x : ℝ, 0 < x → log2 (x : ℂ) = ((Real.logb 2 x : ℝ) : ℂ)) {k : ℕ} (lo ro : MM ℂ k k)
    (lam : Fin k → ℝ) (hlam : ∀ i, schmidtSq eig lo ro i = (lam i : ℂ)) (hpos : ∀ i, 0 ≤ lam i) :
    entropy eig log2 lo ro = -∑ i, lam i * Real.logb 2 (lam i) ∧
      (∑ i, lam i = 1 → 0 ≤ entropy eig log2 lo ro) ∧
      (∑ i, lam i = 1 → (entropy eig log2 lo ro = 0 ↔ ∃ i, lam i = 1)) := by
  have h1 : entropy eig log2 lo ro = -∑ i, lam i * Real.logb 2 (lam i) := by
    classical
    rw [entropy, entropyOf, Complex.neg_re, Complex.re_sum]
    congr 1
    rw [Finset.sum_filter]
    refine Finset.sum_congr rfl fun i _ => ?_
    rw [hlam i]
    by_cases h : lam i = 0
    · simp [h]
    · have hp : 0 < lam i := lt_of_le_of_ne (hpos i) (Ne.symm h)
      rw [if_pos (by exact_mod_cast h), hlog _ hp, ← Complex.ofReal_mul, Complex.ofReal_re]
  have h2 : ∑ i, lam i = 1 → ∀ i, lam i ≤ 1 := fun hs i => by
    rw [← hs]
    exact Finset.single_le_sum (fun j _ => hpos j) (Finset.mem_univ i)
  have h3 : ∑ i, lam i = 1 → ∀ i, 0 ≤ -(lam i * Real.logb 2 (lam i)) := fun hs i => by
    have := Real.logb_nonpos (b := 2) (by norm_num) (hpos i) (h2 hs i)
    nlinarith [hpos i]
  refine ⟨h1, fun hs => ?_, fun hs => ?_⟩
  · rw [h1, ← Finset.sum_neg_distrib]
    exact Finset.sum_nonneg fun i _ => h3 hs i
  · rw [h1, ← Finset.sum_neg_distrib, Finset.sum_eq_zero_iff_of_nonneg (fun i _ => h3 hs i)]
    constructor
    · intro hz
      by_contra hne
      push Not at hne
      have : ∀ i, lam i = 0 := by
        intro i
        have := hz i (Finset.mem_univ i)
        by_contra h
        have hp : 0 < lam i := lt_of_le_of_ne (hpos i) (Ne.symm h)
        have hlt : lam i < 1 := lt_of_le_of_ne (h2 hs i) (hne i)
        have := Real.logb_neg (b := 2) (by norm_num) hp hlt
        nlinarith
      simp [this] at hs
    · rintro ⟨i, hi⟩ j -
      by_cases hij : j = i
      · rw [hij, hi]; simp
      · have : lam j = 0 := by
          have h4 : lam i + lam j ≤ ∑ k, lam k := by
            have := Finset.add_le_sum (s := Finset.univ) (f := lam) (fun k _ => hpos k)
              (Finset.mem_univ i) (Finset.mem_univ j) (Ne.symm hij)
            exact this
          linarith [hpos j]
        rw [this]; simp

end

end

/-! ## A concrete case: the two-site state `|00⟩ + 2|11⟩` in right canonical form -/

namespace Ex51

/-- Bond dimensions 1, 2, 1. -/
def D : ℕ → ℕ
  | 1 => 2
  | _ => 1

/-- `A[1][0] = (1 0)`, `A[1][1] = (0 2)`, `A[2][0] = (1 0)^T`, `A[2][1] = (0 1)^T`. -/
def A : Tensors ℂ (fun _ => 2) D
  | 0 => fun s => !![if s = 0 then 1 else 0, if s = 0 then 0 else 2]
  | 1 => fun s => !![if s = 0 then 1 else 0; if s = 0 then 0 else 1]
  | _ + 2 => fun _ => 0

/-- The left environments. -/
def l : Envs ℂ D
  | 0 => 1
  | 1 => Matrix.diagonal ![1, 4]
  | 2 => !![5]
  | _ + 3 => 0

/-- The right environments. -/
def r : Envs ℂ D
  | 0 => !![5]
  | 1 => 1
  | 2 => 1
  | _ + 3 => 0

theorem upToDate : UpToDate (1 + 1) A l r where
  l_zero := rfl
  l_succ := by
    intro n hn
    interval_cases n
    · show (Matrix.diagonal ![1, 4] : Matrix (Fin 2) (Fin 2) ℂ) =
        ∑ s : Fin 2, (!![if s = 0 then 1 else 0, if s = 0 then 0 else 2] : Matrix (Fin 1) (Fin 2) ℂ)ᴴ *
          (1 : Matrix (Fin 1) (Fin 1) ℂ) *
          (!![if s = 0 then 1 else 0, if s = 0 then 0 else 2] : Matrix (Fin 1) (Fin 2) ℂ)
      ext i j
      fin_cases i <;> fin_cases j <;> simp [Matrix.mul_apply] <;> norm_num
    · show (!![5] : Matrix (Fin 1) (Fin 1) ℂ) =
        ∑ s : Fin 2, (!![if s = 0 then 1 else 0; if s = 0 then 0 else 1] : Matrix (Fin 2) (Fin 1) ℂ)ᴴ *
          (Matrix.diagonal ![1, 4] : Matrix (Fin 2) (Fin 2) ℂ) *
          (!![if s = 0 then 1 else 0; if s = 0 then 0 else 1] : Matrix (Fin 2) (Fin 1) ℂ)
      ext i j
      fin_cases i; fin_cases j; simp [Matrix.mul_apply]; norm_num
  r_last := rfl
  r_pred := by
    intro n hn
    interval_cases n
    · show (!![5] : Matrix (Fin 1) (Fin 1) ℂ) =
        ∑ s : Fin 2, (!![if s = 0 then 1 else 0, if s = 0 then 0 else 2] : Matrix (Fin 1) (Fin 2) ℂ) *
          (1 : Matrix (Fin 2) (Fin 2) ℂ) *
          (!![if s = 0 then 1 else 0, if s = 0 then 0 else 2] : Matrix (Fin 1) (Fin 2) ℂ)ᴴ
      ext i j
      fin_cases i; fin_cases j; simp [Matrix.vecMul, dotProduct]
      rw [Complex.conj_ofNat]; norm_num
    · show (1 : Matrix (Fin 2) (Fin 2) ℂ) =
        ∑ s : Fin 2, (!![if s = 0 then 1 else 0; if s = 0 then 0 else 1] : Matrix (Fin 2) (Fin 1) ℂ) *
          (1 : Matrix (Fin 1) (Fin 1) ℂ) *
          (!![if s = 0 then 1 else 0; if s = 0 then 0 else 1] : Matrix (Fin 2) (Fin 1) ℂ)ᴴ
      ext i j
      fin_cases i <;> fin_cases j <;> simp [Matrix.vecMul, dotProduct]

/-- The hypotheses of `C51_schmidt_decomposition` hold at the cut between the two sites, the
coefficients are 1 and 4. -/
example (eig : EigVals) :
    UpToDate (1 + 1) A l r ∧ (MM.diag ![1, 4] : MM ℂ 2 2).toArray = l 1 ∧
      (MM.eye 2 : MM ℂ 2 2).toArray = r 1 ∧
      schmidtSq eig (MM.diag ![1, 4] : MM ℂ 2 2) (MM.eye 2) = ![1, 4] :=
  ⟨upToDate, toArray_diag _, toArray_eye _, rfl⟩

end Ex51

end EvoMPS
