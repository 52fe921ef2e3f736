import Verif.CheckRCF
import Verif.Correl
import Verif.Props.Canon

/-!
# C86: the test for right canonical form
-/

namespace EvoMPS

open Matrix
open scoped ComplexOrder

namespace CheckRCF

variable {q D : ℕ → ℕ} {N : ℕ}

theorem check_eq (eigh : Eigh ℂ) (N : ℕ) (eps : ℝ) (S : MPS ℂ q D) :
    ((checkRCF eigh N eps S).rnsOK ↔ ∀ n, 1 ≤ n → n ≤ N → ∀ i j, ‖S.r n i j - (1 : Matrix _ _ ℂ) i j‖ ≤ 2 * eps) ∧
    ((checkRCF eigh N eps S).lsTrOK ↔ ∀ n, 1 ≤ n → n ≤ N → ‖(S.l n).trace - 1‖ ≤ 1000 * eps) ∧
    ((checkRCF eigh N eps S).lsPos ↔ ∀ n, 1 ≤ n → n ≤ N → ∀ i, 0 < eigvalsh eigh (S.l n) i) ∧
    ((checkRCF eigh N eps S).lsDiag ↔ ∀ n, 1 ≤ n → n ≤ N → ∀ i j, i ≠ j → ‖S.l n i j‖ ≤ 1 / 10 ^ 8) ∧
    ((checkRCF eigh N eps S).normOK ↔ ∀ i j, ‖S.l N i j - 1‖ ≤ 1000 * eps) := by
  have hd : ∀ n, allclose (S.l n) (Matrix.diagonal (S.l n).diag) (1 / 10 ^ 5) (1 / 10 ^ 8) ↔
      ∀ i j, i ≠ j → ‖S.l n i j‖ ≤ 1 / 10 ^ 8 := by
    intro n
    refine forall_congr' fun i => forall_congr' fun j => ?_
    by_cases hij : i = j
    · subst hij
      simp only [Matrix.diagonal_apply_eq, Matrix.diag_apply, sub_self, norm_zero, ne_eq, not_true_eq_false,
        false_imp_iff, iff_true]
      positivity
    · simp [hij]
  have hr : ∀ n, allclose (S.r n) (Matrix.of fun i j => if i = j then 1 else 0) 0 (eps * 2) ↔
      ∀ i j, ‖S.r n i j - (1 : Matrix _ _ ℂ) i j‖ ≤ 2 * eps := by
    intro n
    refine forall_congr' fun i => forall_congr' fun j => ?_
    rw [zero_mul, add_zero, mul_comm]
    rfl
  have ht : ∀ n, allclose (m := 1) (n := 1) (Matrix.of fun _ _ => (S.l n).trace) (Matrix.of fun _ _ => 1) 0 (eps * 1000) ↔
      ‖(S.l n).trace - 1‖ ≤ 1000 * eps := by
    intro n
    simp [allclose, mul_comm]
  have key : ∀ (k : ℕ), ∃ hm, (List.range' 1 k).foldl (fun (f : RcfFlags) n =>
      ({ rns := f.rns ∧ allclose (S.r n) (Matrix.of fun i j => if i = j then 1 else 0) 0 (eps * 2)
         herm := f.herm ∧ allclose (S.l n - (S.l n)ᴴ) 0 (1 / 10 ^ 5) (eps * 2)
         tr := f.tr ∧ allclose (m := 1) (n := 1) (Matrix.of fun _ _ => (S.l n).trace) (Matrix.of fun _ _ => 1) 0 (eps * 1000)
         pos := f.pos ∧ ∀ i, eigvalsh eigh (S.l n) i > 0
         diag := f.diag ∧ allclose (S.l n) (Matrix.diagonal (S.l n).diag) (1 / 10 ^ 5) (1 / 10 ^ 8) } : RcfFlags))
      ⟨True, True, True, True, True⟩ =
      ⟨∀ n, 1 ≤ n → n ≤ k → ∀ i j, ‖S.r n i j - (1 : Matrix _ _ ℂ) i j‖ ≤ 2 * eps,
        ∀ n, 1 ≤ n → n ≤ k → ‖(S.l n).trace - 1‖ ≤ 1000 * eps, hm,
        ∀ n, 1 ≤ n → n ≤ k → ∀ i, 0 < eigvalsh eigh (S.l n) i,
        ∀ n, 1 ≤ n → n ≤ k → ∀ i j, i ≠ j → ‖S.l n i j‖ ≤ 1 / 10 ^ 8⟩ := by
    have step : ∀ (p : ℕ → Prop) (k : ℕ), ((∀ n, 1 ≤ n → n ≤ k → p n) ∧ p (k + 1)) = ∀ n, 1 ≤ n → n ≤ k + 1 → p n := by
      intro p k
      refine propext ⟨fun h n h1 h2 => ?_, fun h => ⟨fun n h1 h2 => h n h1 (by omega), h (k + 1) (by omega) le_rfl⟩⟩
      rcases Nat.lt_or_ge n (k + 1) with hlt | hge
      · exact h.1 n h1 (by omega)
      · obtain rfl : n = k + 1 := by omega
        exact h.2
    have base : ∀ (p : ℕ → Prop), True = ∀ n, 1 ≤ n → n ≤ 0 → p n := fun p =>
      (eq_true fun n h1 h2 => by omega).symm
    intro k
    induction k with
    | zero =>
      refine ⟨True, ?_⟩
      rw [← base, ← base, ← base, ← base]
      rfl
    | succ k ih =>
      obtain ⟨hm, ih⟩ := ih
      rw [List.range'_1_concat, List.foldl_append, ih, Nat.add_comm 1 k]
      refine ⟨hm ∧ allclose (S.l (k + 1) - (S.l (k + 1))ᴴ) 0 (1 / 10 ^ 5) (eps * 2), ?_⟩
      simp only [List.foldl_cons, List.foldl_nil, hd, hr, ht, gt_iff_lt, step]
  obtain ⟨hm, e⟩ := key N
  unfold checkRCF
  rw [e]
  refine ⟨Iff.rfl, Iff.rfl, Iff.rfl, Iff.rfl, ?_⟩
  simp [allclose, mul_comm]

theorem lowerHerm_of {n : ℕ} {M : Matrix (Fin n) (Fin n) ℂ} (h : M.IsHermitian) : lowerHerm M = M := by
  ext i j
  have hij : ∀ i j, star (M j i) = M i j := fun i j => by
    conv_rhs => rw [← h]
    rfl
  simp only [lowerHerm, Matrix.of_apply]
  split
  · rfl
  · split
    · exact hij i j
    · obtain rfl : i = j := by omega
      exact Complex.conj_eq_iff_re.1 (hij i i)

/-- The eigenvalues of a Gram matrix are positive if and only if the vectors are independent. -/
theorem pos_iff (eigh : Eigh ℂ) {n k : ℕ} {ι : Type} [Fintype ι] {M : Matrix (Fin n) (Fin n) ℂ}
    {P : ι → Matrix (Fin k) (Fin n) ℂ} (hM : M = ∑ s, (P s)ᴴ * P s) :
    (∀ i, 0 < eigvalsh eigh M i) ↔ ∀ v : Fin n → ℂ, (∀ s, P s *ᵥ v = 0) → v = 0 := by
  have hh : M.IsHermitian := by
    rw [hM, Matrix.IsHermitian, Matrix.conjTranspose_sum]
    exact Finset.sum_congr rfl fun s _ => by rw [Matrix.conjTranspose_mul, Matrix.conjTranspose_conjTranspose]
  have hu := eigh.unit M hh
  have hu' : eigh.vec M * (eigh.vec M)ᴴ = 1 := mul_eq_one_comm.1 hu
  have he := eigh.eig M hh
  have hreal : ∀ i, ((eigvalsh eigh M i : ℝ) : ℂ) = eigh.ev M i := by
    intro i
    rw [eigvalsh, lowerHerm_of hh]
    exact Complex.conj_eq_iff_re.1 (eigh.real M hh i)
  constructor
  · intro hp v hv
    have h0 : M *ᵥ v = 0 := by
      rw [hM, Matrix.sum_mulVec]
      refine Finset.sum_eq_zero fun s _ => ?_
      rw [← Matrix.mulVec_mulVec, hv s, Matrix.mulVec_zero]
    have h1 : (eigh.vec M)ᴴ * M = diagonal (eigh.ev M) * (eigh.vec M)ᴴ := by
      calc (eigh.vec M)ᴴ * M = (eigh.vec M)ᴴ * (M * (eigh.vec M * (eigh.vec M)ᴴ)) := by rw [hu', Matrix.mul_one]
        _ = (eigh.vec M)ᴴ * (M * eigh.vec M) * (eigh.vec M)ᴴ := by simp only [Matrix.mul_assoc]
        _ = _ := by rw [he, ← Matrix.mul_assoc, hu, Matrix.one_mul]
    have h2 : (eigh.vec M)ᴴ *ᵥ v = 0 := by
      funext i
      have := congrFun (congrArg (fun X => X *ᵥ v) h1) i
      simp only [← Matrix.mulVec_mulVec, h0, Matrix.mulVec_zero] at this
      rw [Matrix.mulVec_diagonal] at this
      rcases mul_eq_zero.1 this.symm with hz | hz
      · exact absurd hz (by rw [← hreal i]; exact_mod_cast (hp i).ne')
      · exact hz
    calc v = (eigh.vec M * (eigh.vec M)ᴴ) *ᵥ v := by rw [hu', Matrix.one_mulVec]
      _ = 0 := by rw [← Matrix.mulVec_mulVec, h2, Matrix.mulVec_zero]
  · intro hv i
    set v : Fin n → ℂ := fun j => eigh.vec M j i with hvd
    have hnorm : star v ⬝ᵥ v = 1 := by
      have := congrFun (congrFun hu i) i
      rw [Matrix.one_apply_eq] at this
      exact this
    have hne : v ≠ 0 := by
      intro hz
      rw [hz] at hnorm
      simp at hnorm
    have hMv : M *ᵥ v = eigh.ev M i • v := by
      funext j
      have := congrFun (congrFun he j) i
      rw [Matrix.mul_diagonal] at this
      rw [Pi.smul_apply, smul_eq_mul, mul_comm]
      exact this
    have hq : eigh.ev M i = ∑ s, star (P s *ᵥ v) ⬝ᵥ (P s *ᵥ v) := by
      have h1 : star v ⬝ᵥ (M *ᵥ v) = eigh.ev M i := by
        rw [hMv, dotProduct_smul, hnorm, smul_eq_mul, mul_one]
      rw [← h1, hM, Matrix.sum_mulVec, dotProduct_sum]
      refine Finset.sum_congr rfl fun s _ => ?_
      rw [← Matrix.mulVec_mulVec, Matrix.dotProduct_mulVec, ← Matrix.star_mulVec]
    obtain ⟨s, hs⟩ : ∃ s, P s *ᵥ v ≠ 0 := by
      by_contra hc
      push Not at hc
      exact hne (hv v hc)
    have hnn : ∀ s, 0 ≤ star (P s *ᵥ v) ⬝ᵥ (P s *ᵥ v) := fun s => dotProduct_star_self_nonneg _
    have hpos : 0 < ∑ s, star (P s *ᵥ v) ⬝ᵥ (P s *ᵥ v) :=
      Finset.sum_pos' (fun s _ => hnn s) ⟨s, Finset.mem_univ _, dotProduct_star_self_pos_iff.2 hs⟩
    rw [← hq, ← hreal i] at hpos
    exact_mod_cast hpos

theorem entry_iff {m : ℕ} (hm : m = 1) (x : Matrix (Fin m) (Fin m) ℂ) (c : ℝ) :
    (∀ i j, ‖x i j - 1‖ ≤ c) ↔ ‖adot (1 : Matrix (Fin m) (Fin m) ℂ) x - 1‖ ≤ c := by
  subst hm
  rw [adot_one_entry' rfl 1 x rfl]
  refine ⟨fun h => h _ _, fun h i j => ?_⟩
  rw [Subsingleton.elim i 0, Subsingleton.elim j 0]
  exact h

theorem last_iff {A : Tensors ℂ q D} {l r : Envs ℂ D} (h : UpToDate N A l r) (h0 : D 0 = 1) (hN : D N = 1) (c : ℝ) :
    (∀ i j, ‖l N i j - 1‖ ≤ c) ↔ ‖braket (psi (N := N) A h0 hN) (psi A h0 hN) - 1‖ ≤ c := by
  have e := h.norm_eq h0 hN N le_rfl
  rw [h.r_last, adot_eq_trace, h.l_herm N le_rfl, Matrix.mul_one] at e
  rw [entry_iff hN, adot_eq_trace, Matrix.conjTranspose_one, Matrix.one_mul, e]

theorem trace_eq {A : Tensors ℂ q D} {l r : Envs ℂ D} (h : UpToDate N A l r) (h0 : D 0 = 1) (hN : D N = 1) {n : ℕ}
    (hn : n ≤ N) (hr : r n = 1) : (l n).trace = braket (psi (N := N) A h0 hN) (psi A h0 hN) := by
  have e := h.norm_eq h0 hN n hn
  rwa [hr, adot_eq_trace, h.l_herm n hn, Matrix.mul_one] at e

end CheckRCF

open CheckRCF

section
variable {q D : ℕ → ℕ} {N : ℕ}

/-- C86.  The last flag of `check_RCF` of an up-to-date state says that the norm squared of the state differs from 1 by
at most `1000 * eps`. -/
theorem C86_norm (eigh : Eigh ℂ) (eps : ℝ) (S : MPS ℂ q D) (h : UpToDate N S.A S.l S.r) (h0 : D 0 = 1) (hN : D N = 1) :
    (checkRCF eigh N eps S).normOK ↔ ‖braket (psi (N := N) S.A h0 hN) (psi S.A h0 hN) - 1‖ ≤ 1000 * eps :=
  (check_eq eigh N eps S).2.2.2.2.trans (last_iff h h0 hN _)

/-- C86.  The first flag.  If the tensors of all sites but the first are right orthonormal it is `True`, for every
tolerance; and if it is `True` with tolerance 0 they are right orthonormal.  With a tolerance it says that each
contraction `∑ A r A†` differs from the identity by at most `2 * eps` in every entry. -/
theorem C86_right (eigh : Eigh ℂ) (eps : ℝ) (heps : 0 ≤ eps) (S : MPS ℂ q D) (h : UpToDate N S.A S.l S.r) :
    ((∀ n, 1 ≤ n → n < N → ∑ s, S.A n s * (S.A n s)ᴴ = 1) → (checkRCF eigh N eps S).rnsOK) ∧
    ((checkRCF eigh N 0 S).rnsOK → ∀ n, 1 ≤ n → n < N → ∑ s, S.A n s * (S.A n s)ᴴ = 1) ∧
    ((checkRCF eigh N eps S).rnsOK ↔ ∀ n, 1 ≤ n → n < N → ∀ i j,
      ‖(∑ s, S.A n s * S.r (n + 1) * (S.A n s)ᴴ) i j - (1 : Matrix _ _ ℂ) i j‖ ≤ 2 * eps) := by
  refine ⟨fun ho => (check_eq eigh N eps S).1.2 ?_, fun hc n h1 h2 => ?_, (check_eq eigh N eps S).1.trans ?_⟩
  · have hr : ∀ k n, 1 ≤ n → n + k = N → S.r n = 1 := by
      intro k
      induction k with
      | zero =>
        intro n _ hn
        obtain rfl : n = N := by omega
        exact h.r_last
      | succ k ih =>
        intro n h1 hn
        rw [h.r_pred n (by omega), ih (n + 1) (by omega) (by omega), ← ho n h1 (by omega)]
        simp only [Matrix.mul_one]
    intro n h1 h2 i j
    rw [hr (N - n) n h1 (by omega), sub_self, norm_zero]
    positivity
  · have hr : ∀ n, 1 ≤ n → n ≤ N → S.r n = 1 := by
      intro n h1 h2
      ext i j
      have := (check_eq eigh N 0 S).1.1 hc n h1 h2 i j
      rw [mul_zero, norm_le_zero_iff, sub_eq_zero] at this
      exact this
    have := h.r_pred n h2
    rw [hr n h1 h2.le, hr (n + 1) (by omega) h2] at this
    simp only [Matrix.mul_one] at this
    exact this.symm
  · refine ⟨fun hc n h1 h2 => ?_, fun hc n h1 h2 => ?_⟩
    · rw [← h.r_pred n h2]
      exact hc n h1 h2.le
    · rcases Nat.lt_or_ge n N with hlt | hge
      · rw [h.r_pred n hlt]
        exact hc n h1 hlt
      · obtain rfl : n = N := by omega
        intro i j
        rw [h.r_last, sub_self, norm_zero]
        positivity

/-- C86.  The flag for positive `l`: at no bond is there a non-trivial linear combination of the states of the block to
the left that vanishes. -/
theorem C86_pos (eigh : Eigh ℂ) (eps : ℝ) (S : MPS ℂ q D) (h : UpToDate N S.A S.l S.r) :
    (checkRCF eigh N eps S).lsPos ↔ ∀ n, 1 ≤ n → n ≤ N → ∀ v : Fin (D n) → ℂ,
      (∀ s : Cfg q n, amp S.A n s *ᵥ v = 0) → v = 0 := by
  rw [(check_eq eigh N eps S).2.2.1]
  exact forall_congr' fun n => forall_congr' fun h1 => forall_congr' fun h2 => pos_iff eigh (h.l_amp h2)

/-- C86.  After `restore_RCF(normalize=True, diag_l=True)` of a state that is not zero all flags but `ls_pos` are `True`
for every tolerance; `ls_pos` is `True` if and only if no bond of the new state is larger than the number of independent
states of the block to its left. -/
theorem C86_restored (qr : QR ℂ) (eigh eigh' : Eigh ℂ) (eps : ℝ) (heps : 0 ≤ eps) (S : MPS ℂ q D)
    (l' : Envs ℂ (rcfD q D N)) (hl : l' 0 = 1) (hr : S.r N = 1) (h0 : D 0 = 1) (hN : D N = 1)
    (hpos : 0 < N) (hq : ∀ n < N, 0 < q n) (hD : ∀ n ≤ N, 0 < D n)
    (hne : braket (psi (N := N) S.A h0 hN) (psi S.A h0 hN) ≠ 0) :
    let S' := restoreRCFNorm qr eigh N true (by omega) (rcfD_pos hq hD 0 (by omega)) S l'
    let c := checkRCF eigh' N eps S'
    c.rnsOK ∧ c.lsTrOK ∧ c.lsDiag ∧ c.normOK ∧
      (c.lsPos ↔ ∀ n, 1 ≤ n → n ≤ N → ∀ v : Fin (rcfD q D N n) → ℂ,
        (∀ s : Cfg q n, amp S'.A n s *ᵥ v = 0) → v = 0) := by
  intro S' c
  have h0' := (C17_bond_dims hq hD h0 hN).2.2.2.1
  have hN' := (C17_bond_dims hq hD h0 hN).2.2.2.2
  obtain ⟨-, hn1, hu, -, ho, hd⟩ := C17_rcf_normalize qr eigh true S l' hl hr h0 hN hpos hq hD hne
  refine ⟨(C86_right eigh' eps heps S' hu).1 fun n _ h2 => ho n h2, (check_eq eigh' N eps S').2.1.2 fun n h1 h2 => ?_,
    (check_eq eigh' N eps S').2.2.2.1.2 fun n h1 h2 i j hij => ?_, (C86_norm eigh' eps S' hu h0' hN').2 ?_,
    C86_pos eigh' eps S' hu⟩
  · rw [(hd rfl n h1 h2).2.1, sub_self, norm_zero]
    positivity
  · rw [(hd rfl n h1 h2).1 hij, norm_zero]
    positivity
  · rw [hn1, sub_self, norm_zero]
    positivity

/-- C86.  After `restore_RCF(normalize=False, diag_l=True)` the trace and norm flags report the norm of the state that
was given; the other flags are as with normalisation. -/
theorem C86_keep (qr : QR ℂ) (eigh eigh' : Eigh ℂ) (eps : ℝ) (heps : 0 ≤ eps) (S : MPS ℂ q D)
    (l' : Envs ℂ (rcfD q D N)) (hl : l' 0 = 1) (hr : S.r N = 1) (h0 : D 0 = 1) (hN : D N = 1)
    (hpos : 0 < N) (hq : ∀ n < N, 0 < q n) (hD : ∀ n ≤ N, 0 < D n) :
    let S' := restoreRCFKeep qr eigh N true (by omega) (rcfD_pos hq hD 0 (by omega)) S l'
    let c := checkRCF eigh' N eps S'
    let good := ‖braket (psi (N := N) S.A h0 hN) (psi S.A h0 hN) - 1‖ ≤ 1000 * eps
    c.rnsOK ∧ (c.lsTrOK ↔ good) ∧ c.lsDiag ∧ (c.normOK ↔ good) := by
  intro S' c good
  have h0' := (C17_bond_dims hq hD h0 hN).2.2.2.1
  have hN' := (C17_bond_dims hq hD h0 hN).2.2.2.2
  obtain ⟨hpsi, hu, -, ho⟩ := C17_rcf_keep qr eigh true S l' hl hr h0 hN hpos hq hD
  have hd := C18_diag_l qr eigh S l' hl hr h0 hN hpos hq hD
  refine ⟨(C86_right eigh' eps heps S' hu).1 fun n h1 h2 => ho n h1 h2, (check_eq eigh' N eps S').2.1.trans ?_,
    (check_eq eigh' N eps S').2.2.2.1.2 fun n h1 h2 i j hij => ?_, (C86_norm eigh' eps S' hu h0' hN').trans ?_⟩
  · refine ⟨fun hc => ?_, fun hc n h1 h2 => ?_⟩
    · have := hc N hpos le_rfl
      rwa [(hd N hpos le_rfl).2.2] at this
    · rw [(hd n h1 h2).2.2]
      exact hc
  · rw [(hd n h1 h2).1 hij, norm_zero]
    positivity
  · have : psi (N := N) S'.A h0' hN' = psi S.A h0 hN := funext hpsi
    rw [this]

end

namespace Ex86

/-- Bond dimensions 1, 2, 1. -/
def D : ℕ → ℕ
  | 1 => 2
  | _ => 1

/-- A diagonal matrix of trace 1 that is not Hermitian. -/
noncomputable def X : Matrix (Fin 2) (Fin 2) ℂ :=
  diagonal ![1 / 2 + 3 / 10 * Complex.I, 1 / 2 - 3 / 10 * Complex.I]

noncomputable def ls : (n : ℕ) → Matrix (Fin (D n)) (Fin (D n)) ℂ
  | 1 => X
  | _ => 1

/-- Environments that cannot come from any state. -/
noncomputable def S : MPS ℂ (fun _ => 2) D := ⟨fun _ _ => Matrix.of fun _ _ => 1, ls, fun _ => 1⟩

theorem X_pos (eigh : Eigh ℂ) : ∀ i, 0 < eigvalsh eigh X i := by
  have e : lowerHerm X = (1 / 2 : ℂ) • (1 : Matrix (Fin 2) (Fin 2) ℂ) := by
    ext i j
    fin_cases i <;> fin_cases j <;> simp [lowerHerm, X]
  have hh : ((1 / 2 : ℂ) • (1 : Matrix (Fin 2) (Fin 2) ℂ)).IsHermitian := by
    rw [Matrix.IsHermitian, Matrix.conjTranspose_smul, Matrix.conjTranspose_one]
    simp
  have := (pos_iff eigh (M := (1 / 2 : ℂ) • (1 : Matrix (Fin 2) (Fin 2) ℂ)) (ι := Fin 2)
    (P := fun _ => (1 / 2 : ℂ) • (1 : Matrix (Fin 2) (Fin 2) ℂ)) (by
      ext i j
      fin_cases i <;> fin_cases j <;> simp [Matrix.sum_apply])).2 fun v hv => by
      have := hv 0
      rw [Matrix.smul_mulVec, Matrix.one_mulVec] at this
      exact (smul_eq_zero.1 this).resolve_left (by norm_num)
  intro i
  have h := this i
  unfold eigvalsh at h ⊢
  rw [lowerHerm_of hh, ← e] at h
  exact h

theorem one_pos (eigh : Eigh ℂ) : ∀ i, 0 < eigvalsh eigh (1 : Matrix (Fin 1) (Fin 1) ℂ) i :=
  (pos_iff eigh (ι := Unit) (P := fun _ => (1 : Matrix (Fin 1) (Fin 1) ℂ)) (by simp)).2 fun v hv => by
      have := hv ()
      rwa [Matrix.one_mulVec] at this

theorem X_herm : ¬ X.IsHermitian := by
  intro h
  have := congrFun (congrFun h 0) 0
  simp [X, Complex.ext_iff] at this
  norm_num at this

theorem X_trace : X.trace = 1 := by
  rw [X, Matrix.trace_diagonal, Fin.sum_univ_two]
  simp
  norm_num

/-- The theorems about restored states apply to the example of C17. -/
example (qr : QR ℂ) (eigh : Eigh ℂ) :
    (checkRCF eigh 2 0 (restoreRCFNorm qr eigh 2 true (by simp [Ex17.D])
      (rcfD_pos (by simp) Ex17.D_pos 0 (by omega)) Ex17.S (fun _ => 1))).normOK :=
  (C86_restored (N := 2) qr eigh eigh 0 le_rfl Ex17.S (fun _ => 1) rfl rfl rfl rfl (by omega) (by simp) Ex17.D_pos
    Ex17.norm_ne).2.2.2.1

end Ex86

/-- C86, what the check misses.  The documentation promises that `ls_pos` tells whether the matrices are
positive-definite; Hermiticity is tested but the result is not returned, so that a state whose stored `l[1]` is not
Hermitian passes all five tests, for every tolerance. -/
theorem C86_herm_violated (eigh : Eigh ℂ) (eps : ℝ) (heps : 0 ≤ eps) :
    let c := checkRCF eigh 2 eps Ex86.S
    (c.rnsOK ∧ c.lsTrOK ∧ c.lsPos ∧ c.lsDiag ∧ c.normOK) ∧ ¬ (Ex86.S.l 1).IsHermitian ∧
      ¬ (Ex86.S.l 1).PosSemidef := by
  have hc : ∀ n, 1 ≤ n → n ≤ 2 → n = 1 ∨ n = 2 := fun n h1 h2 => by omega
  have hh : ¬ (Ex86.S.l 1).IsHermitian := Ex86.X_herm
  obtain ⟨e1, e2, e3, e4, e5⟩ := check_eq eigh 2 eps Ex86.S
  refine ⟨⟨e1.2 fun n _ _ i j => ?_, e2.2 fun n h1 h2 => ?_, e3.2 fun n h1 h2 => ?_, e4.2 fun n h1 h2 => ?_,
    e5.2 fun i j => ?_⟩, hh, fun h => hh h.1⟩
  · change ‖(1 : Matrix _ _ ℂ) i j - _‖ ≤ _
    rw [sub_self, norm_zero]
    positivity
  · have : (Ex86.S.l n).trace = 1 := by
      rcases hc n h1 h2 with rfl | rfl
      · exact Ex86.X_trace
      · exact Matrix.trace_fin_one (1 : Matrix (Fin 1) (Fin 1) ℂ)
    rw [this, sub_self, norm_zero]
    positivity
  · rcases hc n h1 h2 with rfl | rfl
    · exact Ex86.X_pos eigh
    · exact Ex86.one_pos eigh
  · intro i j hij
    have : Ex86.S.l n i j = 0 := by
      rcases hc n h1 h2 with rfl | rfl
      · exact Matrix.diagonal_apply_ne _ hij
      · exact Matrix.one_apply_ne hij
    rw [this, norm_zero]
    positivity
  · have : Ex86.S.l 2 i j = 1 := by
      obtain rfl : i = j := Subsingleton.elim (α := Fin 1) i j
      exact Matrix.one_apply_eq _
    rw [this, sub_self, norm_zero]
    positivity

end EvoMPS
