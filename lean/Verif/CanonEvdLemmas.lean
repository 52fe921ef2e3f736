import Verif.CanonEvd
import Verif.SwCFLemmas
import Verif.UniformCFRank
import Verif.CanonLeftLemmas

/-!
# Canonical forms without QR decompositions (helper lemmas)
-/

set_option linter.unusedSectionVars false

namespace EvoMPS

open Matrix Uni
open scoped ComplexOrder

/-! ## The factorisation `A = xᴴ x` of a matrix of any rank -/

theorem ev_nonneg (eigh : Eigh ℂ) {n : ℕ} {M : Matrix (Fin n) (Fin n) ℂ} (hM : M.PosSemidef) (i : Fin n) :
    0 ≤ (eigh.ev M i).re := by
  have hH := hM.isHermitian
  have hD : (eigh.vec M)ᴴ * M * eigh.vec M = diagonal (eigh.ev M) := by
    rw [Matrix.mul_assoc, eigh.eig M hH, ← Matrix.mul_assoc, eigh.unit M hH, Matrix.one_mul]
  have h3 := hM.conjTranspose_mul_mul_same (eigh.vec M)
  rw [hD] at h3
  have h4 := h3.diag_nonneg (i := i)
  rw [Matrix.diagonal_apply_eq] at h4
  exact (Complex.le_def.mp h4).1

theorem hermFac_rank_upper (P : HermLib) {tol : ℝ} (h0 : 0 ≤ tol) {n : ℕ} {A : Matrix (Fin n) (Fin n) ℂ}
    (hA : A.PosSemidef) (hne : A ≠ 0) (hgap : ZeroOrAbove tol A) :
    ∃ f, hermFac P false true false tol A = some f ∧ (⟨f.xᴴ, f.xiᴴ, f.rank⟩ : HermFac n).Rank A := by
  by_cases hpd : A.PosDef
  · obtain ⟨f, hf, hF⟩ := hermFac_full P false true false (le_refl (0 : ℝ)) (A := A) (by
      rw [AboveTol, Complex.ofReal_zero, zero_smul, sub_zero]; exact hpd)
    obtain ⟨x, hx⟩ := P.chol.ok false A hpd
    refine ⟨f, ?_, ?_⟩
    · rw [← hf]
      unfold hermFac
      simp only [Bool.false_eq_true, if_false, hx]
    · have hn : 0 < n := by
        rcases Nat.eq_zero_or_pos n with h | h
        · subst h
          exact absurd (Subsingleton.elim A 0) hne
        · exact h
      have hinv := hF.inv rfl
      have hinv' := mul_eq_one_comm.mp hinv
      have hfac : f.xᴴ * f.x = A := hF.fac
      have hr := hF.rank
      have i1 : f.xiᴴ * f.xᴴ = 1 := inv_star hinv
      have i2 : f.xᴴ * f.xiᴴ = 1 := inv_star hinv'
      refine ⟨by simp only; omega, ?_, ?_, ?_, ?_⟩ <;>
        simp only [Matrix.conjTranspose_conjTranspose]
      · rw [i2, Matrix.one_mul]
      · rw [← hfac, Matrix.mul_assoc, hinv, Matrix.mul_one]
      · rw [hr, lastEye_full, ← hfac, ← Matrix.mul_assoc, i1, Matrix.one_mul, hinv]
      · rw [hr, lastEye_full, i1]
  · have hH := hA.isHermitian
    obtain ⟨f, hf, hF⟩ := hermFacEvd_rank P h0 hA hne hgap
    have hst : ∀ i, star (csqrt (P.eigh.ev A i)) = csqrt (P.eigh.ev A i) := by
      intro i
      rw [ev_real P.eigh hH i]
      exact csqrt_star (ev_nonneg P.eigh hA i)
    refine ⟨⟨f.xᴴ, f.xiᴴ, f.rank⟩, ?_, ?_⟩
    · unfold hermFac
      rw [P.chol.fail false A hH hpd]
      simp only [Bool.false_eq_true, if_false]
      unfold hermFacEvd at hf ⊢
      simp only [if_true, Bool.false_eq_true, if_false] at hf ⊢
      set m := countAbove tol fun i => (P.eigh.ev A i).re with hm
      unfold lastRecip at hf ⊢
      split at hf
      · simp at hf
      · next hne' =>
        rw [if_neg hne']
        simp only [Option.bind_some, Option.some.injEq] at hf ⊢
        rw [← hf]
        simp only [Matrix.conjTranspose_mul, Matrix.conjTranspose_conjTranspose, Matrix.diagonal_conjTranspose]
        congr 3
        · funext i
          simp only [Pi.star_apply, lastOnly]
          split
          · exact (hst i).symm
          · exact (star_zero ℂ).symm
        · funext i
          simp only [Pi.star_apply, lastOnly]
          split
          · rw [star_div₀, star_one, hst i]
          · exact (star_zero ℂ).symm
    · simpa only [Matrix.conjTranspose_conjTranspose] using hF

/-! ## The projectors on the last entries -/

theorem lastOnes_eq (n m : ℕ) : SW.lastOnes n m = lastEye n m := by
  unfold SW.lastOnes lastEye
  split
  · subst m
    rw [← Matrix.diagonal_one]
    congr 1
    funext i
    rw [if_pos (by omega)]
  · congr 1
    funext i
    split <;> split <;> first | rfl | omega

theorem lastEye_conj (n m : ℕ) : (lastEye n m)ᴴ = lastEye n m := by
  unfold lastEye
  rw [Matrix.diagonal_conjTranspose]
  congr 1
  funext i
  simp only [Pi.star_apply]
  split <;> simp

theorem rank_lastEye (n m : ℕ) : (lastEye n m).rank = min n m := by
  classical
  unfold lastEye
  rw [Matrix.rank_diagonal, Fintype.card_subtype]
  have : (Finset.univ.filter fun i : Fin n => (if n ≤ i.val + m then (1 : ℂ) else 0) ≠ 0)
      = Finset.univ.filter fun i : Fin n => n - m ≤ i.val := by
    ext i
    simp only [Finset.mem_filter, Finset.mem_univ, true_and]
    constructor
    · intro h
      by_contra h1
      exact h (if_neg (by omega))
    · intro h
      rw [if_pos (by omega)]
      exact one_ne_zero
  rw [this]
  rcases Nat.eq_zero_or_pos n with rfl | hn
  · simp
  rcases Nat.eq_zero_or_pos m with rfl | hm
  · rw [Finset.filter_false_of_mem (fun i _ => by have := i.2; omega)]
    simp
  have : (Finset.univ.filter fun i : Fin n => n - m ≤ i.val) = Finset.Ici ⟨n - m, by omega⟩ := by
    ext i
    simp [Fin.le_def]
  rw [this, Fin.card_Ici]
  simp only
  omega

theorem lastEye_min (n m : ℕ) : lastEye n m = lastEye n (min n m) := by
  unfold lastEye
  congr 1
  funext i
  split <;> split <;> first | rfl | omega

/-- What the gauge matrix of one bond fulfils: `Gi` factorises `ρ` and `G` is its inverse on the support. -/
structure GOk {n : ℕ} (ρ Gi r : Matrix (Fin n) (Fin n) ℂ) : Prop where
  fac : Gi * Giᴴ = ρ
  keep : Gi * r = Gi
  proj : r = lastEye n ρ.rank
  inv : ∃ G, G * Gi = r

theorem gOk_of_rank {n : ℕ} {ρ : Matrix (Fin n) (Fin n) ℂ} {f : HermFac n} (hH : ρ.IsHermitian)
    (hF : f.Rank ρ) : GOk ρ f.x (lastEye n f.rank) := by
  have hk : f.x * lastEye n f.rank = f.x := by
    rw [← hF.inv, ← Matrix.mul_assoc]
    have := congrArg (· * f.xiᴴ) hF.supp
    simp only [Matrix.mul_assoc] at this
    rwa [← hF.range, ← Matrix.mul_assoc] at this
  have hfac : f.x * f.xᴴ = ρ := by
    conv_lhs => rw [hF.range]
    rw [Matrix.conjTranspose_mul, Matrix.conjTranspose_conjTranspose, hH.eq, ← hF.range,
      ← Matrix.mul_assoc, hF.supp]
  refine ⟨hfac, hk, ?_, f.xi, hF.inv⟩
  have h1 : (lastEye n f.rank).rank = ρ.rank := by
    apply le_antisymm
    · rw [← hF.proj]
      exact (Matrix.rank_mul_le_left _ _).trans (Matrix.rank_mul_le_right _ _)
    · rw [← hfac, ← hk, Matrix.conjTranspose_mul, lastEye_conj]
      refine (Matrix.rank_mul_le_left _ _).trans (Matrix.rank_mul_le_right _ _)
  rw [← h1, rank_lastEye, ← lastEye_min]

/-- If `P` fixes `∑ B Bᴴ` it fixes every `B`. -/
theorem fix_of_sum {a b p : ℕ} {P : Matrix (Fin a) (Fin a) ℂ} (B : Fin p → Matrix (Fin a) (Fin b) ℂ)
    (h : P * ∑ s, B s * (B s)ᴴ = ∑ s, B s * (B s)ᴴ) (s : Fin p) : P * B s = B s := by
  set C : Fin p → Matrix (Fin a) (Fin b) ℂ := fun s => B s - P * B s with hC
  have hz : ∑ s, C s * (C s)ᴴ = 0 := by
    have e : ∑ s, C s * (C s)ᴴ = (1 - P) * (∑ s, B s * (B s)ᴴ) * (1 - P)ᴴ := by
      rw [Matrix.mul_sum, Matrix.sum_mul]
      refine Finset.sum_congr rfl fun s _ => ?_
      have : C s = (1 - P) * B s := by rw [hC, Matrix.sub_mul, Matrix.one_mul]
      rw [this, Matrix.conjTranspose_mul]
      simp only [Matrix.mul_assoc]
    rw [e, Matrix.sub_mul, Matrix.one_mul, h, sub_self, Matrix.zero_mul]
  have hs : (C s * (C s)ᴴ).trace = 0 := by
    have hp : ∀ t ∈ Finset.univ, 0 ≤ (C t * (C t)ᴴ).trace := fun t _ =>
      (Matrix.posSemidef_self_mul_conjTranspose (C t)).trace_nonneg
    refine (Finset.sum_eq_zero_iff_of_nonneg hp).mp ?_ s (Finset.mem_univ s)
    rw [← Matrix.trace_sum, hz, Matrix.trace_zero]
  have : C s = 0 := Matrix.trace_mul_conjTranspose_self_eq_zero_iff.mp hs
  exact (sub_eq_zero.mp this).symm

/-! ## The sweep from the right -/

variable {q D : ℕ → ℕ} {N : ℕ}

/-- What the sweep from the right has achieved when it has reached bond `n`; `ρ` are the right environments of the
tensors before. -/
structure EvdR (ρ : Envs ℂ D) (A : Tensors ℂ q D) (N n : ℕ) (S : DiagSt ℂ q D) : Prop where
  rest : ∀ m < n, S.A m = A m
  last : S.G N = 1
  elast : S.e N = 1
  ok : ∀ m, n ≤ m → m ≤ N → GOk (ρ m) (S.G m) (S.e m)
  gauge : ∀ m, n ≤ m → m < N → ∀ s, A m s * S.G (m + 1) = S.G m * S.A m s
  pred : ∀ m, n ≤ m → m < N → S.e m = ∑ s, S.A m s * S.e (m + 1) * (S.A m s)ᴴ

theorem gok_sandwich {n : ℕ} {ρ Gi r : Matrix (Fin n) (Fin n) ℂ} (h : GOk ρ Gi r) : Gi * (r * Giᴴ) = ρ := by
  rw [← Matrix.mul_assoc, h.keep, h.fac]

theorem onrRStep_evd (P : HermLib) {tol : ℝ} (h0 : 0 ≤ tol) {ρ : Envs ℂ D} {A : Tensors ℂ q D} {n : ℕ} (hn : n < N)
    (hr : ρ n = ∑ s, A n s * ρ (n + 1) * (A n s)ᴴ) (hp : (ρ n).PosSemidef) (hne : ρ n ≠ 0)
    (ha : ZeroOrAbove tol (ρ n)) {S : DiagSt ℂ q D}
    (h : EvdR ρ A N (n + 1) S) : ∃ S', SW.onrRStep P tol S n = some S' ∧ EvdR ρ A N n S' := by
  have hok := h.ok (n + 1) le_rfl (by omega)
  have hM : epsR (S.G (n + 1) * (S.e (n + 1) * (S.G (n + 1))ᴴ)) (S.A n) (S.A n) = ρ n := by
    rw [epsR_eq, gok_sandwich hok, h.rest n (by omega), ← hr]
  obtain ⟨f, hf, hF⟩ := hermFac_rank_upper P h0 hp hne ha
  have hg := gOk_of_rank hp.isHermitian hF
  simp only at hg
  have hre : rankEye (D n) f.rank = lastEye (D n) f.rank := rankEye_eq hF.pos
  have hfix : ∀ s, f.xᴴ * f.xiᴴ * (A n s * S.G (n + 1)) = A n s * S.G (n + 1) := by
    intro s
    refine fix_of_sum (fun s => A n s * S.G (n + 1)) ?_ s
    have e : ∑ s, A n s * S.G (n + 1) * (A n s * S.G (n + 1))ᴴ = ρ n := by
      rw [hr]
      refine Finset.sum_congr rfl fun s _ => ?_
      rw [Matrix.conjTranspose_mul, ← hok.fac]
      simp only [Matrix.mul_assoc]
    rw [e]
    exact hF.supp
  simp only [SW.onrRStep, hM, hf, Option.bind_some]
  refine ⟨_, rfl, ?_, ?_, ?_, ?_, ?_, ?_⟩
  · intro m hm
    simp only
    rw [Function.update_of_ne (by omega), h.rest m (by omega)]
  · simp only
    rw [Function.update_of_ne (by omega), h.last]
  · simp only
    rw [Function.update_of_ne (by omega), h.elast]
  · intro m hm hmN
    rcases Nat.lt_or_ge n m with h1 | h1
    · simp only [Function.update_of_ne (show m ≠ n by omega)]
      exact h.ok m h1 hmN
    · obtain rfl : m = n := by omega
      simp only [Function.update_self, hre]
      exact hg
  · intro m hm hmN s
    rcases Nat.lt_or_ge n m with h1 | h1
    · simp only [Function.update_of_ne (show m ≠ n by omega), Function.update_of_ne (show m + 1 ≠ n by omega)]
      exact h.gauge m h1 hmN s
    · obtain rfl : m = n := by omega
      simp only [Function.update_self, Function.update_of_ne (show m + 1 ≠ m by omega)]
      rw [h.rest m (by omega)]
      refine (hfix s).symm.trans ?_
      simp only [Matrix.mul_assoc]
  · intro m hm hmN
    rcases Nat.lt_or_ge n m with h1 | h1
    · simp only [Function.update_of_ne (show m ≠ n by omega), Function.update_of_ne (show m + 1 ≠ n by omega)]
      exact h.pred m h1 hmN
    · obtain rfl : m = n := by omega
      simp only [Function.update_self, Function.update_of_ne (show m + 1 ≠ m by omega)]
      rw [hre, h.rest m (by omega)]
      have e := hF.proj
      simp only [Matrix.conjTranspose_conjTranspose] at e
      rw [← e, hr, Matrix.mul_sum, Matrix.sum_mul]
      refine Finset.sum_congr rfl fun s _ => ?_
      rw [← gok_sandwich hok]
      simp only [Matrix.conjTranspose_mul, Matrix.conjTranspose_conjTranspose, Matrix.mul_assoc]

theorem envR_psd {ρ : Envs ℂ D} {A : Tensors ℂ q D} (hN : ρ N = 1)
    (hr : ∀ n < N, ρ n = ∑ s, A n s * ρ (n + 1) * (A n s)ᴴ) (n : ℕ) (hn : n ≤ N) : (ρ n).PosSemidef := by
  obtain ⟨k, hk⟩ := Nat.exists_eq_add_of_le hn
  induction k generalizing n with
  | zero =>
    obtain rfl : n = N := by omega
    rw [hN]
    exact Matrix.PosSemidef.one
  | succ k ih =>
    rw [hr n (by omega)]
    exact Matrix.posSemidef_sum _ fun s _ => (ih (n + 1) (by omega) (by omega)).mul_mul_conjTranspose_same (A n s)

theorem env_ne {ρ : Envs ℂ D} {A : Tensors ℂ q D} (hr : ∀ n < N, ρ n = ∑ s, A n s * ρ (n + 1) * (A n s)ᴴ)
    (h0 : ρ 0 ≠ 0) (n : ℕ) (hn : n ≤ N) : ρ n ≠ 0 := by
  induction n with
  | zero => exact h0
  | succ n ih =>
    intro h
    apply ih (by omega)
    rw [hr n (by omega), h]
    simp

theorem gok_one (n : ℕ) : GOk (1 : Matrix (Fin n) (Fin n) ℂ) 1 1 :=
  ⟨by simp, by simp, by rw [Matrix.rank_one, Fintype.card_fin, lastEye_full], 1, by simp⟩

theorem rcfEvdSeq_spec (P : HermLib) {tol : ℝ} (h0 : 0 ≤ tol) {ρ : Envs ℂ D} (S : MPS ℂ q D) (hSr : S.r N = 1)
    (hN : ρ N = 1) (hr : ∀ n < N, ρ n = ∑ s, S.A n s * ρ (n + 1) * (S.A n s)ᴴ) (hne : ρ 0 ≠ 0)
    (ha : ∀ n < N, ZeroOrAbove tol (ρ n)) :
    ∃ T, rcfEvdSeq P tol N S = some T ∧ EvdR ρ S.A N 0 T := by
  refine foldDown_inv _ (fun n st => ∃ S', st = some S' ∧ EvdR ρ S.A N n S') 0 N _ ⟨_, rfl, ?_⟩ ?_
  · rw [Nat.zero_add]
    refine ⟨fun _ _ => rfl, if_pos rfl, hSr, fun m h1 h2 => ?_, fun m h1 h2 => by omega, fun m h1 h2 => by omega⟩
    obtain rfl : m = N := by omega
    simp only [if_true, hSr, hN]
    exact gok_one _
  · rintro n h1 h2 _ ⟨S', rfl, hS⟩
    exact onrRStep_evd P h0 (by omega) (hr n (by omega)) (envR_psd hN hr n (by omega)) (env_ne hr hne n (by omega))
      (ha n (by omega)) hS

/-! ## The diagonalising sweep for environments of any rank -/

theorem rcfDiag_vec (eigh : Eigh ℂ) (A : Tensors ℂ q D) (l lam : Envs ℂ D) (hl : l 0 = 1) (hl0 : lam 0 = 1)
    (hlam : ∀ n < N, lam (n + 1) = ∑ s, (A n s)ᴴ * lam n * A n s) :
    (∀ m, 1 ≤ m → m ≤ N → (restoreRCFlSeq eigh N A l).G m = (eigh.vec (lam m))ᴴ) := by
  have hh : ∀ n ≤ N, (lam n).IsHermitian := by
    intro n hn
    induction n with
    | zero => rw [hl0]; exact Matrix.isHermitian_one
    | succ n ih =>
      rw [Matrix.IsHermitian, hlam n (by omega), Matrix.conjTranspose_sum]
      refine Finset.sum_congr rfl fun s _ => ?_
      simp only [Matrix.conjTranspose_mul, Matrix.conjTranspose_conjTranspose, (ih (by omega)).eq, Matrix.mul_assoc]
  have := foldUp_inv (rcfDiagStep eigh) (fun n S => (∀ m, n ≤ m → S.A m = A m) ∧
      (S.G n)ᴴ * (S.e n * S.G n) = lam n ∧ ∀ m, 1 ≤ m → m ≤ n → S.G m = (eigh.vec (lam m))ᴴ) 0 N
    ⟨A, fun n => if n = 0 then 1 else 0, l⟩ ?_ ?_
  · rw [Nat.zero_add] at this
    exact this.2.2
  · refine ⟨fun _ _ => rfl, ?_, fun m h1 h2 => by omega⟩
    simp only [if_true, hl, hl0, Matrix.conjTranspose_one, Matrix.mul_one]
  · rintro n - h2 S ⟨i1, i2, i3⟩
    have hM : epsL ((S.G n)ᴴ * (S.e n * S.G n)) (S.A n) (S.A n) = lam (n + 1) := by
      rw [epsL_eq, i2, i1 n le_rfl, hlam n (by omega)]
    simp only [rcfDiagStep, hM]
    refine ⟨fun m hm => ?_, ?_, fun m h1 h3 => ?_⟩
    · rw [Function.update_of_ne (by omega), i1 m (by omega)]
    · rw [Function.update_self, Function.update_self, Matrix.conjTranspose_conjTranspose, ← Matrix.mul_assoc,
        ← eigh.eig _ (hh (n + 1) (by omega)), Matrix.mul_assoc, mul_eq_one_comm.mp (eigh.unit _ (hh (n + 1) (by omega))),
        Matrix.mul_one]
    · rcases Nat.lt_or_ge m (n + 1) with h4 | h4
      · rw [Function.update_of_ne (by omega), i3 m h1 (by omega)]
      · obtain rfl : m = n + 1 := by omega
        rw [Function.update_self]

/-- The diagonalising sweep keeps right environments its gauge matrices commute with. -/
theorem diagL_gen (eigh : Eigh ℂ) (A : Tensors ℂ q D) (l r : Envs ℂ D) (hl : l 0 = 1)
    (hr : ROk N A r) (h0 : D 0 = 1) (hN : D N = 1) (hpos : 0 < N) :
    let U := restoreRCFlSeq eigh N A l
    LOk N U.A U.e ∧ (∀ s : Cfg q N, psi U.A h0 hN s = psi A h0 hN s) ∧
      (∀ n, 1 ≤ n → n ≤ N → (U.e n).IsDiag) ∧
      ((∀ n, 1 ≤ n → n < N → U.G n * r n * (U.G n)ᴴ = r n) → UpToDate N U.A U.e r) := by
  intro U
  have hU : DiagInv eigh A N U := restoreRCFlSeq_spec eigh A l hl
  refine ⟨⟨hU.e0, fun n hn => hU.e_succ n hn⟩, fun s => ?_, fun n h1 h2 => ?_, fun hG => ?_⟩
  · have := psi_gauge (N := N) U.A A U.G (fun n hn s => by
      rw [hU.gauge n hn, Matrix.mul_assoc, hU.unit (n + 1) (by omega), Matrix.mul_one])
      h0 hN h0 hN s
    obtain ⟨M, rfl⟩ : ∃ M, N = M + 1 := ⟨N - 1, by omega⟩
    rw [hU.one M (by omega) hN, hU.G0] at this
    simpa using this
  · obtain ⟨m, rfl⟩ : ∃ m, n = m + 1 := ⟨n - 1, by omega⟩
    obtain ⟨M, -, hM⟩ := hU.diag m (by omega)
    rw [hM]
    exact Matrix.isDiag_diagonal _
  · have hG' : ∀ n ≤ N, U.G n * r n * (U.G n)ᴴ = r n := by
      intro n hn
      rcases Nat.eq_zero_or_pos n with rfl | hp
      · rw [hU.G0, Matrix.one_mul, Matrix.conjTranspose_one, Matrix.mul_one]
      rcases Nat.lt_or_ge n N with h1 | h1
      · exact hG n hp h1
      · obtain rfl : n = N := by omega
        rw [hr.r_last, Matrix.mul_one, mul_eq_one_comm.mp (hU.unit n le_rfl)]
    refine ⟨hU.e0, fun n hn => hU.e_succ n hn, hr.r_last, fun n hn => ?_⟩
    rw [← hG' n (by omega), hr.r_pred n hn, Matrix.mul_sum, Matrix.sum_mul]
    refine Finset.sum_congr rfl fun s _ => ?_
    rw [hU.gauge n hn]
    conv_rhs => rw [← hG' (n + 1) (by omega)]
    simp only [Matrix.conjTranspose_mul, Matrix.conjTranspose_conjTranspose, Matrix.mul_assoc]
    have hu := hU.unit (n + 1) (by omega)
    rw [← Matrix.mul_assoc (U.G (n + 1))ᴴ (U.G (n + 1)), hu, Matrix.one_mul,
      ← Matrix.mul_assoc (U.G (n + 1))ᴴ (U.G (n + 1)), hu, Matrix.one_mul]

theorem scalar_of_one {m : ℕ} (hm : m = 1) (G : Matrix (Fin m) (Fin m) ℂ) :
    G = G ⟨0, by omega⟩ ⟨0, by omega⟩ • (1 : Matrix (Fin m) (Fin m) ℂ) := by
  subst hm
  ext i j
  rw [Subsingleton.elim i 0, Subsingleton.elim j 0]
  simp

theorem rank_of_ne {m : ℕ} (hm : m = 1) {M : Matrix (Fin m) (Fin m) ℂ} (hM : M ≠ 0) : M.rank = m := by
  have hc : M ⟨0, by omega⟩ ⟨0, by omega⟩ ≠ 0 := by
    intro h
    apply hM
    rw [scalar_of_one hm M, h, zero_smul]
  have hu : M * ((M ⟨0, by omega⟩ ⟨0, by omega⟩)⁻¹ • 1) = 1 := by
    conv_lhs => rw [scalar_of_one hm M]
    rw [Matrix.smul_mul, Matrix.one_mul, smul_smul]
    simp [hc]
  rw [Matrix.rank_of_isUnit _ (isUnit_iff_exists_inv.mpr ⟨_, hu⟩), Fintype.card_fin]

theorem posDef_rank {m : ℕ} {M : Matrix (Fin m) (Fin m) ℂ} (hM : M.PosDef) : M.rank = m := by
  rw [Matrix.rank_of_isUnit _ hM.isUnit, Fintype.card_fin]

/-- A left environment seen through a gauge matrix of the sweep has the support of the new right environment. -/
theorem mask_gauge (P : HermLib) {n : ℕ} {ρ G r lam M : Matrix (Fin n) (Fin n) ℂ} (h : GOk ρ G r) (hlam : lam.PosDef)
    {c : ℂ} (hc : c ≠ 0) (hM : M.PosSemidef) (hMe : M = c • (Gᴴ * lam * G)) :
    (P.eigh.vec M)ᴴ * r * P.eigh.vec M = r := by
  obtain ⟨Gi, hGi⟩ := h.inv
  rw [h.proj]
  refine mask_eig P hM ?_ ?_
  · rw [← h.proj, hMe, Matrix.mul_smul, ← Matrix.mul_assoc, ← Matrix.mul_assoc]
    have : r * Gᴴ = Gᴴ := by
      have e := congrArg Matrix.conjTranspose h.keep
      rwa [Matrix.conjTranspose_mul, h.proj, lastEye_conj, ← h.proj] at e
    rw [this]
  · intro x hx
    rw [hMe, Matrix.smul_mulVec, smul_eq_zero] at hx
    have hx := hx.resolve_left hc
    have hz : star (G *ᵥ x) ⬝ᵥ (lam *ᵥ (G *ᵥ x)) = 0 := by
      have e : star x ⬝ᵥ ((Gᴴ * lam * G) *ᵥ x) = 0 := by rw [hx, dotProduct_zero]
      rw [← Matrix.mulVec_mulVec, ← Matrix.mulVec_mulVec, Matrix.dotProduct_mulVec, ← Matrix.star_mulVec] at e
      exact e
    have hG0 : G *ᵥ x = 0 := by
      by_contra hne
      exact (hlam.dotProduct_mulVec_pos hne).ne' hz
    rw [← h.proj, ← hGi, ← Matrix.mulVec_mulVec, hG0, Matrix.mulVec_zero]

theorem restoreRCFEvd_spec (P : HermLib) {tol : ℝ} (htol : 0 ≤ tol) (scaleA scaleR : ℂ → ℂ) (diagL : Bool)
    (S : MPS ℂ q D) (ρ lam : Envs ℂ D) (hl : S.l 0 = 1) (hSr : S.r N = 1) (h0 : D 0 = 1) (hN : D N = 1)
    (hpos : 0 < N) (hρ : ROk N S.A ρ) (hlam : LOk N S.A lam) (hne : ρ 0 ≠ 0)
    (ha : ∀ n < N, ZeroOrAbove tol (ρ n)) (hsc0 : ∀ g, g ≠ 0 → scaleA g ≠ 0)
    (hsc : ∀ g, g ≠ 0 → scaleR g = scaleA g * star (scaleA g)) :
    ∃ S' g φ, restoreRCFEvd P tol N scaleA scaleR diagL (by omega) S = some S' ∧ g ≠ 0 ∧
      (∀ s : Cfg q N, psi S.A h0 hN s = g * φ s) ∧ braket φ φ = 1 ∧
      (∀ s, psi S'.A h0 hN s = scaleA g * φ s) ∧ LOk N S'.A S'.l ∧ S'.r 0 = scaleR g • 1 ∧
      (∀ n, 1 ≤ n → n ≤ N → S'.r n = lastEye (D n) (ρ n).rank) ∧
      (diagL = true → ∀ n, 1 ≤ n → n ≤ N → (S'.l n).IsDiag) ∧
      ((diagL = true → ∀ n, 1 ≤ n → n < N → (ρ n).PosDef ∨ (lam n).PosDef) → UpToDate N S'.A S'.l S'.r) := by
  obtain ⟨T, hT, hE⟩ := rcfEvdSeq_spec P htol S hSr hρ.r_last hρ.r_pred hne ha
  set g := T.G 0 ⟨0, by omega⟩ ⟨0, by omega⟩ with hg
  have hG0 : T.G 0 = g • 1 := scalar_of_one h0 _
  have hg0 : g ≠ 0 := by
    intro h
    apply hne
    rw [← (hE.ok 0 le_rfl (by omega)).fac, hG0, h, zero_smul, Matrix.zero_mul]
  have hsc := hsc g hg0
  have hsc0 := hsc0 g hg0
  have he0 : T.e 0 = 1 := by
    rw [(hE.ok 0 le_rfl (by omega)).proj, rank_of_ne h0 hne, lastEye_full]
  have hTR : ROk N T.A T.e := ⟨hE.elast, fun n hn => hE.pred n (by omega) hn⟩
  have hφ : braket (psi (N := N) T.A h0 hN) (psi T.A h0 hN) = 1 := by
    have hu : UpToDate N T.A (mixL T.A T.A 1) T.e := ⟨rfl, fun n _ => rfl, hTR.r_last, hTR.r_pred⟩
    rw [← hu.norm_eq h0 hN 0 (by omega), adot_eq_trace, he0]
    have : (mixL T.A T.A (1 : Matrix (Fin (D 0)) (Fin (D 0)) ℂ) 0) = 1 := rfl
    rw [this]
    simp [h0]
  set A1 : Tensors ℂ q D := Function.update T.A 0 (fun s => scaleA g • T.A 0 s) with hA1
  set r1 : Envs ℂ D := Function.update T.e 0 (scaleR g • T.e 0) with hr1
  have hr1n : ∀ n, 1 ≤ n → r1 n = T.e n := fun n h1 => by rw [hr1, Function.update_of_ne (by omega)]
  have hR : ROk N A1 r1 := by
    refine ⟨by rw [hr1n N hpos, hE.elast], fun n hn => ?_⟩
    rw [hr1n (n + 1) (by omega)]
    rcases Nat.eq_zero_or_pos n with rfl | hp
    · rw [hr1, Function.update_self, hA1, Function.update_self, hTR.r_pred 0 hn, hsc, Finset.smul_sum]
      refine Finset.sum_congr rfl fun s _ => ?_
      rw [Matrix.conjTranspose_smul, Matrix.smul_mul, Matrix.mul_smul, Matrix.smul_mul, smul_smul, mul_comm]
    · rw [hr1n n hp, hA1, Function.update_of_ne (by omega), hTR.r_pred n hn]
  have hpsi : ∀ s : Cfg q N, psi A1 h0 hN s = scaleA g * psi T.A h0 hN s := psi_scaleFirst hpos _ _ _ _
  have hψ : ∀ s : Cfg q N, psi S.A h0 hN s = g * psi T.A h0 hN s := by
    intro s
    have := psi_gauge (N := N) S.A T.A T.G (fun n hn s => hE.gauge n (by omega) hn s) h0 hN h0 hN s
    rwa [hE.last, Matrix.one_apply_eq, mul_one] at this
  have hrn : ∀ n, 1 ≤ n → n ≤ N → r1 n = lastEye (D n) (ρ n).rank := fun n h1 h2 => by
    rw [hr1n n h1, (hE.ok n (by omega) h2).proj]
  have hr10 : r1 0 = scaleR g • 1 := by rw [hr1, Function.update_self, he0]
  cases diagL with
  | false =>
    obtain ⟨c1, c2, c3⟩ := calcL_spec ⟨A1, S.l, r1⟩ hl hR
    refine ⟨calcL N ⟨A1, S.l, r1⟩, g, psi T.A h0 hN, ?_, hg0, hψ, hφ, fun s => ?_, ⟨c3.l_zero, c3.l_succ⟩, ?_,
      fun n h1 h2 => ?_, fun h => by simp at h, fun _ => c3⟩
    · simp only [restoreRCFEvd, hT, Option.bind_some, Bool.false_eq_true, if_false]
      rfl
    · rw [c1, hpsi]
    · rw [c2]
      exact hr10
    · rw [c2]
      exact hrn n h1 h2
  | true =>
    obtain ⟨u1, u2, u3, u4⟩ := diagL_gen P.eigh A1 S.l r1 hl hR h0 hN hpos
    have hunit := (restoreRCFlSeq_spec (N := N) P.eigh A1 S.l hl).unit
    refine ⟨⟨(restoreRCFlSeq P.eigh N A1 S.l).A, (restoreRCFlSeq P.eigh N A1 S.l).e, r1⟩, g, psi T.A h0 hN, ?_, hg0, hψ, hφ,
      fun s => (u2 s).trans (hpsi s), u1, hr10, hrn, fun _ => u3, fun hfull => u4 fun n h1 h2 => ?_⟩
    · simp only [restoreRCFEvd, hT, Option.bind_some, if_true]
      rfl
    set lam1 : Envs ℂ D := mixL A1 A1 1 with hlam1
    have hl1 : ∀ n < N, lam1 (n + 1) = ∑ s, (A1 n s)ᴴ * lam1 n * A1 n s := fun n _ => rfl
    rcases hfull rfl n h1 h2 with hpd | hpd
    · rw [hrn n h1 (by omega), posDef_rank hpd, lastEye_full, Matrix.mul_one,
        mul_eq_one_comm.mp (hunit n (by omega))]
    · have hvec := rcfDiag_vec (N := N) P.eigh A1 S.l lam1 hl rfl hl1 n h1 (by omega)
      have hL1 : LOk N A1 lam1 := ⟨rfl, hl1⟩
      have hγ : g * star g ≠ 0 := mul_ne_zero hg0 (star_ne_zero.mpr hg0)
      have key : ∀ m, m + 1 ≤ N → (g * star g) • lam1 (m + 1)
          = (scaleA g * star (scaleA g)) • ((T.G (m + 1))ᴴ * lam (m + 1) * T.G (m + 1)) := by
        intro m
        induction m with
        | zero =>
          intro hm
          rw [hl1 0 (by omega), hlam.l_succ 0 (by omega), hlam.l_zero, Matrix.mul_sum, Matrix.sum_mul, Finset.smul_sum,
            Finset.smul_sum]
          refine Finset.sum_congr rfl fun s _ => ?_
          have e1 : (T.G (0 + 1))ᴴ * ((S.A 0 s)ᴴ * (1 : Matrix (Fin (D 0)) (Fin (D 0)) ℂ) * S.A 0 s) * T.G (0 + 1) = (T.G 0 * T.A 0 s)ᴴ * (T.G 0 * T.A 0 s) := by
            rw [← hE.gauge 0 le_rfl hpos s, Matrix.conjTranspose_mul]
            simp only [Matrix.mul_one, Matrix.mul_assoc]
          have e2 : lam1 0 = 1 := rfl
          rw [e1, hG0, e2, hA1, Function.update_self]
          simp only [Matrix.smul_mul, Matrix.one_mul, Matrix.conjTranspose_smul, Matrix.mul_smul, Matrix.mul_one, smul_smul]
          congr 1
          ring
        | succ m ih =>
          intro hm
          have hA' : A1 (m + 1) = T.A (m + 1) := by rw [hA1, Function.update_of_ne (by omega)]
          rw [hl1 (m + 1) (by omega), hlam.l_succ (m + 1) (by omega), Matrix.mul_sum, Matrix.sum_mul, Finset.smul_sum,
            Finset.smul_sum]
          refine Finset.sum_congr rfl fun s _ => ?_
          have e1 : (T.G (m + 1 + 1))ᴴ * ((S.A (m + 1) s)ᴴ * lam (m + 1) * S.A (m + 1) s) * T.G (m + 1 + 1)
              = (T.G (m + 1) * T.A (m + 1) s)ᴴ * lam (m + 1) * (T.G (m + 1) * T.A (m + 1) s) := by
            rw [← hE.gauge (m + 1) (by omega) (by omega) s, Matrix.conjTranspose_mul]
            simp only [Matrix.mul_assoc]
          have e2 : (T.G (m + 1) * T.A (m + 1) s)ᴴ * lam (m + 1) * (T.G (m + 1) * T.A (m + 1) s)
              = (T.A (m + 1) s)ᴴ * ((T.G (m + 1))ᴴ * lam (m + 1) * T.G (m + 1)) * T.A (m + 1) s := by
            rw [Matrix.conjTranspose_mul]
            simp only [Matrix.mul_assoc]
          rw [e1, e2, hA', ← Matrix.smul_mul, ← Matrix.mul_smul, ih (by omega), Matrix.mul_smul, Matrix.smul_mul]
      have hM : lam1 n = ((g * star g)⁻¹ * (scaleA g * star (scaleA g))) • ((T.G n)ᴴ * lam n * T.G n) := by
        obtain ⟨m, rfl⟩ : ∃ m, n = m + 1 := ⟨n - 1, by omega⟩
        rw [← smul_smul, ← key m (by omega), smul_smul, inv_mul_cancel₀ hγ, one_smul]
      have hpsd : (lam1 n).PosSemidef := by
        have : ∀ m ≤ N, (lam1 m).PosSemidef := by
          intro m hm
          induction m with
          | zero => exact Matrix.PosSemidef.one
          | succ m ih =>
            rw [hl1 m (by omega)]
            exact Matrix.posSemidef_sum _ fun s _ => (ih (by omega)).conjTranspose_mul_mul_same (A1 m s)
        exact this n (by omega)
      rw [hvec, Matrix.conjTranspose_conjTranspose, hr1n n h1]
      exact mask_gauge P (hE.ok n (by omega) (by omega)) hpd
        (mul_ne_zero (inv_ne_zero hγ) (mul_ne_zero hsc0 (star_ne_zero.mpr hsc0))) hpsd hM

/-! ## The sweep from the left -/

/-- What the sweep from the left has achieved when it has reached bond `n`; `lam` are the left environments of the
tensors before. -/
structure EvdL (lam : Envs ℂ D) (A : Tensors ℂ q D) (n : ℕ) (S : DiagSt ℂ q D) : Prop where
  rest : ∀ m, n ≤ m → S.A m = A m
  first : S.G 0 = 1
  efirst : S.e 0 = 1
  ok : ∀ m ≤ n, GOk (lam m) (S.G m)ᴴ (S.e m)
  gauge : ∀ m < n, ∀ s, S.A m s * S.G (m + 1) = S.G m * A m s
  succ : ∀ m < n, S.e (m + 1) = ∑ s, (S.A m s)ᴴ * S.e m * S.A m s

theorem onrLStep_evd (P : HermLib) {tol : ℝ} (h0 : 0 ≤ tol) {lam : Envs ℂ D} {A : Tensors ℂ q D} {n : ℕ}
    (hl : lam (n + 1) = ∑ s, (A n s)ᴴ * lam n * A n s) (hp : (lam (n + 1)).PosSemidef) (hne : lam (n + 1) ≠ 0)
    (ha : ZeroOrAbove tol (lam (n + 1))) {S : DiagSt ℂ q D}
    (h : EvdL lam A n S) : ∃ S', SW.onrLStep P tol S n = some S' ∧ EvdL lam A (n + 1) S' := by
  have hok := h.ok n le_rfl
  have hsw : (S.G n)ᴴ * (S.e n * S.G n) = lam n := by
    have := gok_sandwich hok
    rwa [Matrix.conjTranspose_conjTranspose] at this
  have hM : epsL ((S.G n)ᴴ * (S.e n * S.G n)) (S.A n) (S.A n) = lam (n + 1) := by
    rw [epsL_eq, hsw, h.rest n le_rfl, ← hl]
  obtain ⟨f, hf, hF⟩ := hermFac_rank_upper P h0 hp hne ha
  have hg := gOk_of_rank hp.isHermitian hF
  simp only at hg
  have hre : SW.lastOnes (D (n + 1)) f.rank = lastEye (D (n + 1)) f.rank := lastOnes_eq _ _
  have hfix : ∀ s, S.G n * A n s * f.xi * f.x = S.G n * A n s := by
    intro s
    have := fix_of_sum (P := f.xᴴ * f.xiᴴ) (fun s => (S.G n * A n s)ᴴ) (by
      have e : ∑ s, (S.G n * A n s)ᴴ * ((S.G n * A n s)ᴴ)ᴴ = lam (n + 1) := by
        rw [hl]
        refine Finset.sum_congr rfl fun s _ => ?_
        have hfac := hok.fac
        rw [Matrix.conjTranspose_conjTranspose] at hfac
        rw [Matrix.conjTranspose_conjTranspose, Matrix.conjTranspose_mul, ← hfac]
        simp only [Matrix.mul_assoc]
      rw [e]
      exact hF.supp) s
    have e := congrArg Matrix.conjTranspose this
    simp only [Matrix.conjTranspose_mul, Matrix.conjTranspose_conjTranspose] at e
    rw [Matrix.mul_assoc _ f.xi, e]
  simp only [SW.onrLStep, hM, hf, Option.bind_some]
  refine ⟨_, rfl, ?_, ?_, ?_, ?_, ?_, ?_⟩
  · intro m hm
    simp only
    rw [Function.update_of_ne (by omega), h.rest m (by omega)]
  · simp only
    rw [Function.update_of_ne (by omega), h.first]
  · simp only
    rw [Function.update_of_ne (by omega), h.efirst]
  · intro m hm
    rcases Nat.lt_or_ge m (n + 1) with h1 | h1
    · simp only [Function.update_of_ne (show m ≠ n + 1 by omega)]
      exact h.ok m (by omega)
    · obtain rfl : m = n + 1 := by omega
      simp only [Function.update_self, hre]
      exact hg
  · intro m hm s
    rcases Nat.lt_or_ge m n with h1 | h1
    · simp only [Function.update_of_ne (show m ≠ n by omega), Function.update_of_ne (show m ≠ n + 1 by omega),
        Function.update_of_ne (show m + 1 ≠ n + 1 by omega)]
      exact h.gauge m h1 s
    · obtain rfl : m = n := by omega
      simp only [Function.update_self, Function.update_of_ne (show m ≠ m + 1 by omega)]
      rw [h.rest m le_rfl]
      exact hfix s
  · intro m hm
    rcases Nat.lt_or_ge m n with h1 | h1
    · simp only [Function.update_of_ne (show m ≠ n by omega), Function.update_of_ne (show m ≠ n + 1 by omega),
        Function.update_of_ne (show m + 1 ≠ n + 1 by omega)]
      exact h.succ m h1
    · obtain rfl : m = n := by omega
      simp only [Function.update_self, Function.update_of_ne (show m ≠ m + 1 by omega)]
      rw [hre, h.rest m le_rfl]
      have e := hF.proj
      simp only [Matrix.conjTranspose_conjTranspose] at e
      rw [← e, hl, Matrix.mul_sum, Matrix.sum_mul]
      refine Finset.sum_congr rfl fun s _ => ?_
      rw [← hsw]
      simp only [Matrix.conjTranspose_mul, Matrix.mul_assoc]

theorem envL_psd {lam : Envs ℂ D} {A : Tensors ℂ q D} (h : LOk N A lam) (n : ℕ) (hn : n ≤ N) : (lam n).PosSemidef := by
  induction n with
  | zero => rw [h.l_zero]; exact Matrix.PosSemidef.one
  | succ n ih =>
    rw [h.l_succ n (by omega)]
    exact Matrix.posSemidef_sum _ fun s _ => (ih (by omega)).conjTranspose_mul_mul_same (A n s)

theorem envL_ne {lam : Envs ℂ D} {A : Tensors ℂ q D} (h : LOk N A lam) (h0 : lam N ≠ 0) (n : ℕ) (hn : n ≤ N) :
    lam n ≠ 0 := by
  obtain ⟨k, hk⟩ := Nat.exists_eq_add_of_le hn
  induction k generalizing n with
  | zero =>
    obtain rfl : n = N := by omega
    exact h0
  | succ k ih =>
    intro hz
    apply ih (n + 1) (by omega) (by omega)
    rw [h.l_succ n (by omega), hz]
    simp

theorem lcfEvdSeq_spec (P : HermLib) {tol : ℝ} (h0 : 0 ≤ tol) {lam : Envs ℂ D} (S : MPS ℂ q D) (hSl : S.l 0 = 1)
    (h : LOk N S.A lam) (hne : lam N ≠ 0) (ha : ∀ n, 1 ≤ n → n ≤ N → ZeroOrAbove tol (lam n)) :
    ∃ T, lcfEvdSeq P tol N S = some T ∧ EvdL lam S.A N T := by
  have := foldUp_inv (fun st n => st.bind fun st => SW.onrLStep P tol st n)
    (fun n st => ∃ S', st = some S' ∧ EvdL lam S.A n S') 0 N
    (some ⟨S.A, fun n => if n = 0 then 1 else 0, S.l⟩) ⟨_, rfl, ?_⟩ ?_
  · rw [Nat.zero_add] at this
    exact this
  · refine ⟨fun _ _ => rfl, rfl, hSl, fun m h1 => ?_, fun m h1 => by omega, fun m h1 => by omega⟩
    obtain rfl : m = 0 := by omega
    simp only [if_true, hSl, h.l_zero, Matrix.conjTranspose_one]
    exact gok_one _
  · rintro n h1 h2 _ ⟨S', rfl, hS⟩
    exact onrLStep_evd P h0 (h.l_succ n (by omega)) (envL_psd h (n + 1) (by omega)) (envL_ne h hne (n + 1) (by omega))
      (ha (n + 1) (by omega) (by omega)) hS

theorem lcfDiag_vec (eigh : Eigh ℂ) (A : Tensors ℂ q D) (r rho : Envs ℂ D) (hr : r N = 1) (hrho : ROk N A rho) :
    (∀ m < N, (restoreLCFrSeq eigh N A r).G m = eigh.vec (rho m)) := by
  have hh : ∀ n ≤ N, (rho n).IsHermitian := fun n hn => (envR_psd hrho.r_last hrho.r_pred n hn).isHermitian
  have := foldDown_inv (lcfDiagStep eigh) (fun n S => (∀ m < n, S.A m = A m) ∧
      S.G n * (S.e n * (S.G n)ᴴ) = rho n ∧ ∀ m, n ≤ m → m < N → S.G m = eigh.vec (rho m)) 0 N
    ⟨A, fun n => if n = N then 1 else 0, r⟩ ?_ ?_
  · exact fun m hm => this.2.2 m (by omega) hm
  · rw [Nat.zero_add]
    refine ⟨fun _ _ => rfl, ?_, fun m h1 h2 => by omega⟩
    simp only [if_true, hr, hrho.r_last, Matrix.conjTranspose_one, Matrix.mul_one]
  · rintro n - h2 S ⟨i1, i2, i3⟩
    have hM : epsR (S.G (n + 1) * (S.e (n + 1) * (S.G (n + 1))ᴴ)) (S.A n) (S.A n) = rho n := by
      rw [epsR_eq, i2, i1 n (by omega), hrho.r_pred n (by omega)]
    simp only [lcfDiagStep, hM]
    refine ⟨fun m hm => ?_, ?_, fun m h1 h3 => ?_⟩
    · rw [Function.update_of_ne (by omega), i1 m (by omega)]
    · rw [Function.update_self, Function.update_self, ← Matrix.mul_assoc, ← eigh.eig _ (hh n (by omega)),
        Matrix.mul_assoc, mul_eq_one_comm.mp (eigh.unit _ (hh n (by omega))), Matrix.mul_one]
    · rcases Nat.lt_or_ge n m with h4 | h4
      · rw [Function.update_of_ne (by omega), i3 m h4 h3]
      · obtain rfl : m = n := by omega
        rw [Function.update_self]

/-- The diagonalising sweep keeps left environments its gauge matrices commute with. -/
theorem diagR_gen (eigh : Eigh ℂ) (A : Tensors ℂ q D) (l r : Envs ℂ D) (hr : r N = 1)
    (hl : LOk N A l) (h0 : D 0 = 1) (hN : D N = 1) (hpos : 0 < N) :
    let U := restoreLCFrSeq eigh N A r
    ROk N U.A U.e ∧ (∀ s : Cfg q N, psi U.A h0 hN s = psi A h0 hN s) ∧
      (∀ n < N, (U.e n).IsDiag) ∧
      ((∀ n, 1 ≤ n → n < N → (U.G n)ᴴ * l n * U.G n = l n) → UpToDate N U.A l U.e) := by
  intro U
  have hU : DiagInvR eigh A N 0 U := restoreLCFrSeq_spec eigh A r hr
  refine ⟨⟨hU.eN, fun n hn => hU.e_pred n (by omega) hn⟩, fun s => ?_, fun n h2 => ?_, fun hG => ?_⟩
  · have := psi_gauge (N := N) A U.A U.G (fun n hn s => by
      rw [hU.gauge n (by omega) hn, ← Matrix.mul_assoc, ← Matrix.mul_assoc,
        mul_eq_one_comm.mp (hU.unit n (by omega) (by omega)), Matrix.one_mul])
      h0 hN h0 hN s
    rw [hU.one 0 le_rfl hpos h0, hU.GN] at this
    simpa using this.symm
  · obtain ⟨M, -, hM⟩ := hU.diag n (by omega) h2
    rw [hM]
    exact Matrix.isDiag_diagonal _
  · have hG' : ∀ n ≤ N, (U.G n)ᴴ * l n * U.G n = l n := by
      intro n hn
      rcases Nat.eq_zero_or_pos n with rfl | hp
      · rw [hl.l_zero, Matrix.mul_one, hU.unit 0 le_rfl (by omega)]
      rcases Nat.lt_or_ge n N with h1 | h1
      · exact hG n hp h1
      · obtain rfl : n = N := by omega
        rw [hU.GN, Matrix.mul_one, Matrix.conjTranspose_one, Matrix.one_mul]
    refine ⟨hl.l_zero, fun n hn => ?_, hU.eN, fun n hn => hU.e_pred n (by omega) hn⟩
    rw [← hG' (n + 1) (by omega), hl.l_succ n hn, Matrix.mul_sum, Matrix.sum_mul]
    refine Finset.sum_congr rfl fun s _ => ?_
    rw [hU.gauge n (by omega) hn]
    conv_rhs => rw [← hG' n (by omega)]
    simp only [Matrix.conjTranspose_mul, Matrix.conjTranspose_conjTranspose, Matrix.mul_assoc]
    have hu := mul_eq_one_comm.mp (hU.unit n (by omega) (by omega))
    rw [← Matrix.mul_assoc (U.G n) (U.G n)ᴴ, hu, Matrix.one_mul,
      ← Matrix.mul_assoc (U.G n) (U.G n)ᴴ, hu, Matrix.one_mul]

theorem restoreLCFEvd_spec (P : HermLib) {tol : ℝ} (htol : 0 ≤ tol) (scaleA scaleL : ℂ → ℂ) (diagR : Bool)
    (S : MPS ℂ q D) (ρ lam : Envs ℂ D) (hSl : S.l 0 = 1) (hSr : S.r N = 1) (h0 : D 0 = 1) (hN : D N = 1)
    (hpos : 0 < N) (hρ : ROk N S.A ρ) (hlam : LOk N S.A lam) (hne : lam N ≠ 0)
    (ha : ∀ n, 1 ≤ n → n ≤ N → ZeroOrAbove tol (lam n)) (hsc0 : ∀ g, g ≠ 0 → scaleA g ≠ 0)
    (hsc : ∀ g, g ≠ 0 → scaleL g = scaleA g * star (scaleA g)) :
    ∃ S' g φ, restoreLCFEvd P tol N scaleA scaleL diagR (by omega) S = some S' ∧ g ≠ 0 ∧
      (∀ s : Cfg q N, psi S.A h0 hN s = g * φ s) ∧ braket φ φ = 1 ∧
      (∀ s, psi S'.A h0 hN s = scaleA g * φ s) ∧ ROk N S'.A S'.r ∧ S'.l N = scaleL g • 1 ∧
      (∀ n < N, S'.l n = lastEye (D n) (lam n).rank) ∧
      (diagR = true → ∀ n < N, (S'.r n).IsDiag) ∧
      ((diagR = true → ∀ n, 1 ≤ n → n < N → (ρ n).PosDef ∨ (lam n).PosDef) → UpToDate N S'.A S'.l S'.r) := by
  obtain ⟨K, rfl⟩ : ∃ K, N = K + 1 := ⟨N - 1, by omega⟩
  obtain ⟨T, hT, hE⟩ := lcfEvdSeq_spec P htol S hSl hlam hne ha
  set g := T.G (K + 1) ⟨0, by omega⟩ ⟨0, by omega⟩ with hg
  have hGN : T.G (K + 1) = g • 1 := scalar_of_one hN _
  have hg0 : g ≠ 0 := by
    intro h
    apply hne
    rw [← (hE.ok (K + 1) le_rfl).fac, hGN, h, zero_smul, Matrix.conjTranspose_zero, Matrix.zero_mul]
  have hsc := hsc g hg0
  have hsc0 := hsc0 g hg0
  have heN : T.e (K + 1) = 1 := by
    rw [(hE.ok (K + 1) le_rfl).proj, rank_of_ne hN hne, lastEye_full]
  have hTL : LOk (K + 1) T.A T.e := ⟨hE.efirst, fun n hn => hE.succ n hn⟩
  have hφ : braket (psi (N := K + 1) T.A h0 hN) (psi T.A h0 hN) = 1 := by
    rw [← hTL.last_entry h0 hN, heN, Matrix.one_apply_eq]
  set A1 : Tensors ℂ q D := scaleLast K (scaleA g) T.A with hA1
  set l1 : Envs ℂ D := Function.update T.e (K + 1) (scaleL g • T.e (K + 1)) with hl1
  have hl1n : ∀ n < K + 1, l1 n = T.e n := fun n h1 => by rw [hl1, Function.update_of_ne (by omega)]
  have hA1n : ∀ n < K, A1 n = T.A n := fun n h1 => by rw [hA1, scaleLast, Function.update_of_ne (by omega)]
  have hA1K : A1 K = fun s => scaleA g • T.A K s := by rw [hA1, scaleLast, Function.update_self]
  have hL : LOk (K + 1) A1 l1 := by
    refine ⟨by rw [hl1n 0 (by omega), hE.efirst], fun n hn => ?_⟩
    rw [hl1n n hn]
    rcases Nat.lt_or_ge n K with hp | hp
    · rw [hl1n (n + 1) (by omega), hA1n n hp, hTL.l_succ n hn]
    · obtain rfl : n = K := by omega
      rw [hl1, Function.update_self, hA1K, hTL.l_succ n hn, hsc, Finset.smul_sum]
      refine Finset.sum_congr rfl fun s _ => ?_
      rw [Matrix.conjTranspose_smul, Matrix.smul_mul, Matrix.mul_smul, Matrix.smul_mul, smul_smul]
  have hpsi : ∀ s : Cfg q (K + 1), psi A1 h0 hN s = scaleA g * psi T.A h0 hN s := psi_scaleLast K _ _ _ _
  have hψ : ∀ s : Cfg q (K + 1), psi S.A h0 hN s = g * psi T.A h0 hN s := by
    intro s
    have := psi_gauge (N := K + 1) T.A S.A T.G (fun n hn s => hE.gauge n hn s) h0 hN h0 hN s
    rw [hE.first, Matrix.one_apply_eq, one_mul] at this
    rw [← this, mul_comm]
  have hln : ∀ n < K + 1, l1 n = lastEye (D n) (lam n).rank := fun n h1 => by
    rw [hl1n n h1, (hE.ok n (by omega)).proj]
  have hl1N : l1 (K + 1) = scaleL g • 1 := by rw [hl1, Function.update_self, heN]
  cases diagR with
  | false =>
    obtain ⟨c1, c2⟩ := calcR_spec (N := K + 1) ⟨A1, l1, S.r⟩ hSr
    have c3 : (calcR (K + 1) ⟨A1, l1, S.r⟩).l = l1 := (calcR_default (K + 1) ⟨A1, l1, S.r⟩).2.1
    refine ⟨calcR (K + 1) ⟨A1, l1, S.r⟩, g, psi T.A h0 hN, ?_, hg0, hψ, hφ, fun s => ?_, ?_, ?_,
      fun n h1 => ?_, fun h => by simp at h, fun _ => ?_⟩
    · simp only [restoreLCFEvd, hT, Option.bind_some, Bool.false_eq_true, if_false]
      rfl
    · rw [c1, hpsi]
    · rw [c1]
      exact c2
    · rw [c3]
      exact hl1N
    · rw [c3]
      exact hln n h1
    · rw [c1, c3]
      exact ⟨hL.l_zero, hL.l_succ, c2.r_last, c2.r_pred⟩
  | true =>
    obtain ⟨u1, u2, u3, u4⟩ := diagR_gen P.eigh A1 l1 S.r hSr hL h0 hN hpos
    have hunit := (restoreLCFrSeq_spec (N := K + 1) P.eigh A1 S.r hSr).unit
    refine ⟨⟨(restoreLCFrSeq P.eigh (K + 1) A1 S.r).A, l1, (restoreLCFrSeq P.eigh (K + 1) A1 S.r).e⟩, g, psi T.A h0 hN, ?_,
      hg0, hψ, hφ, fun s => (u2 s).trans (hpsi s), u1, hl1N, hln, fun _ => u3, fun hfull => u4 fun n h1 h2 => ?_⟩
    · simp only [restoreLCFEvd, hT, Option.bind_some, if_true]
      rfl
    have hR1 := (calcR_spec (N := K + 1) ⟨A1, l1, S.r⟩ hSr).2
    set rho1 : Envs ℂ D := (calcR (K + 1) ⟨A1, l1, S.r⟩).r with hrho1
    rcases (hfull rfl n h1 h2).symm with hpd | hpd
    · rw [hln n (by omega), posDef_rank hpd, lastEye_full, Matrix.mul_one, hunit n (by omega) (by omega)]
    · have hvec := lcfDiag_vec (N := K + 1) P.eigh A1 S.r rho1 hSr hR1 n h2
      have hγ : g * star g ≠ 0 := mul_ne_zero hg0 (star_ne_zero.mpr hg0)
      have key : ∀ k m, m + k = K → (g * star g) • rho1 m
          = (scaleA g * star (scaleA g)) • (T.G m * ρ m * (T.G m)ᴴ) := by
        intro k
        induction k with
        | zero =>
          intro m hm
          obtain rfl : m = K := by omega
          rw [hR1.r_pred m (by omega), hρ.r_pred m (by omega), hρ.r_last, hR1.r_last, Matrix.mul_sum, Matrix.sum_mul,
            Finset.smul_sum, Finset.smul_sum]
          refine Finset.sum_congr rfl fun s _ => ?_
          have e1 : T.G m * (S.A m s * (1 : Matrix (Fin (D (m + 1))) (Fin (D (m + 1))) ℂ) * (S.A m s)ᴴ) * (T.G m)ᴴ
              = (T.A m s * T.G (m + 1)) * (T.A m s * T.G (m + 1))ᴴ := by
            rw [hE.gauge m (by omega) s, Matrix.conjTranspose_mul]
            simp only [Matrix.mul_one, Matrix.mul_assoc]
          rw [e1, hGN]
          simp only [hA1K, Matrix.smul_mul, Matrix.conjTranspose_smul, Matrix.mul_smul, Matrix.mul_one, smul_smul]
          congr 1
          ring
        | succ k ih =>
          intro m hm
          rw [hR1.r_pred m (by omega), hρ.r_pred m (by omega), Matrix.mul_sum, Matrix.sum_mul, Finset.smul_sum,
            Finset.smul_sum]
          refine Finset.sum_congr rfl fun s _ => ?_
          have e1 : T.G m * (S.A m s * ρ (m + 1) * (S.A m s)ᴴ) * (T.G m)ᴴ
              = T.A m s * (T.G (m + 1) * ρ (m + 1) * (T.G (m + 1))ᴴ) * (T.A m s)ᴴ := by
            calc T.G m * (S.A m s * ρ (m + 1) * (S.A m s)ᴴ) * (T.G m)ᴴ
                = (T.G m * S.A m s) * ρ (m + 1) * (T.G m * S.A m s)ᴴ := by
                  rw [Matrix.conjTranspose_mul]
                  simp only [Matrix.mul_assoc]
              _ = _ := by
                  rw [← hE.gauge m (by omega) s, Matrix.conjTranspose_mul]
                  simp only [Matrix.mul_assoc]
          have e3 : A1 m s = T.A m s := by rw [hA1n m (by omega)]
          have e4 := ih (m + 1) (by omega)
          rw [e1]
          simp only [e3]
          rw [← Matrix.smul_mul, ← Matrix.mul_smul, e4, Matrix.mul_smul, Matrix.smul_mul]
      have hM : rho1 n = ((g * star g)⁻¹ * (scaleA g * star (scaleA g))) • ((T.G n)ᴴᴴ * ρ n * (T.G n)ᴴ) := by
        rw [Matrix.conjTranspose_conjTranspose, ← smul_smul, ← key (K - n) n (by omega), smul_smul, inv_mul_cancel₀ hγ,
          one_smul]
      have hpsd : (rho1 n).PosSemidef := envR_psd hR1.r_last hR1.r_pred n (by omega)
      rw [hvec, hl1n n h2]
      exact mask_gauge P (hE.ok n (by omega)) hpd
        (mul_ne_zero (inv_ne_zero hγ) (mul_ne_zero hsc0 (star_ne_zero.mpr hsc0))) hpsd hM

end EvoMPS
