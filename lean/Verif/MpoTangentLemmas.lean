import Verif.MpoTangent
import Verif.MpoLemmas
import Verif.TangentGauge

/-!
# The tangent vector for a Hamiltonian in matrix product form (helper lemmas)
-/

set_option linter.unusedSectionVars false

namespace EvoMPS

open Matrix

section
variable {R : Type*} [CommRing R] [StarRing R] {q D D' M : ℕ → ℕ} {N : ℕ}

theorem mpoT_adot_ones (B : Tensors R q D) (A : Tensors R q D') (h0 : D 0 = 1) (hN : D N = 1)
    (h0' : D' 0 = 1) (hN' : D' N = 1) :
    adot (mixL B A oneEntry N) oneEntry = braket (psi A h0' hN') (psi B h0 hN) := by
  rw [mixL_amp, adot_eq_trace, Matrix.conjTranspose_sum, Matrix.sum_mul, Matrix.trace_sum, braket]
  refine Finset.sum_congr rfl fun s _ => ?_
  simp only [Matrix.conjTranspose_mul, Matrix.conjTranspose_conjTranspose,
    Matrix.trace, Matrix.diag_apply, Matrix.mul_apply, Matrix.conjTranspose_apply, oneEntry,
    Matrix.of_apply, psi]
  rw [fin_sum_one' hN', fin_sum_one' hN, fin_sum_one' h0', fin_sum_one' h0]
  simp

theorem mpoHL_eq (W : ∀ n, Fin (M n) → Fin (M (n + 1)) → Fin (q n) → Fin (q n) → R)
    (A : Tensors R q D) : ∀ n ≤ N, mpoHL N W A n
      = mixL (D := fun n => D n * M n) (D' := D) (mpoT W A) A oneEntry n := by
  obtain ⟨h1, h2⟩ := foldUp_spec (X := fun n => Matrix (Fin (D n * M n)) (Fin (D n)) R)
    (fun n HL => calcMPOl A n (mpoAH W A n) HL) (Function.update (fun _ => 0) 0 oneEntry) 0 N
  intro n hn
  have hz : mpoHL N W A 0 = oneEntry := (h1 0 (by omega)).trans (Function.update_self ..)
  induction n with
  | zero => exact hz
  | succ n ih =>
    rw [mixL, ← ih (by omega)]
    refine (h2 n (by omega) (by omega)).trans ?_
    change calcMPOl A n (mpoAH W A n) (mpoHL N W A n) = _
    rw [calcMPOl]
    have : (if n = 0 then oneEntry else mpoHL N W A n) = mpoHL N W A n := by
      split
      · next h => subst h; exact hz.symm
      · rfl
    simp only [this]
    rw [epsL_eq]
    rfl

theorem mpoHR_last (W : ∀ n, Fin (M n) → Fin (M (n + 1)) → Fin (q n) → Fin (q n) → R)
    (A : Tensors R q D) : mpoHR N W A N = oneEntry := by
  obtain ⟨h1, h2⟩ := foldDown_spec (X := fun n => Matrix (Fin (D n * M n)) (Fin (D n)) R)
    (fun n HR => calcMPOrm1 N A n (mpoAH W A n) HR) (Function.update (fun _ => 0) N oneEntry) 0 N
  exact (h1 N (by omega)).trans (Function.update_self ..)

theorem mpoHR_step (W : ∀ n, Fin (M n) → Fin (M (n + 1)) → Fin (q n) → Fin (q n) → R)
    (A : Tensors R q D) (n : ℕ) (hn : n < N) :
    mpoHR N W A n = epsR (mpoHR N W A (n + 1)) (mpoT W A n) (A n) := by
  obtain ⟨h1, h2⟩ := foldDown_spec (X := fun n => Matrix (Fin (D n * M n)) (Fin (D n)) R)
    (fun n HR => calcMPOrm1 N A n (mpoAH W A n) HR) (Function.update (fun _ => 0) N oneEntry) 0 N
  refine (h2 n (by omega) (by omega)).trans ?_
  change calcMPOrm1 N A n (mpoAH W A n) (mpoHR N W A (n + 1)) = _
  rw [calcMPOrm1]
  have : (if n + 1 = N then oneEntry else mpoHR N W A (n + 1)) = mpoHR N W A (n + 1) := by
    split
    · next h => subst h; exact (mpoHR_last W A).symm
    · rfl
  simp only [this]
  rfl

/-- The contraction closed from the right. -/
theorem mpo_close (W : ∀ n, Fin (M n) → Fin (M (n + 1)) → Fin (q n) → Fin (q n) → R)
    (A A' : Tensors R q D) (n : ℕ) (hn : n ≤ N) (hA' : ∀ m, n ≤ m → m < N → A' m = A m) :
    adot (mixL (D := fun n => D n * M n) (D' := D) (mpoT W A) A' oneEntry N) oneEntry
      = adot (mixL (D := fun n => D n * M n) (D' := D) (mpoT W A) A' oneEntry n)
          (mpoHR N W A n) := by
  obtain ⟨j, hj⟩ := Nat.exists_eq_add_of_le hn
  induction j generalizing n with
  | zero =>
    obtain rfl : N = n := hj
    rw [mpoHR_last]
  | succ j ih =>
    rw [ih (n + 1) (by omega) (fun m h1 h2 => hA' m (by omega) h2) (by omega), adot_mixL_step,
      mpoHR_step W A n (by omega), hA' n le_rfl (by omega)]

theorem mpoOp_full (h0 : M 0 = 1) (hN : M N = 1)
    (W : ∀ n, Fin (M n) → Fin (M (n + 1)) → Fin (q n) → Fin (q n) → R) (s t : Cfg q N) :
    mpoOp (N := N) 0 N h0 hN W s t = mpoProd W N s t ⟨0, by omega⟩ ⟨0, by omega⟩ := by
  have : ∀ n ≤ N, ∀ s t : Cfg q n, mpoProd (mpoWindow 0 N W) n s t = mpoProd W n s t := by
    intro n
    induction n with
    | zero => intro _ s t; rfl
    | succ n ih =>
      intro hn s t
      rw [mpoProd, mpoProd, ih (by omega)]
      congr 1
      ext a b
      simp only [Matrix.of_apply, mpoWindow]
      rw [if_pos (by omega)]
  rw [mpoOp, this N le_rfl]

theorem matElem_mpo (W : ∀ n, Fin (M n) → Fin (M (n + 1)) → Fin (q n) → Fin (q n) → R)
    (A : Tensors R q D) (h0 : D 0 = 1) (hN : D N = 1) (hM0 : M 0 = 1) (hMN : M N = 1)
    (A' : Tensors R q D) (n : ℕ) (hn : n ≤ N) (hA' : ∀ m, n ≤ m → m < N → A' m = A m) :
    matElem (psi A' h0 hN) (mpoOp (N := N) 0 N hM0 hMN W) (psi A h0 hN)
      = adot (mixL (D := fun n => D n * M n) (D' := D) (mpoT W A) A' oneEntry n)
          (mpoHR N W A n) := by
  rw [← mpo_close W A A' n hn hA', mpoT_adot_ones (D := fun n => D n * M n) (D' := D) (mpoT W A) A'
    (by rw [h0, hM0]) (by rw [hN, hMN]) h0 hN, braket, matElem]
  refine Finset.sum_congr rfl fun s _ => ?_
  rw [psi_mpoT W A h0 hN hM0 hMN, Finset.mul_sum]
  refine Finset.sum_congr rfl fun t _ => ?_
  rw [mpoOp_full, mul_assoc]

/-- The gradient of site `k`. -/
def mpoGrad (N : ℕ) (W : ∀ n, Fin (M n) → Fin (M (n + 1)) → Fin (q n) → Fin (q n) → R)
    (A : Tensors R q D) (k : ℕ) : Ten R (q k) (D k) (D (k + 1)) :=
  fun s => (mpoHL N W A k)ᴴ * mpoT W A k s * mpoHR N W A (k + 1)

theorem matElem_mpoGrad (W : ∀ n, Fin (M n) → Fin (M (n + 1)) → Fin (q n) → Fin (q n) → R)
    (A : Tensors R q D) (h0 : D 0 = 1) (hN : D N = 1) (hM0 : M 0 = 1) (hMN : M N = 1) (k : ℕ)
    (hk : k < N) (b : Ten R (q k) (D k) (D (k + 1))) :
    matElem (oneSite (N := N) A h0 hN k b) (mpoOp (N := N) 0 N hM0 hMN W) (psi A h0 hN)
      = pair (mpoGrad N W A k) b := by
  rw [oneSite, matElem_mpo W A h0 hN hM0 hMN _ (k + 1) hk
    (fun m h1 _ => Function.update_of_ne (by omega) _ _), adot_mixL_step, Function.update_self,
    mixL_congr (B := mpoT W A) (B' := A) (fun _ _ => rfl)
      (fun m hm => Function.update_of_ne (by omega) _ _), ← mpoHL_eq W A k hk.le, epsR_eq,
    adot_eq_trace, Matrix.mul_sum, Matrix.trace_sum, pair]
  refine Finset.sum_congr rfl fun s _ => ?_
  simp only [mpoGrad, Matrix.mul_assoc]

end

section
variable {q D M : ℕ → ℕ} {N : ℕ} {P : Num}
  {W : ∀ n, Fin (M n) → Fin (M (n + 1)) → Fin (q n) → Fin (q n) → ℂ} {S : MPS ℂ q D}
  {lm rm : ∀ n, MM ℂ (D n) (D n)} {etaSq0 : ℕ → ℂ}

/-- The parameter matrix of site `k`. -/
noncomputable def mpoX (P : Num) (N : ℕ)
    (W : ∀ n, Fin (M n) → Fin (M (n + 1)) → Fin (q n) → Fin (q n) → ℂ) (A : Tensors ℂ q D)
    (lm rm : ∀ n, MM ℂ (D n) (D n)) (k : ℕ)
    {v : ℕ} (Vh : Fin (q k) → Matrix (Fin (D (k + 1))) (Fin v) ℂ) : Matrix (Fin (D k)) (Fin v) ℂ :=
  (P.roots (lm k)).2 * ∑ s, mpoGrad N W A k s * ((P.roots (rm (k + 1))).2 * Vh s)

theorem calcBMPOIter_eq (A : Tensors ℂ q D) (T : MpoTangentOut q D) (k : ℕ) :
    calcBMPOIter P N W A lm rm T k = match calcVsh P.qr (A k) (P.roots (rm (k + 1))).1 with
      | none => T
      | some Vh =>
        { T with
          B := Function.update T.B k (some (tenR (P.roots (lm k)).2 (P.roots (rm (k + 1))).2 Vh
            (mpoX P N W A lm rm k Vh)))
          etaSq := Function.update T.etaSq (k + 1)
            ((adot (mpoX P N W A lm rm k Vh) (mpoX P N W A lm rm k Vh)).re : ℂ) } := by
  have hx : ∀ {v : ℕ} (Vh : Fin (q k) → Matrix (Fin (D (k + 1))) (Fin v) ℂ),
      (P.roots (lm k)).2 * (mpoHL N W A k)ᴴ * epsR (mpoHR N W A (k + 1)) (mpoAH W A k)
        (fun s => ((P.roots (rm (k + 1))).2 * Vh s)ᴴ) = mpoX P N W A lm rm k Vh := by
    intro v Vh
    rw [mpoX, epsR_eq, Matrix.mul_sum, Matrix.mul_sum]
    refine Finset.sum_congr rfl fun s _ => ?_
    rw [conjTranspose_conjTranspose, mpoGrad]
    simp only [Matrix.mul_assoc]
    rfl
  unfold calcBMPOIter
  simp only [hx]
  rfl

theorem calcBMPO_spec {out : MpoTangentOut q D} (h : calcBMPO P N W S lm rm etaSq0 = some out) :
    (∀ k < N, (calcVsh P.qr (S.A k) (P.roots (rm (k + 1))).1 = none ∧ out.B k = none ∧
        out.etaSq (k + 1) = etaSq0 (k + 1)) ∨
      ∃ Vh, calcVsh P.qr (S.A k) (P.roots (rm (k + 1))).1 = some Vh ∧
        out.B k = some (tenR (P.roots (lm k)).2 (P.roots (rm (k + 1))).2 Vh
            (mpoX P N W S.A lm rm k Vh)) ∧
        out.etaSq (k + 1)
          = ((adot (mpoX P N W S.A lm rm k Vh) (mpoX P N W S.A lm rm k Vh)).re : ℂ)) ∧
    (∀ k, N ≤ k → out.B k = none) ∧ out.etaSq 0 = etaSq0 0 ∧
    out.eta = P.sq (∑ n ∈ Finset.range (N + 1), out.etaSq n) ∧
    out.Hexpect = adot (mpoHL N W S.A N) (mpoHR N W S.A N) := by
  unfold calcBMPO at h
  split at h
  swap
  · simp at h
  simp only [Option.some.injEq] at h
  subst h
  have key := foldUp_inv (calcBMPOIter P N W S.A lm rm)
    (fun n T => (∀ k < n, (calcVsh P.qr (S.A k) (P.roots (rm (k + 1))).1 = none ∧ T.B k = none ∧
        T.etaSq (k + 1) = etaSq0 (k + 1)) ∨
      ∃ Vh, calcVsh P.qr (S.A k) (P.roots (rm (k + 1))).1 = some Vh ∧
        T.B k = some (tenR (P.roots (lm k)).2 (P.roots (rm (k + 1))).2 Vh
            (mpoX P N W S.A lm rm k Vh)) ∧
        T.etaSq (k + 1)
          = ((adot (mpoX P N W S.A lm rm k Vh) (mpoX P N W S.A lm rm k Vh)).re : ℂ)) ∧
      (∀ k, n ≤ k → T.B k = none ∧ T.etaSq (k + 1) = etaSq0 (k + 1)) ∧ T.etaSq 0 = etaSq0 0 ∧
      T.Hexpect = adot (mpoHL N W S.A N) (mpoHR N W S.A N)) 0 N
    ({ B := fun _ => none, etaSq := etaSq0, eta := 0
       Hexpect := adot (mpoHL N W S.A N) (mpoHR N W S.A N) } : MpoTangentOut q D)
    ⟨fun k hk => absurd hk (by omega), fun k _ => ⟨rfl, rfl⟩, rfl, rfl⟩
    (by
      rintro n - hn T ⟨h1, h2, h3, h4⟩
      rw [calcBMPOIter_eq]
      cases hV : calcVsh P.qr (S.A n) (P.roots (rm (n + 1))).1 with
      | none =>
        refine ⟨fun k hk => ?_, fun k hk => h2 k (by omega), h3, h4⟩
        rcases Nat.lt_or_ge k n with hlt | hge
        · exact h1 k hlt
        · obtain rfl : k = n := by omega
          exact Or.inl ⟨hV, h2 k le_rfl⟩
      | some Vh =>
        refine ⟨fun k hk => ?_, fun k hk => ?_, ?_, h4⟩
        · rcases Nat.lt_or_ge k n with hlt | hge
          · have := h1 k hlt
            simpa only [Function.update_of_ne (show k ≠ n by omega),
              Function.update_of_ne (show k + 1 ≠ n + 1 by omega)] using this
          · obtain rfl : k = n := by omega
            exact Or.inr ⟨Vh, hV, Function.update_self .., Function.update_self ..⟩
        · have := h2 k (by omega)
          simpa only [Function.update_of_ne (show k ≠ n by omega),
              Function.update_of_ne (show k + 1 ≠ n + 1 by omega)] using this
        · simpa only [Function.update_of_ne (show 0 ≠ n + 1 by omega)] using h3)
  rw [Nat.zero_add] at key
  obtain ⟨h1, h2, h3, h4⟩ := key
  exact ⟨h1, fun k hk => (h2 k hk).1, h3, rfl, h4⟩

end

end EvoMPS
