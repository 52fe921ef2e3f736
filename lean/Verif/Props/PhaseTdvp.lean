import Verif.PhaseTdvp
import Verif.Props.Fidelity
import Verif.Props.UniformK
import Verif.UniformTangentLemmas

/-!
# C87: aligning the phase of a uniform state with a Hamiltonian
-/

namespace EvoMPS

open Matrix Uni

namespace PhaseTdvp

variable {q D : ℕ}

theorem chainProd_phase (L : ℕ) {A B : ℕ → Fin q → Matrix (Fin D) (Fin D) ℂ} {z : ℂ} (hz : z * star z = 1)
    (h : ∀ k s, B k s = if k = 0 then z • A k s else A k s) (k n : ℕ) :
    ∃ w : ℂ, w * star w = 1 ∧ ∀ s, chainProd L B k n s = w • chainProd L A k n s := by
  induction n generalizing k with
  | zero => exact ⟨1, by simp, fun s => by rw [chainProd_zero, chainProd_zero, one_smul]⟩
  | succ n ih =>
    obtain ⟨w, hw, hs⟩ := ih (k + 1)
    by_cases hk : k % L = 0
    · refine ⟨z * w, ?_, fun s => ?_⟩
      · rw [star_mul']
        calc z * w * (star z * star w) = (z * star z) * (w * star w) := by ring
          _ = 1 := by rw [hz, hw, mul_one]
      · rw [chainProd_cons, chainProd_cons, h, if_pos hk, hs, Matrix.smul_mul, Matrix.mul_smul, smul_smul]
    · refine ⟨w, hw, fun s => ?_⟩
      rw [chainProd_cons, chainProd_cons, h, if_neg hk, hs, Matrix.mul_smul]

theorem sandwich_phase {m n : ℕ} {w : ℂ} (hw : w * star w = 1) (X Y : Matrix (Fin m) (Fin n) ℂ) (M : Matrix (Fin n) (Fin n) ℂ) :
    w • X * M * (w • Y)ᴴ = X * M * Yᴴ := by
  rw [Matrix.conjTranspose_smul, Matrix.smul_mul, Matrix.smul_mul, Matrix.mul_smul, smul_smul, hw, one_smul]

variable {L : ℕ} {A B : ℕ → Fin q → Matrix (Fin D) (Fin D) ℂ} {z : ℂ}

theorem termRight_phase (hz : z * star z = 1) (h : ∀ k s, B k s = if k = 0 then z • A k s else A k s)
    (r : ℕ → Matrix (Fin D) (Fin D) ℂ) (k n : ℕ) (O : (Fin n → Fin q) → (Fin n → Fin q) → ℂ) :
    termRight L B r k n O = termRight L A r k n O := by
  obtain ⟨w, hw, hs⟩ := chainProd_phase L hz h k n
  simp only [termRight, hs, sandwich_phase hw]

theorem chainExpect_phase (hz : z * star z = 1) (h : ∀ k s, B k s = if k = 0 then z • A k s else A k s)
    (l r : ℕ → Matrix (Fin D) (Fin D) ℂ) (k n : ℕ) (O : (Fin n → Fin q) → (Fin n → Fin q) → ℂ) :
    chainExpect L B l r k n O = chainExpect L A l r k n O := by
  rw [chainExpect_adot, chainExpect_adot]
  exact congrArg _ (termRight_phase hz h r k n O)

theorem KRight_phase (hz : z * star z = 1) (h : ∀ k s, B k s = if k = 0 then z • A k s else A k s)
    {l r K : ℕ → Matrix (Fin D) (Fin D) ℂ} {n : ℕ} {O : (Fin n → Fin q) → (Fin n → Fin q) → ℂ}
    (hK : KRight L A l r n O K) : KRight L B l r n O K := by
  refine ⟨fun k hk => ?_, hK.orth⟩
  rw [termRight_phase hz h, chainExpect_phase hz h]
  refine (hK.step k hk).trans ?_
  congr 2
  refine Finset.sum_congr rfl fun s _ => ?_
  rw [h]
  split
  · rw [sandwich_phase hz]
  · rfl

theorem ChainEnv_phase (hz : z * star z = 1) (h : ∀ k s, B k s = if k = 0 then z • A k s else A k s)
    {l r : ℕ → Matrix (Fin D) (Fin D) ℂ} (E : ChainEnv L A l r) : ChainEnv L B l r := by
  refine ⟨fun k hk => ?_, fun k hk => ?_, E.norm⟩
  · rw [E.left k hk]
    refine Finset.sum_congr rfl fun s _ => ?_
    rw [h]
    split
    · rw [Matrix.conjTranspose_smul, Matrix.smul_mul, Matrix.smul_mul, Matrix.mul_smul, smul_smul, mul_comm, hz, one_smul]
    · rfl
  · rw [E.right k hk]
    refine Finset.sum_congr rfl fun s _ => ?_
    rw [h]
    split
    · rw [sandwich_phase hz]
    · rfl

theorem align_spec {D2 : ℕ} {lib : SpecLib (D * D2)} {S : UTDVP q D} {S' : UMPS ℂ q D2} {T : UTDVP q D} {phi : ℂ}
    (h : S.phaseAlign lib S' = some (T, phi)) (hphi : phi ≠ 0) :
    ∃ z : ℂ, z = star phi / (‖phi‖ : ℂ) ∧ z * star z = 1 ∧ ∃ X : UTDVP q D, T = X.calcC ∧ X.L = S.L ∧ X.l = S.l ∧ X.r = S.r ∧
      X.ham = S.ham ∧ X.K = S.K ∧ (∀ k s, X.A k s = if k = 0 then z • S.A k s else S.A k s) ∧ X.hExpect = S.hExpect := by
  unfold UTDVP.phaseAlign Uni.phaseAlign at h
  obtain ⟨⟨U, w⟩, hU, h⟩ := Option.map_eq_some_iff.1 h
  obtain ⟨⟨d, w', v⟩, -, hU⟩ := Option.bind_eq_some_iff.mp hU
  simp only [Option.some.injEq, Prod.mk.injEq] at hU h
  obtain ⟨rfl, rfl⟩ := hU
  obtain ⟨rfl, rfl⟩ := h
  refine ⟨_, rfl, ?_, _, rfl, rfl, rfl, rfl, rfl, rfl, fun k s => ?_, rfl⟩
  · have hn : (‖w'‖ : ℂ) ≠ 0 := by
      rw [Complex.ofReal_ne_zero]
      exact norm_ne_zero_iff.mpr hphi
    have h1 : ‖star w' / (‖w'‖ : ℂ)‖ = 1 := by
      rw [norm_div, norm_star, Complex.norm_real, norm_norm, div_self (norm_ne_zero_iff.mpr hphi)]
    rw [Complex.star_def, Complex.mul_conj, Complex.normSq_eq_norm_sq, ← Complex.star_def, h1]
    simp
  · by_cases hk : k = 0
    · subst hk
      simp
    · rw [if_neg hk]
      exact congrFun (Function.update_of_ne hk _ _) s

theorem calcC_hExpect (X : UTDVP q D) : X.calcC.hExpect = X.hExpect := by
  unfold UTDVP.calcC
  cases X.ham <;> rfl

end PhaseTdvp

open PhaseTdvp

section
variable {q D D2 : ℕ}

/-- C87.  `phase_align` of a uniform state with a Hamiltonian, if the eigenvalue is not zero: the first tensor is multiplied
by the phase that makes the eigenvalue positive, the environments stay valid and all expectation values are the same; the
products `AA` and `C` belong to the new tensors; and the stored `K` matrices and the energy density, which are not touched,
are still correct if they were before. -/
theorem C87_align (lib : SpecLib (D * D2)) (S T : UTDVP q D) (S' : UMPS ℂ q D2) (phi : ℂ)
    (h : S.phaseAlign lib S' = some (T, phi)) (hphi : phi ≠ 0) :
    (T.L = S.L ∧ T.l = S.l ∧ T.r = S.r ∧ T.ham = S.ham ∧ T.K = S.K ∧ T.hExpect = S.hExpect) ∧
    (∃ z : ℂ, z * phi = (‖phi‖ : ℂ) ∧ ∀ k s, T.A k s = if k = 0 then z • S.A k s else S.A k s) ∧
    (ChainEnv S.L S.A S.l S.r → ChainEnv T.L T.A T.l T.r) ∧
    (∀ k n O, chainExpect T.L T.A T.l T.r k n O = chainExpect S.L S.A S.l S.r k n O) ∧
    UCurrent T ∧
    (KRight S.L S.A S.l S.r S.ham.sites S.ham.op S.K → KRight T.L T.A T.l T.r S.ham.sites S.ham.op T.K) := by
  obtain ⟨z, hzd, hz, X, rfl, eL, el, er, eh, eK, eA, ee⟩ := align_spec h hphi
  obtain ⟨fL, fA, fl, fr, fham, fK, -, -⟩ := calcC_fields X
  have hA : ∀ k s, X.calcC.A k s = if k = 0 then z • S.A k s else S.A k s := by rw [fA]; exact eA
  have e1 : X.calcC.L = S.L := fL.trans eL
  have e2 : X.calcC.l = S.l := fl.trans el
  have e3 : X.calcC.r = S.r := fr.trans er
  have e4 : X.calcC.K = S.K := fK.trans eK
  refine ⟨⟨e1, e2, e3, fham.trans eh, e4, (calcC_hExpect X).trans ee⟩, ⟨z, ?_, hA⟩, fun E => ?_, fun k n O => ?_,
    calcC_current X, fun hK => ?_⟩
  · have hn : (‖phi‖ : ℂ) ≠ 0 := by
      rw [Complex.ofReal_ne_zero]
      exact norm_ne_zero_iff.mpr hphi
    rw [hzd, div_mul_eq_mul_div, Complex.star_def, mul_comm, Complex.mul_conj, Complex.normSq_eq_norm_sq]
    field_simp
    push_cast
    ring
  · rw [e1, e2, e3]
    exact ChainEnv_phase hz hA E
  · rw [e1, e2, e3]
    exact chainExpect_phase hz hA _ _ k n O
  · rw [e1, e2, e3, e4]
    exact KRight_phase hz hA hK

/-- C87.  After `phase_align` the energy of every term is reported as before the call. -/
theorem C87_energy (lib : SpecLib (D * D2)) (S T : UTDVP q D) (S' : UMPS ℂ q D2) (phi : ℂ)
    (h : S.phaseAlign lib S' = some (T, phi)) (hphi : phi ≠ 0) (op : Fin q → Fin q → Fin q → Fin q → ℂ)
    (op3 : Fin q → Fin q → Fin q → Fin q → Fin q → Fin q → ℂ) (callable : Bool) (k : ℕ) (hk : k < S.L) :
    (S.ham.sites = 2 → T.expect2s op true k = some (chainExpect S.L S.A S.l S.r k S.ham.sites S.ham.op)) ∧
    (S.ham.sites = 3 → T.expect3s op3 true callable k = some (chainExpect S.L S.A S.l S.r k S.ham.sites S.ham.op)) := by
  obtain ⟨z, hzd, hz, X, rfl, eL, el, er, eh, eK, eA, ee⟩ := align_spec h hphi
  have key := C47_expect_ham X k (by rw [eL]; exact hk) op op3 callable
  have e : ∀ H : UHam q, chainExpect X.L X.A X.l X.r k H.sites H.op = chainExpect S.L S.A S.l S.r k H.sites H.op := fun H => by
    rw [eL, el, er]
    exact chainExpect_phase hz eA _ _ k _ _
  rw [e, eh] at key
  exact key

end

namespace Ex87

/-- A product state with a Hamiltonian that is a number; nothing is computed yet. -/
def S : UTDVP 1 1 :=
  ⟨numState 1 fun _ => 1, .two fun _ _ _ _ => 3, fun _ _ _ _ => 0, fun _ _ _ => 0, fun _ _ _ _ => 0, fun _ => 0, none,
    fun _ => none, 3⟩

/-- The hypotheses of C87 hold: the tensor of the other state is `i`, the eigenvalue is `-i` and the phase is not 1. -/
example : ∃ T phi, S.phaseAlign (someSpecLib (1 * 1)) (numState 1 fun _ => Complex.I) = some (T, phi) ∧ phi = -Complex.I ∧
    phi ≠ 0 ∧ ChainEnv S.L S.A S.l S.r ∧ KRight S.L S.A S.l S.r S.ham.sites S.ham.op S.K := by
  obtain ⟨⟨d, w, v⟩, hf⟩ := fidelity_returns (q := 1) Nat.one_pos Nat.one_pos (o := ⟨false, false, 64⟩) (by simp) false
    S.toUMPS (numState 1 fun _ => Complex.I) Nat.one_pos Nat.one_pos
  obtain ⟨-, h2, h3, -⟩ := fidelity_spec (someSpecLib_ok (1 * 1)) Nat.one_pos Nat.one_pos hf
  have h4 := (h3 rfl).1
  have e1 := numState_transfer 1 1 (fun _ => 1) (fun _ => Complex.I) 1 (reshape v)
  have hw : w = -Complex.I := by
    have h5 : (w - -Complex.I) • (reshape v : Matrix (Fin 1) (Fin 1) ℂ) = 0 := by
      rw [sub_smul, ← h4, sub_eq_zero]
      refine e1.trans ?_
      simp
    rcases smul_eq_zero.mp h5 with h | h
    · exact sub_eq_zero.mp h
    · exact absurd h h2
  subst hw
  have E : ChainEnv S.L S.A S.l S.r := numState_env 1 _ (by simp)
  have hT : ∃ T, S.phaseAlign (someSpecLib (1 * 1)) (numState 1 fun _ => Complex.I) = some (T, -Complex.I) := by
    unfold UTDVP.phaseAlign Uni.phaseAlign
    rw [hf]
    exact ⟨_, rfl⟩
  obtain ⟨T, hT⟩ := hT
  refine ⟨T, _, hT, rfl, by simp, E, ?_⟩
  · refine ⟨fun k hk => ?_, fun k hk => by simp [S]⟩
    have hsub : ∀ X : Matrix (Fin 1) (Fin 1) ℂ, X = X.trace • 1 := fun X => by
      ext i j
      rw [Subsingleton.elim i 0, Subsingleton.elim j 0]
      simp [Matrix.trace]
    have h6 : chainExpect S.L S.A S.l S.r k S.ham.sites S.ham.op = (termRight S.L S.A S.r k S.ham.sites S.ham.op).trace := by
      rw [chainExpect_adot, adot_eq_trace]
      simp only [S, numState, Matrix.conjTranspose_one, Matrix.one_mul]
      rfl
    rw [h6]
    have h7 : S.r ((k + S.L - 1) % S.L) = 1 := rfl
    rw [h7, ← hsub]
    simp [S]

end Ex87

end EvoMPS
