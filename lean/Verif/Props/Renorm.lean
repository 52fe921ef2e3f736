import Verif.RenormLemmas

/-!
# Property C16: normalisation without canonical form
-/

set_option linter.unusedSectionVars false

namespace EvoMPS

open Matrix

variable {q D : ℕ → ℕ} {N : ℕ}

/-- C16, `update(restore_CF=False, normalize=True)`: the new amplitudes are the old ones
times a positive number, the squared norm is 1 and the environments are consistent with
the new tensors. -/
theorem C16_update_normalize (S : MPS ℂ q D) (h0 : D 0 = 1) (hN : D N = 1) (hpos : 0 < N)
    (hl : S.l 0 = 1) (hr : S.r N = 1)
    (hne : braket (psi (N := N) S.A h0 hN) (psi S.A h0 hN) ≠ 0) :
    let S' := updateNoCFNorm N hN S true
    (∃ c : ℝ, 0 < c ∧ ∀ s : Cfg q N, psi S'.A h0 hN s = (c : ℂ) * psi S.A h0 hN s) ∧
      braket (psi (N := N) S'.A h0 hN) (psi S'.A h0 hN) = 1 ∧ UpToDate N S'.A S'.l S'.r := by
  obtain ⟨M, rfl⟩ : ∃ M, N = M + 1 := ⟨N - 1, by omega⟩
  obtain ⟨a1, a2, a3, a4⟩ := calcL_default (M + 1) S
  have hL : LOk (M + 1) (calcL (M + 1) S).A (calcL (M + 1) S).l :=
    ⟨by rw [a3, hl], fun n hn => by rw [a4 n hn, epsL_eq, a1]⟩
  have hre : 0 < (braket (psi (N := M + 1) S.A h0 hN) (psi S.A h0 hN)).re := by
    obtain ⟨e1, e2⟩ := braket_self_re (psi (N := M + 1) S.A h0 hN)
    refine lt_of_le_of_ne e2 fun h => hne ?_
    rw [e1, ← h, Complex.ofReal_zero]
  have hre' : 0 < (braket (psi (N := M + 1) (calcL (M + 1) S).A h0 hN)
      (psi (calcL (M + 1) S).A h0 hN)).re := by rw [a1]; exact hre
  have hp := simpleRenorm_psi M hN (calcL (M + 1) S) false h0 hre' hL
  have hL' := simpleRenorm_LOk M hN (calcL (M + 1) S) false
    (by rw [hL.last_entry h0 hN]; exact hre') hL
  obtain ⟨b1, b2, b3, b4⟩ := calcR_default (M + 1) (simpleRenorm (M + 1) hN (calcL (M + 1) S) false)
  have hr0 : (simpleRenorm (M + 1) hN (calcL (M + 1) S) false).r = S.r := a2
  intro S'
  have hA : S'.A = (simpleRenorm (M + 1) hN (calcL (M + 1) S) false).A := b1
  have hl' : S'.l = (simpleRenorm (M + 1) hN (calcL (M + 1) S) false).l := b2
  refine ⟨⟨_, one_div_pos.2 (Real.sqrt_pos.2 hre), fun s => ?_⟩, ?_, ?_⟩
  · rw [hA, hp.1 s]; simp only [a1]
  · rw [hA]; exact hp.2
  · refine ⟨?_, ?_, ?_, ?_⟩
    · rw [hl']; exact hL'.l_zero
    · rw [hl', hA]; exact hL'.l_succ
    · have := b3 (M + 1) le_rfl
      rw [hr0, hr] at this
      exact this
    · intro n hn
      have := b4 n hn
      rw [epsR_eq] at this
      rw [hA]
      exact this

/-- C16, `normalize=False`: no tensor changes (hence no amplitude) and the environments
are consistent. -/
theorem C16_update_no_normalize (S : MPS ℂ q D) (hN : D N = 1) (hl : S.l 0 = 1)
    (hr : S.r N = 1) :
    let S' := updateNoCFNorm N hN S false
    S'.A = S.A ∧ UpToDate N S'.A S'.l S'.r :=
  updateNoCF_upToDate N S hl hr

/-- C16, `simple_renorm()` on an up-to-date state. -/
theorem C16_simple_renorm (S : MPS ℂ q D) (h0 : D 0 = 1) (hN : D N = 1) (hpos : 0 < N)
    (h : UpToDate N S.A S.l S.r)
    (hne : braket (psi (N := N) S.A h0 hN) (psi S.A h0 hN) ≠ 0) :
    let S' := simpleRenorm N hN S true
    (∃ c : ℝ, 0 < c ∧ ∀ s : Cfg q N, psi S'.A h0 hN s = (c : ℂ) * psi S.A h0 hN s) ∧
      braket (psi (N := N) S'.A h0 hN) (psi S'.A h0 hN) = 1 ∧ UpToDate N S'.A S'.l S'.r := by
  obtain ⟨M, rfl⟩ : ∃ M, N = M + 1 := ⟨N - 1, by omega⟩
  have hL : LOk (M + 1) S.A S.l := ⟨h.l_zero, h.l_succ⟩
  have hre : 0 < (braket (psi (N := M + 1) S.A h0 hN) (psi S.A h0 hN)).re := by
    obtain ⟨e1, e2⟩ := braket_self_re (psi (N := M + 1) S.A h0 hN)
    refine lt_of_le_of_ne e2 fun h => hne ?_
    rw [e1, ← h, Complex.ofReal_zero]
  have hx : 0 < (S.l (M + 1) ⟨0, by omega⟩ ⟨0, by omega⟩).re := by
    rw [hL.last_entry h0 hN]; exact hre
  have hp := simpleRenorm_psi M hN S true h0 hre hL
  have hL' := simpleRenorm_LOk M hN S true hx hL
  have hR' := simpleRenorm_r M hN S hx h.r_last h.r_pred
  exact ⟨⟨_, one_div_pos.2 (Real.sqrt_pos.2 hre), hp.1⟩, hp.2,
    ⟨hL'.l_zero, hL'.l_succ, hR'.1, hR'.2⟩⟩

/-- The hypotheses of the C16 theorems hold for the two-site state with all amplitudes 2. -/
example : let S : MPS ℂ (fun _ => 2) (fun _ => 1) :=
      ⟨fun n _ => Matrix.of fun _ _ => if n = 0 then 2 else 1, fun _ => 1, fun _ => 1⟩
    S.l 0 = 1 ∧ S.r 2 = 1 ∧
      braket (psi (N := 2) S.A rfl rfl) (psi S.A rfl rfl) ≠ 0 := by
  refine ⟨rfl, rfl, ?_⟩
  have e : ∀ s : Cfg (fun _ => 2) 2, psi (N := 2) (D := fun _ => 1)
      (fun n _ => Matrix.of fun _ _ => if n = 0 then (2 : ℂ) else 1) rfl rfl s = 2 := by
    intro s
    simp [psi, amp, Matrix.mul_apply]
  simp only [braket, e]
  simp

end EvoMPS
