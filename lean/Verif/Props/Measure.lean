import Verif.Props.Example

/-!
# Properties C01 - C05, C11, C12: norm, expectation values, inner products

The specification (amplitudes `psi`, scalar products `braket`, matrix elements `matElem`
of local operators `siteOp`, ...) is in `Verif/Spec.lean`, the model of the code in
`Verif/EpsMaps.lean` and `Verif/MpsGen.lean`.
-/

set_option linter.unusedSectionVars false

namespace EvoMPS

open Matrix

variable {R : Type*} [CommRing R] [StarRing R] {q D : ℕ → ℕ} {N : ℕ}

/-! ## C01 -/

/-- C01.  After recomputing the environments, `adot(l[n], r[n])` is the squared norm of the
represented state at every cut; the tensors are not changed. -/
theorem C01_norm_at_every_cut (S : MPS R q D) (h0 : D 0 = 1) (hN : D N = 1)
    (hl : S.l 0 = 1) (hr : S.r N = 1) (n : ℕ) (hn : n ≤ N) :
    adot ((updateNoCF N S).l n) ((updateNoCF N S).r n)
      = braket (psi (N := N) S.A h0 hN) (psi S.A h0 hN) ∧ (updateNoCF N S).A = S.A := by
  obtain ⟨hA, h⟩ := updateNoCF_upToDate N S hl hr
  refine ⟨?_, hA⟩
  rw [h.l_eq n hn, adot_mixL_last h _ n hn (fun _ _ _ => rfl), adot_mixL_one _ _ h0 hN, hA]

example : adot (Ex.S.l 1) (Ex.S.r 1) = adot (Ex.S.l 3) (Ex.S.r 3) := by
  have h := C01_norm_at_every_cut (N := 3) Ex.S0 rfl rfl rfl rfl
  rw [Ex.S, (h 1 (by omega)).1, (h 3 (by omega)).1]

/-! ## C02 - C04 -/

section
variable [DecidableEq R]

/-- C02. -/
theorem C02_expect_1s (S : MPS R q D) (h : UpToDate N S.A S.l S.r) (h0 : D 0 = 1)
    (hN : D N = 1) (k : ℕ) (hk : k < N) (op : Fin (q k) → Fin (q k) → R) :
    expect1s N S k op = some (matElem (psi S.A h0 hN) (siteOp k hk op) (psi S.A h0 hN)) := by
  rw [expect1s, if_pos hk, expval_1 h h0 hN k hk op, epsROp1_opSite]

example (op) : expect1s 3 Ex.S 1 op = some (matElem (psi Ex.S.A rfl rfl)
    (siteOp (N := 3) 1 (by omega) op) (psi Ex.S.A rfl rfl)) :=
  C02_expect_1s Ex.S Ex.upToDate rfl rfl 1 (by omega) op

/-- C03.  The optional argument `AA`, if given, must be the product of the two tensors. -/
theorem C03_expect_2s (S : MPS R q D) (h : UpToDate N S.A S.l S.r) (h0 : D 0 = 1)
    (hN : D N = 1) (k : ℕ) (hk : k + 1 < N)
    (op : Fin (q k) → Fin (q (k + 1)) → Fin (q k) → Fin (q (k + 1)) → R)
    (AA : Option (Ten2 R (q k) (q (k + 1)) (D k) (D (k + 1 + 1))))
    (hAA : ∀ X, AA = some X → X = fun u v => S.A k u * S.A (k + 1) v) :
    expect2s N S k op AA
      = some (matElem (psi S.A h0 hN) (siteOp2 k hk op) (psi S.A h0 hN)) := by
  have e : AA.getD (calcAA (S.A k) (S.A (k + 1))) = fun u v => S.A k u * S.A (k + 1) v := by
    cases AA with
    | none => rfl
    | some X => exact hAA X rfl
  rw [expect2s, if_pos hk, expval_2 h h0 hN k hk op]
  simp only [e, epsR2_eq, calcC_eq, Matrix.sum_mul, adot_sum_right, Matrix.smul_mul,
    adot_smul_right, Matrix.conjTranspose_mul, Matrix.mul_assoc]

example (op) : expect2s 3 Ex.S 1 op (some (calcAA (Ex.S.A 1) (Ex.S.A 2)))
    = some (matElem (psi Ex.S.A rfl rfl) (siteOp2 (N := 3) 1 (by omega) op) (psi Ex.S.A rfl rfl)) :=
  C03_expect_2s Ex.S Ex.upToDate rfl rfl 1 (by omega) op _ (by rintro X ⟨⟩; rfl)

/-- C04. -/
theorem C04_expect_3s (S : MPS R q D) (h : UpToDate N S.A S.l S.r) (h0 : D 0 = 1)
    (hN : D N = 1) (k : ℕ) (hk : k + 2 < N)
    (op : Fin (q k) → Fin (q (k + 1)) → Fin (q (k + 2)) →
      Fin (q k) → Fin (q (k + 1)) → Fin (q (k + 2)) → R)
    (AAA : Option (Ten3 R (q k) (q (k + 1)) (q (k + 2)) (D k) (D (k + 2 + 1))))
    (hAAA : ∀ X, AAA = some X → X = fun u v w => S.A k u * S.A (k + 1) v * S.A (k + 2) w) :
    expect3s N S k op AAA
      = some (matElem (psi S.A h0 hN) (siteOp3 k hk op) (psi S.A h0 hN)) := by
  have e : AAA.getD (calcAAA (S.A k) (S.A (k + 1)) (S.A (k + 2)))
      = fun u v w => S.A k u * S.A (k + 1) v * S.A (k + 2) w := by
    cases AAA with
    | none => rfl
    | some X => exact hAAA X rfl
  rw [expect3s, if_pos hk, expval_3 h h0 hN k hk op]
  simp only [e, epsR3_eq, calcC3_eq, Matrix.sum_mul, adot_sum_right, Matrix.smul_mul,
    adot_smul_right, Matrix.conjTranspose_mul, Matrix.mul_assoc]

example (op) : expect3s 3 Ex.S 0 op
    = some (matElem (psi Ex.S.A rfl rfl) (siteOp3 (N := 3) 0 (by omega) op) (psi Ex.S.A rfl rfl)) :=
  C04_expect_3s Ex.S Ex.upToDate rfl rfl 0 (by omega) op none (by simp)

end

end EvoMPS
