import Verif.Density
import Verif.Props.Example

/-!
# Properties C09, C10: density matrices
-/

set_option linter.unusedSectionVars false

namespace EvoMPS

open Matrix

variable {R : Type*} [CommRing R] [StarRing R] {q D : ℕ → ℕ} {N : ℕ}

/-! ## C09 -/

/-- The claim of C09 about expectation values: `tr(op rho) = ⟨op_n⟩` for all `op`. -/
def C09Claim (N : ℕ) (S : MPS R q D) (h0 : D 0 = 1) (hN : D N = 1) (k : ℕ) (hk : k < N) : Prop :=
  ∀ op : Fin (q k) → Fin (q k) → R,
    (Matrix.of op * density1s S k).trace
      = matElem (psi S.A h0 hN) (siteOp (N := N) k hk op) (psi S.A h0 hN)

theorem density1s_unit (S : MPS R q D) (h : UpToDate N S.A S.l S.r) (h0 : D 0 = 1)
    (hN : D N = 1) (k : ℕ) (hk : k < N) (s t : Fin (q k)) :
    density1s S k s t = matElem (psi S.A h0 hN) (siteOp (N := N) k hk (unitOp s t))
      (psi S.A h0 hN) := by
  rw [expval_1 h h0 hN, epsR_opSite_unit]
  rfl

/-- C09 with the transpose: it is the transpose of the returned matrix that gives
expectation values, `tr(op rhoᵀ) = ⟨op_n⟩`.  Missing from C09: `rho` in place of `rhoᵀ`
(they differ unless `rho` is symmetric). -/
theorem C09_density_transposed_partial (S : MPS R q D) (h : UpToDate N S.A S.l S.r)
    (h0 : D 0 = 1) (hN : D N = 1) (k : ℕ) (hk : k < N) (op : Fin (q k) → Fin (q k) → R) :
    (Matrix.of op * (density1s S k)ᵀ).trace
      = matElem (psi S.A h0 hN) (siteOp (N := N) k hk op) (psi S.A h0 hN) := by
  rw [expval_1 h h0 hN, epsR_eq, adot_sum_right, Matrix.trace]
  refine Finset.sum_congr rfl fun s _ => ?_
  rw [Matrix.diag_apply, Matrix.mul_apply, opSite, Matrix.sum_mul, Matrix.sum_mul,
    adot_sum_right]
  refine Finset.sum_congr rfl fun t _ => ?_
  rw [Matrix.smul_mul, Matrix.smul_mul, adot_smul_right]
  rfl

example (op) := C09_density_transposed_partial Ex.S Ex.upToDate rfl rfl 1 (by omega) op

/-- C09, second part: the returned matrix is Hermitian. -/
theorem C09_hermitian (S : MPS R q D) (h : UpToDate N S.A S.l S.r) (k : ℕ) (hk : k < N) :
    (density1s S k)ᴴ = density1s S k := by
  ext s t
  have hl := h.l_herm k (by omega)
  have hr := h.r_herm (k + 1) (by omega)
  rw [Matrix.conjTranspose_apply, density1s, density1s, ← adot_conj_right _ _ hl]
  simp only [Matrix.conjTranspose_mul, Matrix.conjTranspose_conjTranspose, hr, Matrix.mul_assoc]

/-- C09, third part: its trace is the squared norm. -/
theorem C09_trace (S : MPS R q D) (h : UpToDate N S.A S.l S.r) (h0 : D 0 = 1)
    (hN : D N = 1) (k : ℕ) (hk : k < N) :
    (density1s S k).trace = braket (psi (N := N) S.A h0 hN) (psi S.A h0 hN) := by
  have e : (density1s S k).trace = adot (S.l k) (S.r k) := by
    rw [h.r_pred k hk, adot_sum_right]
    rfl
  rw [e, h.l_eq k (by omega), adot_mixL_last h _ k (by omega) (fun _ _ _ => rfl),
    adot_mixL_one _ _ h0 hN]

example : (density1s Ex.S 1)ᴴ = density1s Ex.S 1 := C09_hermitian Ex.S Ex.upToDate 1 (by omega)

namespace Ex

/-- One site in the state `|0⟩ + i|1⟩`. -/
def oneS : MPS GaussianInt (fun _ => 2) (fun _ => 1) :=
  updateNoCF 1 ⟨fun _ s _ _ => if s = 0 then 1 else ⟨0, 1⟩, fun _ => 1, fun _ => 1⟩

theorem oneS_upToDate : UpToDate 1 oneS.A oneS.l oneS.r := (updateNoCF_upToDate 1 _ rfl rfl).2

end Ex

/-- C09 is violated: for `|0⟩ + i|1⟩` and `op = |0⟩⟨1|`, `tr(op rho) = -i` but
`⟨op⟩ = i`. -/
theorem C09_violated : ∃ S : MPS GaussianInt (fun _ => 2) (fun _ => 1),
    UpToDate 1 S.A S.l S.r ∧ ¬ C09Claim 1 S rfl rfl 0 (by omega) := by
  refine ⟨Ex.oneS, Ex.oneS_upToDate, fun h => ?_⟩
  have := h (fun s t => if s = 0 ∧ t = 1 then 1 else 0)
  exact absurd this (by decide)

/-! ## C10 -/

/-- The claim of C10: the call succeeds, and summing the returned array, indexed row-major
by (state of `n1`, state of `n2`), against `op1 (x) op2` as in `tr((op1 (x) op2) rho)`
gives the expectation value. -/
def C10Claim (N : ℕ) (S : MPS R q D) (h0 : D 0 = 1) (hN : D N = 1) (k1 k2 : ℕ)
    (hk : k1 < k2) (hk2 : k2 < N) [DecidableEq R] : Prop :=
  ∀ junk, ∃ rho, density2s N S k1 k2 junk = some rho ∧
    ∀ (op1 : Fin (q k1) → Fin (q k1) → R) (op2 : Fin (q k2) → Fin (q k2) → R),
      ∑ s1, ∑ s2, ∑ t1, ∑ t2, (op1 s1 t1 * op2 s2 t2) *
          rho (t1.val * q k2 + t2.val) (s1.val * q k2 + s2.val)
        = matElem (psi S.A h0 hN) (siteOpPair (N := N) k1 k2 (by omega) hk2 op1 op2)
          (psi S.A h0 hN)

section
variable [DecidableEq R]

theorem siteOpPair_units (j k : ℕ) (hj : j < N) (hk : k < N)
    (op1 : Fin (q j) → Fin (q j) → R) (op2 : Fin (q k) → Fin (q k) → R) :
    siteOpPair (N := N) j k hj hk op1 op2 = fun s t =>
      ∑ p : Fin (q j) × Fin (q k) × Fin (q j) × Fin (q k),
        (op1 p.1 p.2.2.1 * op2 p.2.1 p.2.2.2) *
          siteOpPair (N := N) j k hj hk (unitOp p.1 p.2.2.1) (unitOp p.2.1 p.2.2.2) s t := by
  funext s t
  simp only [siteOpPair]
  split_ifs with h
  · have e : ∀ p : Fin (q j) × Fin (q k) × Fin (q j) × Fin (q k),
        (op1 p.1 p.2.2.1 * op2 p.2.1 p.2.2.2) *
          (unitOp p.1 p.2.2.1 (s ⟨j, hj⟩) (t ⟨j, hj⟩) *
            unitOp p.2.1 p.2.2.2 (s ⟨k, hk⟩) (t ⟨k, hk⟩))
        = if (s ⟨j, hj⟩, s ⟨k, hk⟩, t ⟨j, hj⟩, t ⟨k, hk⟩) = p then
          op1 p.1 p.2.2.1 * op2 p.2.1 p.2.2.2 else 0 := by
      rintro ⟨a, b, c, d⟩
      simp only [unitOp, Prod.mk.injEq, mul_ite, mul_one, mul_zero]
      split_ifs <;> simp_all
    simp only [e, Finset.sum_ite_eq, Finset.mem_univ, if_true]
  · simp

/-- C10 for equal site dimensions `q[n1] = q[n2]` and with rho transposed.  Missing from
C10: unequal site dimensions and `rho` in place of its transpose. -/
theorem C10_density_transposed_partial (S : MPS R q D) (h : UpToDate N S.A S.l S.r)
    (h0 : D 0 = 1) (hN : D N = 1) (k1 k2 : ℕ) (hk : k1 < k2) (hk2 : k2 < N)
    (hq : q k1 = q k2) (junk : ℕ → ℕ → R) :
    ∃ rho, density2s N S k1 k2 junk = some rho ∧
      ∀ (op1 : Fin (q k1) → Fin (q k1) → R) (op2 : Fin (q k2) → Fin (q k2) → R),
        ∑ s1, ∑ s2, ∑ t1, ∑ t2, (op1 s1 t1 * op2 s2 t2) *
            rho (s1.val * q k2 + s2.val) (t1.val * q k2 + t2.val)
          = matElem (psi S.A h0 hN) (siteOpPair (N := N) k1 k2 (by omega) hk2 op1 op2)
            (psi S.A h0 hN) := by
  have flatlt : ∀ (a : Fin (q k1)) (b : Fin (q k2)), a.val * q k1 + b.val < q k1 * q k2 := by
    intro a b
    have := (flat a b).isLt
    simpa [flat, hq] using this
  obtain ⟨rho, r1, -, r3⟩ := writes_some (q k1 * q k2) (fun p => p.2.2.1.val * q k1 + p.1.val)
    (fun p => p.2.2.2.val * q k1 + p.2.1.val) (dens2Val S k1 k2) (dens2Idx (q k1) (q k2))
    (fun p _ => ⟨flatlt _ _, flatlt _ _⟩) junk
  have inj : ∀ (a a' : Fin (q k1)) (b b' : Fin (q k2)),
      a.val * q k1 + b.val = a'.val * q k1 + b'.val → a = a' ∧ b = b' := by
    intro a a' b b' hab
    have hflat : flat a b = flat a' b' := Fin.ext (by simpa [flat, hq] using hab)
    refine ⟨?_, ?_⟩
    · have := congrArg Fin.divNat hflat; simpa using this
    · have := congrArg Fin.modNat hflat; simpa using this
  classical
  have hval : ∀ p, rho (p.2.2.1.val * q k1 + p.1.val) (p.2.2.2.val * q k1 + p.2.1.val)
      = dens2Val S k1 k2 p := by
    intro p
    refine r3 (fun a b => if hh : ∃ p : Fin (q k2) × Fin (q k2) × Fin (q k1) × Fin (q k1),
      p.2.2.1.val * q k1 + p.1.val = a ∧ p.2.2.2.val * q k1 + p.2.1.val = b then
        dens2Val S k1 k2 hh.choose else 0) (fun p _ => ?_) p (mem_dens2Idx p)
    have hh : ∃ p' : Fin (q k2) × Fin (q k2) × Fin (q k1) × Fin (q k1),
      p'.2.2.1.val * q k1 + p'.1.val = p.2.2.1.val * q k1 + p.1.val ∧
        p'.2.2.2.val * q k1 + p'.2.1.val = p.2.2.2.val * q k1 + p.2.1.val := ⟨p, rfl, rfl⟩
    rw [dif_pos hh]
    have hc := hh.choose_spec
    have i1 := inj _ _ _ _ hc.1
    have i2 := inj _ _ _ _ hc.2
    have : hh.choose = p := by
      refine Prod.ext i1.2 (Prod.ext i2.2 (Prod.ext i1.1 i2.1))
    rw [this]
  refine ⟨rho, ?_, fun op1 op2 => ?_⟩
  · rw [density2s_fold S k1 k2 hk hk2, r1]
  · rw [siteOpPair_units, matElem_sum]
    simp only [Fintype.sum_prod_type]
    refine Finset.sum_congr rfl fun s1 _ => Finset.sum_congr rfl fun s2 _ =>
      Finset.sum_congr rfl fun t1 _ => Finset.sum_congr rfl fun t2 _ => ?_
    rw [← dens2Val_eq S h h0 hN k1 k2 hk hk2, ← hval (s2, t2, s1, t1)]
    simp only [hq]

example := C10_density_transposed_partial Ex.S Ex.upToDate rfl rfl 0 2 (by omega) (by omega) rfl

/-- If the second site has fewer states than the first, `density_2s` raises. -/
theorem C10_raises (S : MPS R q D) (k1 k2 : ℕ) (hk : k1 < k2) (hk2 : k2 < N)
    (hq : q k2 < q k1) (hq2 : 0 < q k2) (junk : ℕ → ℕ → R) :
    density2s N S k1 k2 junk = none := by
  rw [density2s_fold S k1 k2 hk hk2]
  refine writes_raise _ _ _ _ _ ((⟨q k2 - 1, by omega⟩, ⟨q k2 - 1, by omega⟩,
    ⟨q k1 - 1, by omega⟩, ⟨q k1 - 1, by omega⟩)) (mem_dens2Idx _) (fun hh => ?_) _
  have h1 := hh.1
  simp only at h1
  obtain ⟨e, he⟩ : ∃ e, q k1 = q k2 + 1 + e := ⟨q k1 - q k2 - 1, by omega⟩
  obtain ⟨b, hb⟩ : ∃ b, q k2 = b + 1 := ⟨q k2 - 1, by omega⟩
  rw [he, hb] at h1
  have e1 : b + 1 + 1 + e - 1 = b + 1 + e := by omega
  have e2 : b + 1 - 1 = b := by omega
  rw [e1, e2] at h1
  nlinarith

/-- If the second site has more states than the first, part of the returned array is
never written. -/
theorem C10_uninitialised (S : MPS R q D) (k1 k2 : ℕ) (hk : k1 < k2) (hk2 : k2 < N)
    (hq : q k1 < q k2) (hq1 : 2 ≤ q k1) (junk : ℕ → ℕ → R) :
    ∃ rho, density2s N S k1 k2 junk = some rho ∧
      rho (q k1 * q k2 - 1) (q k1 * q k2 - 1) = junk (q k1 * q k2 - 1) (q k1 * q k2 - 1) := by
  have lt : ∀ (a : Fin (q k1)) (b : Fin (q k2)), a.val * q k1 + b.val + 1 < q k1 * q k2 := by
    intro a b
    have ha := a.isLt
    have hb := b.isLt
    obtain ⟨c, hc⟩ : ∃ c, q k1 = a.val + 1 + c := ⟨q k1 - a.val - 1, by omega⟩
    obtain ⟨e, he⟩ : ∃ e, q k2 = q k1 + 1 + e := ⟨q k2 - q k1 - 1, by omega⟩
    have h1 : a.val * q k1 + q k2 < q k1 * q k2 := by
      have h2 : a.val * q k1 + q k1 ≤ q k1 * q k1 := by
        rw [← Nat.succ_mul]; exact Nat.mul_le_mul_right _ ha
      rw [he]
      nlinarith
    omega
  obtain ⟨rho, r1, r2, -⟩ := writes_some (q k1 * q k2) (fun p => p.2.2.1.val * q k1 + p.1.val)
    (fun p => p.2.2.2.val * q k1 + p.2.1.val) (dens2Val S k1 k2) (dens2Idx (q k1) (q k2))
    (fun p _ => ⟨by have := lt p.2.2.1 p.1; omega, by have := lt p.2.2.2 p.2.1; omega⟩) junk
  refine ⟨rho, ?_, r2 _ _ fun p _ hp => ?_⟩
  · rw [density2s_fold S k1 k2 hk hk2, r1]
  · have := lt p.2.2.1 p.1
    omega

/-- C10 is violated for site dimensions `3, 2`: the call raises. -/
theorem C10_violated (S : MPS R q D) (h0 : D 0 = 1) (hN : D N = 1) (k1 k2 : ℕ) (hk : k1 < k2)
    (hk2 : k2 < N) (hq1 : q k1 = 3) (hq2 : q k2 = 2) :
    ¬ C10Claim N S h0 hN k1 k2 hk hk2 := by
  intro h
  obtain ⟨rho, h1, _⟩ := h 0
  rw [C10_raises S k1 k2 hk hk2 (by omega) (by omega)] at h1
  simp at h1

namespace Ex

/-- Two sites in the state `(|0⟩ + i|1⟩)|0⟩`. -/
def twoS : MPS GaussianInt (fun _ => 2) (fun _ => 1) :=
  updateNoCF 2 ⟨fun n s _ _ => if s = 0 then 1 else if n = 0 then ⟨0, 1⟩ else 0,
    fun _ => 1, fun _ => 1⟩

theorem twoS_upToDate : UpToDate 2 twoS.A twoS.l twoS.r := (updateNoCF_upToDate 2 _ rfl rfl).2

end Ex

end

/-- C10 is also violated for equal site dimensions, because of the transposition. -/
theorem C10_violated_equal_dims : ∃ S : MPS GaussianInt (fun _ => 2) (fun _ => 1),
    UpToDate 2 S.A S.l S.r ∧ ¬ C10Claim 2 S rfl rfl 0 1 (by omega) (by omega) := by
  refine ⟨Ex.twoS, Ex.twoS_upToDate, fun h => ?_⟩
  obtain ⟨rho, h1, h2⟩ := h 0
  have e := h2 (unitOp 0 1) (unitOp 0 0)
  have c : (density2s 2 Ex.twoS 0 1 0).map (fun rho => rho 2 0) = some ⟨0, -1⟩ := by decide
  rw [h1, Option.map_some, Option.some.injEq] at c
  simp only [Fin.sum_univ_two, unitOp] at e
  simp at e
  rw [c] at e
  exact absurd e (by decide)

section
variable [DecidableEq R]

example : ¬ C10Claim 3 Ex.S rfl rfl 1 2 (by omega) (by omega) :=
  C10_violated Ex.S rfl rfl 1 2 (by omega) (by omega) rfl rfl

end

end EvoMPS
