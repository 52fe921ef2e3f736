import Verif.MpoLemmas
import Verif.Props.Example

/-!
# Properties C08, C13: expectation values and application of matrix product operators
-/

set_option linter.unusedSectionVars false

namespace EvoMPS

open Matrix

variable {R : Type*} [CommRing R] [StarRing R] {q D M : ℕ → ℕ} {N : ℕ}

/-! ## C08 -/

/-- C08: `expect_MPO` of `m` tensors from site `k` on is the expectation value of the
operator they represent.  The MPO bond dimensions `M` are arbitrary inside the window. -/
theorem C08_expect_MPO (S : MPS R q D) (h : UpToDate N S.A S.l S.r) (h0 : D 0 = 1)
    (hN : D N = 1) (k m : ℕ) (hkm : k + m ≤ N) (hM : ∀ n, n ≤ k ∨ k + m ≤ n → M n = 1)
    (W : ∀ n, Fin (M n) → Fin (M (n + 1)) → Fin (q n) → Fin (q n) → R) :
    expectMPO N S k m W = some (matElem (psi S.A h0 hN)
      (mpoOp (N := N) k m (hM 0 (by omega)) (hM N (by omega)) W) (psi S.A h0 hN)) :=
  expectMPO_value S h h0 hN k m hkm hM W

/-- C08: windows that leave the chain and MPOs that are not closed at their ends raise. -/
theorem C08_expect_MPO_raises (S : MPS R q D) (k m : ℕ)
    (W : ∀ n, Fin (M n) → Fin (M (n + 1)) → Fin (q n) → Fin (q n) → R)
    (h : N < k + m ∨ M k ≠ 1 ∨ M (k + m) ≠ 1) : expectMPO N S k m W = none := by
  rw [expectMPO, dif_neg (by omega)]

/-- C08: an MPO with all bond dimensions 1 is a product of single-site operators. -/
theorem C08_expect_MPO_product (S : MPS R q D) (h : UpToDate N S.A S.l S.r) (h0 : D 0 = 1)
    (hN : D N = 1) (k m : ℕ) (hkm : k + m ≤ N) (op : ∀ n, Fin (q n) → Fin (q n) → R) :
    expectMPO (M := fun _ => 1) N S k m (fun n _ _ => op n)
      = some (matElem (psi S.A h0 hN) (stringOp (N := N) k m op) (psi S.A h0 hN)) := by
  rw [C08_expect_MPO S h h0 hN k m hkm (fun _ _ => rfl)]
  congr 2
  funext s t
  exact mpoProd_one k m op s t

example (W) := C08_expect_MPO (N := 3) (M := fun n => if n = 1 then 3 else 1) Ex.S Ex.upToDate
  rfl rfl 0 2 (by omega) (fun n hn => if_neg (by omega)) W

/-! ## C13 -/

/-- C13: the amplitudes after `apply_op_MPO`; the bond dimensions are multiplied by those
of the MPO. -/
theorem C13_apply_op_MPO (A : Tensors R q D) (h0 : D 0 = 1) (hN : D N = 1) (k m : ℕ)
    (hkm : k + m ≤ N) (hM : ∀ n, n ≤ k ∨ k + m ≤ n → M n = 1)
    (W : ∀ n, Fin (M n) → Fin (M (n + 1)) → Fin (q n) → Fin (q n) → R) :
    ∃ A', applyOpMPO N A k m W = some A' ∧ ∀ s : Cfg q N,
      psi A' (by rw [h0, hM 0 (by omega)]) (by rw [hN, hM N (by omega)]) s
        = ∑ t, mpoOp k m (hM 0 (by omega)) (hM N (by omega)) W s t * psi A h0 hN t := by
  rw [applyOpMPO, if_pos ⟨hkm, hM k (by omega), hM _ (by omega)⟩]
  refine ⟨_, rfl, fun s => ?_⟩
  refine Eq.trans ?_ (psi_mpoT (mpoWindow k m W) A h0 hN (hM 0 (by omega)) (hM N (by omega)) s)
  congr 1
  funext n p
  rw [mpoT]
  split
  · next hn =>
    congr 1
    funext a b s t
    rw [mpoWindow, if_pos hn]
  · next hn =>
    ext I J
    rw [fin_eq_flat (hM n (by omega)) I, fin_eq_flat (hM (n + 1) (by omega)) J,
      applyMPOLocal_apply]
    simp [mpoWindow, hn]

/-- C13: a window that leaves the chain raises. -/
theorem C13_apply_op_MPO_raises (A : Tensors R q D) (k m : ℕ)
    (W : ∀ n, Fin (M n) → Fin (M (n + 1)) → Fin (q n) → Fin (q n) → R)
    (h : N < k + m) : applyOpMPO N A k m W = none := by
  rw [applyOpMPO, if_neg (by omega)]

/-- C13: `expect_MPO` is the overlap of the state with the one `apply_op_MPO` makes of
it. -/
theorem C13_consistent (S : MPS R q D) (h : UpToDate N S.A S.l S.r) (h0 : D 0 = 1)
    (hN : D N = 1) (k m : ℕ) (hkm : k + m ≤ N) (hM : ∀ n, n ≤ k ∨ k + m ≤ n → M n = 1)
    (W : ∀ n, Fin (M n) → Fin (M (n + 1)) → Fin (q n) → Fin (q n) → R) :
    ∃ A', applyOpMPO N S.A k m W = some A' ∧ expectMPO N S k m W
      = some (braket (psi S.A h0 hN)
        (psi (N := N) A' (by rw [h0, hM 0 (by omega)]) (by rw [hN, hM N (by omega)]))) := by
  obtain ⟨A', h1, h2⟩ := C13_apply_op_MPO S.A h0 hN k m hkm hM W
  refine ⟨A', h1, ?_⟩
  rw [C08_expect_MPO S h h0 hN k m hkm hM, braket, matElem]
  congr 1
  refine Finset.sum_congr rfl fun s _ => ?_
  rw [h2, Finset.mul_sum]
  refine Finset.sum_congr rfl fun t _ => ?_
  rw [mul_assoc]

example (W) := C13_apply_op_MPO (N := 3) (M := fun n => if n = 2 then 4 else 1) Ex.A
  rfl rfl 1 2 (by omega) (fun n hn => if_neg (by omega)) W

end EvoMPS
