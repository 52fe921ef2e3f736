import Verif.Inner
import Verif.Props.Example

/-!
# Properties C11, C12: inner products, applying a single-site operator
-/

set_option linter.unusedSectionVars false

namespace EvoMPS

open Matrix

variable {R : Type*} [CommRing R] [StarRing R] {q D D' : ℕ → ℕ} {N : ℕ}

/-! ## C11 -/

/-- C11: `a.inner(b) = ⟨b|a⟩` for chains with arbitrary, different bond dimensions.  Only
the last right environment of `a` is used; it is the identity in every state. -/
theorem C11_inner (S : MPS R q D) (S' : MPS R q D') (h0 : D 0 = 1) (h0' : D' 0 = 1)
    (hN : D N = 1) (hN' : D' N = 1) (hr : S.r N = 1) :
    inner N N h0 h0' (hN.trans hN'.symm) S S'
      = some (braket (psi S'.A h0' hN') (psi (N := N) S.A h0 hN)) := by
  rw [inner, if_neg (by simp)]
  obtain ⟨h1, h2⟩ := foldDown_spec (X := fun n => Matrix (Fin (D n)) (Fin (D' n)) R)
    (fun n x => epsR x (S.A n) (S'.A n))
    (Function.update 0 N ((S.r N).submatrix id (Fin.cast (hN.trans hN'.symm).symm))) 0 N
  rw [← inner_value S.A S'.A h0 h0' hN hN' _ (fun n hn => h2 n (by omega) (by omega))]
  rw [h1 N (by omega), Function.update_self, hr]
  rw [Matrix.submatrix_apply]
  exact Matrix.one_apply_eq _

/-- C11: different numbers of sites raise. -/
theorem C11_inner_raises (S : MPS R q D) (S' : MPS R q D') (N' : ℕ) (h0 : D 0 = 1)
    (h0' : D' 0 = 1) (hN : D N = D' N) (h : N ≠ N') : inner N N' h0 h0' hN S S' = none := by
  rw [inner, if_pos h]

/-- C11: exchanging the two states conjugates the result. -/
theorem C11_inner_conj (S : MPS R q D) (S' : MPS R q D') (h0 : D 0 = 1) (h0' : D' 0 = 1)
    (hN : D N = 1) (hN' : D' N = 1) (hr : S.r N = 1) (hr' : S'.r N = 1) :
    inner N N h0' h0 (hN'.trans hN.symm) S' S
      = (inner N N h0 h0' (hN.trans hN'.symm) S S').map star := by
  rw [C11_inner S S' h0 h0' hN hN' hr, C11_inner S' S h0' h0 hN' hN hr', Option.map_some,
    braket_conj]

example (S' : MPS GaussianInt Ex.q (fun _ => 1)) := C11_inner (N := 3) (D' := fun _ => 1)
  Ex.S S' rfl rfl rfl rfl Ex.upToDate.r_last

/-! ## C12 -/

section
variable [DecidableEq R]

/-- C12: the new amplitudes, for every site of the chain. -/
theorem C12_apply_op_1s (S : MPS R q D) (h0 : D 0 = 1) (hN : D N = 1) (k : ℕ) (hk : k < N)
    (op : Fin (q k) → Fin (q k) → R) :
    ∃ S', applyOp1s N S k op = some S' ∧
      (∀ s : Cfg q N, psi S'.A h0 hN s
        = ∑ t, op (s ⟨k, hk⟩) t * psi S.A h0 hN (Function.update s ⟨k, hk⟩ t)) ∧
      (∀ n, n ≠ k → S'.A n = S.A n) ∧ S'.l = S.l ∧ S'.r = S.r := by
  rw [applyOp1s, if_pos hk]
  refine ⟨_, rfl, fun s => ?_, fun n hn => ?_, rfl, rfl⟩
  · have e : (Function.update S.A k fun s => forSum (q k) fun t => op s t • S.A k t)
        = opT (at1 k op fun n => idOp (q n)) S.A := by
      funext n
      by_cases hn : n = k
      · subst hn
        rw [Function.update_self, opT_at S.A (op := op) (by rw [at1, Function.update_self])]
        funext s
        rw [forSum_eq]; rfl
      · rw [Function.update_of_ne hn, opT_id]
        rw [at1, Function.update_of_ne hn]
    simp only [e]
    rw [psi_opT, ← siteOp_eq k hk, sum_siteOp]
  · exact Function.update_of_ne hn _ _

/-- C12: sites outside the chain raise. -/
theorem C12_apply_op_1s_raises (S : MPS R q D) (k : ℕ) (hk : N ≤ k)
    (op : Fin (q k) → Fin (q k) → R) : applyOp1s N S k op = none := by
  rw [applyOp1s, if_neg (by omega)]

example (op) := C12_apply_op_1s (N := 3) Ex.S rfl rfl 1 (by omega) op

end

end EvoMPS
