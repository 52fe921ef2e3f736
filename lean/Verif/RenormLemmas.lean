import Verif.Renorm
import Verif.Inner
import Mathlib.Data.Complex.BigOperators

/-!
# Normalisation (helper lemmas)
-/

set_option linter.unusedSectionVars false

namespace EvoMPS

open Matrix

section
variable {R : Type*} [CommRing R] [StarRing R] {q D : ℕ → ℕ} {N : ℕ}

/-- The left half of `UpToDate`. -/
structure LOk (N : ℕ) (A : Tensors R q D) (l : Envs R D) : Prop where
  l_zero : l 0 = 1
  l_succ : ∀ n < N, l (n + 1) = ∑ s, (A n s)ᴴ * l n * A n s

theorem LOk.l_eq {A : Tensors R q D} {l : Envs R D} (h : LOk N A l) :
    ∀ n ≤ N, l n = mixL A A 1 n
  | 0, _ => h.l_zero
  | n + 1, hn => by rw [h.l_succ n (by omega), mixL, h.l_eq n (by omega)]

theorem fin_sum_one {m : ℕ} (hm : m = 1) (f : Fin m → R) : ∑ i, f i = f ⟨0, by omega⟩ := by
  subst hm; simp

theorem LOk.last_entry {A : Tensors R q D} {l : Envs R D} (h : LOk N A l) (h0 : D 0 = 1)
    (hN : D N = 1) :
    l N ⟨0, by omega⟩ ⟨0, by omega⟩ = braket (psi A h0 hN) (psi (N := N) A h0 hN) := by
  rw [h.l_eq N le_rfl, mixL_amp, Matrix.sum_apply, braket]
  refine Finset.sum_congr rfl fun s _ => ?_
  rw [Matrix.mul_one, Matrix.mul_apply, fin_sum_one h0, Matrix.conjTranspose_apply]
  rfl

/-- Scaling the last tensor. -/
def scaleLast (M : ℕ) (G : R) (A : Tensors R q D) : Tensors R q D :=
  Function.update A M (fun s => G • A M s)

theorem psi_scaleLast (M : ℕ) (G : R) (A : Tensors R q D) (h0 : D 0 = 1) (hN : D (M + 1) = 1)
    (s : Cfg q (M + 1)) : psi (scaleLast M G A) h0 hN s = G * psi A h0 hN s := by
  rw [psi, psi, amp, amp, scaleLast, Function.update_self, Matrix.mul_smul, Matrix.smul_apply,
    smul_eq_mul, amp_congr (B := A) (fun n hn => Function.update_of_ne (by omega) _ _)]

end

variable {q D : ℕ → ℕ} {N : ℕ}

theorem braket_self_re (ψ : Cfg q N → ℂ) :
    braket ψ ψ = (((braket ψ ψ).re : ℝ) : ℂ) ∧ 0 ≤ (braket ψ ψ).re := by
  have e : braket ψ ψ = ((∑ s, Complex.normSq (ψ s) : ℝ) : ℂ) := by
    rw [braket, Complex.ofReal_sum]
    refine Finset.sum_congr rfl fun s _ => ?_
    rw [Complex.normSq_eq_conj_mul_self]; rfl
  rw [e, Complex.ofReal_re]
  exact ⟨rfl, Finset.sum_nonneg fun s _ => Complex.normSq_nonneg _⟩

theorem braket_smul (c : ℂ) (ψ : Cfg q N → ℂ) :
    braket (fun s => c * ψ s) (fun s => c * ψ s) = star c * c * braket ψ ψ := by
  rw [braket, braket, Finset.mul_sum]
  refine Finset.sum_congr rfl fun s _ => ?_
  rw [star_mul']; ring

section
variable (M : ℕ) (hN : D (M + 1) = 1) (S : MPS ℂ q D) (upd : Bool)

theorem simpleRenorm_A : (simpleRenorm (M + 1) hN S upd).A
    = scaleLast M ((1 / Real.sqrt (S.l (M + 1) ⟨0, by omega⟩ ⟨0, by omega⟩).re : ℝ) : ℂ) S.A :=
  rfl

/-- `simple_renorm` keeps the left environments consistent. -/
theorem simpleRenorm_LOk (hpos : 0 < (S.l (M + 1) ⟨0, by omega⟩ ⟨0, by omega⟩).re)
    (h : LOk (M + 1) S.A S.l) :
    LOk (M + 1) (simpleRenorm (M + 1) hN S upd).A (simpleRenorm (M + 1) hN S upd).l := by
  set x := (S.l (M + 1) ⟨0, by omega⟩ ⟨0, by omega⟩).re with hx
  have hl : (simpleRenorm (M + 1) hN S upd).l
    = Function.update S.l (M + 1) (((1 / x : ℝ) : ℂ) • S.l (M + 1)) := rfl
  have hG : ((1 / Real.sqrt x : ℝ) : ℂ) * ((1 / Real.sqrt x : ℝ) : ℂ) = ((1 / x : ℝ) : ℂ) := by
    rw [← Complex.ofReal_mul]
    congr 1
    rw [div_mul_div_comm, Real.mul_self_sqrt hpos.le, one_mul]
  rw [simpleRenorm_A, hl, ← hx]
  clear_value x
  refine ⟨?_, fun n hn => ?_⟩
  · rw [Function.update_of_ne (by omega), h.l_zero]
  · rw [Function.update_of_ne (by omega) _ S.l (a' := M + 1) (a := n)]
    by_cases hnM : n = M
    · subst hnM
      rw [Function.update_self, h.l_succ n hn, Finset.smul_sum]
      refine Finset.sum_congr rfl fun s _ => ?_
      rw [scaleLast, Function.update_self, Matrix.conjTranspose_smul, Matrix.smul_mul,
        Matrix.smul_mul, Matrix.mul_smul, smul_smul]
      rw [← hG]
      congr 2
      exact (Complex.conj_ofReal _).symm
    · rw [Function.update_of_ne (by omega), h.l_succ n hn, scaleLast,
        Function.update_of_ne (by omega)]

/-- The new state is the old one divided by its norm. -/
theorem simpleRenorm_psi (h0 : D 0 = 1)
    (hpos : 0 < (braket (psi S.A h0 hN) (psi (N := M + 1) S.A h0 hN)).re)
    (h : LOk (M + 1) S.A S.l) :
    (∀ s, psi (simpleRenorm (M + 1) hN S upd).A h0 hN s
      = ((1 / Real.sqrt (braket (psi S.A h0 hN) (psi (N := M + 1) S.A h0 hN)).re : ℝ) : ℂ)
        * psi S.A h0 hN s) ∧
    braket (psi (simpleRenorm (M + 1) hN S upd).A h0 hN)
      (psi (N := M + 1) (simpleRenorm (M + 1) hN S upd).A h0 hN) = 1 := by
  have e : ∀ s, psi (simpleRenorm (M + 1) hN S upd).A h0 hN s
      = ((1 / Real.sqrt (braket (psi S.A h0 hN) (psi (N := M + 1) S.A h0 hN)).re : ℝ) : ℂ)
        * psi S.A h0 hN s := by
    intro s
    rw [simpleRenorm_A, psi_scaleLast, h.last_entry h0 hN]
  refine ⟨e, ?_⟩
  rw [show psi (simpleRenorm (M + 1) hN S upd).A h0 hN = _ from funext e, braket_smul]
  set x := (braket (psi S.A h0 hN) (psi (N := M + 1) S.A h0 hN)).re with hx
  rw [(braket_self_re _).1, ← hx]
  have : star (((1 / Real.sqrt x : ℝ) : ℂ)) = ((1 / Real.sqrt x : ℝ) : ℂ) :=
    Complex.conj_ofReal _
  rw [this, ← Complex.ofReal_mul, ← Complex.ofReal_mul, div_mul_div_comm,
    Real.mul_self_sqrt hpos.le]
  rw [one_mul, one_div, inv_mul_cancel₀ hpos.ne', Complex.ofReal_one]

/-- With `update_r` the right environments stay consistent as well. -/
theorem simpleRenorm_r (hpos : 0 < (S.l (M + 1) ⟨0, by omega⟩ ⟨0, by omega⟩).re)
    (h1 : S.r (M + 1) = 1) (h2 : ∀ n < M + 1, S.r n = ∑ s, S.A n s * S.r (n + 1) * (S.A n s)ᴴ) :
    (simpleRenorm (M + 1) hN S true).r (M + 1) = 1 ∧
    ∀ n < M + 1, (simpleRenorm (M + 1) hN S true).r n
      = ∑ s, (simpleRenorm (M + 1) hN S true).A n s * (simpleRenorm (M + 1) hN S true).r (n + 1)
        * ((simpleRenorm (M + 1) hN S true).A n s)ᴴ := by
  set x := (S.l (M + 1) ⟨0, by omega⟩ ⟨0, by omega⟩).re with hx
  have hr : (simpleRenorm (M + 1) hN S true).r
    = fun n => if n < M + 1 then ((1 / x : ℝ) : ℂ) • S.r n else S.r n := rfl
  have hG : ((1 / Real.sqrt x : ℝ) : ℂ) * ((1 / Real.sqrt x : ℝ) : ℂ) = ((1 / x : ℝ) : ℂ) := by
    rw [← Complex.ofReal_mul]
    congr 1
    rw [div_mul_div_comm, Real.mul_self_sqrt hpos.le, one_mul]
  rw [hr, simpleRenorm_A, ← hx]
  clear_value x
  refine ⟨by simp only [lt_irrefl, if_false]; exact h1, fun n hn => ?_⟩
  simp only [if_pos hn]
  rw [h2 n hn, Finset.smul_sum]
  refine Finset.sum_congr rfl fun s _ => ?_
  by_cases hnM : n = M
  · subst hnM
    rw [if_neg (by omega), scaleLast, Function.update_self, Matrix.conjTranspose_smul,
      Matrix.smul_mul, Matrix.smul_mul, Matrix.mul_smul, smul_smul, ← hG]
    congr 2
    exact (Complex.conj_ofReal _).symm
  · rw [if_pos (by omega), scaleLast, Function.update_of_ne hnM, Matrix.mul_smul, Matrix.smul_mul]

end

end EvoMPS
