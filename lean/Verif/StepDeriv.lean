import Verif.StepLemmas
import Mathlib.Analysis.Calculus.Deriv.Mul
import Mathlib.Analysis.Calculus.Deriv.Add
import Mathlib.Analysis.Calculus.Deriv.Star
import Mathlib.Analysis.Complex.RealDeriv

/-!
# Derivative of the state along a step (helper lemmas)
-/

namespace EvoMPS

open Matrix

section
variable {q D : ℕ → ℕ} {N : ℕ}

theorem amp_hasDerivAt (A : Tensors ℂ q D) (b : ∀ k, Ten ℂ (q k) (D k) (D (k + 1))) (n : ℕ)
    (s : Cfg q n) (i : Fin (D 0)) (j : Fin (D n)) :
    HasDerivAt (fun t : ℂ => amp (fun k => A k - t • b k) n s i j)
      (-∑ k ∈ Finset.range n, amp (Function.update A k (b k)) n s i j) 0 := by
  induction n with
  | zero =>
    simp only [amp, Finset.range_zero, Finset.sum_empty, neg_zero]
    exact hasDerivAt_const _ _
  | succ n ih =>
    have e0 : (fun k => A k - (0 : ℂ) • b k) = A := by funext k; simp
    have h1 : ∀ c, HasDerivAt (fun t : ℂ => amp (fun k => A k - t • b k) n (fun i => s i.castSucc) i c
          * (A n (s (Fin.last n)) c j - t * b n (s (Fin.last n)) c j))
        (-(∑ k ∈ Finset.range n, amp (Function.update A k (b k)) n (fun i => s i.castSucc) i c)
            * A n (s (Fin.last n)) c j
          + amp A n (fun i => s i.castSucc) i c * (- b n (s (Fin.last n)) c j)) 0 := by
      intro c
      have h2 : HasDerivAt (fun t : ℂ => A n (s (Fin.last n)) c j - t * b n (s (Fin.last n)) c j)
          (- b n (s (Fin.last n)) c j) 0 := by
        have := ((hasDerivAt_id (0 : ℂ)).mul_const (b n (s (Fin.last n)) c j)).const_sub
          (A n (s (Fin.last n)) c j)
        simpa using this
      have := (ih (fun i => s i.castSucc) c).fun_mul h2
      refine this.congr_deriv ?_
      rw [e0, zero_mul, sub_zero]
    have h3 := HasDerivAt.fun_sum (u := Finset.univ) fun c (_ : c ∈ Finset.univ) => h1 c
    have e1 : (fun t : ℂ => amp (fun k => A k - t • b k) (n + 1) s i j)
        = fun t => ∑ c, amp (fun k => A k - t • b k) n (fun i => s i.castSucc) i c
          * (A n (s (Fin.last n)) c j - t * b n (s (Fin.last n)) c j) := by
      funext t
      rw [amp, Matrix.mul_apply]
      rfl
    rw [e1]
    refine h3.congr_deriv ?_
    symm
    rw [Finset.sum_range_succ, Finset.sum_add_distrib, neg_add]
    congr 1
    · have : ∀ k ∈ Finset.range n, amp (Function.update A k (b k)) (n + 1) s i j
          = ∑ c, amp (Function.update A k (b k)) n (fun i => s i.castSucc) i c
            * A n (s (Fin.last n)) c j := by
        intro k hk
        rw [Finset.mem_range] at hk
        rw [amp, Matrix.mul_apply, Function.update_of_ne (by omega)]
      rw [Finset.sum_congr rfl this, Finset.sum_comm, ← Finset.sum_neg_distrib]
      refine Finset.sum_congr rfl fun c _ => ?_
      rw [neg_mul, Finset.sum_mul]
    · rw [amp, Matrix.mul_apply, Function.update_self,
        amp_congr (B := A) fun m hm => Function.update_of_ne (by omega) _ _, ← Finset.sum_neg_distrib]
      refine Finset.sum_congr rfl fun c _ => ?_
      rw [mul_neg]

/-- The derivative of the state along a step is minus the tangent vector. -/
theorem psi_hasDerivAt (A : Tensors ℂ q D) (h0 : D 0 = 1) (hN : D N = 1) (B : BList q D) (s : Cfg q N) :
    HasDerivAt (fun t : ℂ => psi (moved A t B) h0 hN s) (-tangent A h0 hN B s) 0 := by
  have e1 : ∀ t : ℂ, moved A t B = fun k => A k - t • (B k).getD 0 := by
    intro t
    funext k
    cases h : B k <;> simp [moved, h]
  simp only [e1]
  have h := amp_hasDerivAt A (fun k => (B k).getD 0) N s ⟨0, by omega⟩ ⟨0, by omega⟩
  refine h.congr_deriv ?_
  rw [neg_inj]
  symm
  refine Finset.sum_congr rfl fun k hk => ?_
  rw [Finset.mem_range] at hk
  cases B k with
  | none => exact (oneSite_zero A h0 hN hk s).symm
  | some b => rfl

/-- The derivative of a matrix element along a step of real length. -/
theorem matElem_hasDerivAt (A : Tensors ℂ q D) (h0 : D 0 = 1) (hN : D N = 1) (B : BList q D)
    (O : Cfg q N → Cfg q N → ℂ) :
    HasDerivAt (fun t : ℝ => matElem (psi (moved A t B) h0 hN) O (psi (moved A t B) h0 hN))
      (-(matElem (tangent A h0 hN B) O (psi A h0 hN) + matElem (psi A h0 hN) O (tangent A h0 hN B))) 0 := by
  have e0 : moved A ((0 : ℝ) : ℂ) B = A := by
    funext k
    cases h : B k <;> simp [moved, h]
  have h1 : ∀ s, HasDerivAt (fun t : ℝ => psi (moved A t B) h0 hN s) (-tangent A h0 hN B s) 0 := by
    intro s
    have := psi_hasDerivAt A h0 hN B s
    rw [← Complex.ofReal_zero] at this
    exact this.comp_ofReal
  have h2 : ∀ s t', HasDerivAt (fun t : ℝ => star (psi (moved A t B) h0 hN s) * O s t'
        * psi (moved A t B) h0 hN t')
      (star (-tangent A h0 hN B s) * O s t' * psi A h0 hN t'
        + star (psi A h0 hN s) * O s t' * (-tangent A h0 hN B t')) 0 := by
    intro s t'
    have := ((h1 s).star.mul_const (O s t')).fun_mul (h1 t')
    rw [e0] at this
    exact this
  have h3 := HasDerivAt.fun_sum (u := Finset.univ) fun s (_ : s ∈ Finset.univ) =>
    HasDerivAt.fun_sum (u := Finset.univ) fun t' (_ : t' ∈ Finset.univ) => h2 s t'
  refine h3.congr_deriv ?_
  simp only [matElem, Finset.sum_add_distrib, star_neg, neg_mul, mul_neg, Finset.sum_neg_distrib]
  ring

end

end EvoMPS
