import Verif.SwStepSpec
import Verif.SwGradSpec
import Verif.SwOverlapSpec
import Verif.TangentOverlap
import Verif.StepDeriv
import Mathlib.Analysis.Calculus.Deriv.Star
import Mathlib.Analysis.Complex.RealDeriv

/-!
# Time steps of sandwich states: the norm to first order
-/

namespace EvoMPS

open Matrix

section
variable {q D : ℕ → ℕ}

theorem commonInner_mixL (A B : Tensors ℂ q D) (l : Matrix (Fin (D 0)) (Fin (D 0)) ℂ) (N : ℕ) (r : Matrix (Fin (D N)) (Fin (D N)) ℂ) :
    commonInner l r (amp A N) (amp B N) = (mixL B A l N * r).trace := by
  rw [mixL_amp, Matrix.sum_mul, trace_sum, commonInner]
  refine Finset.sum_congr rfl fun s _ => ?_
  rw [trace_mul_comm _ ((amp B N s)ᴴ)]
  simp only [Matrix.mul_assoc]

theorem mixL_move (A B : Tensors ℂ q D) (x : Matrix (Fin (D 0)) (Fin (D 0)) ℂ) (r : Envs ℂ D) (k N : ℕ)
    (hr : ∀ n, k ≤ n → n < N → r n = ∑ s, A n s * r (n + 1) * (A n s)ᴴ) (hB : ∀ n, k ≤ n → n < N → B n = A n) (h : k ≤ N) :
    (mixL B A x N * r N).trace = (mixL B A x k * r k).trace := by
  induction N, h using Nat.le_induction with
  | base => rfl
  | succ n hn ih =>
    rw [← ih (fun m h1 h2 => hr m h1 (by omega)) fun m h1 h2 => hB m h1 (by omega), mixL, hr n hn (by omega), Matrix.sum_mul, trace_sum,
      Matrix.mul_sum, trace_sum]
    refine Finset.sum_congr rfl fun s _ => ?_
    rw [hB n hn (by omega), Matrix.mul_assoc, Matrix.mul_assoc, trace_mul_comm]
    simp only [Matrix.mul_assoc]

/-- The inner product of the state and a state with one tensor replaced. -/
theorem commonInner_single (A : Tensors ℂ q D) (l r : Envs ℂ D) (N : ℕ) (hl : ∀ n < N, l (n + 1) = ∑ s, (A n s)ᴴ * l n * A n s)
    (hr : ∀ n < N, r n = ∑ s, A n s * r (n + 1) * (A n s)ᴴ) (k : ℕ) (hk : k < N) (b : Ten ℂ (q k) (D k) (D (k + 1))) :
    commonInner (l 0) (r N) (amp A N) (amp (Function.update A k b) N) = ∑ s, (l k * A k s * r (k + 1) * (b s)ᴴ).trace := by
  have e : ∀ n ≤ k, mixL (Function.update A k b) A (l 0) n = l n := by
    intro n hn
    induction n with
    | zero => rfl
    | succ n ih =>
      rw [mixL, ih (by omega), hl n (by omega), Function.update_of_ne (by omega)]
  rw [commonInner_mixL, mixL_move A _ (l 0) r (k + 1) N (fun n _ h => hr n h) (fun n h _ => Function.update_of_ne (by omega) _ _) hk,
    mixL, e k le_rfl, Function.update_self, Matrix.sum_mul, trace_sum]
  refine Finset.sum_congr rfl fun s _ => ?_
  rw [trace_mul_comm _ ((b s)ᴴ)]
  simp only [Matrix.mul_assoc]

theorem commonInner_conj {ι : Type*} [Fintype ι] {a b : ℕ} {l : Matrix (Fin a) (Fin a) ℂ} {r : Matrix (Fin b) (Fin b) ℂ}
    (hl : lᴴ = l) (hr : rᴴ = r) (M M' : ι → Matrix (Fin a) (Fin b) ℂ) : commonInner l r M' M = star (commonInner l r M M') := by
  rw [commonInner, commonInner, star_sum]
  refine Finset.sum_congr rfl fun s _ => ?_
  rw [← trace_conjTranspose, conjTranspose_mul, conjTranspose_conjTranspose, conjTranspose_mul, conjTranspose_mul, hl, hr,
    ← Matrix.mul_assoc r, ← Matrix.mul_assoc (M' s), trace_mul_comm _ l]
  simp only [Matrix.mul_assoc]

theorem commonInner_hasDerivAt {ι : Type*} [Fintype ι] {a b : ℕ} (l : Matrix (Fin a) (Fin a) ℂ) (r : Matrix (Fin b) (Fin b) ℂ)
    (M : ℝ → ι → Matrix (Fin a) (Fin b) ℂ) (M' : ι → Matrix (Fin a) (Fin b) ℂ)
    (h : ∀ s i j, HasDerivAt (fun t => M t s i j) (M' s i j) 0) :
    HasDerivAt (fun t => commonInner l r (M t) (M t)) (commonInner l r M' (M 0) + commonInner l r (M 0) M') 0 := by
  have e : ∀ X Y : ι → Matrix (Fin a) (Fin b) ℂ, commonInner l r X Y
      = ∑ s, ∑ i, ∑ j, ∑ c, ∑ d, l i d * X s d c * r c j * star (Y s i j) := by
    intro X Y
    rw [commonInner]
    refine Finset.sum_congr rfl fun s _ => ?_
    simp only [trace, diag_apply, mul_apply, conjTranspose_apply, Finset.sum_mul]
  simp only [e]
  rw [← Finset.sum_add_distrib]
  refine HasDerivAt.fun_sum fun s _ => ?_
  rw [← Finset.sum_add_distrib]
  refine HasDerivAt.fun_sum fun i _ => ?_
  rw [← Finset.sum_add_distrib]
  refine HasDerivAt.fun_sum fun j _ => ?_
  rw [← Finset.sum_add_distrib]
  refine HasDerivAt.fun_sum fun c _ => ?_
  rw [← Finset.sum_add_distrib]
  refine HasDerivAt.fun_sum fun d _ => ?_
  exact (((h s d c).const_mul (l i d)).mul_const (r c j)).mul (h s i j).star

end

end EvoMPS
