import Verif.Correl

/-!
# Scalar products of two chains, applying an operator (helper lemmas)
-/

set_option linter.unusedSectionVars false

namespace EvoMPS

open Matrix

variable {R : Type*} [CommRing R] [StarRing R] {q D D' : ℕ → ℕ} {N : ℕ}

theorem braket_conj (φ ψ : Cfg q N → R) : star (braket φ ψ) = braket ψ φ := by
  rw [braket, braket, star_sum]
  refine Finset.sum_congr rfl fun s _ => ?_
  rw [star_mul', star_star, mul_comm]

theorem adot_mixL_transport' (A : Tensors R q D) (B : Tensors R q D')
    (x : Matrix (Fin (D 0)) (Fin (D' 0)) R)
    (E : ∀ n, Matrix (Fin (D n)) (Fin (D' n)) R) (b : ℕ)
    (hE : ∀ n < b, E n = epsR (E (n + 1)) (A n) (B n)) :
    adot x (E 0) = adot (mixL A B x b) (E b) := by
  induction b with
  | zero => rfl
  | succ b ih =>
    rw [ih (fun n hn => hE n (by omega)), hE b (by omega), adot_mixL_step]

/-- Value of the loop of `inner`. -/
theorem inner_value (A : Tensors R q D) (B : Tensors R q D') (h0 : D 0 = 1) (h0' : D' 0 = 1)
    (hN : D N = 1) (hN' : D' N = 1) (E : ∀ n, Matrix (Fin (D n)) (Fin (D' n)) R)
    (hE : ∀ n < N, E n = epsR (E (n + 1)) (A n) (B n))
    (hlast : E N ⟨0, by omega⟩ ⟨0, by omega⟩ = 1) :
    E 0 ⟨0, by omega⟩ ⟨0, by omega⟩ = braket (psi B h0' hN') (psi (N := N) A h0 hN) := by
  have u0 : ∀ i : Fin (D 0), i = ⟨0, by omega⟩ := fun i => Fin.ext (by have := i.2; omega)
  have u0' : ∀ i : Fin (D' 0), i = ⟨0, by omega⟩ := fun i => Fin.ext (by have := i.2; omega)
  have uN : ∀ i : Fin (D N), i = ⟨0, by omega⟩ := fun i => Fin.ext (by have := i.2; omega)
  have uN' : ∀ i : Fin (D' N), i = ⟨0, by omega⟩ := fun i => Fin.ext (by have := i.2; omega)
  have sum1 : ∀ {m : ℕ} (hm : m = 1) (f : Fin m → R), ∑ i, f i = f ⟨0, by omega⟩ := by
    intro m hm f; subst hm; simp
  have key := adot_mixL_transport' A B (Matrix.of fun _ _ => 1) E N hE
  simp only [adot, forSum_eq] at key
  rw [sum1 h0, sum1 hN, sum1 h0', sum1 hN', Matrix.of_apply, star_one, one_mul, hlast, mul_one] at key
  rw [key, mixL_amp, Matrix.sum_apply, star_sum, braket]
  refine Finset.sum_congr rfl fun s _ => ?_
  rw [Matrix.mul_apply, sum1 h0', Matrix.mul_apply, sum1 h0, Matrix.conjTranspose_apply]
  simp only [Matrix.of_apply, mul_one, star_mul', star_star, psi]
  rw [mul_comm]

/-- Sum over all configurations that agree with `s` away from site `k`. -/
theorem sum_siteOp (k : ℕ) (hk : k < N) (op : Fin (q k) → Fin (q k) → R) (s : Cfg q N)
    (f : Cfg q N → R) :
    ∑ t, siteOp k hk op s t * f t
      = ∑ u : Fin (q k), op (s ⟨k, hk⟩) u * f (Function.update s ⟨k, hk⟩ u) := by
  symm
  refine Finset.sum_of_injOn (fun u : Fin (q k) => Function.update s ⟨k, hk⟩ u) ?_ ?_ ?_ ?_
  · intro u _ v _ huv
    have := congrFun huv ⟨k, hk⟩
    simpa using this
  · intro u _; simp
  · intro t _ ht
    rw [siteOp]
    split_ifs with h
    · exfalso
      refine ht ⟨t ⟨k, hk⟩, by simp, ?_⟩
      funext i
      by_cases hi : i = ⟨k, hk⟩
      · subst hi; simp
      · simp only []
        rw [Function.update_of_ne hi]
        exact h i (fun hh => hi (Fin.ext hh))
    · simp
  · intro u _
    rw [siteOp, if_pos]
    · simp
    · intro i hi
      rw [Function.update_of_ne]
      exact fun hh => hi (congrArg Fin.val hh)

end EvoMPS
