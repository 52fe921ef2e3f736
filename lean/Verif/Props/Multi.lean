import Verif.MultiLemmas
import Mathlib.NumberTheory.Zsqrtd.GaussianInt

/-!
# Property C15: the multi-tensor contraction

`epsRSucc` and `Regroup` are defined at the top of `Verif/MultiLemmas.lean`.
-/

set_option linter.unusedSectionVars false

namespace EvoMPS

open Matrix

variable {R : Type*} [CommRing R] [StarRing R]

/-- C15: on lists with equal site dimensions the multi-tensor map is the composition of
the single-tensor maps. -/
theorem C15_multi_eq_successive {qs : List ℕ} {a b a' b' : ℕ} (x : Matrix (Fin b) (Fin b') R)
    (A1 : Chain R qs a b) (A2 : Chain R qs a' b') :
    epsRMulti x A1 A2 = epsRSucc x A1 A2 := by
  rw [epsRMulti_sum]
  induction A1 generalizing a' with
  | nil D => cases A2 with
    | nil D' =>
      simp only [prodAt, epsRSucc, Matrix.one_mul, Matrix.conjTranspose_one, Matrix.mul_one]
      exact Fin.sum_univ_one _
  | @cons q Dl D Dr qs A C ih =>
    cases A2 with
    | @cons _ _ D' _ _ B C' =>
      rw [epsRSucc, ← ih]
      simp only [Matrix.mul_sum, Matrix.sum_mul]
      have hS : (q :: qs).prod = q * qs.prod := by simp
      rw [← (finCongr hS.symm).sum_comp, sum_flat]
      refine Finset.sum_congr rfl fun i _ => Finset.sum_congr rfl fun j _ => ?_
      have h : 0 < qs.prod := by have := j.isLt; omega
      have hd : (i.val * qs.prod + j.val) / qs.prod % q = i.val := by
        rw [Nat.add_comm, Nat.add_mul_div_right _ _ h, Nat.div_eq_of_lt j.isLt, Nat.zero_add,
          Nat.mod_eq_of_lt i.isLt]
      have hv : (finCongr hS.symm (flat i j)).val = i.val * qs.prod + j.val := rfl
      rw [hv]
      simp only [prodAt, prodAt_snd, hd, prodAt_mod, tenAt_val, Matrix.conjTranspose_mul,
        Matrix.mul_assoc]

/-- C15: lists that group the same sites differently give the same result. -/
theorem C15_multi_regroup {qs qs' ps ps' : List ℕ} {a b a' b' : ℕ}
    (x : Matrix (Fin b) (Fin b') R) {A1 : Chain R qs a b} {A1' : Chain R qs' a b}
    {A2 : Chain R ps a' b'} {A2' : Chain R ps' a' b'} (h1 : Regroup A1 A1')
    (h2 : Regroup A2 A2') (hdim : qs.prod = ps.prod) :
    epsRMulti x A1 A2 = epsRMulti x A1' A2' := by
  rw [epsRMulti_sum, epsRMulti_sum, ← (finCongr h1.prod_eq.1).sum_comp]
  refine Finset.sum_congr rfl fun s _ => ?_
  have hs := s.isLt
  simp only [finCongr_apply, Fin.val_cast]
  rw [h1.prod_eq.2 s.val hs, h2.prod_eq.2 s.val (by omega)]

/-- C15: in particular a two-site operator applied on the ket, given as one two-site
tensor, against two one-site tensors. -/
theorem C15_multi_two_site {q q' a c a' b' c' : ℕ} (x : Matrix (Fin c) (Fin c') R)
    (C12 : Ten2 R q q' a c) (A3 : Ten R q a' b') (A4 : Ten R q' b' c') :
    epsRMulti x (.cons (mergeSites C12) (.nil c)) (.cons A3 (.cons A4 (.nil c')))
      = ∑ s, ∑ t, C12 s t * x * (A3 s * A4 t)ᴴ := by
  rw [C15_multi_regroup x (.refl _) (.merge A3 A4 (.nil c')) (by simp),
    C15_multi_eq_successive, epsRSucc, epsRSucc, sum_flat]
  simp [mergeSites]

/-- Two groupings of three sites, with different dimensions. -/
example (x : Matrix (Fin 2) (Fin 1) GaussianInt) (A : Ten GaussianInt 2 1 2)
    (B : Ten GaussianInt 3 2 2) (C : Ten GaussianInt 4 2 2)
    (A2 : Chain GaussianInt [2, 3, 4] 1 1) :=
  C15_multi_regroup x (.trans (.merge A B (.cons C (.nil 2))) (.refl _)) (.refl A2) (by simp)

end EvoMPS
