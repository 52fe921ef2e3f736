import Verif.Chain

/-!
# Grouping of sites: specification of C15 and helper lemmas
-/

set_option linter.unusedSectionVars false

namespace EvoMPS

open Matrix

variable {R : Type*} [CommRing R] [StarRing R]

/-! ## Specification -/

/-- The single-tensor maps applied one after the other, the last tensors first. -/
def epsRSucc : {qs : List ℕ} → {a b a' b' : ℕ} → Matrix (Fin b) (Fin b') R →
    Chain R qs a b → Chain R qs a' b' → Matrix (Fin a) (Fin a') R
  | _, _, _, _, _, x, .nil _, .nil _ => x
  | _, _, _, _, _, x, .cons A C, .cons B C' => ∑ s, A s * epsRSucc x C C' * (B s)ᴴ

/-- Two lists that group the same sites differently: neighbouring tensors may be replaced
by their product with a row-major joint site index. -/
inductive Regroup : {qs qs' : List ℕ} → {a b : ℕ} → Chain R qs a b → Chain R qs' a b → Prop
  | refl {qs : List ℕ} {a b : ℕ} (C : Chain R qs a b) : Regroup C C
  | symm {qs qs' : List ℕ} {a b : ℕ} {C : Chain R qs a b} {C' : Chain R qs' a b} :
      Regroup C C' → Regroup C' C
  | trans {qs qs' qs'' : List ℕ} {a b : ℕ} {C : Chain R qs a b} {C' : Chain R qs' a b}
      {C'' : Chain R qs'' a b} : Regroup C C' → Regroup C' C'' → Regroup C C''
  | cons {qs qs' : List ℕ} {q a b c : ℕ} (A : Ten R q a b) {C : Chain R qs b c}
      {C' : Chain R qs' b c} : Regroup C C' → Regroup (.cons A C) (.cons A C')
  | merge {qs : List ℕ} {q q' a b c d : ℕ} (A : Ten R q a b) (B : Ten R q' b c)
      (C : Chain R qs c d) :
      Regroup (.cons A (.cons B C)) (.cons (mergeSites fun s t => A s * B t) C)

/-! ## Helper lemmas -/

theorem prodAt_snd {qs : List ℕ} {a b : ℕ} (C : Chain R qs a b) (s : ℕ) :
    (prodAt C s).2 = qs.prod := by
  induction C with
  | nil => rfl
  | cons A C ih => rw [prodAt]; simp only [ih, List.prod_cons]; ring

theorem prodAt_mod {qs : List ℕ} {a b : ℕ} (C : Chain R qs a b) (i s : ℕ) :
    (prodAt C (i * qs.prod + s)).1 = (prodAt C s).1 := by
  induction C generalizing i with
  | nil => rfl
  | @cons q Dl D Dr qs A C ih =>
    simp only [prodAt, prodAt_snd, List.prod_cons]
    have e : i * (q * qs.prod) = (i * q) * qs.prod := by ring
    rw [e, ih]
    rcases Nat.eq_zero_or_pos qs.prod with h | h
    · rw [h]; simp
    · congr 2
      rw [Nat.add_comm, Nat.add_mul_div_right _ _ h, Nat.add_mul_mod_self_right]

theorem tenAt_val {q a b : ℕ} (A : Ten R q a b) (i : Fin q) : tenAt A i.val = A i := by
  rw [tenAt, dif_pos i.isLt]

theorem epsRMulti_sum {qs qs' : List ℕ} {a b a' b' : ℕ} (x : Matrix (Fin b) (Fin b') R)
    (A1 : Chain R qs a b) (A2 : Chain R qs' a' b') :
    epsRMulti x A1 A2
      = ∑ s : Fin qs.prod, (prodAt A1 s.val).1 * x * ((prodAt A2 s.val).1)ᴴ := by
  simp only [epsRMulti, forSum_eq, Matrix.mul_assoc]
  rw [prodAt_snd]

theorem Regroup.prod_eq {qs qs' : List ℕ} {a b : ℕ} {C : Chain R qs a b} {C' : Chain R qs' a b}
    (h : Regroup C C') : qs.prod = qs'.prod ∧
      ∀ s < qs.prod, (prodAt C s).1 = (prodAt C' s).1 := by
  induction h with
  | refl C => exact ⟨rfl, fun _ _ => rfl⟩
  | symm _ ih => exact ⟨ih.1.symm, fun s hs => (ih.2 s (ih.1 ▸ hs)).symm⟩
  | trans _ _ ih1 ih2 =>
    exact ⟨ih1.1.trans ih2.1, fun s hs => (ih1.2 s hs).trans (ih2.2 s (ih1.1 ▸ hs))⟩
  | @cons qs qs' q a b c A C C' _ ih =>
    refine ⟨by simp [ih.1], fun s hs => ?_⟩
    rw [List.prod_cons] at hs
    have hpos : 0 < qs.prod := Nat.pos_of_ne_zero fun h => by simp [h] at hs
    have e : s = s / qs.prod * qs.prod + s % qs.prod := (Nat.div_add_mod' s _).symm
    have key : (prodAt C s).1 = (prodAt C' s).1 := by
      rw [e, prodAt_mod]
      conv_rhs => rw [ih.1, prodAt_mod]
      rw [ih.2 _ (Nat.mod_lt _ hpos), ih.1]
    simp only [prodAt, prodAt_snd, key, ih.1]
  | @merge qs q q' a b c d A B C =>
    refine ⟨by simp [Nat.mul_assoc], fun s hs => ?_⟩
    simp only [List.prod_cons] at hs
    simp only [prodAt, prodAt_snd]
    rw [← Matrix.mul_assoc]
    congr 1
    have hq : 0 < q := Nat.pos_of_ne_zero fun h => by simp [h] at hs
    have hq' : 0 < q' := Nat.pos_of_ne_zero fun h => by simp [h] at hs
    rw [tenAt, dif_pos (Nat.mod_lt _ hq), tenAt, dif_pos (Nat.mod_lt _ hq'), tenAt,
      dif_pos (Nat.mod_lt _ (Nat.mul_pos hq hq')), mergeSites]
    congr 2
    · apply Fin.ext
      simp only [Fin.divNat]
      rw [Nat.mul_comm q q', Nat.mod_mul_right_div_self, Nat.div_div_eq_div_mul]
    · apply Fin.ext
      simp only [Fin.modNat]
      rw [Nat.mod_mul_left_mod]

end EvoMPS
