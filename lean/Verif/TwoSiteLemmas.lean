import Verif.TwoSite

/-! # Loops of the two-site routines as finite sums (helper lemmas) -/

set_option linter.unusedSectionVars false

namespace EvoMPS

open Matrix

variable {R : Type*} [CommRing R] [StarRing R]
variable {q q' q'' a a' b b' c c' : ℕ}

section
variable [DecidableEq R]

theorem subres_eq {M : Type*} [AddCommMonoid M] [Module R M] (o : Fin q → Fin q' → R)
    (f : Fin q → Fin q' → M) :
    (List.finRange q).foldl (fun sub s =>
        (List.finRange q').foldl (fun sub t =>
          if o s t ≠ 0 then sub + o s t • f s t else sub) sub) 0
      = ∑ s, ∑ t, o s t • f s t := by
  rw [← foldl2_eq_sum]
  congr 1
  funext out s
  rw [foldl_ite_add (p := fun t => o s t ≠ 0)]
  intro t ht
  simp only [ne_eq, not_not] at ht
  simp [ht]

/-- The value all the right two-site routines should have. -/
theorem epsR2A_eq (x : Matrix (Fin c) (Fin c') R) (A1 : Ten R q a b) (A2 : Ten R q' b c)
    (A3 : Ten R q a' b') (A4 : Ten R q' b' c') (op : Op2 R q q') :
    epsR2A x A1 A2 A3 A4 op
      = ∑ u, ∑ v, (∑ s, ∑ t, op u v s t • (A1 s * A2 t)) * x * (A3 u * A4 v)ᴴ := by
  simp only [epsR2A, subres_eq, foldl2_eq_sum, Matrix.mul_assoc]

theorem epsR2AA12_eq (x : Matrix (Fin c) (Fin c') R) (AA12 : Ten2 R q q' a c)
    (A3 : Ten R q a' b') (A4 : Ten R q' b' c') (op : Op2 R q q') :
    epsR2AA12 x AA12 A3 A4 op
      = ∑ u, ∑ v, (∑ s, ∑ t, op u v s t • AA12 s t) * x * (A3 u * A4 v)ᴴ := by
  simp only [epsR2AA12, subres_eq, foldl2_eq_sum, Matrix.mul_assoc]

theorem epsR2Func_eq (x : Matrix (Fin c) (Fin c') R) (AA12 : Ten2 R q q' a c)
    (AA34 : Ten2 R q q' a' c') (op : Op2 R q q') :
    epsR2Func x AA12 AA34 op
      = ∑ u, ∑ v, (∑ s, ∑ t, op u v s t • AA12 s t) * x * (AA34 u v)ᴴ := by
  simp only [epsR2Func, subres_eq, foldl2_eq_sum, Matrix.mul_assoc]

/-- A one-hot two-site tensor. -/
def single2 (s : Fin q) (t : Fin q') (y : Matrix (Fin a) (Fin b) R) : Ten2 R q q' a b :=
  fun s' t' => if s' = s ∧ t' = t then y else 0

theorem addAt_eq (C : Ten2 R q q' a b) (s : Fin q) (t : Fin q') (y : Matrix (Fin a) (Fin b) R) :
    addAt C s t y = C + single2 s t y := by
  funext s' t'
  simp only [Pi.add_apply, addAt, single2]
  by_cases h : s' = s
  · subst h
    rw [Function.update_self]
    by_cases h' : t' = t
    · subst h'; simp
    · rw [Function.update_of_ne h']; simp [h']
  · rw [Function.update_of_ne h]; simp [h]

theorem single2_zero (s : Fin q) (t : Fin q') :
    single2 s t (0 : Matrix (Fin a) (Fin b) R) = 0 := by
  funext s' t'; simp [single2]

theorem calcCFuncAA_eq (op : Op2 R q q') (AA : Ten2 R q q' a c) (s : Fin q) (t : Fin q') :
    calcCFuncAA op AA s t = ∑ u, ∑ v, op s t u v • AA u v := by
  have h : calcCFuncAA op AA
      = ∑ u, ∑ v, ∑ s, ∑ t, single2 s t (op s t u v • AA u v) := by
    simp only [calcCFuncAA, addAt_eq]
    have e : ∀ (u : Fin q) (v : Fin q') (C : Ten2 R q q' a c),
        (List.finRange q).foldl (fun C s => (List.finRange q').foldl (fun C t =>
          if op s t u v ≠ 0 then C + single2 s t (op s t u v • AA u v) else C) C) C
        = C + ∑ s, ∑ t, single2 s t (op s t u v • AA u v) := by
      intro u v C
      have e1 : (fun (C : Ten2 R q q' a c) (s : Fin q) => (List.finRange q').foldl (fun C t =>
          if op s t u v ≠ 0 then C + single2 s t (op s t u v • AA u v) else C) C)
          = fun C s => C + ∑ t, single2 s t (op s t u v • AA u v) := by
        funext C s
        rw [foldl_ite_add (p := fun t => op s t u v ≠ 0), foldl_add_eq, sum_map_finRange]
        intro t ht
        simp only [ne_eq, not_not] at ht
        rw [ht, zero_smul, single2_zero]
      rw [e1, foldl_add_eq, sum_map_finRange]
    simp only [e]
    rw [foldl2_eq_sum]
  rw [h]
  simp only [Finset.sum_apply]
  refine Finset.sum_congr rfl fun u _ => Finset.sum_congr rfl fun v _ => ?_
  rw [Finset.sum_eq_single s, Finset.sum_eq_single t]
  · simp [single2]
  · intro t' _ ht; simp [single2, Ne.symm ht]
  · simp
  · intro s' _ hs
    exact Finset.sum_eq_zero fun t' _ => by simp [single2, Ne.symm hs]
  · simp

theorem calcCFunc_eq (op : Op2 R q q') (A : Ten R q a b) (Ap1 : Ten R q' b c) :
    calcCFunc op A Ap1 = calcCFuncAA op (calcAA A Ap1) := rfl

end

theorem epsR2C12_eq (x : Matrix (Fin c) (Fin c') R) (C12 : Ten2 R q q' a c)
    (A3 : Ten R q a' b') (A4 : Ten R q' b' c') :
    epsR2C12 x C12 A3 A4 = ∑ u, ∑ v, C12 u v * x * (A3 u * A4 v)ᴴ := by
  simp only [epsR2C12, foldl2_eq_sum, Matrix.mul_assoc]

theorem epsR2C34_eq (x : Matrix (Fin c) (Fin c') R) (A1 : Ten R q a b) (A2 : Ten R q' b c)
    (C34 : Ten2 R q q' a' c') :
    epsR2C34 x A1 A2 C34 = ∑ u, ∑ v, (A1 u * A2 v) * x * (C34 u v)ᴴ := by
  simp only [epsR2C34, foldl2_eq_sum, Matrix.mul_assoc]

theorem epsL2A1A2C34_eq (x : Matrix (Fin a) (Fin a') R) (A1 : Ten R q a b) (A2 : Ten R q' b c)
    (C34 : Ten2 R q q' a' c') :
    epsL2A1A2C34 x A1 A2 C34 = ∑ u, ∑ v, (A1 u * A2 v)ᴴ * x * C34 u v := by
  simp only [epsL2A1A2C34, foldl2_eq_sum, Matrix.mul_assoc]

theorem calcCTensordot_eq (op : Op2 R q q') (AA : Ten2 R q q' a b) (s : Fin q) (t : Fin q') :
    calcCTensordot op AA s t = ∑ u, ∑ v, op s t u v • AA u v := by
  ext i j
  simp only [calcCTensordot, forSum_eq, Matrix.of_apply, Matrix.sum_apply, Matrix.smul_apply,
    smul_eq_mul]

theorem calcC3Tensordot_eq (op : Fin q → Fin q' → Fin q'' → Fin q → Fin q' → Fin q'' → R)
    (AAA : Ten3 R q q' q'' a b) (s : Fin q) (t : Fin q') (w : Fin q'') :
    calcC3Tensordot op AAA s t w = ∑ s', ∑ t', ∑ u', op s t w s' t' u' • AAA s' t' u' := by
  ext i j
  simp only [calcC3Tensordot, forSum_eq, Matrix.of_apply, Matrix.sum_apply, Matrix.smul_apply,
    smul_eq_mul]

theorem calcCConj_eq (op : Op2 R q q') (AA : Ten2 R q q' a b) (s : Fin q) (t : Fin q') :
    calcCConj op AA s t = ∑ u, ∑ v, star (op u v s t) • AA u v := by
  ext i j
  simp only [calcCConj, ten2OfMat, Matrix.mul_apply, sum_flat, matOfOp2, matOfTen2, flat_divNat,
    flat_modNat, Matrix.sum_apply, Matrix.smul_apply, smul_eq_mul, Matrix.conjTranspose_apply]

theorem calcCConjTensordot_eq (op : Op2 R q q') (AA : Ten2 R q q' a b) (s : Fin q)
    (t : Fin q') : calcCConjTensordot op AA s t = ∑ u, ∑ v, star (op u v s t) • AA u v := by
  ext i j
  simp only [calcCConjTensordot, forSum_eq, Matrix.of_apply, Matrix.sum_apply, Matrix.smul_apply,
    smul_eq_mul]

theorem opDotTen_eq (op : Matrix (Fin q) (Fin q) R) (A : Ten R q a b) (s : Fin q) :
    opDotTen op A s = ∑ t, op s t • A t := by
  ext i j
  simp only [opDotTen, Matrix.of_apply, Matrix.mul_apply, flat_divNat, flat_modNat,
    Matrix.sum_apply, Matrix.smul_apply, smul_eq_mul]

theorem calcCtp_eq (opTp : List (Matrix (Fin q) (Fin q) R × Matrix (Fin q') (Fin q') R))
    (A : Ten R q a b) (Ap1 : Ten R q' b c) :
    calcCtp opTp A Ap1 = opTp.map fun o => (opDotTen o.1 A, opDotTen o.2 Ap1) := by
  rw [calcCtp]
  have : ∀ (acc : List (Ten R q a b × Ten R q' b c)),
      opTp.foldl (fun C o => C ++ [(opDotTen o.1 A, opDotTen o.2 Ap1)]) acc
        = acc ++ opTp.map fun o => (opDotTen o.1 A, opDotTen o.2 Ap1) := by
    induction opTp with
    | nil => simp
    | cons o L ih => intro acc; simp [ih]
  simpa using this []

end EvoMPS
