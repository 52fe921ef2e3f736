import Verif.DynExp
import Verif.DynExpSpec
import Verif.StepDeriv
import Verif.MatMulLemmas

/-!
# Dynamical expansion (helper lemmas)
-/

namespace EvoMPS

open Matrix

section
variable {q D : ℕ → ℕ} {N : ℕ}

theorem blocks_11 {a b da db : ℕ} (X11 : Matrix (Fin a) (Fin b) ℂ) (X12 : Matrix (Fin a) (Fin db) ℂ)
    (X21 : Matrix (Fin da) (Fin b) ℂ) (X22 : Matrix (Fin da) (Fin db) ℂ) (i j) :
    blocks X11 X12 X21 X22 (Fin.castAdd da i) (Fin.castAdd db j) = X11 i j := by
  simp [blocks]

theorem blocks_12 {a b da db : ℕ} (X11 : Matrix (Fin a) (Fin b) ℂ) (X12 : Matrix (Fin a) (Fin db) ℂ)
    (X21 : Matrix (Fin da) (Fin b) ℂ) (X22 : Matrix (Fin da) (Fin db) ℂ) (i j) :
    blocks X11 X12 X21 X22 (Fin.castAdd da i) (Fin.natAdd b j) = X12 i j := by
  simp [blocks]

theorem blocks_21 {a b da db : ℕ} (X11 : Matrix (Fin a) (Fin b) ℂ) (X12 : Matrix (Fin a) (Fin db) ℂ)
    (X21 : Matrix (Fin da) (Fin b) ℂ) (X22 : Matrix (Fin da) (Fin db) ℂ) (i j) :
    blocks X11 X12 X21 X22 (Fin.natAdd a i) (Fin.castAdd db j) = X21 i j := by
  simp [blocks]

theorem blocks_22 {a b da db : ℕ} (X11 : Matrix (Fin a) (Fin b) ℂ) (X12 : Matrix (Fin a) (Fin db) ℂ)
    (X21 : Matrix (Fin da) (Fin b) ℂ) (X22 : Matrix (Fin da) (Fin db) ℂ) (i j) :
    blocks X11 X12 X21 X22 (Fin.natAdd a i) (Fin.natAdd b j) = X22 i j := by
  simp [blocks]

/-- The product `BB12[n][s] BB21[n + 1][t]`, 0 where they are not given. -/
def bbProd (bb : ∀ k, BB (q k) (q (k + 1)) (D k) (D (k + 1 + 1))) : Pairs ℂ q D :=
  fun k s t => ((bb12 bb k).elim 0 fun b => b s) * ((bb21 bb (k + 1)).elim 0 fun b => b t)

theorem sum_add_fin {a b : ℕ} (f : Fin (a + b) → ℂ) :
    ∑ i, f i = (∑ i : Fin a, f (Fin.castAdd b i)) + ∑ i : Fin b, f (Fin.natAdd a i) :=
  Fin.sum_univ_add f

section
variable (bb : ∀ k, BB (q k) (q (k + 1)) (D k) (D (k + 1 + 1))) (c t : ℂ) (E : Tensors ℂ q D)

/-- The part of the enlarged product that belongs to the old outer bonds. -/
def oldPart (n : ℕ) (s : Cfg q n) : Matrix (Fin (D 0)) (Fin (D n)) ℂ :=
  Matrix.of fun i j => (amp (grownA bb c E) n s : Matrix (Fin (D 0 + dDOf bb 0)) (Fin (D n + dDOf bb n)) ℂ)
    (Fin.castAdd _ i) (Fin.castAdd _ j)

/-- The part of the enlarged product with the new bond on the right. -/
def newPart (n : ℕ) (s : Cfg q n) : Matrix (Fin (D 0)) (Fin (dDOf bb n)) ℂ :=
  Matrix.of fun i j => (amp (grownA bb c E) n s : Matrix (Fin (D 0 + dDOf bb 0)) (Fin (D n + dDOf bb n)) ℂ)
    (Fin.castAdd _ i) (Fin.natAdd _ j)

theorem oldPart_succ (n : ℕ) (s : Cfg q (n + 1)) :
    oldPart bb c E (n + 1) s = oldPart bb c E n (fun i => s i.castSucc) * E n (s (Fin.last n))
      + c • (newPart bb c E n (fun i => s i.castSucc) * (bb21 bb n).elim 0 fun b => b (s (Fin.last n))) := by
  ext i j
  have e : oldPart bb c E (n + 1) s i j
      = ((amp (grownA bb c E) n (fun i => s i.castSucc) : Matrix (Fin (D 0 + dDOf bb 0))
          (Fin (D n + dDOf bb n)) ℂ) * (grownA bb c E n (s (Fin.last n)) :
          Matrix (Fin (D n + dDOf bb n)) (Fin (D (n + 1) + dDOf bb (n + 1))) ℂ))
        (Fin.castAdd _ i) (Fin.castAdd _ j) := rfl
  rw [e, Matrix.mul_apply, Fin.sum_univ_add, Matrix.add_apply, Matrix.smul_apply, Matrix.mul_apply,
    Matrix.mul_apply]
  simp only [grownA, blocks_11, blocks_21, smul_eq_mul, Finset.mul_sum]
  congr 1
  refine Finset.sum_congr rfl fun k _ => ?_
  cases bb21 bb n with
  | none => simp
  | some b => simp [newPart]; ring

theorem newPart_succ (n : ℕ) (s : Cfg q (n + 1)) :
    newPart bb c E (n + 1) s
      = c • (oldPart bb c E n (fun i => s i.castSucc) * (bb12 bb n).elim 0 fun b => b (s (Fin.last n))) := by
  ext i j
  have e : newPart bb c E (n + 1) s i j
      = ((amp (grownA bb c E) n (fun i => s i.castSucc) : Matrix (Fin (D 0 + dDOf bb 0))
          (Fin (D n + dDOf bb n)) ℂ) * (grownA bb c E n (s (Fin.last n)) :
          Matrix (Fin (D n + dDOf bb n)) (Fin (D (n + 1) + dDOf bb (n + 1))) ℂ))
        (Fin.castAdd _ i) (Fin.natAdd _ j) := rfl
  rw [e, Matrix.mul_apply, Fin.sum_univ_add, Matrix.smul_apply, Matrix.mul_apply]
  simp only [grownA, blocks_12, blocks_22, smul_eq_mul, Finset.mul_sum, Matrix.zero_apply, mul_zero,
    Finset.sum_const_zero, add_zero]
  refine Finset.sum_congr rfl fun k _ => ?_
  cases bb12 bb n with
  | none => simp
  | some b => simp [oldPart]; ring

theorem oldPart_eq (hc : c * c = -t) (n : ℕ) :
    (∀ s : Cfg q n, oldPart bb c E n s = ampGrow E (bbProd bb) t n s) ∧
    ∀ s : Cfg q (n + 1), oldPart bb c E (n + 1) s = ampGrow E (bbProd bb) t (n + 1) s := by
  have h0 : ∀ s : Cfg q 0, oldPart bb c E 0 s = 1 := by
    intro s
    ext i j
    show (1 : Matrix (Fin (D 0 + dDOf bb 0)) (Fin (D 0 + dDOf bb 0)) ℂ) (Fin.castAdd _ i) (Fin.castAdd _ j)
      = (1 : Matrix (Fin (D 0)) (Fin (D 0)) ℂ) i j
    simp [Matrix.one_apply]
  induction n with
  | zero =>
    refine ⟨h0, fun s => ?_⟩
    rw [oldPart_succ, h0]
    simp [bb21, ampGrow]
  | succ n ih =>
    refine ⟨ih.2, fun s => ?_⟩
    rw [oldPart_succ, newPart_succ, ih.1, ih.2, ampGrow, Matrix.smul_mul, smul_smul, hc, Matrix.mul_assoc,
      neg_smul, sub_eq_add_neg]
    rfl

end

theorem amp2_out {R : Type*} [CommRing R] (A : Tensors R q D) (X : Pairs R q D) (k n : ℕ) (h : n < k + 2)
    (s : Cfg q n) : amp2 A X k n s = 0 := by
  induction n with
  | zero => rfl
  | succ n ih =>
    cases n with
    | zero => rfl
    | succ n => rw [amp2, if_neg (by omega), ih (by omega), Matrix.zero_mul]

theorem ampGrow_zero {R : Type*} [CommRing R] (A : Tensors R q D) (X : Pairs R q D) (n : ℕ) :
    (∀ s : Cfg q n, ampGrow A X 0 n s = amp A n s) ∧
    ∀ s : Cfg q (n + 1), ampGrow A X 0 (n + 1) s = amp A (n + 1) s := by
  induction n with
  | zero => exact ⟨fun _ => rfl, fun s => by simp [ampGrow, amp]⟩
  | succ n ih =>
    refine ⟨ih.2, fun s => ?_⟩
    rw [ampGrow, ih.2, zero_smul, sub_zero]
    rfl

/-- The first order of the enlarged product. -/
theorem ampGrow_hasDerivAt (A : Tensors ℂ q D) (b : ∀ k, Ten ℂ (q k) (D k) (D (k + 1))) (X : Pairs ℂ q D)
    (n : ℕ) :
    (∀ (s : Cfg q n) i j, HasDerivAt (fun t : ℂ => ampGrow (fun k => A k - t • b k) X t n s i j)
      (-(∑ k ∈ Finset.range n, amp (Function.update A k (b k)) n s i j)
        - ∑ k ∈ Finset.range n, amp2 A X k n s i j) 0) ∧
    ∀ (s : Cfg q (n + 1)) i j, HasDerivAt (fun t : ℂ => ampGrow (fun k => A k - t • b k) X t (n + 1) s i j)
      (-(∑ k ∈ Finset.range (n + 1), amp (Function.update A k (b k)) (n + 1) s i j)
        - ∑ k ∈ Finset.range (n + 1), amp2 A X k (n + 1) s i j) 0 := by
  have e0 : (fun k => A k - (0 : ℂ) • b k) = A := by funext k; simp
  have hent : ∀ k (s : Fin (q k)) x y, HasDerivAt (fun t : ℂ => (A k - t • b k) s x y) (- b k s x y) 0 := by
    intro k s x y
    have := ((hasDerivAt_id (0 : ℂ)).mul_const (b k s x y)).const_sub (A k s x y)
    simpa using this
  induction n with
  | zero =>
    refine ⟨fun s i j => ?_, fun s i j => ?_⟩
    · simp only [ampGrow, Finset.range_zero, Finset.sum_empty, neg_zero, sub_zero]
      exact hasDerivAt_const _ _
    · simp only [ampGrow]
      refine (hent 0 (s 0) i j).congr_deriv ?_
      simp [amp, amp2]
  | succ n ih =>
    refine ⟨ih.2, fun s i j => ?_⟩
    have e1 : (fun t : ℂ => ampGrow (fun k => A k - t • b k) X t (n + 1 + 1) s i j)
        = fun t => (∑ c, ampGrow (fun k => A k - t • b k) X t (n + 1) (fun i => s i.castSucc) i c
            * (A (n + 1) - t • b (n + 1)) (s (Fin.last (n + 1))) c j)
          - t * ∑ c, ampGrow (fun k => A k - t • b k) X t n (fun i => s i.castSucc.castSucc) i c
            * X n (s (Fin.last n).castSucc) (s (Fin.last (n + 1))) c j := by
      funext t
      rw [ampGrow, Matrix.sub_apply, Matrix.smul_apply, Matrix.mul_apply, Matrix.mul_apply]
      rfl
    rw [e1]
    have d1 := HasDerivAt.fun_sum (u := Finset.univ) fun c (_ : c ∈ Finset.univ) =>
      (ih.2 (fun i => s i.castSucc) i c).fun_mul (hent (n + 1) (s (Fin.last (n + 1))) c j)
    have d2 := HasDerivAt.fun_sum (u := Finset.univ) fun c (_ : c ∈ Finset.univ) =>
      (ih.1 (fun i => s i.castSucc.castSucc) i c).mul_const
        (X n (s (Fin.last n).castSucc) (s (Fin.last (n + 1))) c j)
    have d3 := d1.fun_sub ((hasDerivAt_id (0 : ℂ)).fun_mul d2)
    refine d3.congr_deriv ?_
    simp only [zero_smul, sub_zero, (ampGrow_zero A X n).1, (ampGrow_zero A X n).2, id, zero_mul, add_zero,
      one_mul]
    have s1 : ∑ k ∈ Finset.range (n + 1 + 1), amp (Function.update A k (b k)) (n + 1 + 1) s i j
        = (∑ c, (∑ k ∈ Finset.range (n + 1), amp (Function.update A k (b k)) (n + 1) (fun i => s i.castSucc) i c)
            * A (n + 1) (s (Fin.last (n + 1))) c j)
          + ∑ c, amp A (n + 1) (fun i => s i.castSucc) i c * b (n + 1) (s (Fin.last (n + 1))) c j := by
      rw [Finset.sum_range_succ]
      congr 1
      · simp only [Finset.sum_mul]
        rw [Finset.sum_comm]
        refine Finset.sum_congr rfl fun k hk => ?_
        rw [Finset.mem_range] at hk
        rw [amp, Matrix.mul_apply, Function.update_of_ne (by omega)]
      · rw [amp, Matrix.mul_apply, Function.update_self]
        refine Finset.sum_congr rfl fun c _ => ?_
        rw [amp_congr (A := Function.update A (n + 1) (b (n + 1))) (B := A)]
        intro k hk
        exact Function.update_of_ne (by omega) _ _
    have s2 : ∑ k ∈ Finset.range (n + 1 + 1), amp2 A X k (n + 1 + 1) s i j
        = (∑ c, (∑ k ∈ Finset.range (n + 1), amp2 A X k (n + 1) (fun i => s i.castSucc) i c)
            * A (n + 1) (s (Fin.last (n + 1))) c j)
          + ∑ c, amp A n (fun i => s i.castSucc.castSucc) i c
            * X n (s (Fin.last n).castSucc) (s (Fin.last (n + 1))) c j := by
      rw [Finset.sum_range_succ, amp2_out A X (n + 1) (n + 1 + 1) (by omega), Matrix.zero_apply, add_zero,
        Finset.sum_range_succ]
      congr 1
      · simp only [Finset.sum_mul, Finset.sum_range_succ, amp2_out A X n (n + 1) (by omega), Matrix.zero_apply,
          add_zero]
        rw [Finset.sum_comm]
        refine Finset.sum_congr rfl fun k hk => ?_
        rw [Finset.mem_range] at hk
        rw [amp2, if_neg (by omega), Matrix.mul_apply]
      · rw [amp2, if_pos rfl, Matrix.mul_apply]
    rw [s1, s2]
    simp only [Finset.sum_add_distrib, mul_neg, Finset.sum_neg_distrib, sub_mul, neg_mul,
      Finset.sum_sub_distrib]
    ring

end

end EvoMPS
