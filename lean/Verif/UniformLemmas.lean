import Verif.Uniform
import Verif.UniformSpec
import Verif.StepLemmas
import Mathlib.Data.List.OfFn
import Mathlib.Data.Fin.Tuple.Basic

/-!
# Helper lemmas for the uniform chain
-/

set_option linter.unusedSectionVars false

namespace EvoMPS

open Matrix

section
variable {R : Type*} [CommRing R] {q D : ℕ} (L : ℕ) (A : ℕ → Ten R q D D)

theorem chainProd_zero (k : ℕ) (s : Fin 0 → Fin q) : chainProd L A k 0 s = 1 := by
  simp [chainProd]

theorem chainProd_snoc (k n : ℕ) (s : Fin n → Fin q) (t : Fin q) :
    chainProd L A k (n + 1) (Fin.snoc (α := fun _ => Fin q) s t)
      = chainProd L A k n s * A ((k + n) % L) t := by
  simp only [chainProd]
  rw [List.ofFn_succ', List.concat_eq_append, List.prod_append, List.prod_singleton]
  simp [Fin.snoc_castSucc, Fin.snoc_last]

theorem chainProd_append (k a b : ℕ) (s : Fin a → Fin q) (t : Fin b → Fin q) :
    chainProd L A k (a + b) (Fin.append s t) = chainProd L A k a s * chainProd L A (k + a) b t := by
  simp only [chainProd]
  rw [List.ofFn_add, List.prod_append]
  simp [Fin.append_right, Nat.add_assoc]

theorem chainProd_one (k : ℕ) (s : Fin 1 → Fin q) : chainProd L A k 1 s = A (k % L) (s 0) := by
  simp [chainProd]

theorem sum_comm4' {M : Type*} [AddCommMonoid M] {α β γ δ : Type*} [Fintype α] [Fintype β]
    [Fintype γ] [Fintype δ] (f : α → β → γ → δ → M) :
    ∑ a, ∑ b, ∑ c, ∑ d, f a b c d = ∑ c, ∑ d, ∑ a, ∑ b, f a b c d := by
  rw [sum_comm4, Finset.sum_comm]

theorem sum_snoc {M : Type*} [AddCommMonoid M] (n : ℕ) (f : (Fin (n + 1) → Fin q) → M) :
    ∑ s, f s = ∑ s : Fin n → Fin q, ∑ t, f (Fin.snoc (α := fun _ => Fin q) s t) := by
  rw [← (Fin.snocEquiv fun _ : Fin (n + 1) => Fin q).sum_comp, Fintype.sum_prod_type,
    Finset.sum_comm]
  rfl

theorem sum_append {M : Type*} [AddCommMonoid M] (a b : ℕ) (f : (Fin (a + b) → Fin q) → M) :
    ∑ s, f s = ∑ s : Fin a → Fin q, ∑ t : Fin b → Fin q, f (Fin.append s t) := by
  rw [← (Fin.appendEquiv a b (α := Fin q)).sum_comp, Fintype.sum_prod_type]
  rfl

end

section
variable {R : Type*} [CommRing R] [StarRing R] {q D D' : ℕ} (L L' : ℕ)
  (A : ℕ → Ten R q D D) (B : ℕ → Ten R q D' D')

theorem chainTransfer_zero (k : ℕ) (x : Matrix (Fin D) (Fin D') R) :
    chainTransfer L L' A B k 0 x = x := by
  simp [chainTransfer, chainProd_zero]

theorem chainTransfer_succ (k n : ℕ) (x : Matrix (Fin D) (Fin D') R) :
    chainTransfer L L' A B k (n + 1) x
      = chainTransfer L L' A B k n (epsR x (A ((k + n) % L)) (B ((k + n) % L'))) := by
  simp only [chainTransfer, sum_snoc, chainProd_snoc, epsR_eq, Matrix.conjTranspose_mul,
    Matrix.mul_sum, Matrix.sum_mul, Matrix.mul_assoc]

theorem chainTransfer_add (k a b : ℕ) (x : Matrix (Fin D) (Fin D') R) :
    chainTransfer L L' A B k (a + b) x
      = chainTransfer L L' A B k a (chainTransfer L L' A B (k + a) b x) := by
  simp only [chainTransfer, sum_append, chainProd_append, Matrix.conjTranspose_mul,
    Matrix.mul_sum, Matrix.sum_mul, Matrix.mul_assoc]

theorem chainTransferL_zero (k : ℕ) (x : Matrix (Fin D) (Fin D') R) :
    chainTransferL L L' A B k 0 x = x := by
  simp [chainTransferL, chainProd_zero]

theorem chainTransferL_succ (k n : ℕ) (x : Matrix (Fin D) (Fin D') R) :
    chainTransferL L L' A B k (n + 1) x
      = epsL (chainTransferL L L' A B k n x) (A ((k + n) % L)) (B ((k + n) % L')) := by
  simp only [chainTransferL, sum_snoc, chainProd_snoc, epsL_eq, Matrix.conjTranspose_mul,
    Matrix.mul_sum, Matrix.sum_mul, Matrix.mul_assoc]
  rw [Finset.sum_comm]

theorem chainTransferL_add (k a b : ℕ) (x : Matrix (Fin D) (Fin D') R) :
    chainTransferL L L' A B k (a + b) x
      = chainTransferL L L' A B (k + a) b (chainTransferL L L' A B k a x) := by
  simp only [chainTransferL, sum_append, chainProd_append, Matrix.conjTranspose_mul,
    Matrix.mul_sum, Matrix.sum_mul, Matrix.mul_assoc]
  rw [Finset.sum_comm]

theorem chainTransfer_one (k : ℕ) (x : Matrix (Fin D) (Fin D') R) :
    chainTransfer L L' A B k 1 x = epsR x (A (k % L)) (B (k % L')) := by
  rw [chainTransfer_succ, chainTransfer_zero, Nat.add_zero]

theorem chainTransferL_one (k : ℕ) (x : Matrix (Fin D) (Fin D') R) :
    chainTransferL L L' A B k 1 x = epsL x (A (k % L)) (B (k % L')) := by
  rw [chainTransferL_succ, chainTransferL_zero, Nat.add_zero]

theorem adot_chainTransferL (k n : ℕ) (x y : Matrix (Fin D) (Fin D') R) :
    adot (chainTransferL L L' A B k n x) y = adot x (chainTransfer L L' A B k n y) := by
  induction n generalizing y with
  | zero => rw [chainTransferL_zero, chainTransfer_zero]
  | succ n ih => rw [chainTransferL_succ, chainTransfer_succ, adot_epsL, ih]

end

namespace Uni

variable {R : Type*} [CommRing R] [StarRing R] {q D1 D2 : ℕ}

theorem ravel_reshape {m n : ℕ} (v : Fin (m * n) → R) : ravel (reshape v) = v := by
  funext p
  rw [ravel, reshape, Matrix.of_apply, flat_eq]
  exact congrArg v (finProdFinEquiv.apply_symm_apply p)

/-! ## `EOp.matvec` -/

theorem matvec_right (A1 : List (Ten R q D1 D1)) (A2 : List (Ten R q D2 D2))
    (hlen : A1.length = A2.length) (h0 : 0 < A1.length) (junk) (v : Fin (D1 * D2) → R) :
    (EOp.mk A1 A2 false).matvec junk v = some (ravel (chainTransfer A1.length A2.length
      (fun k => A1.getD k 0) (fun k => A2.getD k 0) 0 A1.length (reshape v))) := by
  have hE : (A1.isEmpty || A2.isEmpty) = false := by
    cases A1 <;> cases A2 <;> simp_all
  have key : ∀ n ≤ A1.length, ∀ b : Bufs R D1 D2, ∃ j,
      (List.range n).reverse.foldl (fun b n => b.bind fun b => (EOp.mk A1 A2 false).site b n)
        (some b) = some (chainTransfer A1.length A2.length
      (fun k => A1.getD k 0) (fun k => A2.getD k 0) 0 n b.1, j) := by
    intro n
    induction n with
    | zero => exact fun _ b => ⟨b.2, by simp [chainTransfer_zero]⟩
    | succ n ih =>
      intro hn b
      rw [List.range_succ, List.reverse_append, List.reverse_singleton, List.singleton_append,
        List.foldl_cons]
      obtain ⟨j, hj⟩ := ih (by omega) (epsR b.1 (A1.getD n 0) (A2.getD n 0), b.1)
      refine ⟨j, ?_⟩
      rw [chainTransfer_succ, Nat.zero_add, Nat.mod_eq_of_lt (by omega), Nat.mod_eq_of_lt (by omega),
        ← hj]
      congr 1
      simp [EOp.site, List.getD, List.getElem?_eq_getElem (show n < A1.length by omega),
        List.getElem?_eq_getElem (show n < A2.length by omega)]
  obtain ⟨j, hj⟩ := key A1.length le_rfl (reshape v, junk)
  simp only [EOp.matvec, hE, Bool.false_eq_true, if_false]
  rw [hj]
  rfl

theorem matvec_left (A1 : List (Ten R q D1 D1)) (A2 : List (Ten R q D2 D2))
    (hlen : A1.length = A2.length) (h0 : 0 < A1.length) (junk) (v : Fin (D1 * D2) → R) :
    (EOp.mk A1 A2 true).matvec junk v = some (ravel (chainTransferL A1.length A2.length
      (fun k => A1.getD k 0) (fun k => A2.getD k 0) 0 A1.length (reshape v))) := by
  have hE : (A1.isEmpty || A2.isEmpty) = false := by
    cases A1 <;> cases A2 <;> simp_all
  have key : ∀ n ≤ A1.length, ∀ b : Bufs R D1 D2, ∃ j,
      (List.range n).foldl (fun b n => b.bind fun b => (EOp.mk A1 A2 true).site b n)
        (some b) = some (chainTransferL A1.length A2.length
      (fun k => A1.getD k 0) (fun k => A2.getD k 0) 0 n b.1, j) := by
    intro n
    induction n with
    | zero => exact fun _ b => ⟨b.2, by simp [chainTransferL_zero]⟩
    | succ n ih =>
      intro hn b
      obtain ⟨j, hj⟩ := ih (by omega) b
      rw [List.range_succ, List.foldl_append, hj]
      refine ⟨chainTransferL A1.length A2.length
        (fun k => A1.getD k 0) (fun k => A2.getD k 0) 0 n b.1, ?_⟩
      rw [chainTransferL_succ, Nat.zero_add, Nat.mod_eq_of_lt (by omega),
        Nat.mod_eq_of_lt (by omega)]
      simp [EOp.site, List.getD, List.getElem?_eq_getElem (show n < A1.length by omega),
        List.getElem?_eq_getElem (show n < A2.length by omega)]
  obtain ⟨j, hj⟩ := key A1.length le_rfl (reshape v, junk)
  simp only [EOp.matvec, hE, Bool.false_eq_true, if_false, if_true]
  rw [hj]
  rfl

/-! ## Lists -/

theorem repeatList_length {α : Type*} (n : ℕ) (l : List α) :
    (repeatList n l).length = n * l.length := by
  simp [repeatList]

theorem repeatList_get {α : Type*} (n : ℕ) (l : List α) (j : ℕ) (hj : j < n * l.length) :
    (repeatList n l)[j]? = l[j % l.length]? := by
  induction n generalizing j with
  | zero => simp at hj
  | succ n ih =>
    have h : repeatList (n + 1) l = l ++ repeatList n l := by
      simp [repeatList, List.replicate_succ]
    rw [h]
    by_cases hl : j < l.length
    · rw [List.getElem?_append_left hl, Nat.mod_eq_of_lt hl]
    · rw [List.getElem?_append_right (by omega), ih _ (by rw [Nat.succ_mul] at hj; omega)]
      congr 1
      conv_rhs => rw [show j = j - l.length + l.length by omega, Nat.add_mod_right]

theorem rotList_length {α : Type*} (k : ℕ) (l : List α) : (rotList k l).length = l.length := by
  simp [rotList]; omega

theorem rotList_get {α : Type*} (k : ℕ) (l : List α) (hk : k ≤ l.length) (j : ℕ)
    (hj : j < l.length) : (rotList k l)[j]? = l[(k + j) % l.length]? := by
  unfold rotList
  by_cases h : j < l.length - k
  · rw [List.getElem?_append_left (by simpa using h), List.getElem?_drop,
      Nat.mod_eq_of_lt (by omega)]
  · rw [List.getElem?_append_right (by simp; omega), List.length_drop,
      List.getElem?_take_of_lt (by omega)]
    congr 1
    rw [show k + j = j - (l.length - k) + l.length by omega, Nat.add_mod_right,
      Nat.mod_eq_of_lt (by omega)]

theorem rot_repeat_get {α : Type*} (k n : ℕ) (l : List α) (hk : k ≤ n * l.length) (j : ℕ)
    (hj : j < n * l.length) : (rotList k (repeatList n l))[j]? = l[(k + j) % l.length]? := by
  have h0 : 0 < n * l.length := by omega
  rw [rotList_get k _ (by rwa [repeatList_length]) j (by rwa [repeatList_length]),
    repeatList_length, repeatList_get _ _ _ (Nat.mod_lt _ h0), Nat.mod_mul_left_mod]

/-! ## The dense transfer matrix -/

theorem denseSite_apply (A1 : Ten R q D1 D1) (A2 : Ten R q D2 D2) (i j : Fin D1) (i' j' : Fin D2) :
    denseSite A1 A2 (flat i i') (flat j j') = ∑ s, A1 s i j * star (A2 s i' j') := by
  rw [denseSite, forSum_eq, Matrix.sum_apply]
  simp [kron]

theorem denseLoop_spec (As1 : List (Ten R q D1 D1)) (As2 : List (Ten R q D2 D2)) (L L' : ℕ)
    (A : ℕ → Ten R q D1 D1) (B : ℕ → Ten R q D2 D2) (k n : ℕ)
    (h1 : ∀ j < n, As1[j]? = some (A ((k + j) % L)))
    (h2 : ∀ j < n, As2[j]? = some (B ((k + j) % L'))) :
    ∃ M, denseLoop As1 As2 n = some M ∧ ∀ i i' j j', M (flat i i') (flat j j')
      = ∑ s : Fin n → Fin q, chainProd L A k n s i j * star (chainProd L' B k n s i' j') := by
  induction n with
  | zero =>
    refine ⟨1, rfl, fun i i' j j' => ?_⟩
    simp only [chainProd_zero, Matrix.one_apply, flat_eq, EmbeddingLike.apply_eq_iff_eq,
      Prod.mk.injEq, Finset.univ_unique, Finset.sum_singleton]
    by_cases h : i = j <;> by_cases h' : i' = j' <;> simp [h, h']
  | succ n ih =>
    obtain ⟨M, hM, hv⟩ := ih (fun j hj => h1 j (by omega)) fun j hj => h2 j (by omega)
    refine ⟨M * denseSite (A ((k + n) % L)) (B ((k + n) % L')), ?_, fun i i' j j' => ?_⟩
    · unfold denseLoop at hM ⊢
      rw [List.range_succ, List.foldl_append, hM]
      simp [h1 n (by omega), h2 n (by omega)]
    · rw [Matrix.mul_apply, sum_flat, sum_snoc]
      simp only [hv, denseSite_apply, chainProd_snoc, Matrix.mul_apply, star_sum, star_mul',
        Finset.sum_mul_sum]
      rw [sum_comm4']
      refine Finset.sum_congr rfl fun s _ => Finset.sum_congr rfl fun t _ =>
        Finset.sum_congr rfl fun a _ => Finset.sum_congr rfl fun b _ => ?_
      ring

end Uni

open Uni

variable {R : Type*} [CommRing R] [StarRing R] {q D1 D2 : ℕ}

theorem lcm_div (a b : ℕ) : a * b / Nat.gcd a b = Nat.lcm a b := rfl

theorem lcm_div_mul_left (a b : ℕ) : Nat.lcm a b / a * a = Nat.lcm a b :=
  Nat.div_mul_cancel (Nat.dvd_lcm_left a b)

theorem lcm_div_mul_right (a b : ℕ) : Nat.lcm a b / b * b = Nat.lcm a b :=
  Nat.div_mul_cancel (Nat.dvd_lcm_right a b)

theorem getElem?_mod {α : Type*} [Zero α] (l : List α) (h : 0 < l.length) (j : ℕ) :
    l[j % l.length]? = some (l.getD (j % l.length) 0) := by
  rw [List.getD, List.getElem?_eq_getElem (Nat.mod_lt _ h)]
  rfl

theorem chainProd_congr {D : ℕ} {L L' : ℕ} {A B : ℕ → Ten R q D D} {k k' n : ℕ}
    (h : ∀ j < n, A ((k + j) % L) = B ((k' + j) % L')) (s : Fin n → Fin q) :
    chainProd L A k n s = chainProd L' B k' n s := by
  simp only [chainProd]
  congr 2
  funext i
  rw [h i i.2]

theorem getD_of_getElem? {α : Type*} {l : List α} {j : ℕ} {x d : α} (h : l[j]? = some x) :
    l.getD j d = x := by
  simp [List.getD, h]

theorem rot_lists (A : List (Ten R q D1 D1)) (h : 0 < A.length) (k m n : ℕ)
    (hm : m * A.length = n) (hk : k ≤ n) (s : Fin n → Fin q) :
    chainProd n (fun j => (rotList k (repeatList m A)).getD j 0) 0 n s
      = chainProd A.length (fun j => A.getD j 0) k n s := by
  subst hm
  refine chainProd_congr (fun j hj => ?_) s
  rw [Nat.zero_add, Nat.mod_eq_of_lt hj]
  exact getD_of_getElem? (by rw [rot_repeat_get k m A hk j hj, getElem?_mod A h])

theorem transfer_entry {ι : Type*} [Fintype ι] (W : ι → Matrix (Fin D1) (Fin D1) R)
    (W' : ι → Matrix (Fin D2) (Fin D2) R) (x : Matrix (Fin D1) (Fin D2) R) (i : Fin D1)
    (i' : Fin D2) : (∑ s, W s * x * (W' s)ᴴ) i i'
      = ∑ j, ∑ j', (∑ s, W s i j * star (W' s i' j')) * x j j' := by
  simp only [Matrix.sum_apply, Matrix.mul_apply, Matrix.conjTranspose_apply, Finset.sum_mul]
  rw [Finset.sum_comm' (t' := Finset.univ) (s' := fun _ => Finset.univ) (by simp)]
  conv_rhs => rw [Finset.sum_comm]
  refine Finset.sum_congr rfl fun j' _ => ?_
  rw [Finset.sum_comm]
  refine Finset.sum_congr rfl fun j _ => Finset.sum_congr rfl fun s _ => ?_
  ring

theorem transferL_entry {ι : Type*} [Fintype ι] (W : ι → Matrix (Fin D1) (Fin D1) R)
    (W' : ι → Matrix (Fin D2) (Fin D2) R) (x : Matrix (Fin D1) (Fin D2) R) (i : Fin D1)
    (i' : Fin D2) : (∑ s, (W s)ᴴ * x * W' s) i i'
      = ∑ j, ∑ j', star (∑ s, W s j i * star (W' s j' i')) * x j j' := by
  have h := transfer_entry (fun s => (W s)ᴴ) (fun s => (W' s)ᴴ) x i i'
  simp only [Matrix.conjTranspose_conjTranspose] at h
  rw [h]
  refine Finset.sum_congr rfl fun j _ => Finset.sum_congr rfl fun j' _ => ?_
  rw [star_sum]
  simp [Matrix.conjTranspose_apply, mul_comm]

end EvoMPS
