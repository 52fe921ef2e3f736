import Verif.MpsGen
import Verif.Overlap

/-!
# Loops over arrays of matrices (helper lemmas)
-/

set_option linter.unusedSectionVars false

namespace EvoMPS

open Matrix

section
variable {X : ℕ → Type*}

theorem foldUp_spec (f : ∀ n, X n → X (n + 1)) (x0 : ∀ n, X n) (a m : ℕ) :
    let y := (List.range' a m).foldl (fun x n => Function.update x (n + 1) (f n (x n))) x0
    (∀ n, n ≤ a ∨ a + m < n → y n = x0 n) ∧
      ∀ n, a ≤ n → n < a + m → y (n + 1) = f n (y n) := by
  induction m with
  | zero => exact ⟨fun n _ => rfl, fun n h1 h2 => by omega⟩
  | succ m ih =>
    obtain ⟨ih1, ih2⟩ := ih
    rw [List.range'_concat, List.foldl_append]
    simp only [List.foldl_cons, List.foldl_nil, Nat.one_mul]
    refine ⟨fun n hn => ?_, fun n h1 h2 => ?_⟩
    · rw [Function.update_of_ne (by omega), ih1 n (by omega)]
    · rcases Nat.lt_or_ge n (a + m) with h | h
      · rw [Function.update_of_ne (by omega), Function.update_of_ne (by omega), ih2 n h1 h]
      · obtain rfl : n = a + m := by omega
        rw [Function.update_self, Function.update_of_ne (by omega)]

theorem foldDown_spec (g : ∀ n, X (n + 1) → X n) (x0 : ∀ n, X n) (a m : ℕ) :
    let y := (List.range' a m).reverse.foldl
      (fun x n => Function.update x n (g n (x (n + 1)))) x0
    (∀ n, n < a ∨ a + m ≤ n → y n = x0 n) ∧
      ∀ n, a ≤ n → n < a + m → y n = g n (y (n + 1)) := by
  induction m generalizing a with
  | zero => exact ⟨fun n _ => rfl, fun n h1 h2 => by omega⟩
  | succ m ih =>
    obtain ⟨ih1, ih2⟩ := ih (a + 1)
    rw [List.range'_succ, List.reverse_cons, List.foldl_append]
    simp only [List.foldl_cons, List.foldl_nil]
    refine ⟨fun n hn => ?_, fun n h1 h2 => ?_⟩
    · rw [Function.update_of_ne (by omega), ih1 n (by omega)]
    · rcases Nat.lt_or_ge a n with h | h
      · rw [Function.update_of_ne (by omega), Function.update_of_ne (by omega),
          ih2 n (by omega) (by omega)]
      · obtain rfl : n = a := by omega
        rw [Function.update_self, Function.update_of_ne (by omega)]

end

variable {R : Type*} [CommRing R] [StarRing R] {q D : ℕ → ℕ}

theorem calcL_eq (N : ℕ) (S : MPS R q D) (nl nh : Option ℕ) :
    calcL N S nl nh = ⟨S.A, (List.range' (nl.getD 1 - 1)
      (nh.getD N + 1 - nl.getD 1)).foldl
        (fun l m => Function.update l (m + 1) (epsL (l m) (S.A m) (S.A m))) S.l, S.r⟩ := by
  simp only [calcL]
  generalize List.range' _ _ = L
  induction L generalizing S with
  | nil => rfl
  | cons m L ih => rw [List.foldl_cons, ih]; rfl

theorem calcR_eq (N : ℕ) (S : MPS R q D) (nl nh : Option ℕ) :
    calcR N S nl nh = ⟨S.A, S.l, (List.range' (nl.getD 0)
      (nh.elim N (· + 1) - nl.getD 0)).reverse.foldl
        (fun r n => Function.update r n (epsR (r (n + 1)) (S.A n) (S.A n))) S.r⟩ := by
  simp only [calcR]
  generalize (List.range' _ _).reverse = L
  induction L generalizing S with
  | nil => rfl
  | cons m L ih => rw [List.foldl_cons, ih]; rfl

theorem calcL_default (N : ℕ) (S : MPS R q D) :
    (calcL N S).A = S.A ∧ (calcL N S).r = S.r ∧ (calcL N S).l 0 = S.l 0 ∧
      ∀ n < N, (calcL N S).l (n + 1) = epsL ((calcL N S).l n) (S.A n) (S.A n) := by
  rw [calcL_eq]
  obtain ⟨h1, h2⟩ := foldUp_spec (X := fun n => Matrix (Fin (D n)) (Fin (D n)) R)
    (fun m x => epsL x (S.A m) (S.A m)) S.l 0 N
  refine ⟨rfl, rfl, h1 0 (by omega), fun n hn => h2 n (by omega) (by omega)⟩

theorem calcR_default (N : ℕ) (S : MPS R q D) :
    (calcR N S).A = S.A ∧ (calcR N S).l = S.l ∧ (∀ n, N ≤ n → (calcR N S).r n = S.r n) ∧
      ∀ n < N, (calcR N S).r n = epsR ((calcR N S).r (n + 1)) (S.A n) (S.A n) := by
  rw [calcR_eq]
  obtain ⟨h1, h2⟩ := foldDown_spec (X := fun n => Matrix (Fin (D n)) (Fin (D n)) R)
    (fun m x => epsR x (S.A m) (S.A m)) S.r 0 N
  refine ⟨rfl, rfl, fun n hn => h1 n (by omega), fun n hn => h2 n (by omega) (by omega)⟩

/-- Recomputing the environments makes the state up to date. -/
theorem updateNoCF_upToDate (N : ℕ) (S : MPS R q D) (hl : S.l 0 = 1) (hr : S.r N = 1) :
    (updateNoCF N S).A = S.A ∧
      UpToDate N (updateNoCF N S).A (updateNoCF N S).l (updateNoCF N S).r := by
  obtain ⟨a1, a2, a3, a4⟩ := calcL_default N S
  obtain ⟨b1, b2, b3, b4⟩ := calcR_default N (calcL N S)
  have hA : (updateNoCF N S).A = S.A := by rw [updateNoCF, b1, a1]
  refine ⟨hA, ⟨?_, ?_, ?_, ?_⟩⟩
  · rw [updateNoCF, b2, a3, hl]
  · intro n hn
    rw [hA, updateNoCF, b2, a4 n hn, epsL_eq]
  · rw [updateNoCF, b3 N le_rfl, a2, hr]
  · intro n hn
    rw [hA, updateNoCF, b4 n hn, epsR_eq, a1]

end EvoMPS
