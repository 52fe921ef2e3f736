import Verif.ExciteSep
import Verif.UniformTangentExpSpec
import Verif.UniformTangentLemmas
import Verif.TensorProdLemmas

/-!
# Matrix elements between excitations at two sites (helper lemmas)
-/

set_option linter.unusedSectionVars false

namespace EvoMPS

open Matrix Uni

variable {R : Type*} [CommRing R] [StarRing R] {q D : ℕ}

theorem sepAs_eq (AL AR B : Ten R q D D) (d n1 j : ℕ) (hn : 1 ≤ n1) (h1 : 1 ≤ j) (hj : j ≤ d) :
    sepAs AL AR B d n1 j = defectLine AL B AR n1 j := by
  unfold sepAs defectLine
  rw [List.getD_eq_getElem?_getD, List.append_assoc]
  by_cases h : j < n1
  · rw [if_pos h, List.getElem?_append_left (by simp; omega), List.getElem?_replicate, if_pos (by omega)]; rfl
  · rw [if_neg h, List.getElem?_append_right (by simp; omega), List.length_replicate]
    by_cases h' : j = n1
    · subst h'; simp
    · rw [if_neg h', List.getElem?_append_right (by simp; omega), List.getElem?_replicate, if_pos (by simp; omega)]; rfl

theorem sep_ls (X Y : ℕ → Ten R q D D) (l : Matrix (Fin D) (Fin D) R) (m j : ℕ) (hj : j ≤ m) (y : Matrix (Fin D) (Fin D) R) :
    adot ((List.range' 1 m).foldl (fun (ls : ℕ → Matrix (Fin D) (Fin D) R) (n : ℕ) =>
      Function.update ls n (epsL (ls (n - 1)) (X n) (Y n))) (Function.update (fun _ => 0) 0 l) j) y
      = adot l (lineTransfer X Y 1 j y) := by
  induction m generalizing j y with
  | zero =>
    obtain rfl : j = 0 := by omega
    rw [lineTransfer_zero]
    simp
  | succ m ih =>
    rw [List.range'_concat, List.foldl_append]
    simp only [List.foldl_cons, List.foldl_nil, Nat.one_mul]
    by_cases h : j = 1 + m
    · subst h
      rw [Function.update_self, adot_epsL, show 1 + m - 1 = m by omega, ih m le_rfl, show 1 + m = m + 1 by omega, lineTransfer_succ,
        epsR_eq, show 1 + m = m + 1 by omega]
    · rw [Function.update_of_ne h, ih j (by omega)]

theorem sep_rs (X Y : ℕ → Ten R q D D) (r : Matrix (Fin D) (Fin D) R) (M k : ℕ) (hk : k ≤ M)
    (rs : ℕ → Matrix (Fin D) (Fin D) R) (hrs : ∀ j, k ≤ j → j ≤ M → rs j = lineTransfer X Y (j + 1) (M - j) r) (j : ℕ)
    (hj : j ≤ M) :
    (List.range' 1 k).reverse.foldl (fun (rs : ℕ → Matrix (Fin D) (Fin D) R) (n : ℕ) =>
      Function.update rs (n - 1) (epsR (rs n) (X n) (Y n))) rs j = lineTransfer X Y (j + 1) (M - j) r := by
  induction k generalizing rs with
  | zero => exact hrs j (by omega) hj
  | succ k ih =>
    rw [List.range'_concat, List.reverse_append]
    simp only [List.reverse_cons, List.reverse_nil, List.nil_append, List.cons_append, List.foldl_cons, Nat.one_mul]
    refine ih (by omega) _ fun i h1 h2 => ?_
    by_cases h : i = k
    · subst h
      rw [show 1 + i - 1 = i by omega, Function.update_self, hrs (1 + i) (by omega) (by omega),
        show M - i = 1 + (M - (1 + i)) by omega, lineTransfer_add, lineTransfer_one, epsR_eq,
        show i + 1 = 1 + i by omega]
    · rw [Function.update_of_ne (by omega)]
      exact hrs i (by omega) h2

theorem fold_update_fun {α : Type*} (f : ℕ → α) (g : ℕ → α) (m j : ℕ) (h1 : 1 ≤ j) (hj : j ≤ m) :
    (List.range' 1 m).foldl (fun C n => Function.update C n (f n)) g j = f j := by
  induction m with
  | zero => omega
  | succ m ih =>
    rw [List.range'_concat, List.foldl_append]
    simp only [List.foldl_cons, List.foldl_nil, Nat.one_mul]
    by_cases h : j = 1 + m
    · subst h; rw [Function.update_self]
    · rw [Function.update_of_ne h, ih (by omega)]

theorem exciteSep_length (AL AR B : Ten R q D D) (lL rR : Matrix (Fin D) (Fin D) R)
    (op : List (Matrix (Fin q) (Fin q) R × Matrix (Fin q) (Fin q) R)) (d n1 n2 : ℕ) :
    (exciteSep AL AR B lL rR op d n1 n2).length = d - 1 := by
  simp [exciteSep]

theorem exciteSep_get (AL AR B : Ten R q D D) (lL rR : Matrix (Fin D) (Fin D) R)
    (op : List (Matrix (Fin q) (Fin q) R × Matrix (Fin q) (Fin q) R)) (d n1 n2 : ℕ) (h1 : 1 ≤ n1) (h2 : 1 ≤ n2) (n : ℕ)
    (hn : n < d - 1) :
    (exciteSep AL AR B lL rR op d n1 n2)[n]? = some (windowElem 1 (fun _ => lL) (fun _ => rR) 1 n 2 (d - n - 2)
      (fun s t => tpDense op (s 0) (s 1) (t 0) (t 1)) (defectLine AL B AR n2) (defectLine AL B AR n1)) := by
  unfold exciteSep
  dsimp only
  rw [List.getElem?_map, List.getElem?_range' (by omega)]
  refine congrArg some ?_
  dsimp only
  rw [Nat.one_mul, show 1 + n - 1 = n by omega, sep_ls _ _ _ _ _ (by omega),
    sep_rs (sepAs AL AR B d n1) (sepAs AL AR B d n2) rR d d le_rfl _ (fun j ha hb => by
      obtain rfl : j = d := by omega
      rw [Function.update_self, Nat.sub_self, lineTransfer_zero]) (1 + n + 1) (by omega),
    fold_update_fun (fun n => calcCtp op (sepAs AL AR B d n1 n) (sepAs AL AR B d n1 (n + 1))) _ (d - 1) (1 + n) (by omega)
      (by omega), epsR2tp_dense, windowElem_eq, lineOp_two]
  have e1 : ∀ j, 1 ≤ j → j ≤ d → sepAs AL AR B d n1 j = defectLine AL B AR n1 j := fun j ha hb => sepAs_eq AL AR B d n1 j h1 ha hb
  have e2 : ∀ j, 1 ≤ j → j ≤ d → sepAs AL AR B d n2 j = defectLine AL B AR n2 j := fun j ha hb => sepAs_eq AL AR B d n2 j h2 ha hb
  rw [lineTransfer_congr (c := 1) (n := n) (X := sepAs AL AR B d n1) (X' := defectLine AL B AR n1) (Y := sepAs AL AR B d n2)
      (Y' := defectLine AL B AR n2) (fun j ha hb => e1 j ha (by omega)) (fun j ha hb => e2 j ha (by omega)),
    lineTransfer_congr (c := 1 + n + 1 + 1) (X := sepAs AL AR B d n1) (X' := defectLine AL B AR n1) (Y := sepAs AL AR B d n2)
      (Y' := defectLine AL B AR n2) (fun j ha hb => e1 j (by omega) (by omega)) (fun j ha hb => e2 j (by omega) (by omega)),
    e1 (1 + n) (by omega) (by omega), e1 (1 + n + 1) (by omega) (by omega), e2 (1 + n) (by omega) (by omega),
    e2 (1 + n + 1) (by omega) (by omega), epsR2_eq, show d - (1 + n + 1) = d - n - 2 by omega]
  rfl

end EvoMPS
