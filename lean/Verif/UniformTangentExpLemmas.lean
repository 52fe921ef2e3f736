import Verif.UniformTangentExp
import Verif.UniformTangentExpSpec
import Verif.UniformTangentLemmas
import Verif.UniformExpectLemmas

/-!
# Expectation values in tangent states (helper lemmas)
-/

set_option linter.unusedSectionVars false

namespace EvoMPS

open Matrix Uni

section
variable {R : Type*} [CommRing R] [StarRing R] [DecidableEq R] {q D : ℕ}

theorem tangentAs_eq (A B A2 : Ten R q D D) (d nb j : ℕ) (hj : j ≤ 2 * d + 1) :
    tangentAs A B A2 d nb j = defectLine A B A2 nb j := by
  unfold tangentAs defectLine
  rw [List.getD_eq_getElem?_getD, List.append_assoc]
  by_cases h : j < nb
  · rw [if_pos h, List.getElem?_append_left (by simpa using h), List.getElem?_replicate, if_pos h]; rfl
  · rw [if_neg h, List.getElem?_append_right (by simpa using h), List.length_replicate]
    by_cases h' : j = nb
    · subst h'; simp
    · rw [if_neg h', List.getElem?_append_right (by simp; omega), List.getElem?_replicate, if_pos (by simp; omega)]; rfl

theorem lineExpect_adot (X : ℕ → Ten R q D D) (l r : Matrix (Fin D) (Fin D) R) (w k n : ℕ)
    (O : (Fin n → Fin q) → (Fin n → Fin q) → R) :
    lineExpect X l r w k n O
      = adot l (lineTransfer X X 1 k (lineOp X X (1 + k) n O (lineTransfer X X (1 + k + n) (w - k - n) r))) := by
  rw [lineExpect, windowElem_eq]

theorem lineOp_string_succ (X : ℕ → Ten R q D D) (c n : ℕ) (o : ℕ → Fin q → Fin q → R) (x : Matrix (Fin D) (Fin D) R) :
    lineOp X X c (n + 1) (tensorOp (n + 1) o) x
      = lineOp X X c n (tensorOp n o) (epsROp1 x (X (c + n)) (X (c + n)) (o n)) := by
  simp only [lineOp, sum_snoc, tensorOp_snoc, lineProd_snoc, epsROp1_eq, Matrix.conjTranspose_mul,
    Matrix.mul_sum, Matrix.sum_mul, Finset.smul_sum, Matrix.mul_smul, Matrix.smul_mul, smul_smul,
    Matrix.mul_assoc]
  refine Finset.sum_congr rfl fun s _ => ?_
  rw [Finset.sum_comm]

theorem lineOp_string_zero (X : ℕ → Ten R q D D) (c : ℕ) (o : ℕ → Fin q → Fin q → R) (x : Matrix (Fin D) (Fin D) R) :
    lineOp X X c 0 (tensorOp 0 o) x = x := by
  simp [lineOp, tensorOp, lineProd_zero]

theorem lineOp_one (X : ℕ → Ten R q D D) (c : ℕ) (op : Fin q → Fin q → R) (x : Matrix (Fin D) (Fin D) R) :
    lineOp X X c 1 (fun s t => op (s 0) (t 0)) x = epsROp1 x (X c) (X c) op := by
  have h : (fun s t : Fin 1 → Fin q => op (s 0) (t 0)) = tensorOp 1 (fun _ => op) := by
    funext s t; simp [tensorOp]
  rw [h, lineOp_string_succ, lineOp_string_zero]; rfl

theorem lineOp_string_congr (X : ℕ → Ten R q D D) (c n : ℕ) {o o' : ℕ → Fin q → Fin q → R} (h : ∀ i < n, o i = o' i)
    (x : Matrix (Fin D) (Fin D) R) : lineOp X X c n (tensorOp n o) x = lineOp X X c n (tensorOp n o') x := by
  have : (tensorOp n o : (Fin n → Fin q) → (Fin n → Fin q) → R) = tensorOp n o' := by
    funext s t
    simp only [tensorOp]
    exact Finset.prod_congr rfl fun i _ => by rw [h i i.2]
  rw [this]

theorem epsROp1_siteId {a a' b b' : ℕ} (x : Matrix (Fin b) (Fin b') R) (A1 : Ten R q a b)
    (A2 : Ten R q a' b') : epsROp1 x A1 A2 siteId = epsR x A1 A2 := by
  rw [epsROp1_eq, epsR_eq]
  refine Finset.sum_congr rfl fun s _ => ?_
  simp [siteId, ite_smul]

theorem lineOp_two_c (X : ℕ → Ten R q D D) (c : ℕ) (op : Fin q → Fin q → Fin q → Fin q → R) (x : Matrix (Fin D) (Fin D) R) :
    lineOp X X c 2 (fun s t => op (s 0) (s 1) (t 0) (t 1)) x
      = epsR2 x (calcC op (calcAA (X c) (X (c + 1)))) (calcAA (X c) (X (c + 1))) := by
  have h : ∀ s : Fin 2 → Fin q, lineProd X c 2 s = X c (s 0) * X (c + 1) (s 1) := by
    intro s
    simp [lineProd, List.ofFn_succ]
  have h2 : ∀ f : (Fin 2 → Fin q) → Matrix (Fin D) (Fin D) R, ∑ s, f s = ∑ a, ∑ b, f ![a, b] := by
    intro f
    rw [← (finTwoArrowEquiv (Fin q)).symm.sum_comp, Fintype.sum_prod_type]
    rfl
  simp only [lineOp, h, h2, epsR2_eq, calcC_eq, calcAA, Matrix.sum_mul, Matrix.smul_mul]
  rfl

/-- The loop over the left environments. -/
def lsSpec (As : ℕ → Ten R q D D) (l x1 : Matrix (Fin D) (Fin D) R) : ℕ → Matrix (Fin D) (Fin D) R
  | 0 => l
  | 1 => x1
  | n + 2 => epsL (lsSpec As l x1 (n + 1)) (As (n + 2)) (As (n + 2))

theorem ls_loop (As : ℕ → Ten R q D D) (l x1 : Matrix (Fin D) (Fin D) R) (m j : ℕ) (hj : j < m + 2) :
    (List.range' 2 m).foldl (fun (ls : ℕ → Matrix (Fin D) (Fin D) R) (n : ℕ) =>
      Function.update ls n (epsL (ls (n - 1)) (As n) (As n))) (Function.update (fun _ => l) 1 x1) j
      = lsSpec As l x1 j := by
  induction m generalizing j with
  | zero =>
    match j, hj with
    | 0, _ => simp [lsSpec]
    | 1, _ => simp [lsSpec]
  | succ m ih =>
    rw [List.range'_concat, List.foldl_append]
    simp only [List.foldl_cons, List.foldl_nil, Nat.one_mul]
    by_cases h : j = 2 + m
    · subst h
      rw [Function.update_self, ih _ (by omega), show 2 + m - 1 = m + 1 by omega, show 2 + m = m + 2 by omega]
      rfl
    · rw [Function.update_of_ne h, ih _ (by omega)]

theorem rs_loop (As : ℕ → Ten R q D D) (r : Matrix (Fin D) (Fin D) R) (M k : ℕ) (hk : k ≤ M)
    (rs : ℕ → Matrix (Fin D) (Fin D) R) (hrs : ∀ j, k ≤ j → j ≤ M → rs j = lineTransfer As As (j + 1) (M - j) r) (j : ℕ)
    (hj : j ≤ M) :
    (List.range' 1 k).reverse.foldl (fun (rs : ℕ → Matrix (Fin D) (Fin D) R) (n : ℕ) =>
      Function.update rs (n - 1) (epsR (rs n) (As n) (As n))) rs j = lineTransfer As As (j + 1) (M - j) r := by
  induction k generalizing rs with
  | zero => exact hrs j (by omega) hj
  | succ k ih =>
    rw [List.range'_concat, List.reverse_append]
    simp only [List.reverse_cons, List.reverse_nil, List.nil_append, List.cons_append, List.foldl_cons, Nat.one_mul]
    refine ih (by omega) _ fun i h1 h2 => ?_
    by_cases h : i = k
    · subst h
      rw [show 1 + i - 1 = i by omega, Function.update_self, hrs (1 + i) (by omega) (by omega),
        show M - i = 1 + (M - (1 + i)) by omega, lineTransfer_add, lineTransfer_one, epsR_eq,
        show i + 1 = 1 + i by omega]
    · rw [Function.update_of_ne (by omega)]
      exact hrs i (by omega) h2

theorem lsSpec_none (X : ℕ → Ten R q D D) (l : Matrix (Fin D) (Fin D) R) (n : ℕ) (y : Matrix (Fin D) (Fin D) R) :
    adot (lsSpec X l (epsL l (X 1) (X 1)) n) y = adot l (lineTransfer X X 1 n y) := by
  induction n generalizing y with
  | zero => rw [lineTransfer_zero]; rfl
  | succ n ih =>
    rw [lineTransfer_succ, ← ih]
    cases n with
    | zero => rw [lsSpec, lsSpec, adot_epsL, epsR_eq]
    | succ n => rw [lsSpec, adot_epsL, epsR_eq, show 1 + (n + 1) = n + 2 by omega]

theorem lsSpec_op (X : ℕ → Ten R q D D) (l : Matrix (Fin D) (Fin D) R) (op : Fin q → Fin q → R) (n : ℕ)
    (y : Matrix (Fin D) (Fin D) R) :
    adot (lsSpec X l (epsLOp1 l (X 1) (X 1) op) n) y
      = adot l (lineOp X X 1 n (tensorOp n fun i => if i = 0 then op else siteId) y) := by
  induction n generalizing y with
  | zero => rw [lineOp_string_zero]; rfl
  | succ n ih =>
    rw [lineOp_string_succ, ← ih]
    cases n with
    | zero => rw [lsSpec, lsSpec, adot_epsLOp1]; rfl
    | succ n =>
      rw [lsSpec, adot_epsL, if_neg (by omega), epsROp1_siteId, show 1 + (n + 1) = n + 2 by omega]

/-- The second state, by default the state itself. -/
theorem tangentLr_fst (S : UMPS R q D) (B : Ten R q D D) (d : ℕ) (nb : Option ℕ) (s2 : Option (UMPS R q D)) (n : ℕ)
    (hn : n ≤ 2 * d) (y : Matrix (Fin D) (Fin D) R) (X : ℕ → Ten R q D D)
    (hX : X = tangentAs (S.A 0) B ((s2.getD S).A 0) d (nb.getD (d + 1))) :
    adot ((S.tangentLr B d nb none s2).1 n) y = adot (S.l 0) (lineTransfer X X 1 n y) := by
  have h := ls_loop X (S.l 0) (epsL (S.l 0) (X 1) (X 1)) (2 * d - 1) n (by omega)
  rw [← lsSpec_none, ← h, hX]
  cases s2 <;> rfl

theorem tangentLr_fst_op (S : UMPS R q D) (B : Ten R q D D) (d : ℕ) (nb : Option ℕ) (op : Fin q → Fin q → R)
    (s2 : Option (UMPS R q D)) (n : ℕ)
    (hn : n ≤ 2 * d) (y : Matrix (Fin D) (Fin D) R) (X : ℕ → Ten R q D D)
    (hX : X = tangentAs (S.A 0) B ((s2.getD S).A 0) d (nb.getD (d + 1))) :
    adot ((S.tangentLr B d nb (some op) s2).1 n) y
      = adot (S.l 0) (lineOp X X 1 n (tensorOp n fun i => if i = 0 then op else siteId) y) := by
  have h := ls_loop X (S.l 0) (epsLOp1 (S.l 0) (X 1) (X 1) op) (2 * d - 1) n (by omega)
  rw [← lsSpec_op, ← h, hX]
  cases s2 <;> rfl

theorem tangentLr_snd (S : UMPS R q D) (B : Ten R q D D) (d : ℕ) (nb : Option ℕ) (op : Option (Fin q → Fin q → R))
    (s2 : Option (UMPS R q D)) (n : ℕ) (hn : n ≤ 2 * d + 1) (X : ℕ → Ten R q D D)
    (hX : X = tangentAs (S.A 0) B ((s2.getD S).A 0) d (nb.getD (d + 1))) :
    (S.tangentLr B d nb op s2).2 n = lineTransfer X X (n + 1) (2 * d + 1 - n) ((s2.getD S).r 0) := by
  have h := rs_loop X ((s2.getD S).r 0) (2 * d + 1) (2 * d + 1) le_rfl
    (Function.update (fun _ => 0) (2 * d + 1) ((s2.getD S).r 0)) (fun j h1 h2 => by
      obtain rfl : j = 2 * d + 1 := by omega
      rw [Function.update_self, Nat.sub_self, lineTransfer_zero]) n hn
  rw [← h, hX]
  cases s2 <;> rfl

theorem lineExpect_congr {X X' : ℕ → Ten R q D D} (l r : Matrix (Fin D) (Fin D) R) (w k n : ℕ) (hw : k + n ≤ w)
    (h : ∀ j ≤ w, X j = X' j) (O : (Fin n → Fin q) → (Fin n → Fin q) → R) :
    lineExpect X l r w k n O = lineExpect X' l r w k n O := by
  rw [lineExpect_adot, lineExpect_adot,
    lineTransfer_congr (X := X) (X' := X') (Y := X) (Y' := X') (c := 1) (n := k) (fun j _ _ => h j (by omega)) (fun j _ _ => h j (by omega)),
    lineOp_congr (X := X) (X' := X') (Y := X) (Y' := X') (fun j _ _ => h j (by omega)) (fun j _ _ => h j (by omega)),
    lineTransfer_congr (X := X) (X' := X') (Y := X) (Y' := X') (c := 1 + k + n) (fun j _ _ => h j (by omega)) (fun j _ _ => h j (by omega))]

end

end EvoMPS
