import Verif.UniformExpectLemmas
import Mathlib.NumberTheory.Zsqrtd.GaussianInt
import Mathlib.Tactic.FinCases
import Mathlib.Tactic.IntervalCases

/-!
# C47: expectation values of the uniform chain

`chainExpect`, `tensorOp`, `pairFactors` are defined in `UniformSpec.lean`.  That `chainExpect` is the expectation
value in the infinite chain is proved in `Props/UniformLimit.lean`.
-/

set_option linter.unusedSectionVars false
set_option linter.unusedSimpArgs false
set_option linter.unnecessarySeqFocus false

namespace EvoMPS

open Matrix Uni

section
variable {R : Type*} [CommRing R] [StarRing R] [DecidableEq R] {q D : ℕ}

theorem left_index {L k : ℕ} (hk : k < L) : prev L k = (k + L - 1) % L := by
  unfold prev
  split_ifs with h
  · subst h; rw [Nat.zero_add, Nat.mod_eq_of_lt (by omega)]
  · rw [show k + L - 1 = k - 1 + L by omega, Nat.add_mod_right, Nat.mod_eq_of_lt (by omega)]

/-- **C47**: `expect_1s` at any offset inside the block. -/
theorem C47_expect_1s (S : UMPS R q D) (op : Fin q → Fin q → R) (k : ℕ) (hk : k < S.L) :
    S.expect1s op k
      = some (chainExpect S.L S.A S.l S.r k 1 (fun s t => op (s 0) (t 0))) := by
  rw [UMPS.expect1s, if_neg (by omega), chainExpect_adot, chainOp_one, Nat.mod_eq_of_lt hk,
    left_index hk, show k + 1 + S.L - 1 = k + S.L by omega, Nat.add_mod_right, Nat.mod_eq_of_lt hk]

/-- **C47**: the array of `expect_1s_1s` with `return_intermediates=True`: all distances from 1 to `d`, and
for distance 0 the product of the operators. -/
theorem C47_expect_1s_1s_all (S : UMPS R q D) (op1 op2 : Fin q → Fin q → R) (d k : ℕ) (hd : 0 < d)
    (hk : k < S.L) : ∃ res, S.expect1s1sRes op1 op2 d k true = some res ∧
      res 0 = chainExpect S.L S.A S.l S.r k 1 (fun s t => ∑ u, op1 (s 0) u * op2 u (t 0)) ∧
      ∀ j, 0 < j → j ≤ d → res j = chainExpect S.L S.A S.l S.r k (j + 1)
        (tensorOp (j + 1) (pairFactors op1 op2 j)) := by
  have h := uniPair_loop S (S.l ((k + S.L - 1) % S.L)) k d op1 op2 true
    (Function.update 0 0 (chainExpect S.L S.A S.l S.r k 1 (fun s t => opDot op1 op2 (s 0) (t 0)))) d
    le_rfl hk
  unfold UMPS.expect1s1sRes
  rw [if_neg hd.ne', if_neg (by omega)]
  have e := C47_expect_1s S (opDot op1 op2) k hk
  refine ⟨_, (by rw [e]; rfl), ?_, fun j h1 h2 => ?_⟩
  · refine (h.2 0).trans ?_
    rw [if_neg (by omega), Function.update_self]
    simp only [opDot, forSum_eq]
  · refine (h.2 j).trans ?_
    rw [if_pos ⟨⟨h1, h2⟩, Or.inl rfl⟩, chainExpect_pair S.L S.A S.l S.r k j h1]

/-- **C47**: `expect_1s_1s` for every positive distance, across any number of blocks. -/
theorem C47_expect_1s_1s (S : UMPS R q D) (op1 op2 : Fin q → Fin q → R) (d k : ℕ) (hd : 0 < d)
    (hk : k < S.L) : S.expect1s1s op1 op2 d k
      = some (chainExpect S.L S.A S.l S.r k (d + 1) (tensorOp (d + 1) (pairFactors op1 op2 d))) := by
  have h := uniPair_loop S (S.l ((k + S.L - 1) % S.L)) k d op1 op2 false 0 d le_rfl hk
  unfold UMPS.expect1s1s UMPS.expect1s1sRes
  rw [if_neg hd.ne', if_neg (by omega)]
  simp only [Bool.false_eq_true, if_false, Option.map_some]
  refine congrArg some ?_
  have h2 := (h.2 d).trans (if_pos ⟨⟨hd, le_rfl⟩, Or.inr rfl⟩)
  rw [chainExpect_pair S.L S.A S.l S.r k d hd]
  simpa only [Bool.false_eq_true] using h2

/-- Distance 0 is rejected, as documented. -/
theorem C47_distance_zero (S : UMPS R q D) (op1 op2 : Fin q → Fin q → R) (k : ℕ) :
    S.expect1s1s op1 op2 0 k = none := by
  simp [UMPS.expect1s1s, UMPS.expect1s1sRes]

theorem exvals_spec (S : UMPS R q D) (op : Fin q → Fin q → R) (k : ℕ) (hL : 0 < S.L) :
    ∃ ex, S.exvals op k = some ex ∧ ∀ j < S.L, ex j
      = chainExpect S.L S.A S.l S.r ((k + j) % S.L) 1 (fun s t => op (s 0) (t 0)) := by
  have key : ∀ n ≤ S.L, ∃ ex : ℕ → R, (List.range n).foldl (fun (e : Option (ℕ → R)) j => e.bind fun e =>
      (S.expect1s op ((k + j) % S.L)).map fun v => Function.update e j v) (some 0) = some ex ∧
      ∀ j < n, ex j = chainExpect S.L S.A S.l S.r ((k + j) % S.L) 1 (fun s t => op (s 0) (t 0)) := by
    intro n
    induction n with
    | zero => exact fun _ => ⟨0, rfl, fun j hj => absurd hj (by omega)⟩
    | succ n ih =>
      intro hn
      obtain ⟨ex, h1, h2⟩ := ih (by omega)
      rw [List.range_succ, List.foldl_append, h1]
      simp only [List.foldl_cons, List.foldl_nil, Option.bind_some,
        C47_expect_1s S op _ (Nat.mod_lt (k + n) hL), Option.map_some]
      refine ⟨_, rfl, fun j hj => ?_⟩
      by_cases hjn : j = n
      · subst hjn; rw [Function.update_self]
      · rw [Function.update_of_ne hjn, h2 j (by omega)]
  exact key S.L le_rfl

/-- The expectation value depends on the site only through its offset in the block. -/
theorem chainExpect_mod (L : ℕ) (A : ℕ → Ten R q D D) (l r : ℕ → Matrix (Fin D) (Fin D) R)
    (hL : 0 < L) (k n : ℕ) (O : (Fin n → Fin q) → (Fin n → Fin q) → R) :
    chainExpect L A l r (k % L) n O = chainExpect L A l r k n O := by
  have hp : ∀ s, chainProd L A (k % L) n s = chainProd L A k n s := fun s => by
    simp only [chainProd, Nat.mod_add_mod]
  have h1 : (k % L + L - 1) % L = (k + L - 1) % L := by
    rw [Nat.add_sub_assoc hL, Nat.add_sub_assoc hL, Nat.mod_add_mod]
  have h2 : (k % L + n + L - 1) % L = (k + n + L - 1) % L := by
    rw [show k % L + n + L - 1 = k % L + (n + L - 1) by omega,
      show k + n + L - 1 = k + (n + L - 1) by omega, Nat.mod_add_mod]
  simp only [chainExpect, hp, h1, h2]

/-- **C47**: the correlation function for all distances up to `d`. -/
theorem C47_correlation (S : UMPS R q D) (op1 op2 : Fin q → Fin q → R) (same : Bool)
    (hsame : same = true → op1 = op2) (d k : ℕ) (hd : 0 < d) (hk : k < S.L) :
    ∃ ccf ex1 ex2, S.correlation1s1s op1 op2 same d k = some (ccf, ex1, ex2) ∧
      (∀ j, 0 < j → j ≤ d → ccf j = chainExpect S.L S.A S.l S.r k (j + 1)
          (tensorOp (j + 1) (pairFactors op1 op2 j))
        - chainExpect S.L S.A S.l S.r k 1 (fun s t => op1 (s 0) (t 0))
        * chainExpect S.L S.A S.l S.r (k + j) 1 (fun s t => op2 (s 0) (t 0))) ∧
      ∀ j ≤ d, ex1 j = chainExpect S.L S.A S.l S.r (k + j) 1 (fun s t => op1 (s 0) (t 0)) := by
  have hL : 0 < S.L := by omega
  obtain ⟨e1, h1, h1'⟩ := exvals_spec S op1 k hL
  obtain ⟨e2, h2, h2'⟩ := exvals_spec S op2 k hL
  obtain ⟨cf, h3, -, h3'⟩ := C47_expect_1s_1s_all S op1 op2 d k hd hk
  have he : ∃ e, (if same then some e1 else S.exvals op2 k) = some e ∧ ∀ j < S.L, e j
      = chainExpect S.L S.A S.l S.r ((k + j) % S.L) 1 (fun s t => op2 (s 0) (t 0)) := by
    cases same with
    | true => exact ⟨e1, rfl, by rw [← hsame rfl]; exact h1'⟩
    | false => exact ⟨e2, by simpa using h2, h2'⟩
  obtain ⟨e, h4, h4'⟩ := he
  have hmod : ∀ j, (k + j % S.L) % S.L = (k + j) % S.L := fun j => Nat.add_mod_mod k j S.L
  refine ⟨_, _, _, (by
    unfold UMPS.correlation1s1s
    simp only [h1, h4, h3, Option.bind_some, Option.map_some]
    rfl), ?_, ?_⟩
  · intro j hj hj'
    rw [List.range_eq_range', (foldPoint_spec (X := fun _ => R) (fun n => cf n - e1 0 * e (n % S.L)) 0 0
      (d + 1)).2 j (by omega) (by omega), h3' j hj hj', h1' 0 hL, h4' _ (Nat.mod_lt j hL), hmod,
      chainExpect_mod _ _ _ _ hL, chainExpect_mod _ _ _ _ hL]
    rfl
  · intro j _
    rw [h1' _ (Nat.mod_lt j hL), hmod, chainExpect_mod _ _ _ _ hL]

/-- The stored products are those of the current tensors. -/
def CurrentAA (S : UMPS R q D) : Prop :=
  ∀ k < S.L, S.AA k = fun s t => S.A k s * S.A ((k + 1) % S.L) t

/-- **C47**, partial: `expect_2s` is right if the products are current and the right environments after
the first and after the second site agree (as they do for `L = 1` and in right canonical form).  The code uses
the environment after the first site. -/
theorem C47_expect_2s_partial (S : UMPS R q D) (op : Fin q → Fin q → Fin q → Fin q → R) (k : ℕ)
    (hk : k < S.L) (hAA : CurrentAA S) (hr : S.r k = S.r ((k + 1) % S.L)) :
    S.expect2s op k = some (chainExpect S.L S.A S.l S.r k 2
      (fun s t => op (s 0) (s 1) (t 0) (t 1))) := by
  rw [UMPS.expect2s, if_neg (by omega), chainExpect_adot, chainOp_two, Nat.mod_eq_of_lt hk,
    left_index hk, show k + 2 + S.L - 1 = k + 1 + S.L by omega, Nat.add_mod_right, ← hr, hAA k hk]
  rfl

/-- `calc_AA` makes the products current. -/
theorem C47_calc_AA (S : UMPS R q D) : CurrentAA S.calcAAs := by
  intro k hk
  have h := (foldPoint_spec (X := fun _ => Ten2 R q q D D)
    (fun k => calcAA (S.A k) (S.A ((k + 1) % S.L))) S.AA 0 S.L).2 k (by omega)
    (by have : k < S.L := hk; omega)
  rw [← List.range_eq_range'] at h
  exact h

theorem epsR_opDot (x : Matrix (Fin D) (Fin D) R) (A : Ten R q D D) (o : Matrix (Fin q) (Fin q) R) :
    epsR x (opDotTen o A) A = epsROp1 x A A (fun s t => o s t) := by
  rw [epsR_eq, epsROp1_eq]
  simp only [opDotTen_eq, Matrix.sum_mul, Matrix.smul_mul]

/-- **C47**, partial: `expect_2s_tp` for a sum of products, under the same condition on the
environments. -/
theorem C47_expect_2s_tp_partial (S : UMPS R q D)
    (opTp : List (Matrix (Fin q) (Fin q) R × Matrix (Fin q) (Fin q) R)) (k : ℕ)
    (hk : k < S.L) (hr : S.r k = S.r ((k + 1) % S.L)) :
    S.expect2sTp opTp k = some ((opTp.map fun o => chainExpect S.L S.A S.l S.r k 2
      (fun s t => o.1 (s 0) (t 0) * o.2 (s 1) (t 1))).sum) := by
  rw [UMPS.expect2sTp, if_neg (by omega)]
  refine congrArg some ?_
  have key : ∀ o : Matrix (Fin q) (Fin q) R × Matrix (Fin q) (Fin q) R,
      chainExpect S.L S.A S.l S.r k 2 (fun s t => o.1 (s 0) (t 0) * o.2 (s 1) (t 1))
        = adot (S.l (prev S.L k)) (epsR (epsR (S.r k) (opDotTen o.2 (S.A ((k + 1) % S.L)))
          (S.A ((k + 1) % S.L))) (opDotTen o.1 (S.A k)) (S.A k)) := fun o => by
    have e : (fun s t : Fin 2 → Fin q => o.1 (s 0) (t 0) * o.2 (s 1) (t 1))
        = tensorOp 2 fun i => if i = 0 then o.1 else o.2 := by
      funext s t
      simp [tensorOp]
    rw [e, chainExpect_adot, chainOp_string_succ, chainOp_string_succ, chainOp_zero, epsR_opDot,
      epsR_opDot, left_index hk, show k + 2 + S.L - 1 = k + 1 + S.L by omega, Nat.add_mod_right, ← hr,
      show k + 0 = k from rfl, Nat.mod_eq_of_lt hk]
    rfl
  rw [epsR2tp, calcCtp_eq, foldl_add_eq, zero_add, List.map_map]
  simp only [key]
  induction opTp with
  | nil => simp [adot_eq_trace]
  | cons o os ih =>
    rw [List.map_cons, List.sum_cons, List.map_cons, List.sum_cons, ← ih]
    simp only [adot_eq_trace, Matrix.mul_add, Matrix.trace_add]
    rfl

/-- **C47**: `expect_3s` with an array. -/
theorem C47_expect_3s (S : UMPS R q D) (op : Fin q → Fin q → Fin q → Fin q → Fin q → Fin q → R)
    (k : ℕ) (hk : k < S.L) :
    S.expect3s op false k = some (chainExpect S.L S.A S.l S.r k 3
      (fun s t => op (s 0) (s 1) (s 2) (t 0) (t 1) (t 2))) := by
  rw [UMPS.expect3s, if_neg (by omega), chainExpect_adot, chainOp_three, Nat.mod_eq_of_lt hk,
    left_index hk, show k + 3 + S.L - 1 = k + 2 + S.L by omega, Nat.add_mod_right]
  simp

/-- **C47**: `expect_3s` with a function raises, though it is documented. -/
theorem C47_expect_3s_callable_violated (S : UMPS R q D)
    (op : Fin q → Fin q → Fin q → Fin q → Fin q → Fin q → R) (k : ℕ) : S.expect3s op true k = none := by
  simp [UMPS.expect3s]

/-- **C47**: entry `[s, t]` of the reduced density matrix of a site is the expectation value of
`|s⟩⟨t|`, so that `∑ op[s, t] rho[s, t]` is the expectation value of `op`: the matrix is the transpose of
the usual one, `rho[t, s] = ⟨t|ρ|s⟩`. -/
theorem C47_density (S : UMPS R q D) (k : ℕ) (hk : k < S.L) :
    ∃ rho, S.density1s k = some rho ∧ (∀ a b, rho a b = chainExpect S.L S.A S.l S.r k 1
      (fun s t => if s 0 = a ∧ t 0 = b then 1 else 0)) ∧
      ∀ op : Fin q → Fin q → R, S.expect1s op k = some (∑ s, ∑ t, op s t * rho s t) := by
  rw [UMPS.density1s, if_neg (by omega)]
  refine ⟨_, rfl, fun a b => ?_, fun op => ?_⟩
  · simp only [chainExpect, sum_fin1, chainProd_one, Matrix.of_apply]
    rw [Finset.sum_eq_single a, Finset.sum_eq_single b]
    · rw [if_pos ⟨rfl, rfl⟩, one_mul, adot_eq_trace, left_index hk, Nat.mod_eq_of_lt hk,
        show k + 1 + S.L - 1 = k + S.L by omega, Nat.add_mod_right, Nat.mod_eq_of_lt hk]
      simp only [Matrix.mul_assoc]
      rfl
    · intro c _ hc; rw [if_neg (fun h => hc h.2), zero_mul]
    · simp
    · intro c _ hc
      refine Finset.sum_eq_zero fun d _ => ?_
      rw [if_neg (fun h => hc h.1), zero_mul]
    · simp
  · rw [C47_expect_1s S op k hk]
    simp only [chainExpect, sum_fin1, chainProd_one, Matrix.of_apply, Matrix.cons_val_zero]
    refine congrArg some (Finset.sum_congr rfl fun s _ => Finset.sum_congr rfl fun t _ => ?_)
    rw [adot_eq_trace, left_index hk, Nat.mod_eq_of_lt hk,
      show k + 1 + S.L - 1 = k + S.L by omega, Nat.add_mod_right, Nat.mod_eq_of_lt hk]
    simp only [Matrix.mul_assoc]

/-- **C47**: the occupation of the basis states. -/
theorem C47_occupancy (S : UMPS R q D) (k : ℕ) (hk : k < S.L) :
    ∃ p, S.basisOccupancy k = some p ∧ ∀ a, p a = chainExpect S.L S.A S.l S.r k 1
      (fun s t => if s 0 = a ∧ t 0 = a then 1 else 0) := by
  obtain ⟨rho, h1, h2, -⟩ := C47_density S k hk
  rw [UMPS.density1s, if_neg (by omega)] at h1
  refine ⟨fun a => rho a a, ?_, fun a => h2 a a⟩
  rw [UMPS.basisOccupancy, if_neg (by omega), ← left_index hk]
  obtain rfl := Option.some.inj h1
  simp only [Matrix.of_apply, Matrix.mul_assoc]

/-- What `expect_string_1s` returns: the expectation values of the *adjoint* operator on `1, ..., d+1`
sites from site `k` on. -/
theorem C47_string_actual (S : UMPS R q D) (op : Fin q → Fin q → R) (k d : ℕ) (hL : 0 < S.L) :
    S.expectString1s op k d = some ((List.range (d + 1)).map fun n =>
      chainExpect S.L S.A S.l S.r k (n + 1) (tensorOp (n + 1) fun _ s t => star (op t s))) := by
  rw [UMPS.expectString1s, if_neg hL.ne']
  refine congrArg some ?_
  set x := S.l ((k + S.L - 1) % S.L) with hx
  have hstep : ∀ y n, epsL y (S.A n) (tensordotOp op (S.A n))
      = epsLOp1 y (S.A n) (S.A n) fun s t => star (op t s) := fun y n => by
    rw [epsL_eq, epsLOp1_eq]
    refine Finset.sum_congr rfl fun s _ => ?_
    rw [tensordotOp, forSum_eq, Matrix.mul_sum]
    refine Finset.sum_congr rfl fun t _ => ?_
    rw [Matrix.mul_smul, star_star]
  have key : ∀ m, (List.range' k m).foldl (fun (p : Matrix (Fin D) (Fin D) R × List R) n =>
      let nm := n % S.L
      let x := epsL p.1 (S.A nm) (tensordotOp op (S.A nm))
      (x, p.2 ++ [adot x (S.r nm)])) (x, [])
      = (mixOp S.L S.A x k (fun _ s t => star (op t s)) m, (List.range m).map fun n =>
        chainExpect S.L S.A S.l S.r k (n + 1) (tensorOp (n + 1) fun _ s t => star (op t s))) := by
    intro m
    induction m with
    | zero => rfl
    | succ m ih =>
      rw [List.range'_concat, List.foldl_append, ih, List.range_succ, List.map_append]
      simp only [List.foldl_cons, List.foldl_nil, Nat.one_mul, hstep, List.map_cons, List.map_nil]
      rw [chainExpect_string, ← hx, show k + (m + 1) + S.L - 1 = k + m + S.L by omega,
        Nat.add_mod_right]
      rfl
  rw [key]

/-- **C47**: for Hermitian operators the strings are right (of lengths 1 to `d + 1`, not `d`). -/
theorem C47_string_partial (S : UMPS R q D) (op : Fin q → Fin q → R) (k d : ℕ) (hL : 0 < S.L)
    (hop : ∀ s t, star (op t s) = op s t) :
    S.expectString1s op k d = some ((List.range (d + 1)).map fun n =>
      chainExpect S.L S.A S.l S.r k (n + 1) (tensorOp (n + 1) fun _ => op)) := by
  rw [C47_string_actual S op k d hL]
  simp only [hop]

/-- **C47**: `apply_op_1s` on a state: the new tensors give the amplitudes of the operator applied to
site `k` of every block (the documentation speaks of all sites). -/
theorem C47_apply (S : UMPS R q D) (op : Fin q → Fin q → R) (k : ℕ) (hk : k < S.L) :
    ∃ S', S.applyOp1s op k = some S' ∧ ∀ j n s, chainProd S'.L S'.A j n s
      = ∑ t, (∏ i : Fin n, if (j + i) % S.L = k then op (s i) (t i) else siteId (s i) (t i))
        • chainProd S.L S.A j n t := by
  rw [UMPS.applyOp1s, if_neg (by omega)]
  refine ⟨_, rfl, fun j n => ?_⟩
  induction n with
  | zero => intro s; simp [chainProd_zero]
  | succ n ih =>
    intro s
    have hs : s = Fin.snoc (α := fun _ => Fin q) (fun i => s i.castSucc) (s (Fin.last n)) :=
      (Fin.snoc_init_self s).symm
    generalize s (Fin.last n) = a at hs
    generalize (fun i : Fin n => s i.castSucc) = s' at hs
    subst hs
    rw [chainProd_snoc, ih, sum_snoc]
    simp only [Fin.prod_univ_castSucc, Fin.snoc_castSucc, Fin.snoc_last, chainProd_snoc, Fin.val_castSucc,
      Fin.val_last, Matrix.sum_mul, Matrix.smul_mul]
    refine Finset.sum_congr rfl fun t _ => ?_
    by_cases h : (j + n) % S.L = k
    · simp only [h, Function.update_self, forSum_eq, if_true, Matrix.mul_sum, Matrix.mul_smul, mul_smul,
        Finset.smul_sum]
    · simp only [Function.update_of_ne h, if_neg h, mul_smul]
      rw [Finset.sum_eq_single a]
      · simp [siteId]
      · intro b _ hb; simp [siteId, Ne.symm hb]
      · simp

end

/-! ## Violations -/

/-- Blocks of two sites in the state `3/5 |00⟩ + 4/5 |11⟩`; the blocks are not entangled with each other.
The products `AA` are those of `calc_AA`. -/
noncomputable def demoDimer : UMPS ℂ 2 2 where
  L := 2
  A := fun k s => if k = 0 then (if s = 0 then !![3/5, 0; 0, 0] else !![0, 4/5; 0, 0])
    else (if s = 0 then !![1, 0; 0, 0] else !![0, 0; 1, 0])
  AA := fun k s t => (fun k s => if k = 0 then (if s = 0 then !![3/5, 0; 0, 0] else !![0, 4/5; 0, 0])
    else (if s = 0 then !![1, 0; 0, 0] else !![0, 0; 1, 0]) : ℕ → Ten ℂ 2 2 2) k s
      * (fun k s => if k = 0 then (if s = 0 then !![3/5, 0; 0, 0] else !![0, 4/5; 0, 0])
    else (if s = 0 then !![1, 0; 0, 0] else !![0, 0; 1, 0]) : ℕ → Ten ℂ 2 2 2) ((k + 1) % 2) t
  l := fun k => if k = 0 then !![9/25, 0; 0, 16/25] else !![1, 0; 0, 0]
  r := fun k => if k = 0 then !![1, 0; 0, 1] else !![1, 0; 0, 0]
  lL := 1
  rL := 1

theorem demoDimer_current : CurrentAA demoDimer := fun _ _ => rfl

theorem demoDimer_env : ChainEnv demoDimer.L demoDimer.A demoDimer.l demoDimer.r := by
  constructor
  · intro k hk
    have : k = 0 ∨ k = 1 := by have : k < 2 := hk; omega
    rcases this with rfl | rfl <;> ext i j <;> fin_cases i <;> fin_cases j <;>
      simp [demoDimer, Fin.sum_univ_two, Matrix.mul_apply, Matrix.vecMul, dotProduct,
        Matrix.conjTranspose_apply, Complex.conj_ofNat] <;> norm_num
  · intro k hk
    have : k = 0 ∨ k = 1 := by have : k < 2 := hk; omega
    rcases this with rfl | rfl <;> ext i j <;> fin_cases i <;> fin_cases j <;>
      simp [demoDimer, Fin.sum_univ_two, Matrix.mul_apply, Matrix.vecMul, dotProduct,
        Matrix.conjTranspose_apply, Complex.conj_ofNat] <;> norm_num
  · intro k hk
    have : k = 0 ∨ k = 1 := by have : k < 2 := hk; omega
    rcases this with rfl | rfl <;>
      simp [demoDimer, Matrix.trace, Fin.sum_univ_two, Matrix.mul_apply, Matrix.vecMul, dotProduct,
        Matrix.conjTranspose_apply, Complex.conj_ofNat] <;>
      norm_num

/-- **C47**, violated: in this state, with valid environments and current products, `expect_2s` of the
identity on the sites 1 and 2 is not 1.  (The wrong right environment is used.) -/
theorem C47_expect_2s_violated :
    ∃ (S : UMPS ℂ 2 2) (k : ℕ), ChainEnv S.L S.A S.l S.r ∧ CurrentAA S ∧ k < S.L ∧
      S.expect2s (fun a b c d => if a = c ∧ b = d then 1 else 0) k = some (9 / 25) ∧
      chainExpect S.L S.A S.l S.r k 2
        (fun s t => if s 0 = t 0 ∧ s 1 = t 1 then 1 else 0) = 1 := by
  refine ⟨demoDimer, 1, demoDimer_env, demoDimer_current, by simp [demoDimer], ?_, ?_⟩
  · rw [UMPS.expect2s, if_neg (by simp [demoDimer])]
    simp [epsR2_eq, calcC_eq, adot_eq_trace, demoDimer, prev, Matrix.trace, Fin.sum_univ_two,
      Matrix.mul_apply, Matrix.vecMul, dotProduct, Matrix.conjTranspose_apply, Complex.conj_ofNat]
    norm_num
  · simp only [chainExpect, sum_fin2, chainProd_two]
    simp [demoDimer, Matrix.trace, Fin.sum_univ_two,
      Matrix.mul_apply, Matrix.vecMul, dotProduct, Matrix.conjTranspose_apply, Complex.conj_ofNat]
    norm_num

/-- **C47**, violated: the plain uniform class never computes the products (its `update` has the call
commented out), they keep the zeros of the constructor and `expect_2s` returns zero for every operator. -/
theorem C47_products_violated {R : Type*} [CommRing R] [StarRing R] [DecidableEq R] {q D : ℕ}
    (S : UMPS R q D) (hAA : S.AA = 0) (op : Fin q → Fin q → Fin q → Fin q → R) (k : ℕ) (hk : k < S.L) :
    S.expect2s op k = some 0 := by
  rw [UMPS.expect2s, if_neg (by omega), hAA]
  simp [epsR2_eq, adot_eq_trace]

/-- The sites of demoDimer have one environment each way, so `C47_expect_2s_partial` does not apply to it, but
it does to a one-site block. -/
example : ∃ S : UMPS GaussianInt 1 1, CurrentAA S ∧ 0 < S.L ∧ S.r 0 = S.r ((0 + 1) % S.L) :=
  ⟨⟨1, fun _ _ => 1, fun _ _ _ => 1 * 1, 1, 1, 1, 1⟩, fun _ _ => rfl, by decide, rfl⟩

/-- **C47**, violated: `expect_string_1s` of a phase returns the conjugate phase. -/
theorem C47_string_violated :
    ∃ (S : UMPS GaussianInt 1 1) (op : Fin 1 → Fin 1 → GaussianInt),
      ChainEnv S.L S.A S.l S.r ∧ S.expectString1s op 0 0 = some [⟨0, -1⟩] ∧
      chainExpect S.L S.A S.l S.r 0 1 (tensorOp 1 fun _ => op) = ⟨0, 1⟩ := by
  refine ⟨⟨1, fun _ _ => 1, 0, 1, 1, 1, 1⟩, fun _ _ => ⟨0, 1⟩, ⟨?_, ?_, ?_⟩, by decide, by decide⟩
  · intro k hk
    simp
  · intro k hk
    simp
  · intro k hk
    simp

/-- **C47**, violated: with `return_exvals=True` the values returned for the second operator are those of the
first. -/
theorem C47_exvals_violated :
    ∃ (S : UMPS GaussianInt 1 1) (op1 op2 : Fin 1 → Fin 1 → GaussianInt) (ccf ex1 ex2 : ℕ → GaussianInt),
      ChainEnv S.L S.A S.l S.r ∧ S.correlation1s1s op1 op2 false 1 0 = some (ccf, ex1, ex2) ∧
      ex2 0 = 2 ∧ chainExpect S.L S.A S.l S.r 0 1 (fun s t => op2 (s 0) (t 0)) = 3 := by
  refine ⟨⟨1, fun _ _ => 1, 0, 1, 1, 1, 1⟩, fun _ _ => 2, fun _ _ => 3, _, _, _, ⟨?_, ?_, ?_⟩, rfl,
    by decide, by decide⟩
  · intro k hk
    simp
  · intro k hk
    simp
  · intro k hk
    simp

end EvoMPS
