import Verif.Correl
import Verif.Props.Example

/-!
# Properties C05 - C07: separated operators, correlation functions, strings
-/

set_option linter.unusedSectionVars false

namespace EvoMPS

open Matrix

variable {R : Type*} [CommRing R] [StarRing R] [DecidableEq R] {q D : ℕ → ℕ} {N : ℕ}

/-! ## C05 -/

/-- C05, result without intermediate values. -/
theorem C05_expect_1s_1s (S : MPS R q D) (h : UpToDate N S.A S.l S.r) (h0 : D 0 = 1)
    (hN : D N = 1) (k d : ℕ) (hd : 0 < d) (hk : k + d < N)
    (op1 : Fin (q k) → Fin (q k) → R) (op2 : ∀ n, Fin (q n) → Fin (q n) → R) :
    expect1s1s N S k d op1 op2 = some (matElem (psi S.A h0 hN)
      (siteOpPair (N := N) k (k + d) (by omega) hk op1 (op2 (k + d))) (psi S.A h0 hN)) := by
  obtain ⟨_, h2⟩ := expect1s1sRes_loop h k d hk op1 op2 false 0 d le_rfl
  rw [expect1s1s, expect1s1sRes, if_pos hk, ← pair_value h h0 hN k d hd hk]
  simp only [Option.map_some, Bool.false_eq_true, if_false]
  have := h2 d
  rw [if_pos ⟨⟨hd, le_rfl⟩, Or.inr rfl⟩] at this
  simp only [Bool.false_eq_true] at this
  rw [this]

/-- C05, `return_intermediates=True`: entry 0 and the entries `1..d`. -/
theorem C05_intermediates (S : MPS R q D) (h : UpToDate N S.A S.l S.r) (h0 : D 0 = 1)
    (hN : D N = 1) (k d : ℕ) (hk : k + d < N)
    (op1 : Fin (q k) → Fin (q k) → R) (op2 : ∀ n, Fin (q n) → Fin (q n) → R) :
    ∃ res, expect1s1sRes N S k d op1 op2 true = some res ∧
      res 0 = matElem (psi S.A h0 hN) (siteOp (N := N) k (by omega)
        (fun s t => ∑ u, op1 s u * op2 k u t)) (psi S.A h0 hN) ∧
      ∀ j, (_ : 0 < j) → (hj : j ≤ d) → res j = matElem (psi S.A h0 hN)
        (siteOpPair (N := N) k (k + j) (by omega) (by omega) op1 (op2 (k + j)))
        (psi S.A h0 hN) := by
  have e1 : expect1s N S k (opDot op1 (op2 k)) = some (matElem (psi S.A h0 hN)
      (siteOp (N := N) k (by omega) (fun s t => ∑ u, op1 s u * op2 k u t)) (psi S.A h0 hN)) := by
    have : opDot op1 (op2 k) = fun s t => ∑ u, op1 s u * op2 k u t := by
      funext s t; rw [opDot, forSum_eq]
    rw [this, expect1s, if_pos (by omega), expval_1 h h0 hN k (by omega), epsROp1_opSite]
  rw [expect1s1sRes, if_pos hk, e1]
  refine ⟨_, rfl, ?_, fun j h1 h2 => ?_⟩
  · have := (expect1s1sRes_loop h k d hk op1 op2 true (Function.update 0 0 (matElem (psi S.A h0 hN)
      (siteOp (N := N) k (by omega) (fun s t => ∑ u, op1 s u * op2 k u t))
      (psi S.A h0 hN))) d le_rfl).2 0
    rw [if_neg (by omega), Function.update_self] at this
    exact this
  · have := (expect1s1sRes_loop h k d hk op1 op2 true (Function.update 0 0 (matElem (psi S.A h0 hN)
      (siteOp (N := N) k (by omega) (fun s t => ∑ u, op1 s u * op2 k u t))
      (psi S.A h0 hN))) d le_rfl).2 j
    rw [if_pos ⟨⟨h1, h2⟩, Or.inl rfl⟩] at this
    rw [← pair_value h h0 hN k j h1 (by omega)]
    exact this

example (op1 : Fin 2 → Fin 2 → GaussianInt) (op2) :
    expect1s1s 3 Ex.S 0 2 op1 op2 = some (matElem (psi Ex.S.A rfl rfl)
      (siteOpPair (N := 3) 0 2 (by omega) (by omega) op1 (op2 2)) (psi Ex.S.A rfl rfl)) :=
  C05_expect_1s_1s Ex.S Ex.upToDate rfl rfl 0 2 (by omega) (by omega) op1 op2

/-! ## C06 -/

/-- `⟨op_n⟩`, as the specification of C06 needs it. -/
noncomputable def exval (N : ℕ) (A : Tensors R q D) (h0 : D 0 = 1) (hN : D N = 1)
    (op : ∀ n, Fin (q n) → Fin (q n) → R) (n : ℕ) : R :=
  if hn : n < N then matElem (psi A h0 hN) (siteOp (N := N) n hn (op n)) (psi A h0 hN) else 0

theorem expect1s_exval (S : MPS R q D) (h : UpToDate N S.A S.l S.r) (h0 : D 0 = 1)
    (hN : D N = 1) (op : ∀ n, Fin (q n) → Fin (q n) → R) (n : ℕ) (hn : n < N) :
    expect1s N S n (op n) = some (exval N S.A h0 hN op n) := by
  rw [exval, dif_pos hn, expect1s, if_pos hn, expval_1 h h0 hN n hn, epsROp1_opSite]

/-- `⟨op1_k op2_{k+j}⟩`, the operator product on the same site for `j = 0`. -/
noncomputable def exvalPair (N : ℕ) (A : Tensors R q D) (h0 : D 0 = 1) (hN : D N = 1)
    (op1 op2 : ∀ n, Fin (q n) → Fin (q n) → R) (k j : ℕ) : R :=
  if hj : k + j < N then
    if j = 0 then
      matElem (psi A h0 hN) (siteOp (N := N) k (by omega)
        (fun s t => ∑ u, op1 k s u * op2 k u t)) (psi A h0 hN)
    else
      matElem (psi A h0 hN) (siteOpPair (N := N) k (k + j) (by omega) hj (op1 k) (op2 (k + j)))
        (psi A h0 hN)
  else 0

/-- C06 without `return_exvals`. -/
theorem C06_correlation (S : MPS R q D) (h : UpToDate N S.A S.l S.r) (h0 : D 0 = 1)
    (hN : D N = 1) (k d : ℕ) (hk : k + d < N) (op1 op2 : ∀ n, Fin (q n) → Fin (q n) → R) :
    correlation1s1s N S k d op1 op2 = some ((List.range (d + 1)).map fun j =>
      exvalPair N S.A h0 hN op1 op2 k j
        - exval N S.A h0 hN op1 k * exval N S.A h0 hN op2 (k + j)) := by
  obtain ⟨cf, c1, c2, c3⟩ := C05_intermediates S h h0 hN k d hk (op1 k) op2
  rw [correlation1s1s, loopList_some _ (fun j => exval N S.A h0 hN op1 (k + j)) (d + 1)
      (fun j hj => expect1s_exval S h h0 hN op1 (k + j) (by omega)),
    loopList_some _ (fun j => exval N S.A h0 hN op2 (k + j)) (d + 1)
      (fun j hj => expect1s_exval S h h0 hN op2 (k + j) (by omega)), c1]
  simp only [Option.bind_eq_bind, Option.bind_some, Option.pure_def, Option.some.injEq]
  refine List.map_congr_left fun j hj => ?_
  have hj : j < d + 1 := List.mem_range.1 hj
  have e0 : ((List.range (d + 1)).map fun j => exval N S.A h0 hN op1 (k + j)).getD 0 0
      = exval N S.A h0 hN op1 k := by
    simp [List.getD_eq_getElem?_getD]
  have ej : ((List.range (d + 1)).map fun j => exval N S.A h0 hN op2 (k + j)).getD j 0
      = exval N S.A h0 hN op2 (k + j) := by
    rw [List.getD_eq_getElem?_getD, List.getElem?_map, List.getElem?_range hj]; simp
  rw [e0, ej, exvalPair, dif_pos (by omega)]
  by_cases hj0 : j = 0
  · subst hj0
    rw [if_pos rfl, c2]
  · rw [if_neg hj0, c3 j (by omega) (by omega)]

example (op1 op2) : correlation1s1s 3 Ex.S 0 2 op1 op2
    = some ((List.range 3).map fun j => exvalPair 3 Ex.S.A rfl rfl op1 op2 0 j
      - exval 3 Ex.S.A rfl rfl op1 0 * exval 3 Ex.S.A rfl rfl op2 (0 + j)) :=
  C06_correlation Ex.S Ex.upToDate rfl rfl 0 2 (by omega) op1 op2

/-- The claim about `return_exvals=True`: the correlation function together with the
expectation values of `op1` and of `op2` on the `d + 1` sites. -/
def C06ExvalsClaim (N : ℕ) (S : MPS R q D) (h0 : D 0 = 1) (hN : D N = 1) (k d : ℕ)
    (op1 op2 : ∀ n, Fin (q n) → Fin (q n) → R) : Prop :=
  ∃ ccf, correlation1s1sExvals N S k d op1 op2 = some (ccf,
    (List.range (d + 1)).map (fun j => exval N S.A h0 hN op1 (k + j)),
    (List.range (d + 1)).map (fun j => exval N S.A h0 hN op2 (k + j)))

theorem tileTake_enough {α : Type*} (x : List α) (reps : ℕ) (hr : 0 < reps) :
    tileTake x reps x.length = x := by
  obtain ⟨r, rfl⟩ := Nat.exists_eq_succ_of_ne_zero hr.ne'
  rw [tileTake, List.replicate_succ, List.flatten_cons, List.take_append_of_le_length le_rfl,
    List.take_length]

/-- What `return_exvals=True` returns for `d ≥ 1`: the list of `⟨op1⟩` twice. -/
theorem C06_exvals_partial (S : MPS R q D) (h : UpToDate N S.A S.l S.r) (h0 : D 0 = 1)
    (hN : D N = 1) (k d : ℕ) (hd : 0 < d) (hk : k + d < N)
    (op1 op2 : ∀ n, Fin (q n) → Fin (q n) → R) :
    correlation1s1sExvals N S k d op1 op2 = (correlation1s1s N S k d op1 op2).map fun ccf =>
      (ccf, (List.range (d + 1)).map (fun j => exval N S.A h0 hN op1 (k + j)),
        (List.range (d + 1)).map (fun j => exval N S.A h0 hN op1 (k + j))) := by
  rw [correlation1s1sExvals, C06_correlation S h h0 hN k d hk,
    loopList_some _ (fun j => exval N S.A h0 hN op1 (k + j)) (d + 1)
      (fun j hj => expect1s_exval S h h0 hN op1 (k + j) (by omega))]
  simp only [Option.bind_eq_bind, Option.bind_some, Option.map_some, if_neg hd.ne']
  have := tileTake_enough ((List.range (d + 1)).map fun j => exval N S.A h0 hN op1 (k + j))
    ((d + 1) / d + 1) (Nat.succ_pos _)
  rw [List.length_map, List.length_range] at this
  rw [this]

example (op1 op2) := C06_exvals_partial Ex.S Ex.upToDate rfl rfl 0 2 (by omega) (by omega) op1 op2

/-- For `d = 0` the call with `return_exvals=True` raises `ZeroDivisionError`. -/
theorem C06_exvals_d_zero_raises (S : MPS R q D) (k : ℕ)
    (op1 op2 : ∀ n, Fin (q n) → Fin (q n) → R) :
    correlation1s1sExvals N S k 0 op1 op2 = none := by
  rw [correlation1s1sExvals]
  cases correlation1s1s N S k 0 op1 op2 with
  | none => rfl
  | some c =>
    cases h : loopList (fun j => expect1s N S (k + j) (op1 (k + j))) (0 + 1) with
    | none => simp
    | some L => simp

namespace Ex

/-- Two sites, product state `|0⟩|0⟩`. -/
def prodS : MPS GaussianInt (fun _ => 2) (fun _ => 1) :=
  updateNoCF 2 ⟨fun _ s _ _ => if s = 0 then 1 else 0, fun _ => 1, fun _ => 1⟩

theorem prodS_upToDate : UpToDate 2 prodS.A prodS.l prodS.r :=
  (updateNoCF_upToDate 2 _ rfl rfl).2

end Ex

/-- The claim of C06 about `return_exvals=True` is false: with `op1` the identity and
`op2 = 0` the third returned list is that of `op1`. -/
theorem C06_exvals_violated :
    ¬ C06ExvalsClaim 2 Ex.prodS rfl rfl 0 1 (fun _ s t => if s = t then 1 else 0)
      (fun _ _ _ => 0) := by
  rintro ⟨ccf, h⟩
  rw [C06_exvals_partial Ex.prodS Ex.prodS_upToDate rfl rfl 0 1 (by omega) (by omega),
    C06_correlation Ex.prodS Ex.prodS_upToDate rfl rfl 0 1 (by omega)] at h
  simp only [Option.map_some, Option.some.injEq, Prod.mk.injEq] at h
  have h2 := congrArg (fun L => L.getD 0 0) h.2.2
  simp only [List.range_succ_eq_map, List.map_cons, List.getD_cons_zero] at h2
  have e1 := expect1s_exval Ex.prodS Ex.prodS_upToDate rfl rfl
    (fun _ s t => if s = t then 1 else 0) 0 (by omega)
  have e2 := expect1s_exval Ex.prodS Ex.prodS_upToDate rfl rfl (fun _ _ _ => 0) 0 (by omega)
  have c1 : expect1s 2 Ex.prodS 0 (fun s t => if s = t then 1 else 0) = some 1 := by decide
  have c2 : expect1s 2 Ex.prodS 0 (fun _ _ => 0) = some 0 := by decide
  rw [c1] at e1
  rw [c2] at e2
  rw [← Option.some.inj e1, ← Option.some.inj e2] at h2
  exact absurd h2 (by decide)

/-! ## C07 -/

/-- The claim of C07: a list of `d` values, entry `j` (counting from 0) is the expectation
value of the string of length `j + 1`, whenever the longest of the strings fits. -/
def C07Claim (N : ℕ) (S : MPS R q D) (h0 : D 0 = 1) (hN : D N = 1) (k d : ℕ)
    (op : ∀ n, Fin (q n) → Fin (q n) → R) : Prop :=
  ∃ res, expectString1s N S k d op = some res ∧
    ∀ j < d, res j = matElem (psi S.A h0 hN) (stringOp (N := N) k (j + 1) op) (psi S.A h0 hN)

/-- What `expect_string_1s` does return if `1 ≤ d` and sites `n..n+d` exist: entry `j` is
the complex conjugate of the expectation value of the string of length `j + 2`.  Missing
from C07: lengths `1..d`, no conjugation, and strings that end at the last site. -/
theorem C07_string_partial (S : MPS R q D) (h : UpToDate N S.A S.l S.r) (h0 : D 0 = 1)
    (hN : D N = 1) (k d : ℕ) (hd : 0 < d) (hk : k + d < N)
    (op : ∀ n, Fin (q n) → Fin (q n) → R) :
    ∃ res, expectString1s N S k d op = some res ∧
      ∀ j < d, res j = star (matElem (psi S.A h0 hN) (stringOp (N := N) k (j + 2) op)
        (psi S.A h0 hN)) := by
  obtain ⟨p, h1, _, h3⟩ := expectString1s_loop h k d hd hk op (d + 1) le_rfl
  refine ⟨p.2, ?_, fun j hj => ?_⟩
  · rw [expectString1s, h1]; rfl
  · rw [h3 j (by omega), string_value h h0 hN k (j + 2) (by omega)]

example (op) := C07_string_partial Ex.S Ex.upToDate rfl rfl 0 2 (by omega) (by omega) op

/-- If the last site the loop visits is outside the chain the function raises, although
the strings of length `1..d` fit when `k + d = N`. -/
theorem C07_string_raises (S : MPS R q D) (k d : ℕ) (hk : N ≤ k + d)
    (op : ∀ n, Fin (q n) → Fin (q n) → R) : expectString1s N S k d op = none := by
  rw [expectString1s, List.range_succ, List.foldl_append]
  simp only [List.foldl_cons, List.foldl_nil]
  rw [Option.bind_congr (g := fun _ => none) (fun p _ => if_neg (by omega))]
  simp

namespace Ex

/-- Two sites, product state `|1⟩|0⟩`. -/
def prodT : MPS GaussianInt (fun _ => 2) (fun _ => 1) :=
  updateNoCF 2 ⟨fun n s _ _ => if s.val + n = 1 then 1 else 0, fun _ => 1, fun _ => 1⟩

theorem prodT_upToDate : UpToDate 2 prodT.A prodT.l prodT.r :=
  (updateNoCF_upToDate 2 _ rfl rfl).2

end Ex

/-- C07 is violated: on `|1⟩|0⟩` with `op = |1⟩⟨1|`, `expect_string_1s(op, 1, 1)` returns
`[0]`, the expectation value of `op_1 op_2`, while `⟨op_1⟩ = 1`. -/
theorem C07_violated :
    ∃ (S : MPS GaussianInt (fun _ => 2) (fun _ => 1)), UpToDate 2 S.A S.l S.r ∧
      ¬ C07Claim 2 S rfl rfl 0 1 (fun _ s t => if s.val = 1 ∧ t.val = 1 then 1 else 0) := by
  refine ⟨Ex.prodT, Ex.prodT_upToDate, ?_⟩
  rintro ⟨res, h1, h2⟩
  have e := h2 0 (by omega)
  have c : (expectString1s 2 Ex.prodT 0 1
    (fun _ s t => if s.val = 1 ∧ t.val = 1 then 1 else 0)).map (fun r => r 0) = some 0 := by
    decide
  rw [h1, Option.map_some, e] at c
  exact absurd c (by decide)

end EvoMPS
