import Verif.UniformTangentExpLemmas

/-!
# Property theorems: expectation values and correlations in tangent states (C80)
-/

set_option linter.unusedSectionVars false

namespace EvoMPS

open Matrix Uni

section
variable {R : Type*} [CommRing R] [StarRing R] [DecidableEq R] {q D : ℕ}

theorem tangent1s_eq (S : UMPS R q D) (B : Ten R q D D) (op : Fin q → Fin q → R) (d : ℕ) (nb : Option ℕ)
    (s2 : Option (UMPS R q D)) :
    S.expectTangent1s B op d nb none s2 = S.expectTangent1s B op d nb (some (S.tangentLr B d nb none s2)) s2 := by
  cases nb <;> rfl

theorem tangent1s_get (S : UMPS R q D) (B : Ten R q D D) (op : Fin q → Fin q → R) (d : ℕ) (nb : Option ℕ)
    (s2 : Option (UMPS R q D)) (n : ℕ) (hn : n < 2 * d + 1) :
    (S.expectTangent1s B op d nb (some (S.tangentLr B d nb none s2)) s2)[n]? = some (lineExpect
      (defectLine (S.A 0) B ((s2.getD S).A 0) (nb.getD (d + 1))) (S.l 0) ((s2.getD S).r 0) (2 * d + 1) n 1
      fun s t => op (s 0) (t 0)) := by
  have h1 : (S.expectTangent1s B op d nb (some (S.tangentLr B d nb none s2)) s2)
      = (List.range' 1 (2 * d + 1)).map fun n => adot ((S.tangentLr B d nb none s2).1 (n - 1))
        (epsROp1 ((S.tangentLr B d nb none s2).2 n) (tangentAs (S.A 0) B ((s2.getD S).A 0) d (nb.getD (d + 1)) n)
          (tangentAs (S.A 0) B ((s2.getD S).A 0) d (nb.getD (d + 1)) n) op) := by
    cases s2 <;> rfl
  rw [h1, List.getElem?_map, List.getElem?_range' (by omega)]
  refine congrArg some ?_
  dsimp only
  rw [Nat.one_mul, show 1 + n - 1 = n by omega, tangentLr_fst S B d nb s2 n (by omega) _ _ rfl,
    tangentLr_snd S B d nb none s2 (1 + n) (by omega) _ rfl,
    ← lineExpect_congr (S.l 0) ((s2.getD S).r 0) (2 * d + 1) n 1 (by omega) (fun j hj => tangentAs_eq _ B _ d _ j hj),
    lineExpect_adot, lineOp_one, show 2 * d + 1 - (1 + n) = 2 * d + 1 - n - 1 by omega]

/-- `expect_tangent_1s` returns the expectation values of the operator at the sites `1, ..., 2d+1` in the state with the
tensor `B` at site `nb`, the tensors of the state before and those of the second state after it. -/
theorem C80_one_site (S : UMPS R q D) (B : Ten R q D D) (op : Fin q → Fin q → R) (d : ℕ) (nb : Option ℕ)
    (s2 : Option (UMPS R q D)) :
    (S.expectTangent1s B op d nb none s2).length = 2 * d + 1 ∧
    ∀ n < 2 * d + 1, (S.expectTangent1s B op d nb none s2)[n]? = some (lineExpect
      (defectLine (S.A 0) B ((s2.getD S).A 0) (nb.getD (d + 1))) (S.l 0) ((s2.getD S).r 0) (2 * d + 1) n 1
      fun s t => op (s 0) (t 0)) := by
  refine ⟨?_, fun n hn => by rw [tangent1s_eq, tangent1s_get S B op d nb s2 n hn]⟩
  cases s2 <;> simp [UMPS.expectTangent1s]

/-- `expect_tangent_2s` returns the expectation values of the operator at the sites `n, n+1` for `n = 1, ..., 2d` in the
state with the tensor `B` at site `d + 1`. -/
theorem C80_two_site (S : UMPS R q D) (B : Ten R q D D) (op : Fin q → Fin q → Fin q → Fin q → R) (d : ℕ) :
    (S.expectTangent2s B op d).length = 2 * d ∧
    ∀ n < 2 * d, (S.expectTangent2s B op d)[n]? = some (lineExpect (defectLine (S.A 0) B (S.A 0) (d + 1)) (S.l 0) (S.r 0)
      (2 * d + 1) n 2 fun s t => op (s 0) (s 1) (t 0) (t 1)) := by
  refine ⟨by simp [UMPS.expectTangent2s], fun n hn => ?_⟩
  unfold UMPS.expectTangent2s
  dsimp only
  rw [List.getElem?_map, List.getElem?_range' (by omega)]
  refine congrArg some ?_
  dsimp only
  rw [Nat.one_mul, show 1 + n - 1 = n by omega, tangentLr_fst S B d none none n (by omega) _ _ rfl,
    tangentLr_snd S B d none none none (1 + n + 1) (by omega) _ rfl]
  have hX : ∀ j ≤ 2 * d + 1, tangentAs (S.A 0) B (((none : Option (UMPS R q D)).getD S).A 0) d ((none : Option ℕ).getD (d + 1)) j
      = defectLine (S.A 0) B (S.A 0) (d + 1) j := fun j hj => tangentAs_eq _ B _ d _ j hj
  rw [← lineExpect_congr (S.l 0) (S.r 0) (2 * d + 1) n 2 (by omega) hX, lineExpect_adot, lineOp_two_c,
    hX (1 + n) (by omega), hX (1 + n + 1) (by omega), show 2 * d + 1 - (1 + n + 1) = 2 * d + 1 - n - 2 by omega]
  have hA : Function.update (Function.update (fun _ => calcAA (S.A 0) (S.A 0)) (d + 1 - 1) (calcAA (S.A 0) B)) (d + 1)
      (calcAA B (S.A 0)) (1 + n)
        = calcAA (defectLine (S.A 0) B (S.A 0) (d + 1) (1 + n)) (defectLine (S.A 0) B (S.A 0) (d + 1) (1 + n + 1)) := by
    simp only [Function.update_apply, defectLine]
    split_ifs <;> first | rfl | (exfalso; omega)
  have hC : Function.update (Function.update (fun _ => calcC op (calcAA (S.A 0) (S.A 0))) (d + 1 - 1)
      (calcC op (calcAA (S.A 0) B))) (d + 1) (calcC op (calcAA B (S.A 0))) (1 + n)
        = calcC op (calcAA (defectLine (S.A 0) B (S.A 0) (d + 1) (1 + n))
          (defectLine (S.A 0) B (S.A 0) (d + 1) (1 + n + 1))) := by
    simp only [Function.update_apply, defectLine]
    split_ifs <;> first | rfl | (exfalso; omega)
  rw [hA, hC]
  rfl

/-- The array `g` of `correlation_tangent_1s_1s`: entry `n` is the expectation value of `op1` at site 1 times `op2` at site
`n + 1`, the product of the two operators for `n = 0`. -/
theorem C80_product (S : UMPS R q D) (B : Ten R q D D) (op1 op2 : Fin q → Fin q → R) (d : ℕ) (nb : Option ℕ)
    (s2 : Option (UMPS R q D)) :
    (S.correlationTangent B op1 op2 d nb s2).2.length = 2 * d + 1 ∧
    (S.correlationTangent B op1 op2 d nb s2).2[0]? = some (lineExpect
      (defectLine (S.A 0) B ((s2.getD S).A 0) (nb.getD (d + 1))) (S.l 0) ((s2.getD S).r 0) (2 * d + 1) 0 1
      fun s t => ∑ u, op1 (s 0) u * op2 u (t 0)) ∧
    ∀ n, 0 < n → n < 2 * d + 1 → (S.correlationTangent B op1 op2 d nb s2).2[n]? = some (lineExpect
      (defectLine (S.A 0) B ((s2.getD S).A 0) (nb.getD (d + 1))) (S.l 0) ((s2.getD S).r 0) (2 * d + 1) 0 (n + 1)
      (tensorOp (n + 1) (pairFactors op1 op2 n))) := by
  have h1 : (S.correlationTangent B op1 op2 d nb s2).2
      = [adot ((S.tangentLr B d nb (some op1) s2).1 0) (epsROp1 ((S.tangentLr B d nb (some op1) s2).2 1)
          (tangentAs (S.A 0) B ((s2.getD S).A 0) d (nb.getD (d + 1)) 1)
          (tangentAs (S.A 0) B ((s2.getD S).A 0) d (nb.getD (d + 1)) 1) (opDot op1 op2))] ++
        (List.range' 2 (2 * d)).map fun n => adot ((S.tangentLr B d nb (some op1) s2).1 (n - 1))
          (epsROp1 ((S.tangentLr B d nb (some op1) s2).2 n) (tangentAs (S.A 0) B ((s2.getD S).A 0) d (nb.getD (d + 1)) n)
          (tangentAs (S.A 0) B ((s2.getD S).A 0) d (nb.getD (d + 1)) n) op2) := by
    cases s2 <;> cases nb <;> rfl
  rw [h1]
  refine ⟨by simp, ?_, fun n h0 hn => ?_⟩
  · rw [List.getElem?_append_left (by simp)]
    refine congrArg some ?_
    rw [tangentLr_fst_op S B d nb op1 s2 0 (by omega) _ _ rfl, lineOp_string_zero,
      tangentLr_snd S B d nb (some op1) s2 1 (by omega) _ rfl,
      ← lineExpect_congr (S.l 0) ((s2.getD S).r 0) (2 * d + 1) 0 1 (by omega) (fun j hj => tangentAs_eq _ B _ d _ j hj),
      lineExpect_adot, lineTransfer_zero, lineOp_one (op := fun s t => ∑ u, op1 s u * op2 u t)]
    have h2 : opDot op1 op2 = fun s t => ∑ u, op1 s u * op2 u t := by
      funext s t; rw [opDot, forSum_eq]
    rw [h2]
    rfl
  · rw [List.getElem?_append_right (by simp; omega), List.getElem?_map,
      List.getElem?_range' (by simp; omega)]
    refine congrArg some ?_
    simp only [List.length_singleton, Nat.one_mul]
    rw [show 2 + (n - 1) - 1 = n by omega, show 2 + (n - 1) = n + 1 by omega,
      tangentLr_fst_op S B d nb op1 s2 n (by omega) _ _ rfl,
      tangentLr_snd S B d nb (some op1) s2 (n + 1) (by omega) _ rfl,
      ← lineExpect_congr (S.l 0) ((s2.getD S).r 0) (2 * d + 1) 0 (n + 1) (by omega)
        (fun j hj => tangentAs_eq _ B _ d _ j hj),
      lineExpect_adot, lineTransfer_zero, lineOp_string_succ, show 1 + 0 + n = n + 1 by omega,
      show 1 + 0 + (n + 1) = n + 1 + 1 by omega, show 2 * d + 1 - 0 - (n + 1) = 2 * d + 1 - (n + 1) by omega]
    have h3 : pairFactors op1 op2 n n = op2 := by simp [pairFactors, h0.ne']
    rw [h3, lineOp_string_congr _ 1 n (o := pairFactors op1 op2 n) (o' := fun i => if i = 0 then op1 else siteId)
      fun i hi => by simp [pairFactors, hi.ne]]

/-- Entry `n` of the array `c` is entry `n` of `g` minus the product of the two expectation values **at site `n + 1`**. -/
theorem C80_subtracted (S : UMPS R q D) (B : Ten R q D D) (op1 op2 : Fin q → Fin q → R) (d : ℕ) (nb : Option ℕ)
    (s2 : Option (UMPS R q D)) (n : ℕ) (g e1 e2 : R) (hg : (S.correlationTangent B op1 op2 d nb s2).2[n]? = some g)
    (h1 : (S.expectTangent1s B op1 d nb none s2)[n]? = some e1) (h2 : (S.expectTangent1s B op2 d nb none s2)[n]? = some e2) :
    (S.correlationTangent B op1 op2 d nb s2).1[n]? = some (g - e1 * e2) := by
  rw [tangent1s_eq] at h1 h2
  have h : (S.correlationTangent B op1 op2 d nb s2).1 = List.zipWith (· - ·) (S.correlationTangent B op1 op2 d nb s2).2
      (List.zipWith (· * ·) (S.expectTangent1s B op1 d nb (some (S.tangentLr B d nb none s2)) s2)
        (S.expectTangent1s B op2 d nb (some (S.tangentLr B d nb none s2)) s2)) := rfl
  rw [h, List.getElem?_zipWith, List.getElem?_zipWith, hg, h1, h2]

theorem lineProd_shift (X X' : ℕ → Ten R q D D) (c c' n : ℕ) (h : ∀ i < n, X (c + i) = X' (c' + i)) (s : Fin n → Fin q) :
    lineProd X c n s = lineProd X' c' n s := by
  unfold lineProd
  congr 2
  funext i
  rw [h i i.2]

theorem lineTransfer_shift (X X' : ℕ → Ten R q D D) (c c' n : ℕ) (h : ∀ i < n, X (c + i) = X' (c' + i))
    (x : Matrix (Fin D) (Fin D) R) : lineTransfer X X c n x = lineTransfer X' X' c' n x := by
  simp only [lineTransfer, lineProd_shift X X' c c' n h]

theorem lineOp_shift (X X' : ℕ → Ten R q D D) (c c' n : ℕ) (h : ∀ i < n, X (c + i) = X' (c' + i))
    (O : (Fin n → Fin q) → (Fin n → Fin q) → R) (x : Matrix (Fin D) (Fin D) R) :
    lineOp X X c n O x = lineOp X' X' c' n O x := by
  simp only [lineOp, lineProd_shift X X' c c' n h]

/-- The values do not depend on the window: with the left environment of the state and the right environment of the second
state, a window larger by one site at both ends gives the same value at every site.  So they are the values of the
infinite chain. -/
theorem C80_window (A B A2 : Ten R q D D) (l r : Matrix (Fin D) (Fin D) R) (hl : ∑ s, (A s)ᴴ * l * A s = l)
    (hr : ∑ s, A2 s * r * (A2 s)ᴴ = r) (nb w k n : ℕ) (h1 : 1 ≤ nb) (h2 : nb ≤ w) (hw : k + n ≤ w)
    (O : (Fin n → Fin q) → (Fin n → Fin q) → R) :
    lineExpect (defectLine A B A2 (nb + 1)) l r (w + 2) (k + 1) n O = lineExpect (defectLine A B A2 nb) l r w k n O := by
  rw [lineExpect_adot, lineExpect_adot, show w + 2 - (k + 1) - n = (w - k - n) + 1 by omega,
    show k + 1 = 1 + k by omega, lineTransfer_add _ _ 1 1 k, lineTransfer_one, lineTransfer_succ _ _ _ (w - k - n)]
  have e1 : defectLine A B A2 (nb + 1) 1 = A := by simp [defectLine]; omega
  have e2 : defectLine A B A2 (nb + 1) (1 + (1 + k) + n + (w - k - n)) = A2 := by
    rw [defectLine, if_neg (by omega), if_neg (by omega)]
  have e3 : ∀ c i, defectLine A B A2 (nb + 1) (1 + c + i) = defectLine A B A2 nb (c + i) := by
    intro c i
    simp only [defectLine]
    split_ifs <;> first | rfl | (exfalso; omega)
  rw [e1, e2, hr, lineTransfer_shift (defectLine A B A2 (nb + 1)) (defectLine A B A2 nb) (1 + (1 + k) + n) (1 + k + n)
      (w - k - n) (fun i _ => by rw [← e3, show 1 + (1 + k + n) + i = 1 + (1 + k) + n + i by omega]),
    lineOp_shift (defectLine A B A2 (nb + 1)) (defectLine A B A2 nb) (1 + (1 + k)) (1 + k) n (fun i _ => e3 _ i),
    lineTransfer_shift (defectLine A B A2 (nb + 1)) (defectLine A B A2 nb) (1 + 1) 1 k (fun i _ => e3 _ i)]
  rw [← epsR_eq, ← adot_epsL, epsL_eq, hl]

/-- If `B` is the tensor of the state itself and the environments are those of the state, entry `n` of `c` is the connected
correlation function, with the expectation value of `op1` taken at site 1.  **What is missing:** any other `B`,
see `C80_connected_violated`. -/
theorem C80_connected_partial (S : UMPS R q D) (hl : ∑ s, (S.A 0 s)ᴴ * S.l 0 * S.A 0 s = S.l 0)
    (hr : ∑ s, S.A 0 s * S.r 0 * (S.A 0 s)ᴴ = S.r 0) (op1 op2 : Fin q → Fin q → R) (d : ℕ) (nb : Option ℕ) (n : ℕ)
    (g e1 e2 : R) (hg : (S.correlationTangent (S.A 0) op1 op2 d nb none).2[n]? = some g)
    (h1 : (S.expectTangent1s (S.A 0) op1 d nb none none)[0]? = some e1)
    (h2 : (S.expectTangent1s (S.A 0) op2 d nb none none)[n]? = some e2) :
    (S.correlationTangent (S.A 0) op1 op2 d nb none).1[n]? = some (g - e1 * e2) := by
  have hn : n < 2 * d + 1 := by
    rw [← (C80_one_site S (S.A 0) op2 d nb none).1]
    exact (List.getElem?_eq_some_iff.1 h2).1
  refine C80_subtracted S (S.A 0) op1 op2 d nb none n g e1 e2 hg ?_ h2
  rw [(C80_one_site S (S.A 0) op1 d nb none).2 n hn, ← h1, (C80_one_site S (S.A 0) op1 d nb none).2 0 (by omega)]
  refine congrArg some ?_
  have hX : ∀ k, defectLine (S.A 0) (S.A 0) (((none : Option (UMPS R q D)).getD S).A 0) k = fun _ => S.A 0 := by
    intro k; funext j; simp [defectLine]
  have hT : ∀ c m, lineTransfer (fun _ => S.A 0) (fun _ => S.A 0) c m (S.r 0) = S.r 0 := by
    intro c m
    induction m with
    | zero => rw [lineTransfer_zero]
    | succ m ih => rw [lineTransfer_succ, hr, ih]
  have hTl : ∀ c m y, adot (S.l 0) (lineTransfer (fun _ => S.A 0) (fun _ => S.A 0) c m y) = adot (S.l 0) y := by
    intro c m y
    induction m generalizing y with
    | zero => rw [lineTransfer_zero]
    | succ m ih => rw [lineTransfer_succ, ih, ← epsR_eq, ← adot_epsL, epsL_eq, hl]
  rw [hX, lineExpect_adot, lineExpect_adot]
  simp only [Option.getD_none]
  rw [hT, hT, hTl, hTl, lineOp_one, lineOp_one]

end

/-- A product state and a local change of it. -/
noncomputable def demoTanS : UMPS ℂ 2 1 :=
  { L := 1, A := fun _ s => if s = 0 then 1 else 0, AA := fun _ _ _ => 0, l := fun _ => 1, r := fun _ => 1, lL := 1, rL := 1 }

noncomputable def demoTanB : Ten ℂ 2 1 1 := fun s => if s = 1 then 1 else 0

/-- The number operator. -/
noncomputable def demoTanN : Fin 2 → Fin 2 → ℂ := fun s t => if s = 1 ∧ t = 1 then 1 else 0

/-- In the product state with the excitation at site 2, the operator values at site 1 vanish, so that the connected
correlations with site 1 vanish, but the function returns `-1` for site 2. -/
theorem C80_connected_violated :
    (demoTanS.expectTangent1s demoTanB demoTanN 1 none none none)[0]? = some 0 ∧
    (demoTanS.correlationTangent demoTanB demoTanN demoTanN 1 none none).2[1]? = some 0 ∧
    (demoTanS.correlationTangent demoTanB demoTanN demoTanN 1 none none).1[1]? = some (-1 : ℂ) := by
  refine ⟨?_, ?_, ?_⟩
  · simp [UMPS.expectTangent1s, UMPS.tangentLr, tangentAs, epsR_eq, epsL_eq, epsROp1_eq, demoTanS, demoTanB,
      demoTanN, List.range', Fin.sum_univ_two, adot_eq_trace]
  · simp [UMPS.correlationTangent, UMPS.expectTangent1s, UMPS.tangentLr, tangentAs, epsR_eq, epsL_eq, epsROp1_eq, epsLOp1_eq, demoTanS, demoTanB,
      demoTanN, List.range', Fin.sum_univ_two, adot_eq_trace]
  · simp [UMPS.correlationTangent, UMPS.expectTangent1s, UMPS.tangentLr, tangentAs, epsR_eq, epsL_eq, epsROp1_eq, epsLOp1_eq, demoTanS, demoTanB,
      demoTanN, List.range', Fin.sum_univ_two, adot_eq_trace]

/-- The hypotheses of `C80_window` hold for a domain wall between two product states. -/
example (O : (Fin 1 → Fin 2) → (Fin 1 → Fin 2) → ℂ) :
    lineExpect (defectLine (demoTanS.A 0) demoTanB demoTanB 3) 1 1 5 2 1 O
      = lineExpect (defectLine (demoTanS.A 0) demoTanB demoTanB 2) 1 1 3 1 1 O :=
  C80_window (demoTanS.A 0) demoTanB demoTanB 1 1 (by simp [demoTanS]) (by simp [demoTanB]) 2 3 1 1 (by norm_num) (by norm_num)
    (by norm_num) O

/-- The hypotheses of `C80_connected_partial` hold for the product state and the operator exchanging the basis states. -/
example : ∃ g e1 e2, (demoTanS.correlationTangent (demoTanS.A 0) (fun s t => if s = t then 0 else 1) demoTanN 2 none none).1[3]?
    = some (g - e1 * e2 : ℂ) := by
  obtain ⟨-, -, h⟩ := C80_product demoTanS (demoTanS.A 0) (fun s t => if s = t then 0 else 1) demoTanN 2 none none
  exact ⟨_, _, _, C80_connected_partial demoTanS (by simp [demoTanS]) (by simp [demoTanS]) _ demoTanN 2 none 3 _ _ _
    (h 3 (by norm_num) (by norm_num)) ((C80_one_site demoTanS (demoTanS.A 0) _ 2 none none).2 0 (by norm_num))
    ((C80_one_site demoTanS (demoTanS.A 0) demoTanN 2 none none).2 3 (by norm_num))⟩

end EvoMPS
