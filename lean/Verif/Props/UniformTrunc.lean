import Verif.UniformTruncLemmas

/-!
# C71: truncation of the uniform chain
-/

namespace EvoMPS

open Matrix Uni

variable {q D : ℕ}

/-- The index is dropped when the bond dimension is reduced to `D'`: one of the last ones in the symmetric gauge, one of the first ones
in the right canonical form. -/
def Dropped (symm : Bool) (D D' : ℕ) (i : Fin D) : Prop := if symm then D' ≤ (i : ℕ) else (i : ℕ) < D - D'

/-- A state in the canonical form that `restore_CF` produces: `l` is diagonal with non-negative entries `w`, and `r` is `l` (symmetric
gauge) or the identity. -/
structure DiagForm (symm : Bool) (S : UMPS ℂ q D) (w : ℕ → Fin D → ℝ) : Prop where
  env : ChainEnv S.L S.A S.l S.r
  left : ∀ k < S.L, S.l k = Matrix.diagonal fun i => (w k i : ℂ)
  nonneg : ∀ k < S.L, ∀ i, 0 ≤ w k i
  right : ∀ k < S.L, S.r k = if symm then S.l k else 1

theorem dropped_of_not_kept (symm : Bool) {D D' : ℕ} (h : D' ≤ D) (i : Fin D) (hi : ∀ i', keepIdx symm h i' ≠ i) :
    Dropped symm D D' i := by
  have := i.isLt
  cases symm
  · by_contra hc
    simp only [Dropped, Bool.false_eq_true, if_false, not_lt] at hc
    refine hi ⟨i - (D - D'), by omega⟩ (Fin.ext ?_)
    simp only [keepIdx, Bool.false_eq_true, if_false]
    omega
  · by_contra hc
    simp only [Dropped, if_true, not_le] at hc
    exact hi ⟨i, hc⟩ (Fin.ext (by simp [keepIdx]))

theorem kept_not_dropped (symm : Bool) {D D' : ℕ} (h : D' ≤ D) (i' : Fin D') : ¬ Dropped symm D D' (keepIdx symm h i') := by
  have := i'.isLt
  cases symm <;> simp only [Dropped, keepIdx, Bool.false_eq_true, if_false, if_true] <;> omega

/-- `truncate` succeeds exactly for dimensions below the current one. -/
theorem C71_returns (S : UMPS ℂ q D) (hL : 0 < S.L) (symm : Bool) (newD : ℕ) (h0 : 0 < newD) :
    (S.truncate symm newD).isSome ↔ newD < D := by
  unfold UMPS.truncate
  by_cases h : newD < D
  · rw [dif_pos h, if_neg (by omega)]; simp [h]
  · rw [dif_neg h]; simp [h]

theorem truncate_eq {S : UMPS ℂ q D} {symm : Bool} {newD : ℕ} {S' : UMPS ℂ q newD} (h : S.truncate symm newD = some S')
    {w : ℕ → Fin D → ℝ} (hw : DiagForm symm S w) : ∃ hD : newD < D, 0 < S.L ∧ S'.L = S.L ∧
      S'.A = (fun k s => (S.A k s).submatrix (keepIdx symm hD.le) (keepIdx symm hD.le)) ∧
      (∀ k < S.L, S'.l k = (S.l k).submatrix (keepIdx symm hD.le) (keepIdx symm hD.le)) ∧
      (∀ k < S.L, S'.r k = (S.r k).submatrix (keepIdx symm hD.le) (keepIdx symm hD.le)) := by
  unfold UMPS.truncate at h
  by_cases hD : newD < D
  · rw [dif_pos hD] at h
    by_cases h0 : S.L = 0 ∨ newD = 0
    · rw [if_pos h0] at h; exact absurd h (by simp)
    rw [if_neg h0] at h
    obtain rfl := Option.some.inj h
    have hl : ∀ k < S.L, (Matrix.diagonal fun i => S.l k (keepIdx symm hD.le i) (keepIdx symm hD.le i))
        = (S.l k).submatrix (keepIdx symm hD.le) (keepIdx symm hD.le) := by
      intro k hk
      rw [hw.left k hk, Matrix.submatrix_diagonal _ _ (keepIdx_inj symm hD.le)]
      simp [Function.comp_def]
    refine ⟨hD, by omega, rfl, rfl, hl, fun k hk => ?_⟩
    rw [hw.right k hk]
    cases symm
    · exact (Matrix.submatrix_one _ (keepIdx_inj false hD.le)).symm
    · exact hl k hk
  · rw [dif_neg hD] at h; exact absurd h (by simp)

theorem chainExpect_congr_env {L : ℕ} (hL : 0 < L) {A : ℕ → Ten ℂ q D D} {l r l' r' : ℕ → Matrix (Fin D) (Fin D) ℂ}
    (h1 : ∀ k < L, l k = l' k) (h2 : ∀ k < L, r k = r' k) (k n : ℕ) (O : (Fin n → Fin q) → (Fin n → Fin q) → ℂ) :
    chainExpect L A l r k n O = chainExpect L A l' r' k n O := by
  unfold chainExpect
  rw [h1 _ (Nat.mod_lt _ hL), h2 _ (Nat.mod_lt _ hL)]

/-- **C71** (exact truncation).  If the entries of the diagonal of `l` that `truncate` drops are zero, the truncated object gives the
same expectation value for every operator on any number of neighbouring sites, its `l` are left environments and the norm is one. -/
theorem C71_truncate (S : UMPS ℂ q D) (symm : Bool) (newD : ℕ) (S' : UMPS ℂ q newD) (h : S.truncate symm newD = some S')
    (w : ℕ → Fin D → ℝ) (hw : DiagForm symm S w) (hdrop : ∀ k < S.L, ∀ i, Dropped symm D newD i → w k i = 0) :
    S'.L = S.L ∧
    (∀ k n (O : (Fin n → Fin q) → (Fin n → Fin q) → ℂ), chainExpect S'.L S'.A S'.l S'.r k n O = chainExpect S.L S.A S.l S.r k n O) ∧
    (∀ k < S'.L, S'.l k = ∑ s, (S'.A k s)ᴴ * S'.l ((k + S'.L - 1) % S'.L) * S'.A k s) ∧
    ∀ k < S'.L, ((S'.l k)ᴴ * S'.r k).trace = 1 := by
  obtain ⟨hD, hL, eL, eA, el, er⟩ := truncate_eq h hw
  have hW : Weights S.L S.l w := ⟨hw.left, hw.nonneg⟩
  have hd : ∀ k < S.L, ∀ i, (∀ i', keepIdx symm hD.le i' ≠ i) → w k i = 0 := fun k hk i hi =>
    hdrop k hk i (dropped_of_not_kept symm hD.le i hi)
  have he := keepIdx_inj symm hD.le
  rw [eL, eA]
  refine ⟨rfl, fun k n O => ?_, fun k hk => ?_, fun k hk => ?_⟩
  · rw [chainExpect_congr_env hL el er, chainExpect_keep hL hW hw.env.left he hd]
  · rw [el k hk, el _ (Nat.mod_lt _ hL)]
    exact left_keep hL hW hw.env.left he hd k hk
  · rw [el k hk, er k hk, norm_keep hW he hd _ k hk]
    exact hw.env.norm k hk

/-- **C71** (canonical form).  In the symmetric gauge, and in the right canonical form if all kept entries are non-zero at every cut, the
truncated object is again in canonical form: no `update` is needed. -/
theorem C71_canonical (S : UMPS ℂ q D) (symm : Bool) (newD : ℕ) (S' : UMPS ℂ q newD) (h : S.truncate symm newD = some S')
    (w : ℕ → Fin D → ℝ) (hw : DiagForm symm S w) (hdrop : ∀ k < S.L, ∀ i, Dropped symm D newD i → w k i = 0)
    (hkeep : symm = false → ∀ k < S.L, ∀ i, ¬ Dropped symm D newD i → w k i ≠ 0) :
    ∃ w', DiagForm symm S' w' := by
  obtain ⟨-, -, h1, h2⟩ := C71_truncate S symm newD S' h w hw hdrop
  obtain ⟨hD, hL, eL, eA, el, er⟩ := truncate_eq h hw
  have hW : Weights S.L S.l w := ⟨hw.left, hw.nonneg⟩
  have hd : ∀ k < S.L, ∀ i, (∀ i', keepIdx symm hD.le i' ≠ i) → w k i = 0 := fun k hk i hi =>
    hdrop k hk i (dropped_of_not_kept symm hD.le i hi)
  have he := keepIdx_inj symm hD.le
  refine ⟨fun k i => w k (keepIdx symm hD.le i), ⟨h1, ?_, h2⟩, ?_, ?_, ?_⟩
  · rw [eL, eA]
    intro k hk
    rw [er k hk, er _ (Nat.mod_lt _ hL)]
    cases symm with
    | false =>
      exact right_keep hL hW hw.env.left he hd hw.env.right (fun k hk i' => hkeep rfl k hk _ (kept_not_dropped _ hD.le i')) k hk
    | true =>
      refine right_keep_symm ⟨fun k hk => ?_, hw.nonneg⟩ he hd hw.env.right k hk
      rw [hw.right k hk, if_pos rfl, hw.left k hk]
  · rw [eL]
    intro k hk
    rw [el k hk, hw.left k hk, Matrix.submatrix_diagonal _ _ he]
    rfl
  · rw [eL]
    exact fun k hk i => hw.nonneg k hk _
  · rw [eL]
    intro k hk
    rw [er k hk, hw.right k hk]
    cases symm
    · exact Matrix.submatrix_one _ he
    · exact (el k hk).symm

theorem countAbove_eq {S : UMPS ℂ q D} {symm : Bool} {w : ℕ → Fin D → ℝ} (hw : DiagForm symm S w) (tol : ℝ) {k : ℕ} (hk : k < S.L) :
    S.countAbove tol k = (Finset.univ.filter fun i => tol < w k i).card := by
  unfold UMPS.countAbove
  rw [hw.left k hk]
  simp

/-- The entries of the diagonals are ordered as the decompositions return them: ascending in the right canonical form, descending in the
symmetric gauge. -/
def Ordered (symm : Bool) (v : Fin D → ℝ) : Prop := if symm then Antitone v else Monotone v

theorem dropped_le {symm : Bool} {v : Fin D → ℝ} (ho : Ordered symm v) {tol : ℝ} {D' : ℕ}
    (hc : (Finset.univ.filter fun i => tol < v i).card ≤ D') (i : Fin D) (hi : Dropped symm D D' i) : v i ≤ tol := by
  by_contra hn
  rw [not_le] at hn
  cases symm with
  | false =>
    have hsub : Finset.Ici i ⊆ Finset.univ.filter fun i => tol < v i := fun j hj =>
      Finset.mem_filter.2 ⟨Finset.mem_univ _, hn.trans_le (ho (Finset.mem_Ici.1 hj))⟩
    have := Finset.card_le_card hsub
    rw [Fin.card_Ici] at this
    simp only [Dropped, Bool.false_eq_true, if_false] at hi
    omega
  | true =>
    have hsub : Finset.Iic i ⊆ Finset.univ.filter fun i => tol < v i := fun j hj =>
      Finset.mem_filter.2 ⟨Finset.mem_univ _, hn.trans_le (ho (Finset.mem_Iic.1 hj))⟩
    have := Finset.card_le_card hsub
    rw [Fin.card_Iic] at this
    simp only [Dropped, if_true] at hi
    omega

/-- **C71** (`auto_truncate`).  For a state in canonical form with ordered diagonals: `auto_truncate` never raises; it returns
`False` exactly if some cut needs the whole bond dimension (more than zero entries above the tolerance, all of them; or `D <= 1`);
otherwise it drops only entries not above the tolerance, to the smallest common dimension. If the entries are zero or above the
tolerance, all expectation values stay the same. -/
theorem C71_auto (S : UMPS ℂ q D) (hL : 0 < S.L) (symm : Bool) (tol : ℝ) (w : ℕ → Fin D → ℝ) (hw : DiagForm symm S w)
    (ho : ∀ k < S.L, Ordered symm (w k)) :
    ((S.autoTruncate symm tol = some none ↔ D ≤ 1 ∨ ∃ k < S.L, ∀ i, tol < w k i) ∧ S.autoTruncate symm tol ≠ none) ∧
    ∀ S', S.autoTruncate symm tol = some (some S') →
      (∀ k < S.L, ∀ i, Dropped symm D (S.autoD tol) i → w k i ≤ tol) ∧
      (S.autoD tol = 1 ∨ ∃ k < S.L, S.autoD tol = (Finset.univ.filter fun i => tol < w k i).card) ∧
      ((∀ k < S.L, ∀ i, w k i = 0 ∨ tol < w k i) →
        (∀ k n (O : (Fin n → Fin q) → (Fin n → Fin q) → ℂ),
          chainExpect S'.L S'.A S'.l S'.r k n O = chainExpect S.L S.A S.l S.r k n O) ∧
        ∀ k < S'.L, ((S'.l k)ᴴ * S'.r k).trace = 1) := by
  obtain ⟨h1, h2, h3⟩ := autoD_spec S tol
  have hle : ∀ k < S.L, ∀ i, Dropped symm D (S.autoD tol) i → w k i ≤ tol := fun k hk i hi =>
    dropped_le (ho k hk) (by rw [← countAbove_eq hw tol hk]; exact h2 k hk) i hi
  have hfull : D ≤ S.autoD tol ↔ D ≤ 1 ∨ ∃ k < S.L, ∀ i, tol < w k i := by
    constructor
    · intro h
      rcases h3 with h3 | ⟨k, hk, h3⟩
      · exact Or.inl (h3 ▸ h)
      · refine Or.inr ⟨k, hk, fun i => ?_⟩
        rw [h3, countAbove_eq hw tol hk] at h
        have := (Finset.card_eq_iff_eq_univ _).1 (le_antisymm (Finset.card_le_univ _) (by rwa [Fintype.card_fin]))
        have hi : i ∈ Finset.univ.filter fun i => tol < w k i := by rw [this]; exact Finset.mem_univ i
        exact (Finset.mem_filter.1 hi).2
    · rintro (h | ⟨k, hk, h⟩)
      · omega
      · refine le_trans ?_ (h2 k hk)
        rw [countAbove_eq hw tol hk, Finset.filter_true_of_mem fun i _ => h i]
        simp
  unfold UMPS.autoTruncate
  rw [if_neg hL.ne']
  refine ⟨?_, fun S' hS' => ?_⟩
  · by_cases hc : S.autoD tol < D
    · rw [if_pos ⟨h1, hc⟩]
      obtain ⟨S', hS'⟩ := Option.isSome_iff_exists.1 ((C71_returns S hL symm _ h1).2 hc)
      rw [hS']
      refine ⟨⟨fun h => absurd h (by simp), fun h => absurd (hfull.2 h) (by omega)⟩, by simp⟩
    · rw [if_neg fun h => hc h.2]
      exact ⟨⟨fun _ => hfull.1 (not_lt.1 hc), fun _ => rfl⟩, by simp⟩
  · by_cases hc : S.autoD tol < D
    · rw [if_pos ⟨h1, hc⟩] at hS'
      obtain ⟨S1, hS1, e⟩ := Option.map_eq_some_iff.1 hS'
      obtain rfl := Option.some.inj e
      refine ⟨hle, ?_, fun hz => ?_⟩
      · rcases h3 with h3 | ⟨k, hk, h3⟩
        · exact Or.inl h3
        · exact Or.inr ⟨k, hk, by rw [← countAbove_eq hw tol hk]; exact h3⟩
      · obtain ⟨-, g1, -, g2⟩ := C71_truncate S symm _ S1 hS1 w hw fun k hk i hi =>
          (hz k hk i).resolve_right (not_lt.2 (hle k hk i hi))
        exact ⟨g1, g2⟩
    · rw [if_neg fun h => hc h.2] at hS'
      exact absurd hS' (by simp)

/-! ## A block of two sites with different ranks -/

/-- Two sites in right canonical form with three bond states, of which two are needed after the first site and one after the second. -/
noncomputable def demoRanks : UMPS ℂ 2 3 where
  L := 2
  A := fun k => if k = 0 then ![!![0, 0, 0; 1, 0, 0; 0, 0, 4/5], !![1, 0, 0; 0, 0, 0; 0, 3/5, 0]]
    else ![!![0, 1, 0; 0, 0, 0; 0, 0, 1], !![0, 0, 0; 0, 0, 1; 0, 0, 0]]
  AA := 0
  l := fun k => if k = 0 then Matrix.diagonal ![0, 9/25, 16/25] else Matrix.diagonal ![0, 0, 1]
  r := fun _ => 1
  lL := 1
  rL := 1

/-- The diagonals of `demoRanks`. -/
noncomputable def demoRanksW (k : ℕ) : Fin 3 → ℝ := if k = 0 then ![0, 9/25, 16/25] else ![0, 0, 1]

theorem demoRanks_form : DiagForm false demoRanks demoRanksW where
  env := by
    refine ⟨fun k hk => ?_, fun k hk => ?_, fun k hk => ?_⟩ <;>
      (have hk : k = 0 ∨ k = 1 := by have : k < 2 := hk; omega) <;> rcases hk with rfl | rfl
    · ext i j
      fin_cases i <;> fin_cases j <;>
        simp [demoRanks, Matrix.mul_apply, Fin.sum_univ_three, Matrix.diagonal, Complex.conj_ofNat] <;> norm_num
    · ext i j
      fin_cases i <;> fin_cases j <;>
        simp [demoRanks, Matrix.mul_apply, Fin.sum_univ_three, Matrix.diagonal] <;> norm_num
    · ext i j
      fin_cases i <;> fin_cases j <;>
        simp [demoRanks, Fin.sum_univ_three, Matrix.vecMul, dotProduct, Complex.conj_ofNat] <;> norm_num
    · ext i j
      fin_cases i <;> fin_cases j <;>
        simp [demoRanks, Fin.sum_univ_three, Matrix.vecMul, dotProduct]
    · simp [demoRanks, Matrix.trace, Fin.sum_univ_three, Complex.conj_ofNat]
      norm_num
    · simp [demoRanks, Matrix.trace, Fin.sum_univ_three]
  left := by
    intro k hk
    have hk : k = 0 ∨ k = 1 := by have : k < 2 := hk; omega
    rcases hk with rfl | rfl <;> ext i j <;> fin_cases i <;> fin_cases j <;> simp [demoRanks, demoRanksW, Matrix.diagonal]
  nonneg := by
    intro k _ i
    by_cases h : k = 0 <;> fin_cases i <;> simp [demoRanksW, h] <;> norm_num
  right := fun k _ => rfl

/-- The hypotheses of `C71_auto` hold for this state, and `auto_truncate` reduces the dimension from three to two. -/
example : ∃ S', demoRanks.autoTruncate false (1 / 100) = some (some S') ∧ demoRanks.autoD (1 / 100) = 2 ∧
    ∀ k n (O : (Fin n → Fin 2) → (Fin n → Fin 2) → ℂ), chainExpect S'.L S'.A S'.l S'.r k n O
      = chainExpect demoRanks.L demoRanks.A demoRanks.l demoRanks.r k n O := by
  have ho : ∀ k < demoRanks.L, Ordered false (demoRanksW k) := by
    intro k _
    rw [Ordered, if_neg (by simp)]
    intro i j hij
    by_cases h : k = 0 <;> fin_cases i <;> fin_cases j <;> simp [demoRanksW, h] at hij ⊢ <;> norm_num
  have hz : ∀ k < demoRanks.L, ∀ i, demoRanksW k i = 0 ∨ (1 / 100 : ℝ) < demoRanksW k i := by
    intro k _ i
    by_cases h : k = 0 <;> fin_cases i <;> simp [demoRanksW, h] <;> norm_num
  have hd : demoRanks.autoD (1 / 100) = 2 := by
    have e0 : demoRanks.countAbove (1 / 100) 0 = 2 := by
      rw [countAbove_eq demoRanks_form _ (by decide : 0 < 2)]
      rw [show (Finset.univ.filter fun i => (1 / 100 : ℝ) < demoRanksW 0 i) = {1, 2} by
        ext i; fin_cases i <;> simp [demoRanksW] <;> norm_num]
      rfl
    have e1 : demoRanks.countAbove (1 / 100) 1 = 1 := by
      rw [countAbove_eq demoRanks_form _ (by decide : 1 < 2)]
      rw [show (Finset.univ.filter fun i => (1 / 100 : ℝ) < demoRanksW 1 i) = {2} by
        ext i; fin_cases i <;> simp [demoRanksW] <;> norm_num]
      rfl
    unfold UMPS.autoD
    rw [show demoRanks.L = 2 from rfl]
    simp only [List.range_succ, List.range_zero, List.nil_append, List.cons_append, List.foldl_cons, List.foldl_nil, e0, e1]
    rfl
  obtain ⟨⟨-, h2⟩, h3⟩ := C71_auto demoRanks (by decide : 0 < 2) false (1 / 100) demoRanksW demoRanks_form ho
  obtain ⟨o, hoS⟩ := Option.ne_none_iff_exists'.1 h2
  obtain ⟨S', rfl⟩ : ∃ S', o = some S' := by
    cases o with
    | some S' => exact ⟨S', rfl⟩
    | none =>
      unfold UMPS.autoTruncate at hoS
      rw [if_neg (show ¬ demoRanks.L = 0 by simp [demoRanks]), if_pos ⟨by omega, by omega⟩] at hoS
      obtain ⟨_, _, h⟩ := Option.map_eq_some_iff.1 hoS
      exact absurd h (by simp)
  exact ⟨S', hoS, hd, ((h3 S' hoS).2.2 hz).1⟩

/-- **C71**: without the condition on the kept entries the truncated object is not in right canonical form, so `truncate` with
`update=False` may leave matrices `r` that are not right environments. -/
theorem C71_canonical_violated : ∃ (S : UMPS ℂ 2 3) (S' : UMPS ℂ 2 2) (w : ℕ → Fin 3 → ℝ), DiagForm false S w ∧
    (∀ k < S.L, Ordered false (w k)) ∧ (∀ k < S.L, ∀ i, Dropped false 3 2 i → w k i = 0) ∧ S.truncate false 2 = some S' ∧
    ¬ ChainEnv S'.L S'.A S'.l S'.r := by
  refine ⟨demoRanks, _, demoRanksW, demoRanks_form, ?_, ?_, by unfold UMPS.truncate; rw [dif_pos (by decide), if_neg (by decide)], ?_⟩
  · intro k _
    rw [Ordered, if_neg (by simp)]
    intro i j hij
    by_cases h : k = 0 <;> fin_cases i <;> fin_cases j <;> simp [demoRanksW, h] at hij ⊢ <;> norm_num
  · intro k _ i hi
    by_cases h : k = 0 <;> fin_cases i <;> simp [Dropped, demoRanksW, h] at hi ⊢
  · intro E
    have h := congrFun (congrFun (E.right 0 (by decide : 0 < 2)) 0) 0
    simp [demoRanks, keepIdx, Matrix.mul_apply, Fin.sum_univ_two] at h

end EvoMPS
