import Verif.SwDynSpec
import Verif.SwDyn
import Verif.UniformDynLemmas

/-!
# Pairs of replaced tensors in a chain without translation invariance (helper lemmas)
-/

set_option linter.unusedSectionVars false

namespace EvoMPS.Uni

open Matrix

variable {q D : ℕ}

/-- Environments of a half line: `lc j`, `rc j` belong to the cut in front of site `j`. -/
structure LineEnv (X : ℕ → Ten ℂ q D D) (lc rc : ℕ → Matrix (Fin D) (Fin D) ℂ) : Prop where
  left : ∀ j, lc (j + 1) = ∑ s, (X j s)ᴴ * lc j * X j s
  right : ∀ j, rc j = ∑ s, X j s * rc (j + 1) * (X j s)ᴴ

/-- The line with the identity for `s0` at site `p` and `Z s0` at site `p + 1`. -/
def linePair (X : ℕ → Ten ℂ q D D) (p : ℕ) (Z : Ten2 ℂ q q D D) (s0 : Fin q) : ℕ → Ten ℂ q D D :=
  fun j => if j = p then fun s => if s = s0 then 1 else 0 else if j = p + 1 then Z s0 else X j

/-- The line with `Z s t0` at site `p` and the identity for `t0` at site `p + 1`. -/
def linePair' (X : ℕ → Ten ℂ q D D) (p : ℕ) (Z : Ten2 ℂ q q D D) (t0 : Fin q) : ℕ → Ten ℂ q D D :=
  fun j => if j = p then fun s => Z s t0 else if j = p + 1 then fun t => if t = t0 then 1 else 0 else X j

variable {X : ℕ → Ten ℂ q D D} {lc rc : ℕ → Matrix (Fin D) (Fin D) ℂ} {p : ℕ} (Z : Ten2 ℂ q q D D)

theorem linePair_out {s0 : Fin q} {j : ℕ} (h1 : j ≠ p) (h2 : j ≠ p + 1) : linePair X p Z s0 j = X j := by
  rw [linePair, if_neg h1, if_neg h2]

theorem linePair'_out {s0 : Fin q} {j : ℕ} (h1 : j ≠ p) (h2 : j ≠ p + 1) : linePair' X p Z s0 j = X j := by
  rw [linePair', if_neg h1, if_neg h2]

theorem pairLine_line {L n : ℕ} (hn : n ≤ L) {j : ℕ} (hj : j < n) (s0 : Fin q) : pairLine L X p Z s0 j = linePair X p Z s0 j := by
  rw [pairLine, linePair, Nat.mod_eq_of_lt (by omega)]

theorem pairLine'_line {L n : ℕ} (hn : n ≤ L) {j : ℕ} (hj : j < n) (s0 : Fin q) :
    pairLine' L X p Z s0 j = linePair' X p Z s0 j := by
  rw [pairLine', linePair', Nat.mod_eq_of_lt (by omega)]

theorem LineEnv.transferR (E : LineEnv X lc rc) (c n : ℕ) : lineTransfer X X c n (rc (c + n)) = rc c := by
  induction n with
  | zero => rw [lineTransfer_zero, Nat.add_zero]
  | succ n ih => rw [lineTransfer_succ, ← Nat.add_assoc, ← E.right, ih]

theorem adot_step (l x : Matrix (Fin D) (Fin D) ℂ) (A : Ten ℂ q D D) :
    adot l (∑ s, A s * x * (A s)ᴴ) = adot (∑ s, (A s)ᴴ * l * A s) x := by
  rw [adot_eq_trace, adot_eq_trace, Matrix.mul_sum, Matrix.trace_sum, conjTranspose_sum, Matrix.sum_mul, Matrix.trace_sum]
  refine Finset.sum_congr rfl fun s _ => ?_
  rw [conjTranspose_mul, conjTranspose_mul, conjTranspose_conjTranspose, ← Matrix.mul_assoc, Matrix.trace_mul_comm]
  simp only [Matrix.mul_assoc]

theorem LineEnv.transferL (E : LineEnv X lc rc) (c n : ℕ) (x : Matrix (Fin D) (Fin D) ℂ) :
    adot (lc c) (lineTransfer X X c n x) = adot (lc (c + n)) x := by
  induction n generalizing x with
  | zero => rw [lineTransfer_zero, Nat.add_zero]
  | succ n ih => rw [lineTransfer_succ, ih, adot_step, ← E.left, Nat.add_assoc]

theorem closed_line (l0 r0 : Matrix (Fin D) (Fin D) ℂ) (W Y : ℕ → Ten ℂ q D D) (n : ℕ) :
    closedBraket l0 r0 (lineProd Y 0 n) (lineProd W 0 n) = adot l0 (lineTransfer W Y 0 n r0) :=
  windowBraket_eq W Y 1 (fun _ => l0) (fun _ => r0) 0 n

theorem closedElem_line (l0 r0 : Matrix (Fin D) (Fin D) ℂ) (W Y : ℕ → Ten ℂ q D D) (a n b : ℕ)
    (O : (Fin n → Fin q) → (Fin n → Fin q) → ℂ) :
    closedElem l0 r0 a n b O (lineProd Y 0 (a + n + b)) (lineProd W 0 (a + n + b))
      = adot l0 (lineTransfer W Y 0 a (lineOp W Y a n O (lineTransfer W Y (a + n) b r0))) := by
  have := windowElem_eq W Y 1 (fun _ => l0) (fun _ => r0) 0 a n b O
  simp only [Nat.zero_add] at this
  exact this

theorem linePair_right (E : LineEnv X lc rc) (hR : ∀ s0, ∑ t, X (p + 1) t * rc (p + 2) * (Z s0 t)ᴴ = 0) (W : ℕ → Ten ℂ q D D)
    (hW : ∀ j, p + 1 ≤ j → W j = X j) {c n : ℕ} (h1 : c ≤ p + 1) (h2 : p + 1 < c + n) (s0 : Fin q) :
    lineTransfer W (linePair X p Z s0) c n (rc (c + n)) = 0 := by
  obtain ⟨u, hu⟩ : ∃ u, p + 1 = c + u := ⟨p + 1 - c, by omega⟩
  obtain ⟨e, rfl⟩ : ∃ e, n = u + (1 + e) := ⟨n - u - 1, by omega⟩
  rw [lineTransfer_add, lineTransfer_add, ← hu, lineTransfer_congr (c := p + 1 + 1) (X' := X) (Y' := X) (fun j h _ => hW j (by omega))
    (fun j h _ => linePair_out Z (by omega) (by omega)), show c + (u + (1 + e)) = p + 1 + 1 + e by omega, E.transferR,
    lineTransfer_one, hW _ le_rfl, show linePair X p Z s0 (p + 1) = Z s0 by simp [linePair], hR, lineTransfer_zero_right]

theorem linePair'_left (E : LineEnv X lc rc) (hl : (lc p)ᴴ = lc p) (hZ : LeftGauge2 (X p) (lc p) Z) (W : ℕ → Ten ℂ q D D)
    (hW : ∀ j, j ≤ p → W j = X j) {n : ℕ} (h2 : p < n) (x : Matrix (Fin D) (Fin D) ℂ) (t0 : Fin q) :
    adot (lc 0) (lineTransfer W (linePair' X p Z t0) 0 n x) = 0 := by
  obtain ⟨e, rfl⟩ : ∃ e, n = p + (1 + e) := ⟨n - p - 1, by omega⟩
  rw [lineTransfer_add, lineTransfer_add, lineTransfer_congr (c := 0) (X' := X) (Y' := X) (fun j _ h => hW j (by omega))
    (fun j _ h => linePair'_out Z (by omega) (by omega)), E.transferL, Nat.zero_add, lineTransfer_one, hW _ le_rfl,
    show linePair' X p Z t0 p = fun s => Z s t0 by simp [linePair']]
  exact adot_left_zero Z hl hZ _ t0

/-- The pair as a sum of lines. -/
theorem sitePairProd_eq (site : ℤ → Ten ℂ q D D) (c : ℤ) {n : ℕ} (h2 : p + 1 < n) (s : Fin n → Fin q) :
    sitePairProd site (c + p) Z c n s = ∑ s0, lineProd (linePair (fun j => site (c + j)) p Z s0) 0 n s := by
  have h := pairProd_eq (L := n) (A := fun j => site (c + j)) (p := p) Z (c := 0) (n := n) (by omega) (by omega) s
  have e : sitePairProd site (c + p) Z c n s = pairProd n (fun j : ℕ => site (c + j)) p Z 0 n s := by
    simp only [sitePairProd, pairProd]
    congr 2
    funext i
    have hi : (0 + (i : ℕ)) % n = i := by rw [Nat.zero_add, Nat.mod_eq_of_lt i.2]
    rw [hi]
    by_cases h1 : (i : ℕ) = p
    · simp [h1]
    · by_cases h2 : (i : ℕ) = p + 1
      · simp [h2, add_assoc]
      · rw [if_neg (by omega), if_neg (by omega), if_neg (by omega), if_neg (by omega)]
  rw [e, h]
  exact Finset.sum_congr rfl fun s0 _ => lineProd_congr (fun j _ hj => pairLine_line Z le_rfl (by omega) s0) s

theorem sitePairProd_eq' (site : ℤ → Ten ℂ q D D) (c : ℤ) {n : ℕ} (h2 : p + 1 < n) (s : Fin n → Fin q) :
    sitePairProd site (c + p) Z c n s = ∑ s0, lineProd (linePair' (fun j => site (c + j)) p Z s0) 0 n s := by
  have h := pairProd_eq' (L := n) (A := fun j => site (c + j)) (p := p) Z (c := 0) (n := n) (by omega) (by omega) s
  rw [pairProd_eq Z (by omega) (by omega)] at h
  rw [sitePairProd_eq Z site c h2]
  refine Eq.trans ?_ (h.trans ?_)
  · exact Finset.sum_congr rfl fun s0 _ => lineProd_congr (fun j _ hj => (pairLine_line Z le_rfl (by omega) s0).symm) s
  · exact Finset.sum_congr rfl fun s0 _ => lineProd_congr (fun j _ hj => pairLine'_line Z le_rfl (by omega) s0) s

theorem siteProd_line (site : ℤ → Ten ℂ q D D) (c : ℤ) (n : ℕ) (s : Fin n → Fin q) :
    siteProd site c n s = lineProd (fun j : ℕ => site (c + j)) 0 n s := by
  simp [siteProd, lineProd]

section chain
variable {site : ℤ → Ten ℂ q D D} {l r : ℤ → Matrix (Fin D) (Fin D) ℂ}
  (stepL : ∀ n, l n = ∑ s, (site n s)ᴴ * l (n - 1) * site n s) (stepR : ∀ n, r (n - 1) = ∑ s, site n s * r n * (site n s)ᴴ)

include stepL stepR in
theorem chain_line (c : ℤ) : LineEnv (fun j : ℕ => site (c + j)) (fun j => l (c + j - 1)) (fun j => r (c + j - 1)) where
  left j := by
    rw [← stepL (c + j)]
    congr 1
    push_cast
    ring
  right j := by
    rw [stepR (c + j)]
    push_cast
    rw [show c + ((j : ℤ) + 1) - 1 = c + j by ring]

variable {p : ℤ}

include stepL stepR in
/-- Overlap of a pair that satisfies both gauge conditions with any state that agrees with the chain up to site `p` or from site
`p + 1` on. -/
theorem sitePair_out (hl : (l (p - 1))ᴴ = l (p - 1)) (hr : (r (p + 1))ᴴ = r (p + 1)) (hZl : LeftGauge2 (site p) (l (p - 1)) Z)
    (hZr : RightGauge2 (site (p + 1)) (r (p + 1)) Z) (W : ℤ → Ten ℂ q D D)
    (hW : (∀ j, j ≤ p → W j = site j) ∨ ∀ j, p + 1 ≤ j → W j = site j) {c : ℤ} {n : ℕ} (h1 : c ≤ p) (h2 : p + 1 < c + n) :
    closedBraket (l (c - 1)) (r (c + n - 1)) (sitePairProd site p Z c n) (lineProd (fun j : ℕ => W (c + j)) 0 n) = 0 := by
  obtain ⟨m, rfl⟩ : ∃ m : ℕ, p = c + m := ⟨(p - c).toNat, by omega⟩
  have E := chain_line stepL stepR c
  have l0 : l (c - 1) = (fun j : ℕ => l (c + j - 1)) 0 := by simp
  rcases hW with hW | hW
  · rw [show sitePairProd site (c + m) Z c n = fun s => ∑ t0, lineProd (linePair' (fun j => site (c + j)) m Z t0) 0 n s from
      funext fun s => sitePairProd_eq' Z site c (by omega) s, closedBraket_sum_left]
    refine Finset.sum_eq_zero fun t0 _ => ?_
    rw [closed_line, l0]
    exact linePair'_left Z E hl hZl _ (fun j hj => hW _ (by omega)) (by omega) _ t0
  · rw [show sitePairProd site (c + m) Z c n = fun s => ∑ t0, lineProd (linePair (fun j => site (c + j)) m Z t0) 0 n s from
      funext fun s => sitePairProd_eq Z site c (by omega) s, closedBraket_sum_left]
    refine Finset.sum_eq_zero fun t0 _ => ?_
    have e1 : r (c + (m + 2 : ℕ) - 1) = r (c + m + 1) := by
      congr 1; push_cast; ring
    have e2 : site (c + (m + 1 : ℕ)) = site (c + m + 1) := by
      congr 1; push_cast; ring
    have := linePair_right (p := m) Z E (by rw [e1, e2]; exact rightGauge2_conj hr hZr) (fun j : ℕ => W (c + j))
      (fun j hj => hW _ (by omega)) (c := 0) (n := n) (by omega) (by omega) t0
    rw [closed_line]
    simp only [Nat.zero_add] at this
    rw [this, adot_zero_right]

include stepL stepR in
theorem sitePair_pair (hl : (l (p - 1))ᴴ = l (p - 1)) (hr : (r (p + 1))ᴴ = r (p + 1)) (hZl : LeftGauge2 (site p) (l (p - 1)) Z)
    (hZr : RightGauge2 (site (p + 1)) (r (p + 1)) Z) (X : Ten2 ℂ q q D D) (p' : ℤ) (hp : p' ≠ p)
    {c : ℤ} {n : ℕ} (h1 : c ≤ p) (h2 : p + 1 < c + n) (h1' : c ≤ p') (h2' : p' + 1 < c + n) :
    sitePairBraket site l r c n p p' Z X = 0 := by
  obtain ⟨m, rfl⟩ : ∃ m : ℕ, p' = c + m := ⟨(p' - c).toNat, by omega⟩
  rw [sitePairBraket, show sitePairProd site (c + m) X c n = fun s => ∑ t0, lineProd (linePair (fun j => site (c + j)) m X t0) 0 n s from
      funext fun s => sitePairProd_eq X site c (by omega) s, closedBraket_sum_right]
  refine Finset.sum_eq_zero fun s0 _ => ?_
  set W : ℤ → Ten ℂ q D D := fun i => if i < c then site i else linePair (fun j => site (c + j)) m X s0 (i - c).toNat with hW
  have e : lineProd (linePair (fun j => site (c + j)) m X s0) 0 n = lineProd (fun j : ℕ => W (c + j)) 0 n := by
    congr 1
    funext j
    rw [hW]
    simp only [add_sub_cancel_left, Int.toNat_natCast]
    rw [if_neg (by omega)]
  rw [e]
  refine sitePair_out Z stepL stepR hl hr hZl hZr W ?_ h1 h2
  have key : ∀ j : ℤ, j ≠ c + m → j ≠ c + m + 1 → W j = site j := by
    intro j a b
    rw [hW]
    dsimp only
    split
    · rfl
    · rw [linePair_out X (by omega) (by omega)]
      congr 1
      omega
  rcases lt_or_gt_of_ne hp with h | h
  · exact Or.inr fun j hj => key j (by omega) (by omega)
  · exact Or.inl fun j hj => key j (by omega) (by omega)

include stepL stepR in
theorem sitePair_same (X : Ten2 ℂ q q D D) {c : ℤ} {n : ℕ} (h1 : c ≤ p) (h2 : p + 1 < c + n) :
    sitePairBraket site l r c n p p Z X = ov2 (l (p - 1)) (r (p + 1)) Z X := by
  obtain ⟨m, rfl⟩ : ∃ m : ℕ, p = c + m := ⟨(p - c).toNat, by omega⟩
  obtain ⟨e, rfl⟩ : ∃ e, n = m + (1 + 1 + e) := ⟨n - m - 2, by omega⟩
  have E := chain_line stepL stepR c
  set L := fun j : ℕ => site (c + j) with hL
  have key : ∀ s0 s1, closedBraket (l (c - 1)) (r (c + (m + (1 + 1 + e) : ℕ) - 1))
      (lineProd (linePair L m Z s0) 0 (m + (1 + 1 + e))) (lineProd (linePair L m X s1) 0 (m + (1 + 1 + e)))
      = if s0 = s1 then adot (l (c + m - 1)) (∑ t, X s0 t * r (c + m + 1) * (Z s0 t)ᴴ) else 0 := by
    intro s0 s1
    have hr := E.transferR (m + (1 + 1)) e
    have hl := E.transferL 0 m
    simp only [Nat.zero_add, Nat.cast_zero, add_zero] at hl
    rw [closed_line, lineTransfer_add, lineTransfer_add, Nat.zero_add, lineTransfer_congr (c := m + (1 + 1)) (X' := L) (Y' := L)
      (fun j h _ => linePair_out X (by omega) (by omega)) (fun j h _ => linePair_out Z (by omega) (by omega)),
      show m + (1 + 1 + e) = m + (1 + 1) + e by omega, hr,
      lineTransfer_congr (c := 0) (X' := L) (Y' := L) (fun j _ h => linePair_out X (by omega) (by omega))
      (fun j _ h => linePair_out Z (by omega) (by omega)), hl, lineTransfer_succ, lineTransfer_one]
    have hp0 : ∀ (Y : Ten2 ℂ q q D D) s0, linePair L m Y s0 m = fun s => if s = s0 then 1 else 0 := by
      intro Y s0; simp [linePair]
    have hp1 : ∀ (Y : Ten2 ℂ q q D D) s0, linePair L m Y s0 (m + 1) = Y s0 := by
      intro Y s0; simp [linePair]
    have er : r (c + (m + (1 + 1) : ℕ) - 1) = r (c + m + 1) := by congr 1; push_cast; ring
    rw [hp0, hp0, hp1, hp1, er, Finset.sum_eq_single s1]
    · by_cases h : s0 = s1
      · subst h; simp
      · simp [h, Ne.symm h, adot_zero_right]
    · intro s _ hs; simp [hs]
    · simp
  have eP : ∀ Y : Ten2 ℂ q q D D, sitePairProd site (c + m) Y c (m + (1 + 1 + e))
      = fun s => ∑ s0, lineProd (linePair L m Y s0) 0 (m + (1 + 1 + e)) s :=
    fun Y => funext fun s => sitePairProd_eq Y site c (by omega) s
  rw [sitePairBraket, eP, eP, closedBraket_sum_left]
  simp only [closedBraket_sum_right, key, Finset.sum_ite_eq, Finset.mem_univ, if_true]
  rw [ov2, adot_sum_right]

include stepL stepR in
/-- A term that does not act on both sites of the pair. -/
theorem siteElem_out (hl : (l (p - 1))ᴴ = l (p - 1)) (hr : (r (p + 1))ᴴ = r (p + 1)) (hZl : LeftGauge2 (site p) (l (p - 1)) Z)
    (hZr : RightGauge2 (site (p + 1)) (r (p + 1)) Z) {c : ℤ} {a n b : ℕ} (h1 : c ≤ p) (h2 : p + 1 < c + (a + n + b : ℕ))
    (h : c + a + n ≤ p + 1 ∨ p + 1 ≤ c + a) (O : (Fin n → Fin q) → (Fin n → Fin q) → ℂ) :
    closedElem (l (c - 1)) (r (c + (a + n + b : ℕ) - 1)) a n b O (sitePairProd site p Z c (a + n + b)) (siteProd site c (a + n + b)) = 0 := by
  obtain ⟨m, rfl⟩ : ∃ m : ℕ, p = c + m := ⟨(p - c).toNat, by omega⟩
  have E := chain_line stepL stepR c
  have l0 : l (c - 1) = (fun j : ℕ => l (c + j - 1)) 0 := by simp
  rw [show siteProd site c (a + n + b) = lineProd (fun j : ℕ => site (c + j)) 0 (a + n + b) from funext fun s => siteProd_line site c _ s]
  rcases h with h | h
  · rw [show sitePairProd site (c + m) Z c (a + n + b) = fun s => ∑ t0, lineProd (linePair (fun j => site (c + j)) m Z t0) 0 (a + n + b) s from
      funext fun s => sitePairProd_eq Z site c (by omega) s, closedElem_sum_left]
    refine Finset.sum_eq_zero fun s0 _ => ?_
    have e1 : r (c + (m + 2 : ℕ) - 1) = r (c + m + 1) := by
      congr 1; push_cast; ring
    have e2 : site (c + (m + 1 : ℕ)) = site (c + m + 1) := by
      congr 1; push_cast; ring
    have := linePair_right (p := m) Z E (by rw [e1, e2]; exact rightGauge2_conj hr hZr) (fun j : ℕ => site (c + j))
      (fun j hj => rfl) (c := a + n) (n := b) (by omega) (by omega) s0
    rw [closedElem_line, this, lineOp_zero_right, lineTransfer_zero_right, adot_zero_right]
  · rw [show sitePairProd site (c + m) Z c (a + n + b) = fun s => ∑ t0, lineProd (linePair' (fun j => site (c + j)) m Z t0) 0 (a + n + b) s from
      funext fun s => sitePairProd_eq' Z site c (by omega) s, closedElem_sum_left]
    refine Finset.sum_eq_zero fun t0 _ => ?_
    rw [closedElem_line, l0]
    exact linePair'_left Z E hl hZl _ (fun j hj => rfl) (by omega) _ t0

include stepL stepR in
/-- A term that acts on both sites of the pair. -/
theorem siteElem_at {c : ℤ} {m a n b : ℕ} (h1 : a ≤ m) (h2 : m + 1 < a + n) (O : (Fin n → Fin q) → (Fin n → Fin q) → ℂ) :
    closedElem (l (c - 1)) (r (c + (a + n + b : ℕ) - 1)) a n b O (sitePairProd site (c + m) Z c (a + n + b))
        (siteProd site c (a + n + b))
      = adot (l (c + a - 1)) (∑ s0, lineOp (fun j : ℕ => site (c + j)) (linePair (fun j => site (c + j)) m Z s0) a n O
          (r (c + (a + n : ℕ) - 1))) := by
  have E := chain_line stepL stepR c
  rw [show siteProd site c (a + n + b) = lineProd (fun j : ℕ => site (c + j)) 0 (a + n + b) from funext fun s => siteProd_line site c _ s,
    show sitePairProd site (c + m) Z c (a + n + b) = fun s => ∑ t0, lineProd (linePair (fun j => site (c + j)) m Z t0) 0 (a + n + b) s from
      funext fun s => sitePairProd_eq Z site c (by omega) s, closedElem_sum_left, adot_sum_right]
  refine Finset.sum_congr rfl fun s0 _ => ?_
  have hr := E.transferR (a + n) b
  have hl := E.transferL 0 a
  simp only [Nat.zero_add, Nat.cast_zero, add_zero] at hl
  rw [closedElem_line, lineTransfer_congr (c := a + n) (X' := fun j : ℕ => site (c + j)) (Y' := fun j : ℕ => site (c + j)) (fun _ _ _ => rfl)
      (fun j h _ => linePair_out Z (by omega) (by omega)), hr,
    lineTransfer_congr (c := 0) (X' := fun j : ℕ => site (c + j)) (Y' := fun j : ℕ => site (c + j)) (fun _ _ _ => rfl)
      (fun j _ h => linePair_out Z (by omega) (by omega)), hl]

end chain

variable (X)

theorem lineOp_pair_two (h : Fin q → Fin q → Fin q → Fin q → ℂ) (x : Matrix (Fin D) (Fin D) ℂ) :
    ∑ s0, lineOp X (linePair X p Z s0) p 2 (fun s t => h (s 0) (s 1) (t 0) (t 1)) x
      = ∑ s, ∑ t, calcC h (calcAA (X p) (X (p + 1))) s t * x * (Z s t)ᴴ := by
  refine Finset.sum_congr rfl fun s0 _ => ?_
  rw [lineOp_two, Finset.sum_eq_single s0]
  · simp [linePair]
  · intro s _ hs; simp [linePair, hs]
  · simp

theorem lineOp_pair_right (h : Fin q → Fin q → Fin q → Fin q → Fin q → Fin q → ℂ) (x : Matrix (Fin D) (Fin D) ℂ) :
    ∑ s0, lineOp X (linePair X p Z s0) p 3 (fun s t => h (s 0) (s 1) (s 2) (t 0) (t 1) (t 2)) x
      = ∑ s, ∑ t, ∑ u, calcC3 h (calcAAA (X p) (X (p + 1)) (X (p + 2))) s t u * x * (Z s t * X (p + 2) u)ᴴ := by
  refine Finset.sum_congr rfl fun s0 _ => ?_
  rw [lineOp_three, Finset.sum_eq_single s0]
  · simp [linePair]
  · intro s _ hs; simp [linePair, hs]
  · simp

theorem lineOp_pair_left (h : Fin q → Fin q → Fin q → Fin q → Fin q → Fin q → ℂ) (x : Matrix (Fin D) (Fin D) ℂ) :
    ∑ s0, lineOp X (linePair X (p + 1) Z s0) p 3 (fun s t => h (s 0) (s 1) (s 2) (t 0) (t 1) (t 2)) x
      = ∑ s, ∑ t, ∑ u, calcC3 h (calcAAA (X p) (X (p + 1)) (X (p + 2))) s t u * x * (X p s * Z t u)ᴴ := by
  simp only [lineOp_three]
  rw [Finset.sum_comm]
  refine Finset.sum_congr rfl fun s _ => Finset.sum_congr rfl fun s0 _ => ?_
  rw [Finset.sum_eq_single s0]
  · simp [linePair, show ¬ p = p + 1 + 1 by omega]
  · intro s _ hs; simp [linePair, hs]
  · simp

end EvoMPS.Uni
