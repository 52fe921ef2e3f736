import Verif.UniformDyn
import Verif.UniformDynSpec
import Verif.PairGauge
import Verif.UniformTangentLemmas
import Verif.DynExpLemmas

/-!
# Dynamical expansion of the uniform chain (helper lemmas)
-/

set_option linter.unusedSectionVars false

namespace EvoMPS.Uni

open Matrix

section
variable {R : Type*} [CommRing R] [StarRing R] {q D : ℕ}

/-- The line with the identity for `s0` at site `p` and `Z s0` at site `p + 1`. -/
def pairLine (L : ℕ) (A : ℕ → Ten R q D D) (p : ℕ) (Z : Ten2 R q q D D) (s0 : Fin q) : ℕ → Ten R q D D :=
  fun j => if j = p then fun s => if s = s0 then 1 else 0 else if j = p + 1 then Z s0 else A (j % L)

/-- The line with `Z s t0` at site `p` and the identity for `t0` at site `p + 1`. -/
def pairLine' (L : ℕ) (A : ℕ → Ten R q D D) (p : ℕ) (Z : Ten2 R q q D D) (t0 : Fin q) : ℕ → Ten R q D D :=
  fun j => if j = p then fun s => Z s t0 else if j = p + 1 then fun t => if t = t0 then 1 else 0 else A (j % L)

variable {L : ℕ} {A : ℕ → Ten R q D D} {p : ℕ} (Z : Ten2 R q q D D)

theorem pairLine_out {s0 : Fin q} {j : ℕ} (h1 : j ≠ p) (h2 : j ≠ p + 1) : pairLine L A p Z s0 j = A (j % L) := by
  rw [pairLine, if_neg h1, if_neg h2]

theorem pairLine'_out {s0 : Fin q} {j : ℕ} (h1 : j ≠ p) (h2 : j ≠ p + 1) : pairLine' L A p Z s0 j = A (j % L) := by
  rw [pairLine', if_neg h1, if_neg h2]

theorem pairProd_eq {c n : ℕ} (h1 : c ≤ p) (h2 : p + 1 < c + n) (s : Fin n → Fin q) :
    pairProd L A p Z c n s = ∑ s0, lineProd (pairLine L A p Z s0) c n s := by
  have hi : p - c < n := by omega
  rw [Finset.sum_eq_single (s ⟨p - c, hi⟩) ?_ (fun h => absurd (Finset.mem_univ _) h)]
  · simp only [pairProd, lineProd]
    congr 2
    funext i
    simp only [pairLine]
    by_cases e1 : c + (i : ℕ) = p
    · rw [if_pos e1, if_pos e1, if_pos]
      congr 1; ext; simp only; omega
    · rw [if_neg e1, if_neg e1]
      by_cases e2 : c + (i : ℕ) = p + 1
      · rw [if_pos e2, if_pos e2]
        congr 2; ext; simp only; omega
      · rw [if_neg e2, if_neg e2]
  · intro s0 _ hs
    rw [lineProd]
    refine List.prod_eq_zero ?_
    rw [List.mem_ofFn]
    refine ⟨⟨p - c, hi⟩, ?_⟩
    have e1 : c + (p - c) = p := by omega
    simp only [pairLine, e1, if_true]
    rw [if_neg (fun h => hs h.symm)]

theorem pairProd_eq' {c n : ℕ} (h1 : c ≤ p) (h2 : p + 1 < c + n) (s : Fin n → Fin q) :
    pairProd L A p Z c n s = ∑ t0, lineProd (pairLine' L A p Z t0) c n s := by
  rw [pairProd_eq Z h1 h2]
  obtain ⟨a, rfl⟩ : ∃ a, p = c + a := ⟨p - c, by omega⟩
  obtain ⟨b, rfl⟩ : ∃ b, n = a + (2 + b) := ⟨n - a - 2, by omega⟩
  obtain ⟨s1, s2, rfl⟩ : ∃ s1 s2, s = Fin.append s1 s2 := ⟨fun i => s (i.castAdd _), fun i => s (i.natAdd _), by
    rw [Fin.append_castAdd_natAdd]⟩
  obtain ⟨s2, s3, rfl⟩ : ∃ s1 s3, s2 = Fin.append s1 s3 := ⟨fun i => s2 (i.castAdd _), fun i => s2 (i.natAdd _), by
    rw [Fin.append_castAdd_natAdd]⟩
  have e1 : ∀ s0, lineProd (pairLine L A (c + a) Z s0) c a s1 = lineProd (fun j => A (j % L)) c a s1 := fun s0 =>
    lineProd_congr (fun j _ _ => pairLine_out Z (by omega) (by omega)) s1
  have e1' : ∀ s0, lineProd (pairLine' L A (c + a) Z s0) c a s1 = lineProd (fun j => A (j % L)) c a s1 := fun s0 =>
    lineProd_congr (fun j _ _ => pairLine'_out Z (by omega) (by omega)) s1
  have e3 : ∀ s0, lineProd (pairLine L A (c + a) Z s0) (c + a + 2) b s3 = lineProd (fun j => A (j % L)) (c + a + 2) b s3 :=
    fun s0 => lineProd_congr (fun j _ _ => pairLine_out Z (by omega) (by omega)) s3
  have e3' : ∀ s0, lineProd (pairLine' L A (c + a) Z s0) (c + a + 2) b s3 = lineProd (fun j => A (j % L)) (c + a + 2) b s3 :=
    fun s0 => lineProd_congr (fun j _ _ => pairLine'_out Z (by omega) (by omega)) s3
  have h2 : ∀ (X : ℕ → Ten R q D D) (j : ℕ), lineProd X j 2 s2 = X j (s2 0) * X (j + 1) (s2 1) := by
    intro X j; simp [lineProd]
  simp only [lineProd_append, e1, e1', e3, e3', h2, ← Matrix.mul_sum, ← Matrix.sum_mul]
  congr 2
  simp [pairLine, pairLine', Finset.sum_ite_eq]

theorem closedBraket_sum_left {ι : Type*} (u : Finset ι) (l0 r0 : Matrix (Fin D) (Fin D) R) {n : ℕ}
    (P : ι → (Fin n → Fin q) → Matrix (Fin D) (Fin D) R) (Q) :
    closedBraket l0 r0 (fun s => ∑ i ∈ u, P i s) Q = ∑ i ∈ u, closedBraket l0 r0 (P i) Q := by
  simp only [closedBraket, Matrix.conjTranspose_sum, Matrix.mul_sum, Matrix.trace_sum]
  rw [Finset.sum_comm]

theorem closedBraket_sum_right {ι : Type*} (u : Finset ι) (l0 r0 : Matrix (Fin D) (Fin D) R) {n : ℕ}
    (P : (Fin n → Fin q) → Matrix (Fin D) (Fin D) R) (Q : ι → (Fin n → Fin q) → Matrix (Fin D) (Fin D) R) :
    closedBraket l0 r0 P (fun s => ∑ i ∈ u, Q i s) = ∑ i ∈ u, closedBraket l0 r0 P (Q i) := by
  simp only [closedBraket, Matrix.mul_sum, Matrix.sum_mul, Matrix.trace_sum]
  rw [Finset.sum_comm]

theorem closedElem_sum_left {ι : Type*} (u : Finset ι) (l0 r0 : Matrix (Fin D) (Fin D) R) (a n b : ℕ)
    (O : (Fin n → Fin q) → (Fin n → Fin q) → R) (P : ι → (Fin (a + n + b) → Fin q) → Matrix (Fin D) (Fin D) R) (Q) :
    closedElem l0 r0 a n b O (fun s => ∑ i ∈ u, P i s) Q = ∑ i ∈ u, closedElem l0 r0 a n b O (P i) Q := by
  have : ∀ s t, padOp (a := a) (b := b) O s t * (l0ᴴ * Q t * r0 * (∑ i ∈ u, P i s)ᴴ).trace
      = ∑ i ∈ u, padOp (a := a) (b := b) O s t * (l0ᴴ * Q t * r0 * (P i s)ᴴ).trace := by
    intro s t
    rw [Matrix.conjTranspose_sum, Matrix.mul_sum, Matrix.trace_sum, Finset.mul_sum]
  simp only [closedElem, this]
  rw [Finset.sum_comm (s := u)]
  refine Finset.sum_congr rfl fun s _ => ?_
  rw [Finset.sum_comm]

variable {l r : ℕ → Matrix (Fin D) (Fin D) R}

/-- The right gauge condition removes every state that agrees with the uniform state from site `p + 1` on. -/
theorem pairLine_right (hL : 0 < L) (E : ChainEnv L A l r)
    (hR : ∀ s0, ∑ t, A ((p + 1) % L) t * r ((p + 1) % L) * (Z s0 t)ᴴ = 0) (X : ℕ → Ten R q D D)
    (hX : ∀ j, p + 1 ≤ j → X j = A (j % L)) {c n : ℕ} (h1 : c ≤ p + 1) (h2 : p + 1 < c + n) (s0 : Fin q) :
    lineTransfer X (pairLine L A p Z s0) c n (r ((c + n + L - 1) % L)) = 0 := by
  obtain ⟨u, hu⟩ : ∃ u, p + 1 = c + u := ⟨p + 1 - c, by omega⟩
  obtain ⟨e, rfl⟩ : ∃ e, n = u + e := ⟨n - u, by omega⟩
  have h := lineTransfer_gauge hL E (Z s0) (hR s0) (c := p + 1) (n := e) (by omega) (by omega)
  rw [lineTransfer_add, ← hu, show c + (u + e) + L - 1 = p + 1 + e + L - 1 by omega,
    lineTransfer_congr (X' := fun j => A (j % L)) (Y' := replaced L A (p + 1) (Z s0)) (fun j h _ => hX j h)
      (fun j h _ => by
        by_cases e1 : j = p + 1
        · subst e1; rw [pairLine, if_neg (by omega), if_pos rfl, replaced, if_pos rfl]
        · rw [pairLine_out Z (by omega) e1, replaced, if_neg e1]), h, lineTransfer_zero_right]

theorem adot_left_zero {lp : Matrix (Fin D) (Fin D) R} (hl : lpᴴ = lp) {A0 : Ten R q D D} (hZ : LeftGauge2 A0 lp Z)
    (W : Matrix (Fin D) (Fin D) R) (t0 : Fin q) : adot lp (∑ s, A0 s * W * (Z s t0)ᴴ) = 0 := by
  have h := congrArg (fun M => (Mᴴ * W).trace) (hZ t0)
  simp only [conjTranspose_sum, conjTranspose_mul, conjTranspose_conjTranspose, hl, conjTranspose_zero, Matrix.zero_mul,
    Matrix.trace_zero, Matrix.sum_mul, Matrix.trace_sum] at h
  rw [adot_eq_trace, hl, Matrix.mul_sum, Matrix.trace_sum, ← h]
  refine Finset.sum_congr rfl fun s _ => ?_
  rw [← Matrix.mul_assoc, Matrix.trace_mul_comm]
  simp only [Matrix.mul_assoc]

/-- The left gauge condition removes every state that agrees with the uniform state up to site `p`. -/
theorem pairLine'_left (hL : 0 < L) (E : ChainEnv L A l r) (hl : (l ((p + L - 1) % L))ᴴ = l ((p + L - 1) % L))
    (hZ : LeftGauge2 (A (p % L)) (l ((p + L - 1) % L)) Z) (X : ℕ → Ten R q D D)
    (hX : ∀ j, j ≤ p → X j = A (j % L)) {c n : ℕ} (h1 : c ≤ p) (h2 : p < c + n) (x : Matrix (Fin D) (Fin D) R) (t0 : Fin q) :
    adot (l ((c + L - 1) % L)) (lineTransfer X (pairLine' L A p Z t0) c n x) = 0 := by
  obtain ⟨u, rfl⟩ : ∃ u, p = c + u := ⟨p - c, by omega⟩
  obtain ⟨e, rfl⟩ : ∃ e, n = u + 1 + e := ⟨n - u - 1, by omega⟩
  rw [lineTransfer_add, lineTransfer_succ, lineTransfer_congr (X' := fun j => A (j % L)) (Y' := fun j => A (j % L))
      (fun j _ h => hX j (by omega)) (fun j _ h => pairLine'_out Z (by omega) (by omega)), lineTransfer_uniform,
      ← adot_chainTransferL, E.transferL hL, hX _ le_rfl]
  simp only [pairLine', if_true]
  exact adot_left_zero Z hl hZ _ t0

theorem lineTransfer_sum_right {ι : Type*} (u : Finset ι) (X Y : ℕ → Ten R q D D) (c n : ℕ)
    (x : ι → Matrix (Fin D) (Fin D) R) : lineTransfer X Y c n (∑ i ∈ u, x i) = ∑ i ∈ u, lineTransfer X Y c n (x i) := by
  simp only [lineTransfer, Matrix.mul_sum, Matrix.sum_mul]
  rw [Finset.sum_comm]

/-- Overlap of a pair that satisfies both gauge conditions with any state that agrees with the uniform state up to site `p` or
from site `p + 1` on. -/
theorem pair_out (hL : 0 < L) (E : ChainEnv L A l r) (hl : (l ((p + L - 1) % L))ᴴ = l ((p + L - 1) % L))
    (hr : (r ((p + 1) % L))ᴴ = r ((p + 1) % L))
    (hZl : LeftGauge2 (A (p % L)) (l ((p + L - 1) % L)) Z) (hZr : RightGauge2 (A ((p + 1) % L)) (r ((p + 1) % L)) Z)
    (X : ℕ → Ten R q D D) (hX : (∀ j, j ≤ p → X j = A (j % L)) ∨ ∀ j, p + 1 ≤ j → X j = A (j % L))
    {c n : ℕ} (h1 : c ≤ p) (h2 : p + 1 < c + n) :
    closedBraket (l ((c + L - 1) % L)) (r ((c + n + L - 1) % L)) (pairProd L A p Z c n) (lineProd X c n) = 0 := by
  rcases hX with hX | hX
  · rw [show pairProd L A p Z c n = fun s => ∑ t0, lineProd (pairLine' L A p Z t0) c n s from
      funext fun s => pairProd_eq' Z h1 h2 s, closedBraket_sum_left]
    refine Finset.sum_eq_zero fun t0 _ => ?_
    exact (windowBraket_eq X (pairLine' L A p Z t0) L l r c n).trans
      (pairLine'_left Z hL E hl hZl X hX h1 (by omega) _ t0)
  · rw [show pairProd L A p Z c n = fun s => ∑ s0, lineProd (pairLine L A p Z s0) c n s from
      funext fun s => pairProd_eq Z h1 h2 s, closedBraket_sum_left]
    refine Finset.sum_eq_zero fun s0 _ => ?_
    refine (windowBraket_eq X (pairLine L A p Z s0) L l r c n).trans ?_
    rw [pairLine_right Z hL E (rightGauge2_conj hr hZr) X hX (by omega) h2, adot_zero_right]

theorem pair_pair (hL : 0 < L) (E : ChainEnv L A l r) (hl : (l ((p + L - 1) % L))ᴴ = l ((p + L - 1) % L))
    (hr : (r ((p + 1) % L))ᴴ = r ((p + 1) % L))
    (hZl : LeftGauge2 (A (p % L)) (l ((p + L - 1) % L)) Z) (hZr : RightGauge2 (A ((p + 1) % L)) (r ((p + 1) % L)) Z)
    (X : Ten2 R q q D D) (p' : ℕ) (hp : p' ≠ p)
    {c n : ℕ} (h1 : c ≤ p) (h2 : p + 1 < c + n) (h1' : c ≤ p') (h2' : p' + 1 < c + n) :
    pairBraket L A l r c n p p' Z X = 0 := by
  rw [pairBraket, show pairProd L A p' X c n = fun s => ∑ s0, lineProd (pairLine L A p' X s0) c n s from
      funext fun s => pairProd_eq X h1' h2' s, closedBraket_sum_right]
  refine Finset.sum_eq_zero fun s0 _ => ?_
  refine pair_out Z hL E hl hr hZl hZr _ ?_ h1 h2
  rcases Nat.lt_or_gt_of_ne hp with h | h
  · exact Or.inr fun j hj => pairLine_out X (by omega) (by omega)
  · exact Or.inl fun j hj => pairLine_out X (by omega) (by omega)

theorem pair_same_site (hL : 0 < L) (E : ChainEnv L A l r) (X : Ten2 R q q D D) {c n : ℕ} (h1 : c ≤ p) (h2 : p + 1 < c + n) :
    pairBraket L A l r c n p p Z X = ov2 (l ((p + L - 1) % L)) (r ((p + 1) % L)) Z X := by
  obtain ⟨u, rfl⟩ : ∃ u, p = c + u := ⟨p - c, by omega⟩
  obtain ⟨e, rfl⟩ : ∃ e, n = u + (1 + 1 + e) := ⟨n - u - 2, by omega⟩
  have key : ∀ s0 s1, closedBraket (l ((c + L - 1) % L)) (r ((c + (u + (1 + 1 + e)) + L - 1) % L))
      (lineProd (pairLine L A (c + u) Z s0) c (u + (1 + 1 + e))) (lineProd (pairLine L A (c + u) X s1) c (u + (1 + 1 + e)))
      = if s0 = s1 then adot (l ((c + u + L - 1) % L)) (∑ t, X s0 t * r ((c + u + 1) % L) * (Z s0 t)ᴴ) else 0 := by
    intro s0 s1
    refine (windowBraket_eq (pairLine L A (c + u) X s1) (pairLine L A (c + u) Z s0) L l r c _).trans ?_
    have hr := E.transferR hL (c + u + (1 + 1)) e
    rw [lineTransfer_add, lineTransfer_add, lineTransfer_congr (c := c + u + (1 + 1)) (X' := fun j => A (j % L))
      (Y' := fun j => A (j % L)) (fun j h _ => pairLine_out X (by omega) (by omega))
      (fun j h _ => pairLine_out Z (by omega) (by omega)), lineTransfer_uniform,
      show c + (u + (1 + 1 + e)) + L - 1 = c + u + (1 + 1) + e + L - 1 by omega, hr,
      show c + u + (1 + 1) + L - 1 = c + u + 1 + L by omega, Nat.add_mod_right,
      lineTransfer_congr (c := c) (X' := fun j => A (j % L))
      (Y' := fun j => A (j % L)) (fun j _ h => pairLine_out X (by omega) (by omega))
      (fun j _ h => pairLine_out Z (by omega) (by omega)), lineTransfer_uniform, ← adot_chainTransferL, E.transferL hL,
      lineTransfer_succ, lineTransfer_one]
    have hp0 : ∀ (Y : Ten2 R q q D D) s0, pairLine L A (c + u) Y s0 (c + u) = fun s => if s = s0 then 1 else 0 := by
      intro Y s0; simp [pairLine]
    have hp1 : ∀ (Y : Ten2 R q q D D) s0, pairLine L A (c + u) Y s0 (c + u + 1) = Y s0 := by
      intro Y s0; simp [pairLine]
    rw [hp0, hp0, hp1, hp1, Finset.sum_eq_single s1]
    · by_cases h : s0 = s1
      · subst h; simp
      · simp [h, Ne.symm h, adot_zero_right]
    · intro s _ hs; simp [hs]
    · simp
  have eP : ∀ Y : Ten2 R q q D D, pairProd L A (c + u) Y c (u + (1 + 1 + e))
      = fun s => ∑ s0, lineProd (pairLine L A (c + u) Y s0) c (u + (1 + 1 + e)) s :=
    fun Y => funext fun s => pairProd_eq Y h1 h2 s
  rw [pairBraket, eP, eP, closedBraket_sum_left]
  simp only [closedBraket_sum_right, key, Finset.sum_ite_eq, Finset.mem_univ, if_true]
  rw [ov2, adot_sum_right]

/-- A term that does not act on both sites of the pair. -/
theorem pairElem_out (hL : 0 < L) (E : ChainEnv L A l r) (hl : (l ((p + L - 1) % L))ᴴ = l ((p + L - 1) % L))
    (hr : (r ((p + 1) % L))ᴴ = r ((p + 1) % L))
    (hZl : LeftGauge2 (A (p % L)) (l ((p + L - 1) % L)) Z) (hZr : RightGauge2 (A ((p + 1) % L)) (r ((p + 1) % L)) Z)
    {c a n b : ℕ} (h1 : c ≤ p) (h2 : p + 1 < c + (a + n + b)) (h : c + a + n ≤ p + 1 ∨ p + 1 ≤ c + a)
    (O : (Fin n → Fin q) → (Fin n → Fin q) → R) :
    closedElem (l ((c + L - 1) % L)) (r ((c + (a + n + b) + L - 1) % L)) a n b O
      (pairProd L A p Z c (a + n + b)) (lineProd (fun j => A (j % L)) c (a + n + b)) = 0 := by
  rcases h with h | h
  · rw [show pairProd L A p Z c (a + n + b) = fun s => ∑ s0, lineProd (pairLine L A p Z s0) c (a + n + b) s from
      funext fun s => pairProd_eq Z h1 h2 s, closedElem_sum_left]
    refine Finset.sum_eq_zero fun s0 _ => ?_
    refine (windowElem_eq (fun j => A (j % L)) (pairLine L A p Z s0) L l r c a n b O).trans ?_
    rw [show c + (a + n + b) + L - 1 = c + a + n + b + L - 1 by omega,
      pairLine_right Z hL E (rightGauge2_conj hr hZr) _ (fun _ _ => rfl) h (by omega), lineOp_zero_right,
      lineTransfer_zero_right, adot_zero_right]
  · rw [show pairProd L A p Z c (a + n + b) = fun s => ∑ t0, lineProd (pairLine' L A p Z t0) c (a + n + b) s from
      funext fun s => pairProd_eq' Z h1 h2 s, closedElem_sum_left]
    refine Finset.sum_eq_zero fun t0 _ => ?_
    exact (windowElem_eq (fun j => A (j % L)) (pairLine' L A p Z t0) L l r c a n b O).trans
      (pairLine'_left Z hL E hl hZl _ (fun _ _ => rfl) h1 (by omega) _ t0)

/-- A term that acts on both sites of the pair. -/
theorem pairElem_at (hL : 0 < L) (E : ChainEnv L A l r) {c a n b : ℕ} (h1 : c + a ≤ p) (h2 : p + 1 < c + a + n)
    (O : (Fin n → Fin q) → (Fin n → Fin q) → R) :
    closedElem (l ((c + L - 1) % L)) (r ((c + (a + n + b) + L - 1) % L)) a n b O
      (pairProd L A p Z c (a + n + b)) (lineProd (fun j => A (j % L)) c (a + n + b))
      = adot (l ((c + a + L - 1) % L)) (∑ s0, lineOp (fun j => A (j % L)) (pairLine L A p Z s0) (c + a) n O
          (r ((c + a + n + L - 1) % L))) := by
  rw [show pairProd L A p Z c (a + n + b) = fun s => ∑ s0, lineProd (pairLine L A p Z s0) c (a + n + b) s from
      funext fun s => pairProd_eq Z (by omega) (by omega) s, closedElem_sum_left, adot_sum_right]
  refine Finset.sum_congr rfl fun s0 _ => ?_
  refine (windowElem_eq (fun j => A (j % L)) (pairLine L A p Z s0) L l r c a n b O).trans ?_
  rw [lineTransfer_congr (c := c + a + n) (X' := fun j => A (j % L)) (Y' := fun j => A (j % L)) (fun _ _ _ => rfl)
      (fun j h _ => pairLine_out Z (by omega) (by omega)), lineTransfer_uniform,
    lineTransfer_congr (c := c) (X' := fun j => A (j % L)) (Y' := fun j => A (j % L)) (fun _ _ _ => rfl)
      (fun j _ h => pairLine_out Z (by omega) (by omega)), lineTransfer_uniform,
    show c + (a + n + b) + L - 1 = c + a + n + b + L - 1 by omega, E.transferR hL, ← adot_chainTransferL, E.transferL hL]

theorem pairOp_two (h : Fin q → Fin q → Fin q → Fin q → R) (x : Matrix (Fin D) (Fin D) R) :
    ∑ s0, lineOp (fun j => A (j % L)) (pairLine L A p Z s0) p 2 (fun s t => h (s 0) (s 1) (t 0) (t 1)) x
      = ∑ s, ∑ t, calcC h (calcAA (A (p % L)) (A ((p + 1) % L))) s t * x * (Z s t)ᴴ := by
  refine Finset.sum_congr rfl fun s0 _ => ?_
  rw [lineOp_two, Finset.sum_eq_single s0]
  · simp [pairLine]
  · intro s _ hs; simp [pairLine, hs]
  · simp

theorem pairOp_right (h : Fin q → Fin q → Fin q → Fin q → Fin q → Fin q → R) (x : Matrix (Fin D) (Fin D) R) :
    ∑ s0, lineOp (fun j => A (j % L)) (pairLine L A p Z s0) p 3 (fun s t => h (s 0) (s 1) (s 2) (t 0) (t 1) (t 2)) x
      = ∑ s, ∑ t, ∑ u, calcC3 h (calcAAA (A (p % L)) (A ((p + 1) % L)) (A ((p + 2) % L))) s t u * x
          * (Z s t * A ((p + 2) % L) u)ᴴ := by
  refine Finset.sum_congr rfl fun s0 _ => ?_
  rw [lineOp_three, Finset.sum_eq_single s0]
  · simp [pairLine]
  · intro s _ hs; simp [pairLine, hs]
  · simp

theorem pairOp_left (hp : 1 ≤ p) (h : Fin q → Fin q → Fin q → Fin q → Fin q → Fin q → R) (x : Matrix (Fin D) (Fin D) R) :
    ∑ s0, lineOp (fun j => A (j % L)) (pairLine L A p Z s0) (p - 1) 3
        (fun s t => h (s 0) (s 1) (s 2) (t 0) (t 1) (t 2)) x
      = ∑ s, ∑ t, ∑ u, calcC3 h (calcAAA (A ((p - 1) % L)) (A (p % L)) (A ((p + 1) % L))) s t u * x
          * (A ((p - 1) % L) s * Z t u)ᴴ := by
  obtain ⟨m, rfl⟩ : ∃ m, p = m + 1 := ⟨p - 1, by omega⟩
  simp only [Nat.add_sub_cancel, lineOp_three]
  rw [Finset.sum_comm]
  refine Finset.sum_congr rfl fun s _ => Finset.sum_congr rfl fun s0 _ => ?_
  rw [Finset.sum_eq_single s0]
  · simp [pairLine, show ¬ m = m + 1 + 1 by omega]
  · intro s _ hs; simp [pairLine, hs]
  · simp

end

section
variable {q D : ℕ}

theorem lineProd_last {R : Type*} [CommRing R] (X : ℕ → Ten R q D D) (c n : ℕ) (s : Fin (n + 1) → Fin q) :
    lineProd X c (n + 1) s = lineProd X c n (fun i => s i.castSucc) * X (c + n) (s (Fin.last n)) := by
  simp only [lineProd]
  rw [List.ofFn_succ', List.concat_eq_append, List.prod_append, List.prod_singleton]
  simp

/-- Old part of the product of enlarged tensors. -/
theorem grow_parts {d : ℕ} (G : ℕ → Ten ℂ q (D + d) (D + d)) (E : ℕ → Ten ℂ q D D) (b1 : ℕ → Fin q → Matrix (Fin D) (Fin d) ℂ)
    (b2 : ℕ → Fin q → Matrix (Fin d) (Fin D) ℂ) (c0 t : ℂ) (hc : c0 * c0 = -t)
    (hG : ∀ j s, G j s = blocks (E j s) (c0 • b1 j s) (c0 • b2 j s) 0) (c n : ℕ) :
    (∀ s i j, lineProd G c n s (Fin.castAdd d i) (Fin.castAdd d j)
      = ampGrow (q := fun _ => q) (D := fun _ => D) (fun k => E (c + k)) (fun k s t => b1 (c + k) s * b2 (c + k + 1) t) t n s i j) ∧
    (∀ (s : Fin (n + 1) → Fin q) i j, lineProd G c (n + 1) s (Fin.castAdd d i) (Fin.castAdd d j)
      = ampGrow (q := fun _ => q) (D := fun _ => D) (fun k => E (c + k)) (fun k s t => b1 (c + k) s * b2 (c + k + 1) t) t
          (n + 1) s i j) ∧
    ∀ (s : Fin (n + 1) → Fin q) i j, lineProd G c (n + 1) s (Fin.castAdd d i) (Fin.natAdd D j)
      = (c0 • (ampGrow (q := fun _ => q) (D := fun _ => D) (fun k => E (c + k)) (fun k s t => b1 (c + k) s * b2 (c + k + 1) t) t
          n (fun i => s i.castSucc) * b1 (c + n) (s (Fin.last n)))) i j := by
  have hnew : ∀ n, (∀ s i j, lineProd G c n s (Fin.castAdd d i) (Fin.castAdd d j)
      = ampGrow (q := fun _ => q) (D := fun _ => D) (fun k => E (c + k)) (fun k s t => b1 (c + k) s * b2 (c + k + 1) t) t n s i j) →
      ∀ (s : Fin (n + 1) → Fin q) i j, lineProd G c (n + 1) s (Fin.castAdd d i) (Fin.natAdd D j)
      = (c0 • (ampGrow (q := fun _ => q) (D := fun _ => D) (fun k => E (c + k)) (fun k s t => b1 (c + k) s * b2 (c + k + 1) t) t
          n (fun i => s i.castSucc) * b1 (c + n) (s (Fin.last n)))) i j := by
    intro n hn s i j
    rw [lineProd_last, Matrix.mul_apply, Fin.sum_univ_add, Matrix.smul_apply, Matrix.mul_apply]
    simp only [hG, blocks_12, blocks_22, hn, Matrix.zero_apply, mul_zero, Finset.sum_const_zero, add_zero, smul_eq_mul,
      Finset.mul_sum, Matrix.smul_apply]
    exact Finset.sum_congr rfl fun k _ => by ring
  induction n with
  | zero =>
    have h0 : ∀ s i j, lineProd G c 0 s (Fin.castAdd d i) (Fin.castAdd d j)
        = ampGrow (q := fun _ => q) (D := fun _ => D) (fun k => E (c + k)) (fun k s t => b1 (c + k) s * b2 (c + k + 1) t) t 0 s i j := by
      intro s i j
      simp [lineProd, ampGrow, Matrix.one_apply]
    refine ⟨h0, fun s i j => ?_, hnew 0 h0⟩
    simp [lineProd, ampGrow, hG, blocks_11]
  | succ n ih =>
    refine ⟨ih.2.1, fun s i j => ?_, hnew _ ih.2.1⟩
    rw [lineProd_last, Matrix.mul_apply, Fin.sum_univ_add, ampGrow]
    simp only [hG, blocks_11, blocks_21, ih.2.1, ih.2.2]
    rw [Matrix.sub_apply, Matrix.smul_apply, Matrix.mul_apply, sub_eq_add_neg]
    congr 1
    have : ∀ k, (c0 • (ampGrow (q := fun _ => q) (D := fun _ => D) (fun k => E (c + k))
          (fun k s t => b1 (c + k) s * b2 (c + k + 1) t) t n (fun i => s i.castSucc.castSucc)
          * b1 (c + n) (s (Fin.last n).castSucc))) i k * (c0 • b2 (c + (n + 1)) (s (Fin.last (n + 1)))) k j
        = -t * ((ampGrow (q := fun _ => q) (D := fun _ => D) (fun k => E (c + k))
          (fun k s t => b1 (c + k) s * b2 (c + k + 1) t) t n (fun i => s i.castSucc.castSucc)
          * b1 (c + n) (s (Fin.last n).castSucc)) i k * b2 (c + (n + 1)) (s (Fin.last (n + 1))) k j) := by
      intro k
      rw [← hc, Matrix.smul_apply, Matrix.smul_apply, smul_eq_mul, smul_eq_mul]
      ring
    simp only [this]
    rw [← Finset.mul_sum, ← Matrix.mul_apply, Matrix.mul_assoc, smul_eq_mul, neg_mul]
    rfl

end

end EvoMPS.Uni
