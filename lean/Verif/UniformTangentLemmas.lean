import Verif.UniformTangentSpec
import Verif.UniformTangent
import Verif.UniformKLemmas
import Verif.UniformLimit
import Verif.Props.UniformK
import Verif.TangentLemmas

/-!
# Tangent vectors of the uniform chain (helper lemmas)
-/

set_option linter.unusedSectionVars false

namespace EvoMPS

open Matrix

section
variable {R : Type*} [CommRing R] [StarRing R] {q D : ℕ}

/-- The mixed transfer map of the sites `c, ..., c+n-1`. -/
def lineTransfer (X Y : ℕ → Ten R q D D) (c n : ℕ) (x : Matrix (Fin D) (Fin D) R) : Matrix (Fin D) (Fin D) R :=
  ∑ s : Fin n → Fin q, lineProd X c n s * x * (lineProd Y c n s)ᴴ

/-- The mixed map with an operator. -/
def lineOp (X Y : ℕ → Ten R q D D) (c n : ℕ) (O : (Fin n → Fin q) → (Fin n → Fin q) → R)
    (x : Matrix (Fin D) (Fin D) R) : Matrix (Fin D) (Fin D) R :=
  ∑ s, ∑ t, O s t • (lineProd X c n t * x * (lineProd Y c n s)ᴴ)

variable (X Y : ℕ → Ten R q D D)

theorem lineProd_zero (c : ℕ) (s : Fin 0 → Fin q) : lineProd X c 0 s = 1 := by
  simp [lineProd]

theorem lineProd_snoc (c n : ℕ) (s : Fin n → Fin q) (t : Fin q) :
    lineProd X c (n + 1) (Fin.snoc (α := fun _ => Fin q) s t) = lineProd X c n s * X (c + n) t := by
  simp only [lineProd]
  rw [List.ofFn_succ', List.concat_eq_append, List.prod_append, List.prod_singleton]
  simp [Fin.snoc_castSucc, Fin.snoc_last]

theorem lineProd_append (c a b : ℕ) (s : Fin a → Fin q) (t : Fin b → Fin q) :
    lineProd X c (a + b) (Fin.append s t) = lineProd X c a s * lineProd X (c + a) b t := by
  simp only [lineProd]
  rw [List.ofFn_add, List.prod_append]
  simp [Fin.append_right, Nat.add_assoc]

theorem lineProd_congr {X X' : ℕ → Ten R q D D} {c n : ℕ} (h : ∀ j, c ≤ j → j < c + n → X j = X' j)
    (s : Fin n → Fin q) : lineProd X c n s = lineProd X' c n s := by
  simp only [lineProd]
  congr 2
  funext i
  rw [h _ (by omega) (by omega)]

theorem lineTransfer_zero (c : ℕ) (x : Matrix (Fin D) (Fin D) R) : lineTransfer X Y c 0 x = x := by
  simp [lineTransfer, lineProd_zero]

theorem lineTransfer_succ (c n : ℕ) (x : Matrix (Fin D) (Fin D) R) :
    lineTransfer X Y c (n + 1) x = lineTransfer X Y c n (∑ s, X (c + n) s * x * (Y (c + n) s)ᴴ) := by
  simp only [lineTransfer, sum_snoc, lineProd_snoc, Matrix.conjTranspose_mul,
    Matrix.mul_sum, Matrix.sum_mul, Matrix.mul_assoc]

theorem lineTransfer_add (c a b : ℕ) (x : Matrix (Fin D) (Fin D) R) :
    lineTransfer X Y c (a + b) x = lineTransfer X Y c a (lineTransfer X Y (c + a) b x) := by
  simp only [lineTransfer, sum_append, lineProd_append, Matrix.conjTranspose_mul,
    Matrix.mul_sum, Matrix.sum_mul, Matrix.mul_assoc]

theorem lineTransfer_one (c : ℕ) (x : Matrix (Fin D) (Fin D) R) :
    lineTransfer X Y c 1 x = ∑ s, X c s * x * (Y c s)ᴴ := by
  rw [lineTransfer_succ, lineTransfer_zero]; rfl

theorem lineTransfer_congr {X X' Y Y' : ℕ → Ten R q D D} {c n : ℕ} (h : ∀ j, c ≤ j → j < c + n → X j = X' j)
    (h' : ∀ j, c ≤ j → j < c + n → Y j = Y' j) (x : Matrix (Fin D) (Fin D) R) :
    lineTransfer X Y c n x = lineTransfer X' Y' c n x := by
  simp only [lineTransfer, lineProd_congr h, lineProd_congr h']

theorem lineOp_congr {X X' Y Y' : ℕ → Ten R q D D} {c n : ℕ} (h : ∀ j, c ≤ j → j < c + n → X j = X' j)
    (h' : ∀ j, c ≤ j → j < c + n → Y j = Y' j) (O : (Fin n → Fin q) → (Fin n → Fin q) → R)
    (x : Matrix (Fin D) (Fin D) R) : lineOp X Y c n O x = lineOp X' Y' c n O x := by
  simp only [lineOp, lineProd_congr h, lineProd_congr h']

theorem lineTransfer_zero_right (c n : ℕ) : lineTransfer X Y c n 0 = 0 := by
  simp [lineTransfer]

theorem lineOp_zero_right (c n : ℕ) (O : (Fin n → Fin q) → (Fin n → Fin q) → R) : lineOp X Y c n O 0 = 0 := by
  simp [lineOp]

theorem windowBraket_eq (L : ℕ) (l r : ℕ → Matrix (Fin D) (Fin D) R) (c w : ℕ) :
    windowBraket L l r c w Y X
      = adot (l ((c + L - 1) % L)) (lineTransfer X Y c w (r ((c + w + L - 1) % L))) := by
  rw [adot_eq_trace, lineTransfer, windowBraket, Matrix.mul_sum, Matrix.trace_sum]
  simp only [Matrix.mul_assoc]

theorem windowElem_eq (L : ℕ) (l r : ℕ → Matrix (Fin D) (Fin D) R) (c a n b : ℕ)
    (O : (Fin n → Fin q) → (Fin n → Fin q) → R) :
    windowElem L l r c a n b O Y X
      = adot (l ((c + L - 1) % L)) (lineTransfer X Y c a (lineOp X Y (c + a) n O
          (lineTransfer X Y (c + a + n) b (r ((c + (a + n + b) + L - 1) % L))))) := by
  rw [adot_eq_trace]
  simp only [windowElem, sum_append, padOp_append]
  generalize (l ((c + L - 1) % L))ᴴ = l0
  generalize r ((c + (a + n + b) + L - 1) % L) = r0
  have h1 : ∀ (s1 : Fin a → Fin q) (s2 : Fin n → Fin q) (s3 : Fin b → Fin q),
      (∑ t1, ∑ t2, ∑ t3, (if s1 = t1 ∧ s3 = t3 then O s2 t2 else 0)
        * (l0 * lineProd X c (a + n + b) (Fin.append (Fin.append t1 t2) t3) * r0
          * (lineProd Y c (a + n + b) (Fin.append (Fin.append s1 s2) s3))ᴴ).trace)
      = ∑ t2, O s2 t2 * (l0 * (lineProd X c a s1 * (lineProd X (c + a) n t2 * (lineProd X (c + a + n) b s3 * r0
        * (lineProd Y (c + a + n) b s3)ᴴ) * (lineProd Y (c + a) n s2)ᴴ) * (lineProd Y c a s1)ᴴ)).trace := by
    intro s1 s2 s3
    rw [Finset.sum_eq_single s1]
    · refine Finset.sum_congr rfl fun t2 _ => ?_
      rw [Finset.sum_eq_single s3]
      · rw [if_pos ⟨rfl, rfl⟩, lineProd_append, lineProd_append, lineProd_append, lineProd_append]
        congr 1
        simp only [Matrix.conjTranspose_mul, Matrix.mul_assoc, ← Nat.add_assoc]
      · intro t3 _ h3
        rw [if_neg (fun h => h3 h.2.symm), zero_mul]
      · simp
    · intro t1 _ h1
      refine Finset.sum_eq_zero fun t2 _ => Finset.sum_eq_zero fun t3 _ => ?_
      rw [if_neg (fun h => h1 h.1.symm), zero_mul]
    · simp
  simp only [h1, lineTransfer, lineOp, Matrix.mul_sum, Matrix.sum_mul, Matrix.trace_sum, Matrix.smul_mul, Matrix.mul_smul,
    Matrix.trace_smul, smul_eq_mul, Finset.smul_sum]
  refine Finset.sum_congr rfl fun s1 _ => Finset.sum_congr rfl fun s2 _ => ?_
  exact Finset.sum_comm

/-! ## One replaced tensor -/

variable (L : ℕ) (A : ℕ → Ten R q D D)

theorem lineTransfer_uniform (c n : ℕ) (x : Matrix (Fin D) (Fin D) R) :
    lineTransfer (fun j => A (j % L)) (fun j => A (j % L)) c n x = chainTransfer L L A A c n x := rfl

theorem lineTransfer_out {p : ℕ} (b : Ten R q D D) {c n : ℕ} (h : p < c ∨ c + n ≤ p) (x : Matrix (Fin D) (Fin D) R) :
    lineTransfer (fun j => A (j % L)) (replaced L A p b) c n x = chainTransfer L L A A c n x := by
  rw [← lineTransfer_uniform]
  refine lineTransfer_congr (fun _ _ _ => rfl) (fun j h1 h2 => ?_) x
  rw [replaced, if_neg (by omega)]

theorem lineOp_out {p : ℕ} (b : Ten R q D D) {c n : ℕ} (h : p < c ∨ c + n ≤ p)
    (O : (Fin n → Fin q) → (Fin n → Fin q) → R) (x : Matrix (Fin D) (Fin D) R) :
    lineOp (fun j => A (j % L)) (replaced L A p b) c n O x = chainOp L A c n O x := by
  rw [show chainOp L A c n O x = lineOp (fun j => A (j % L)) (fun j => A (j % L)) c n O x from rfl]
  refine lineOp_congr (fun _ _ _ => rfl) (fun j h1 h2 => ?_) O x
  rw [replaced, if_neg (by omega)]

theorem lineTransfer_at {p : ℕ} (b : Ten R q D D) (x : Matrix (Fin D) (Fin D) R) :
    lineTransfer (fun j => A (j % L)) (replaced L A p b) p 1 x = ∑ s, A (p % L) s * x * (b s)ᴴ := by
  rw [lineTransfer_one]
  simp [replaced]

variable {L A} {l r : ℕ → Matrix (Fin D) (Fin D) R}

/-- A region containing the replaced tensor, closed from the right. -/
theorem lineTransfer_in (hL : 0 < L) (E : ChainEnv L A l r) {p : ℕ} (b : Ten R q D D) {c n : ℕ} (h1 : c ≤ p) (h2 : p < c + n) :
    lineTransfer (fun j => A (j % L)) (replaced L A p b) c n (r ((c + n + L - 1) % L))
      = chainTransfer L L A A c (p - c) (∑ s, A (p % L) s * r (p % L) * (b s)ᴴ) := by
  obtain ⟨d, rfl⟩ : ∃ d, p = c + d := ⟨p - c, by omega⟩
  obtain ⟨e, rfl⟩ : ∃ e, n = d + 1 + e := ⟨n - d - 1, by omega⟩
  rw [lineTransfer_add, lineTransfer_add, lineTransfer_out L A b (c := c + (d + 1)) (by omega),
    lineTransfer_out L A b (c := c) (by omega), Nat.add_sub_cancel_left]
  have := E.transferR hL (c + (d + 1)) e
  rw [show c + (d + 1) + e + L - 1 = c + (d + 1 + e) + L - 1 by omega] at this
  rw [this, lineTransfer_at, show c + (d + 1) + L - 1 = c + d + L by omega, Nat.add_mod_right]

theorem lineTransfer_gauge (hL : 0 < L) (E : ChainEnv L A l r) {p : ℕ} (b : Ten R q D D)
    (hb : ∑ s, A (p % L) s * r (p % L) * (b s)ᴴ = 0) {c n : ℕ} (h1 : c ≤ p) (h2 : p < c + n) :
    lineTransfer (fun j => A (j % L)) (replaced L A p b) c n (r ((c + n + L - 1) % L)) = 0 := by
  rw [lineTransfer_in hL E b h1 h2, hb]
  simp [chainTransfer]

/-- A term in front of the replaced tensor. -/
theorem elem_before (hL : 0 < L) (E : ChainEnv L A l r) {p : ℕ} (b : Ten R q D D)
    (hb : ∑ s, A (p % L) s * r (p % L) * (b s)ᴴ = 0) {c a n d : ℕ} (h1 : c + a + n ≤ p) (h2 : p < c + a + n + d)
    (O : (Fin n → Fin q) → (Fin n → Fin q) → R) :
    windowElem L l r c a n d O (replaced L A p b) (fun j => A (j % L)) = 0 := by
  have h := lineTransfer_gauge hL E b hb h1 h2
  rw [windowElem_eq, show c + (a + n + d) + L - 1 = c + a + n + d + L - 1 by omega, h, lineOp_zero_right,
    lineTransfer_zero_right, adot_zero_right]

/-- A term on the replaced tensor. -/
theorem elem_at (hL : 0 < L) (E : ChainEnv L A l r) {p : ℕ} (b : Ten R q D D)
    {c a n d : ℕ} (h1 : c + a ≤ p) (h2 : p < c + a + n) (O : (Fin n → Fin q) → (Fin n → Fin q) → R) :
    windowElem L l r c a n d O (replaced L A p b) (fun j => A (j % L))
      = adot (l ((c + a + L - 1) % L)) (lineOp (fun j => A (j % L)) (replaced L A p b) (c + a) n O
          (r ((c + a + n + L - 1) % L))) := by
  rw [windowElem_eq, lineTransfer_out L A b (by omega), lineTransfer_out L A b (by omega),
    show c + (a + n + d) + L - 1 = c + a + n + d + L - 1 by omega, E.transferR hL,
    ← adot_chainTransferL, E.transferL hL]

/-- A term behind the replaced tensor. -/
theorem elem_behind (hL : 0 < L) (E : ChainEnv L A l r) {p : ℕ} (b : Ten R q D D)
    {c a n d : ℕ} (h1 : c ≤ p) (h2 : p < c + a) (O : (Fin n → Fin q) → (Fin n → Fin q) → R) :
    windowElem L l r c a n d O (replaced L A p b) (fun j => A (j % L))
      = adot (l ((p + L - 1) % L)) (∑ s, A (p % L) s
          * chainTransfer L L A A (p + 1) (c + a - (p + 1)) (termRight L A r (c + a) n O) * (b s)ᴴ) := by
  obtain ⟨u, rfl⟩ : ∃ u, p = c + u := ⟨p - c, by omega⟩
  obtain ⟨v, rfl⟩ : ∃ v, a = u + 1 + v := ⟨a - u - 1, by omega⟩
  rw [windowElem_eq, lineTransfer_out L A b (c := c + (u + 1 + v) + n) (by omega), lineOp_out L A b (by omega),
    show c + (u + 1 + v + n + d) + L - 1 = c + (u + 1 + v) + n + d + L - 1 by omega, E.transferR hL,
    lineTransfer_add, lineTransfer_add, lineTransfer_out L A b (c := c + (u + 1)) (by omega),
    lineTransfer_out L A b (c := c) (by omega), lineTransfer_at, ← adot_chainTransferL, E.transferL hL,
    show c + (u + 1 + v) - (c + u + 1) = v by omega]
  rfl

/-- The sum of the terms behind the replaced tensor. -/
theorem sum_behind {p : ℕ} (b : Ten R q D D)
    (hb : ∑ s, A (p % L) s * r (p % L) * (b s)ᴴ = 0) (n : ℕ) (O : (Fin n → Fin q) → (Fin n → Fin q) → R)
    (M : ℕ) (x y : Matrix (Fin D) (Fin D) R)
    (hx : x = (∑ j ∈ Finset.range M, (chainTransfer L L A A (p + 1) j (termRight L A r (p + 1 + j) n O)
        - chainExpect L A l r (p + 1 + j) n O • r ((p + 1 + L - 1) % L))) + y) :
    ∑ j ∈ Finset.range M, adot (l ((p + L - 1) % L)) (∑ s, A (p % L) s
          * chainTransfer L L A A (p + 1) j (termRight L A r (p + 1 + j) n O) * (b s)ᴴ)
      = adot (l ((p + L - 1) % L)) (∑ s, A (p % L) s * x * (b s)ᴴ)
        - adot (l ((p + L - 1) % L)) (∑ s, A (p % L) s * y * (b s)ᴴ) := by
  have h0 : ∀ c : R, ∑ s, A (p % L) s * (c • r (p % L)) * (b s)ᴴ = 0 := by
    intro c
    simp only [Matrix.mul_smul, Matrix.smul_mul]
    rw [← Finset.smul_sum, hb, smul_zero]
  rw [show p + 1 + L - 1 = p + L by omega, Nat.add_mod_right] at hx
  rw [← adot_sum_right, eq_sub_iff_add_eq, ← adot_add_right, hx]
  congr 1
  simp only [Matrix.mul_add, Matrix.add_mul, Finset.sum_add_distrib]
  congr 1
  rw [Finset.sum_sub_distrib]
  simp only [Matrix.mul_sub, Matrix.sub_mul, Finset.sum_sub_distrib, Matrix.mul_sum, Matrix.sum_mul]
  rw [Finset.sum_comm]
  symm
  rw [sub_eq_self, Finset.sum_comm]
  exact Finset.sum_eq_zero fun j _ => h0 _

/-! ## Terms on the replaced tensor -/

theorem lineOp_two (c : ℕ) (h : Fin q → Fin q → Fin q → Fin q → R) (x : Matrix (Fin D) (Fin D) R) :
    lineOp X Y c 2 (fun s t => h (s 0) (s 1) (t 0) (t 1)) x
      = ∑ s, ∑ t, calcC h (calcAA (X c) (X (c + 1))) s t * x * (Y c s * Y (c + 1) t)ᴴ := by
  have hp : ∀ (X : ℕ → Ten R q D D) (a b : Fin q), lineProd X c 2 ![a, b] = X c a * X (c + 1) b := by
    intro X a b; simp [lineProd]
  simp only [lineOp, sum_fin2, hp, calcC_eq, calcAA]
  refine Finset.sum_congr rfl fun a _ => Finset.sum_congr rfl fun b _ => ?_
  simp only [Matrix.sum_mul, Matrix.smul_mul]
  rfl

theorem lineOp_three (c : ℕ) (h : Fin q → Fin q → Fin q → Fin q → Fin q → Fin q → R) (x : Matrix (Fin D) (Fin D) R) :
    lineOp X Y c 3 (fun s t => h (s 0) (s 1) (s 2) (t 0) (t 1) (t 2)) x
      = ∑ s, ∑ t, ∑ u, calcC3 h (calcAAA (X c) (X (c + 1)) (X (c + 2))) s t u * x
          * (Y c s * Y (c + 1) t * Y (c + 2) u)ᴴ := by
  have hp : ∀ (X : ℕ → Ten R q D D) (a b d : Fin q), lineProd X c 3 ![a, b, d] = X c a * X (c + 1) b * X (c + 2) d := by
    intro X a b d; simp [lineProd, Matrix.mul_assoc]
  simp only [lineOp, sum_fin3, hp, calcC3_eq, calcAAA]
  refine Finset.sum_congr rfl fun a _ => Finset.sum_congr rfl fun b _ => Finset.sum_congr rfl fun d _ => ?_
  simp only [Matrix.sum_mul, Matrix.smul_mul]
  rfl

variable (l0 x : Matrix (Fin D) (Fin D) R) (b : Ten R q D D) (A1 A2 : Ten R q D D)

theorem local_first2 (hl : l0ᴴ = l0) (C : Ten2 R q q D D) :
    adot l0 (∑ s, ∑ t, C s t * x * (b s * A1 t)ᴴ) = pair (fun s => l0 * epsR x (C s) A1) b := by
  rw [adot_eq_trace, hl, Matrix.mul_sum, Matrix.trace_sum, pair]
  refine Finset.sum_congr rfl fun s _ => ?_
  rw [epsR_eq]
  simp only [Matrix.conjTranspose_mul, Matrix.mul_sum, Matrix.sum_mul, Matrix.mul_assoc]

theorem local_second2 (hl : l0ᴴ = l0) (C : Ten2 R q q D D) :
    adot l0 (∑ s, ∑ t, C s t * x * (A1 s * b t)ᴴ) = pair (fun s => epsL l0 A1 (fun t => C t s) * x) b := by
  rw [adot_eq_trace, hl, pair]
  simp only [epsL_eq, Matrix.mul_sum, Matrix.sum_mul, Matrix.trace_sum]
  rw [Finset.sum_comm]
  refine Finset.sum_congr rfl fun s _ => Finset.sum_congr rfl fun t _ => ?_
  simp only [Matrix.conjTranspose_mul, Matrix.mul_assoc]
  rw [Matrix.trace_mul_comm ((A1 t)ᴴ)]
  simp only [Matrix.mul_assoc]

theorem local_first3 (hl : l0ᴴ = l0) (C : Ten3 R q q q D D) :
    adot l0 (∑ s, ∑ t, ∑ u, C s t u * x * (b s * A1 t * A2 u)ᴴ)
      = pair (fun s => l0 * epsR2 x (C s) (calcAA A1 A2)) b := by
  rw [adot_eq_trace, hl, Matrix.mul_sum, Matrix.trace_sum, pair]
  refine Finset.sum_congr rfl fun s _ => ?_
  rw [epsR2_eq]
  simp only [Matrix.conjTranspose_mul, Matrix.mul_sum, Matrix.sum_mul, Matrix.mul_assoc, calcAA]

theorem local_second3 (hl : l0ᴴ = l0) (C : Ten3 R q q q D D) :
    adot l0 (∑ s, ∑ t, ∑ u, C s t u * x * (A1 s * b t * A2 u)ᴴ)
      = pair (fun t => ∑ s, (l0 * A1 s)ᴴ * epsR x (C s t) A2) b := by
  rw [adot_eq_trace, hl, pair]
  simp only [epsR_eq, Matrix.mul_sum, Matrix.sum_mul, Matrix.trace_sum]
  rw [Finset.sum_comm]
  refine Finset.sum_congr rfl fun s _ => Finset.sum_congr rfl fun t _ =>
    Finset.sum_congr rfl fun u _ => ?_
  rw [Matrix.conjTranspose_mul, Matrix.conjTranspose_mul, Matrix.conjTranspose_mul, hl,
    Matrix.mul_assoc, Matrix.mul_assoc, Matrix.mul_assoc, Matrix.trace_mul_comm ((A1 t)ᴴ)]
  simp only [Matrix.mul_assoc]

theorem local_third3 (hl : l0ᴴ = l0) (C : Ten3 R q q q D D) :
    adot l0 (∑ s, ∑ t, ∑ u, C s t u * x * (A1 s * A2 t * b u)ᴴ)
      = pair (fun u => epsL2 l0 (calcAA A1 A2) (fun s t => C s t u) * x) b := by
  rw [adot_eq_trace, hl, pair]
  simp only [epsL2_eq, Matrix.mul_sum, Matrix.sum_mul, Matrix.trace_sum, calcAA]
  rw [sum_rot3]
  refine Finset.sum_congr rfl fun u _ => Finset.sum_congr rfl fun s _ =>
    Finset.sum_congr rfl fun t _ => ?_
  simp only [Matrix.conjTranspose_mul, Matrix.mul_assoc]
  rw [Matrix.trace_mul_comm ((A2 t)ᴴ)]
  simp only [Matrix.mul_assoc]
  rw [Matrix.trace_mul_comm ((A1 s)ᴴ)]
  simp only [Matrix.mul_assoc]

theorem local_behind (hl : l0ᴴ = l0) :
    adot l0 (∑ s, A1 s * x * (b s)ᴴ) = pair (fun s => l0 * (A1 s * x)) b := by
  rw [adot_eq_trace, hl, Matrix.mul_sum, Matrix.trace_sum, pair]
  simp only [Matrix.mul_assoc]

end

/-! ## The gradient and `calc_x` -/

section
open Uni
variable {q D : ℕ}

/-- What `calc_C` leaves in the object. -/
structure UCurrent (S : UTDVP q D) : Prop where
  AA : ∀ k < S.L, S.AA k = calcAA (S.A k) (S.A ((k + 1) % S.L))
  C2 : ∀ h, S.ham = .two h → ∀ k < S.L, S.C2 k = calcC h (calcAA (S.A k) (S.A ((k + 1) % S.L)))
  C3 : ∀ h, S.ham = .three h → ∀ k < S.L, S.C3 k = calcC3 h (calcAAA (S.A k) (S.A ((k + 1) % S.L)) (S.A ((k + 2) % S.L)))

theorem calcC_current (S : UTDVP q D) : UCurrent S.calcC := by
  obtain ⟨fL, fA, -⟩ := calcC_fields S
  have hAA : ∀ k < S.L, S.calcC.AA k = calcAA (S.A k) (S.A ((k + 1) % S.L)) := by
    intro k hk
    have : S.calcC.AA = S.toUMPS.calcAAs.AA := by
      unfold UTDVP.calcC
      dsimp only
      cases S.ham <;> rfl
    rw [this, calcAAs_AA _ k hk]
  constructor
  · rw [fL, fA]; exact hAA
  · intro h hh k hk
    rw [fL] at hk ⊢
    rw [fA]
    have hh' : S.ham = .two h := by
      rw [← hh]; exact (calcC_fields S).2.2.2.2.1.symm
    have : S.calcC.C2 = (List.range S.L).foldl (fun C k =>
      Function.update C k (EvoMPS.calcC h (S.toUMPS.calcAAs.AA k))) S.C2 := by
      unfold UTDVP.calcC
      dsimp only
      rw [hh']
      rfl
    rw [this, rangeUp S.L (fun k => EvoMPS.calcC h (S.toUMPS.calcAAs.AA k)) S.C2 k hk, calcAAs_AA _ k hk]
  · intro h hh k hk
    rw [fL] at hk ⊢
    rw [fA]
    have hh' : S.ham = .three h := by
      rw [← hh]; exact (calcC_fields S).2.2.2.2.1.symm
    have h3 := (fold3 S.L (fun k => calcAAA_AA (S.toUMPS.calcAAs.AA k) (S.A ((k + 2) % S.L))) (calcC3 h) S.AAA S.C3).2 k hk
    rw [calcAAs_AA _ k hk, calcAAA_AA_eq] at h3
    rw [← h3]
    unfold UTDVP.calcC
    dsimp only
    rw [hh']
    rfl

theorem calcK_fields {S S' : UTDVP q D} {solver : Solver D} {junk : Matrix (Fin D) (Fin D) ℂ}
    (h : S.calcK solver junk = some S') : S'.L = S.L ∧ S'.A = S.A ∧ S'.l = S.l ∧ S'.r = S.r ∧ S'.ham = S.ham ∧
      S'.AA = S.AA ∧ S'.C2 = S.C2 ∧ S'.C3 = S.C3 := by
  unfold UTDVP.calcK at h
  dsimp only at h
  split at h
  · exact absurd h (by simp)
  · obtain ⟨K0, -, rfl⟩ := Option.map_eq_some_iff.1 h
    exact ⟨rfl, rfl, rfl, rfl, rfl, rfl, rfl, rfl⟩

theorem UCurrent.calcK {S S' : UTDVP q D} {solver : Solver D} {junk : Matrix (Fin D) (Fin D) ℂ} (hc : UCurrent S)
    (h : S.calcK solver junk = some S') : UCurrent S' := by
  obtain ⟨e1, e2, -, -, e5, e6, e7, e8⟩ := calcK_fields h
  constructor
  · rw [e1, e2, e6]; exact hc.AA
  · rw [e1, e2, e5, e7]; exact hc.C2
  · rw [e1, e2, e5, e8]; exact hc.C3

/-- The energy gradient at site `p` of the infinite chain. -/
def ugrad (S : UTDVP q D) (p : ℕ) : Ten ℂ q D D :=
  let L := S.L
  match S.ham with
  | .two _ => fun s => S.l ((p + L - 1) % L) * epsR (S.r ((p + 1) % L)) (S.C2 (p % L) s) (S.A ((p + 1) % L))
      + S.l ((p + L - 1) % L) * (S.A (p % L) s * S.K ((p + 1) % L))
      + epsL (S.l ((p - 1 + L - 1) % L)) (S.A ((p - 1) % L)) (fun t => S.C2 ((p - 1) % L) t s) * S.r (p % L)
  | .three _ => fun u => S.l ((p + L - 1) % L) * epsR2 (S.r ((p + 2) % L)) (S.C3 (p % L) u)
        (calcAA (S.A ((p + 1) % L)) (S.A ((p + 2) % L)))
      + S.l ((p + L - 1) % L) * (S.A (p % L) u * S.K ((p + 1) % L))
      + (∑ s, (S.l ((p - 1 + L - 1) % L) * S.A ((p - 1) % L) s)ᴴ
          * epsR (S.r ((p + 1) % L)) (S.C3 ((p - 1) % L) s u) (S.A ((p + 1) % L)))
      + epsL2 (S.l ((p - 2 + L - 1) % L)) (calcAA (S.A ((p - 2) % L)) (S.A ((p - 1) % L)))
          (fun s t => S.C3 ((p - 2) % L) s t u) * S.r (p % L)

theorem pmod_mod_sub {L : ℕ} (hL : 0 < L) (p i : ℕ) (h : i ≤ p) : pmod (((p % L : ℕ) : ℤ) - i) L = (p - i) % L := by
  have := pmod_self (p : ℤ) hL (-(i : ℤ))
  rw [pmod_nat] at this
  rw [sub_eq_add_neg, this, ← pmod_nat, ← sub_eq_add_neg, Nat.cast_sub h]

theorem pmod_sub_env {L : ℕ} (hL : 0 < L) (p i : ℕ) (h : i ≤ p) :
    pmod (((p % L : ℕ) : ℤ) - (i + 1 : ℕ)) L = (p - i + L - 1) % L := by
  have := pmod_self (p : ℤ) hL (-((i + 1 : ℕ) : ℤ))
  rw [pmod_nat] at this
  rw [sub_eq_add_neg, this, ← pmod_pred hL, Nat.cast_sub h]
  congr 1
  push_cast
  ring

theorem calcXk_eq (S : UTDVP q D) (hL : 0 < S.L) (hc : UCurrent S) (p : ℕ) (hp : S.ham.sites ≤ p + 1) {v : ℕ}
    (Vsh : Fin q → Matrix (Fin D) (Fin v) ℂ) (l_s l_si r_s r_si : Matrix (Fin D) (Fin D) ℂ)
    (hl : l_si * S.l ((p + S.L - 1) % S.L) = l_s) (hr : S.r (p % S.L) * r_si = r_s) :
    S.calcXk (p % S.L) Vsh l_s l_si r_s r_si = some (l_si * ∑ s, ugrad S p s * (r_si * Vsh s)) := by
  have h1 : 1 ≤ p → pmod (((p % S.L : ℕ) : ℤ) - 1) S.L = (p - 1) % S.L := fun h => pmod_mod_sub hL p 1 h
  have h2 : 2 ≤ p → pmod (((p % S.L : ℕ) : ℤ) - 2) S.L = (p - 2) % S.L := fun h => pmod_mod_sub hL p 2 h
  have g1 : 1 ≤ p → pmod (((p % S.L : ℕ) : ℤ) - 2) S.L = (p - 1 + S.L - 1) % S.L := fun h => pmod_sub_env hL p 1 h
  have g2 : 2 ≤ p → pmod (((p % S.L : ℕ) : ℤ) - 3) S.L = (p - 2 + S.L - 1) % S.L := fun h => pmod_sub_env hL p 2 h
  have s1 : (p % S.L + 1) % S.L = (p + 1) % S.L := Nat.mod_add_mod _ _ _
  have s2 : (p % S.L + 2) % S.L = (p + 2) % S.L := Nat.mod_add_mod _ _ _
  have lt := fun j => Nat.mod_lt j hL
  unfold UTDVP.calcXk ugrad
  cases hh : S.ham with
  | two h =>
    simp only [hh, UHam.sites] at hp ⊢
    rw [h1 (by omega), g1 (by omega), s1, calcX_eq]
    simp only [Option.elim_some, Matrix.add_mul, Finset.sum_add_distrib, Matrix.mul_add, Matrix.mul_sum]
    rw [← hl, ← hr]
    simp only [Matrix.mul_assoc]
  | three h =>
    simp only [hh, UHam.sites] at hp ⊢
    rw [h1 (by omega), g2 (by omega), s1, s2,
      h2 (by omega), show S.l ((p - 1 + S.L - 1) % S.L) = S.l ((p - 2) % S.L) by
        congr 1; rw [show p - 1 + S.L - 1 = p - 2 + S.L by omega, Nat.add_mod_right],
      hc.AA _ (lt _), hc.AA _ (lt _), calcX3_eq _ _ _ _ _ _ _ _ _ _ _ _ _ _ _ _ _ _ (by simp) (by simp)]
    simp only [Option.elim_some, Matrix.add_mul, Finset.sum_add_distrib, Matrix.mul_add, Matrix.mul_sum, Matrix.sum_mul,
      Nat.mod_add_mod]
    rw [← hl, ← hr, show p - 2 + 1 = p - 1 by omega, show p + 1 + 1 = p + 2 by omega]
    simp only [Matrix.mul_assoc]

/-- All terms of a window around the replaced tensor. -/
theorem windowHam_eq (S : UTDVP q D) (hL : 0 < S.L) (E : ChainEnv S.L S.A S.l S.r) (hl : ∀ k < S.L, (S.l k)ᴴ = S.l k)
    (hc : UCurrent S) (hK : KRight S.L S.A S.l S.r S.ham.sites S.ham.op S.K) (c p M : ℕ)
    (hcp : c + S.ham.sites ≤ p + 1) (b : Ten ℂ q D D) (hb : ∑ s, S.A (p % S.L) s * S.r (p % S.L) * (b s)ᴴ = 0) :
    windowHam S.L S.l S.r c (p - c + S.ham.sites + M) S.ham.sites S.ham.op (replaced S.L S.A p b)
        (fun j => S.A (j % S.L))
      = pair (ugrad S p) b - adot (S.l ((p + S.L - 1) % S.L)) (∑ s, S.A (p % S.L) s
          * chainTransfer S.L S.L S.A S.A (p + 1) M (S.K ((p + 1 + M) % S.L)) * (b s)ᴴ) := by
  have lt := fun j => Nat.mod_lt j hL
  have hsum := C48_sum S.toUMPS hL E S.ham.sites S.ham.op S.K hK (p + 1) M
  have hlp := hl _ (lt (p + S.L - 1))
  have hn : 2 ≤ S.ham.sites := by cases S.ham <;> simp [UHam.sites]
  have hbeh : ∑ j ∈ Finset.range M, windowElem S.L S.l S.r c (p - c + 1 + j) S.ham.sites
        (p - c + S.ham.sites + M - S.ham.sites - (p - c + 1 + j)) S.ham.op (replaced S.L S.A p b)
        (fun j => S.A (j % S.L))
      = pair (fun s => S.l ((p + S.L - 1) % S.L) * (S.A (p % S.L) s * S.K ((p + 1) % S.L))) b
        - adot (S.l ((p + S.L - 1) % S.L)) (∑ s, S.A (p % S.L) s
          * chainTransfer S.L S.L S.A S.A (p + 1) M (S.K ((p + 1 + M) % S.L)) * (b s)ᴴ) := by
    rw [← local_behind _ _ _ _ hlp, ← sum_behind b hb S.ham.sites S.ham.op M _ _ hsum]
    refine Finset.sum_congr rfl fun j hj => ?_
    rw [elem_behind hL E b (by omega) (by omega), show c + (p - c + 1 + j) = p + 1 + j by omega,
      show p + 1 + j - (p + 1) = j by omega]
  have hzero : ∀ (n : ℕ) (O : (Fin n → Fin q) → (Fin n → Fin q) → ℂ) (a : ℕ), 0 < n → a + n ≤ p - c →
      windowElem S.L S.l S.r c a n (p - c + n + M - n - a) O (replaced S.L S.A p b) (fun j => S.A (j % S.L)) = 0 :=
    fun n O a hn ha => elem_before hL E b hb (by omega) (by omega) _
  rw [windowHam, show p - c + S.ham.sites + M + 1 - S.ham.sites = p - c + 1 + M by omega, Finset.sum_range_add, hbeh,
    add_sub_assoc']
  congr 1
  have hloc : ∀ (n : ℕ) (O : (Fin n → Fin q) → (Fin n → Fin q) → ℂ) (i : ℕ), i < n → c + n ≤ p + 1 →
      windowElem S.L S.l S.r c (p - c - i) n (p - c + n + M - n - (p - c - i)) O (replaced S.L S.A p b)
        (fun j => S.A (j % S.L))
      = adot (S.l ((p - i + S.L - 1) % S.L)) (lineOp (fun j => S.A (j % S.L)) (replaced S.L S.A p b) (p - i) n
          O (S.r ((p - i + n + S.L - 1) % S.L))) := by
    intro n O i hi hcn
    rw [elem_at hL E b (by omega) (by omega), show c + (p - c - i) = p - i by omega]
  unfold ugrad
  have hR : ∀ j, j ≠ p → replaced S.L S.A p b j = S.A (j % S.L) := fun j hj => by rw [replaced, if_neg hj]
  have hRp : replaced S.L S.A p b p = b := by rw [replaced, if_pos rfl]
  cases hh : S.ham with
  | two h =>
    simp only [hh, UHam.sites] at hcp
    simp only [UHam.sites, UHam.op]
    have h0 := hloc 2 (fun s t => h (s 0) (s 1) (t 0) (t 1)) 0 (by omega) hcp
    have h1 := hloc 2 (fun s t => h (s 0) (s 1) (t 0) (t 1)) 1 (by omega) hcp
    rw [lineOp_two, Nat.sub_zero p, hRp, hR _ (by omega), show p + 2 + S.L - 1 = p + 1 + S.L by omega, Nat.add_mod_right,
      local_first2 _ _ _ _ hlp] at h0
    rw [lineOp_two, show p - 1 + 1 = p by omega, hRp, hR _ (by omega), show p - 1 + 2 + S.L - 1 = p + S.L by omega,
      Nat.add_mod_right, local_second2 _ _ _ _ (hl _ (lt _))] at h1
    rw [show p - c + 1 = (p - c - 1) + 1 + 1 by omega, Finset.sum_range_succ, Finset.sum_range_succ,
      Finset.sum_eq_zero (fun a ha => hzero _ _ a (by omega) (by rw [Finset.mem_range] at ha; omega)), zero_add,
      show p - c - 1 + 1 = p - c - 0 by omega, h1]
    rw [Nat.sub_zero] at h0 ⊢
    rw [h0, hc.C2 h hh _ (lt _), hc.C2 h hh _ (lt _), Nat.mod_add_mod, Nat.mod_add_mod, show p - 1 + 1 = p by omega]
    simp only [pair, Matrix.add_mul, Matrix.trace_add, Finset.sum_add_distrib]
    ring
  | three h =>
    simp only [hh, UHam.sites] at hcp
    simp only [UHam.sites, UHam.op]
    have h0 := hloc 3 (fun s t => h (s 0) (s 1) (s 2) (t 0) (t 1) (t 2)) 0 (by omega) hcp
    have h1 := hloc 3 (fun s t => h (s 0) (s 1) (s 2) (t 0) (t 1) (t 2)) 1 (by omega) hcp
    have h2 := hloc 3 (fun s t => h (s 0) (s 1) (s 2) (t 0) (t 1) (t 2)) 2 (by omega) hcp
    rw [lineOp_three, Nat.sub_zero p, hRp, hR _ (by omega), hR _ (by omega), show p + 3 + S.L - 1 = p + 2 + S.L by omega,
      Nat.add_mod_right, local_first3 _ _ _ _ _ hlp] at h0
    rw [lineOp_three, show p - 1 + 1 = p by omega, hRp, hR _ (by omega), hR _ (by omega),
      show p - 1 + 3 + S.L - 1 = p + 1 + S.L by omega,
      Nat.add_mod_right, local_second3 _ _ _ _ _ (hl _ (lt _)), show p - 1 + 2 = p + 1 by omega] at h1
    rw [lineOp_three, show p - 2 + 2 = p by omega, hRp, hR _ (by omega), hR _ (by omega),
      show p - 2 + 3 + S.L - 1 = p + S.L by omega,
      Nat.add_mod_right, local_third3 _ _ _ _ _ (hl _ (lt _)), show p - 2 + 1 = p - 1 by omega] at h2
    rw [show p - c + 1 = (p - c - 2) + 1 + 1 + 1 by omega, Finset.sum_range_succ, Finset.sum_range_succ,
      Finset.sum_range_succ,
      Finset.sum_eq_zero (fun a ha => hzero _ _ a (by omega) (by rw [Finset.mem_range] at ha; omega)), zero_add,
      show p - c - 2 + 1 = p - c - 1 by omega, show p - c - 2 + 2 = p - c - 0 by omega, h1, h2]
    rw [Nat.sub_zero] at h0 ⊢
    rw [h0, hc.C3 h hh _ (lt _), hc.C3 h hh _ (lt _), hc.C3 h hh _ (lt _)]
    simp only [Nat.mod_add_mod]
    rw [show p - 1 + 1 = p by omega, show p - 1 + 2 = p + 1 by omega, show p - 2 + 1 = p - 1 by omega,
      show p - 2 + 2 = p by omega]
    simp only [pair, Matrix.add_mul, Matrix.trace_add, Finset.sum_add_distrib]
    ring

/-- What the iteration for site `k` of `calc_B` computes. -/
def SiteResult (P : Num) (S : UTDVP q D) (lm rm : ℕ → MM ℂ D D) (k : ℕ) (B : Ten ℂ q D D) (e : ℂ) : Prop :=
  ∃ Vsh x, calcVsh P.qr (S.A k) (P.roots (rm k)).1 = some Vsh ∧
    S.calcXk k Vsh (P.roots (lm (pmod ((k : ℤ) - 1) S.L))).1 (P.roots (lm (pmod ((k : ℤ) - 1) S.L))).2
      (P.roots (rm k)).1 (P.roots (rm k)).2 = some x ∧
    B = tenR (P.roots (lm (pmod ((k : ℤ) - 1) S.L))).2 (P.roots (rm k)).2 Vsh x ∧ e = adot x x

theorem calcBIter_some {P : Num} {S : UTDVP q D} {lm rm : ℕ → MM ℂ D D} {setEta : Bool} {T T' : UTangent q D} {k : ℕ}
    (h : S.calcBIter P lm rm setEta T k = some T') :
    ∃ B e, SiteResult P S lm rm k B e ∧ T'.B = Function.update T.B k B ∧
      T'.etaSq = if setEta then Function.update T.etaSq k e else T.etaSq := by
  unfold UTDVP.calcBIter at h
  dsimp only at h
  obtain ⟨Vsh, hV, h⟩ := Option.bind_eq_some_iff.1 h
  obtain ⟨x, hx, rfl⟩ := Option.map_eq_some_iff.1 h
  exact ⟨_, _, ⟨Vsh, x, hV, hx, rfl, rfl⟩, rfl, rfl⟩

theorem calcB_loop {P : Num} {S : UTDVP q D} {lm rm : ℕ → MM ℂ D D} {setEta : Bool} (T0 : UTangent q D) (n : ℕ)
    {T : UTangent q D}
    (h : (List.range n).foldl (fun T k => T.bind fun T => S.calcBIter P lm rm setEta T k) (some T0) = some T) :
    (∀ k < n, ∃ e, SiteResult P S lm rm k (T.B k) e ∧ (setEta = true → T.etaSq k = e)) ∧
    (setEta = false → T.etaSq = T0.etaSq) := by
  induction n generalizing T with
  | zero => simp at h; subst h; exact ⟨fun k hk => absurd hk (by omega), fun _ => rfl⟩
  | succ n ih =>
    rw [List.range_succ, List.foldl_append, List.foldl_cons, List.foldl_nil] at h
    obtain ⟨T1, h1, h2⟩ := Option.bind_eq_some_iff.1 h
    obtain ⟨i1, i2⟩ := ih h1
    obtain ⟨B, e, hs, hB, he⟩ := calcBIter_some h2
    refine ⟨fun k hk => ?_, fun hf => ?_⟩
    · rcases Nat.lt_succ_iff_lt_or_eq.1 hk with hk | rfl
      · obtain ⟨e', a, c⟩ := i1 k hk
        refine ⟨e', by rwa [hB, Function.update_of_ne (by omega)], fun ht => ?_⟩
        rw [he, if_pos ht, Function.update_of_ne (by omega)]; exact c ht
      · refine ⟨e, by rwa [hB, Function.update_self], fun ht => ?_⟩
        rw [he, if_pos ht, Function.update_self]
    · rw [he, hf]; exact i2 hf

theorem ucalcB_spec {P : Num} {S : UTDVP q D} {lm rm : ℕ → MM ℂ D D} {setEta : Bool} {etaSq : ℕ → ℂ} {out : UTangent q D}
    (h : S.calcB P lm rm setEta etaSq = some out) :
    (∀ k < S.L, ∃ e, SiteResult P S lm rm k (out.B k) e ∧ (setEta = true → out.etaSq k = e)) ∧
    (setEta = false → out.etaSq = etaSq) ∧ out.eta = P.sq (∑ k ∈ Finset.range S.L, out.etaSq k) := by
  unfold UTDVP.calcB at h
  obtain ⟨T, h1, rfl⟩ := Option.map_eq_some_iff.1 h
  obtain ⟨i1, i2⟩ := calcB_loop _ _ h1
  refine ⟨i1, i2, ?_⟩
  dsimp only
  congr 1
  rw [foldl_add_eq, zero_add, sum_list_range]

end

end EvoMPS
