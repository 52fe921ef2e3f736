import Verif.InitState
import Verif.CanonLemmas
import Mathlib.Tactic.FieldSimp

/-!
# The initial state (helper lemmas)
-/

set_option linter.unusedSectionVars false

namespace EvoMPS

open Matrix

/-- The tensors with `x = s b + y`: the pattern written when the bond dimension decreases. -/
def decTen (q a b : ℕ) (f : ℂ) : Ten ℂ q a b := fun s => Matrix.of fun x y =>
  if x.val = s.val * b + y.val then f else 0

/-- The pattern written when the bond dimension increases. -/
def incTen (q a b : ℕ) (f : ℂ) : Ten ℂ q a b := fun s => Matrix.of fun x y =>
  if y.val = s.val * a + x.val then f else 0

theorem foldl_bind_none' {σ ι : Type*} (F : σ → ι → Option σ) (L : List ι) :
    L.foldl (fun (S : Option σ) j => S.bind fun S => F S j) none = none := by
  induction L with
  | nil => rfl
  | cons i L ih => rw [List.foldl_cons, Option.bind_none, ih]

section Walk
variable {q a b : ℕ}

/-- `n` iterations of the walk. -/
def walk (f : ℂ) (n : ℕ) : Option (WalkSt q a b) :=
  (List.range n).foldl (fun (W : Option (WalkSt q a b)) _ => W.bind (walkStep f))
      (some ⟨0, 0, 0, 0⟩)

theorem walk_succ (f : ℂ) (n : ℕ) :
    (walk f (n + 1) : Option (WalkSt q a b)) = (walk f n).bind (walkStep f) := by
  rw [walk, List.range_succ, List.foldl_append]
  rfl

theorem div_mod_unique {m i s x : ℕ} (hm : 0 < m) (hx : x < m) :
    i = s * m + x ↔ s = i / m ∧ x = i % m := by
  constructor
  · rintro rfl
    constructor
    · rw [mul_comm, Nat.mul_add_div hm, Nat.div_eq_of_lt hx, add_zero]
    · rw [mul_comm, Nat.mul_add_mod, Nat.mod_eq_of_lt hx]
  · rintro ⟨rfl, rfl⟩
    rw [mul_comm]; exact (Nat.div_add_mod i m).symm

theorem succ_div_mod {m i : ℕ} (hm : 0 < m) :
    (i % m + 1 ≥ m → (i + 1) % m = 0 ∧ (i + 1) / m = i / m + 1) ∧
      (¬ i % m + 1 ≥ m → (i + 1) % m = i % m + 1 ∧ (i + 1) / m = i / m) := by
  have hlt := Nat.mod_lt i hm
  have hi := Nat.div_add_mod i m
  constructor
  · intro h
    have : i + 1 = (i / m + 1) * m + 0 := by
      have : i % m + 1 = m := by omega
      rw [add_mul, mul_comm]; omega
    have := (div_mod_unique hm hm).mp this
    exact ⟨this.2.symm, this.1.symm⟩
  · intro h
    have : i + 1 = (i / m) * m + (i % m + 1) := by rw [mul_comm]; omega
    have := (div_mod_unique hm (by omega)).mp this
    exact ⟨this.2.symm, this.1.symm⟩

theorem walk_none_mono (f : ℂ) {i j : ℕ} (hij : i ≤ j)
    (h : (walk f i : Option (WalkSt q a b)) = none) :
    (walk f j : Option (WalkSt q a b)) = none := by
  induction j, hij using Nat.le_induction with
  | base => exact h
  | succ j _ ih => rw [walk_succ, ih]; rfl

theorem walk_inc (f : ℂ) (ha : 0 < a) (i : ℕ) (hi : i ≤ b) (hi' : i ≤ q * a) :
    ∃ W : WalkSt q a b, walk f i = some W ∧
      (∀ s x y, W.A s x y = if y.val < i ∧ y.val = s.val * a + x.val then f else 0) ∧
      (i < b → W.s = i / a ∧ W.x = i % a ∧ W.y = i) := by
  induction i with
  | zero => exact ⟨⟨0, 0, 0, 0⟩, rfl, by simp, by simp⟩
  | succ i ih =>
    obtain ⟨W, hW, hA, hp⟩ := ih (by omega) (by omega)
    obtain ⟨hs, hx, hy⟩ := hp (by omega)
    have hsq : i / a < q := (Nat.div_lt_iff_lt_mul ha).mpr (by omega)
    have hxa : i % a < a := Nat.mod_lt _ ha
    have hent : ∀ (s : Fin q) (x : Fin a) (y : Fin b),
        (if s.val = W.s ∧ x.val = W.x ∧ y.val = W.y then f else W.A s x y)
          = if y.val < i + 1 ∧ y.val = s.val * a + x.val then f else 0 := by
      intro s x y
      rw [hs, hx, hy, hA]
      by_cases hyi : y.val = i
      · rw [hyi]
        have := div_mod_unique (i := i) (s := s.val) ha x.isLt
        by_cases h : i = s.val * a + x.val
        · obtain ⟨h1, h2⟩ := this.mp h
          rw [if_pos ⟨h1, h2, rfl⟩, if_pos ⟨by omega, h⟩]
        · have h' : ¬ (s.val = i / a ∧ x.val = i % a) := fun g => h (this.mpr g)
          rw [if_neg (fun g => h' ⟨g.1, g.2.1⟩), if_neg (by omega), if_neg (by tauto)]
      · rw [if_neg (fun g => hyi g.2.2)]
        congr 1
        apply propext
        constructor <;> rintro ⟨h, h'⟩ <;> exact ⟨by omega, h'⟩
    rw [walk_succ, hW, Option.bind_some, walkStep, if_pos (by omega)]
    obtain ⟨c1, c2⟩ := succ_div_mod (i := i) ha
    dsimp only
    split_ifs with h1 h2
    · refine ⟨_, rfl, hent, fun _ => ?_⟩
      obtain ⟨e1, e2⟩ := c1 (by omega)
      dsimp only; omega
    · exact ⟨_, rfl, hent, fun h => by omega⟩
    · refine ⟨_, rfl, hent, fun _ => ?_⟩
      obtain ⟨e1, e2⟩ := c2 (by omega)
      dsimp only; omega

theorem walk_dec (f : ℂ) (hb : 0 < b) (i : ℕ) (hi : i ≤ a) (hi' : i ≤ q * b) :
    ∃ W : WalkSt q a b, walk f i = some W ∧
      (∀ s x y, W.A s x y = if x.val < i ∧ x.val = s.val * b + y.val then f else 0) ∧
      (i < a → W.s = i / b ∧ W.y = i % b ∧ W.x = i) := by
  induction i with
  | zero => exact ⟨⟨0, 0, 0, 0⟩, rfl, by simp, by simp⟩
  | succ i ih =>
    obtain ⟨W, hW, hA, hp⟩ := ih (by omega) (by omega)
    obtain ⟨hs, hy, hx⟩ := hp (by omega)
    have hsq : i / b < q := (Nat.div_lt_iff_lt_mul hb).mpr (by omega)
    have hxa : i % b < b := Nat.mod_lt _ hb
    have hent : ∀ (s : Fin q) (x : Fin a) (y : Fin b),
        (if s.val = W.s ∧ x.val = W.x ∧ y.val = W.y then f else W.A s x y)
          = if x.val < i + 1 ∧ x.val = s.val * b + y.val then f else 0 := by
      intro s x y
      rw [hs, hx, hy, hA]
      by_cases hxi : x.val = i
      · rw [hxi]
        have := div_mod_unique (i := i) (s := s.val) hb y.isLt
        by_cases h : i = s.val * b + y.val
        · obtain ⟨h1, h2⟩ := this.mp h
          rw [if_pos ⟨h1, rfl, h2⟩, if_pos ⟨by omega, h⟩]
        · have h' : ¬ (s.val = i / b ∧ y.val = i % b) := fun g => h (this.mpr g)
          rw [if_neg (fun g => h' ⟨g.1, g.2.2⟩), if_neg (by omega), if_neg (by tauto)]
      · rw [if_neg (fun g => hxi g.2.1)]
        congr 1
        apply propext
        constructor <;> rintro ⟨h, h'⟩ <;> exact ⟨by omega, h'⟩
    rw [walk_succ, hW, Option.bind_some, walkStep, if_pos (by omega)]
    obtain ⟨c1, c2⟩ := succ_div_mod (i := i) hb
    dsimp only
    split_ifs with h1 h2
    · exact ⟨_, rfl, hent, fun h => by omega⟩
    · refine ⟨_, rfl, hent, fun _ => ?_⟩
      obtain ⟨e1, e2⟩ := c1 (by omega)
      dsimp only; omega
    · refine ⟨_, rfl, hent, fun _ => ?_⟩
      obtain ⟨e1, e2⟩ := c2 (by omega)
      dsimp only; omega

end Walk

/-- The number `sqrt(1/q)` of `mps_gen.py:187`. -/
noncomputable def initF (q : ℕ) : ℂ := ((Real.sqrt (1 / (q : ℝ)) : ℝ) : ℂ)

theorem initF_mul (q : ℕ) : initF q * star (initF q) = ((1 / (q : ℝ) : ℝ) : ℂ) := by
  rw [initF, Complex.star_def, Complex.conj_ofReal, ← Complex.ofReal_mul,
    Real.mul_self_sqrt (by positivity)]

theorem initSite_eq (q a : ℕ) :
    initSite q a a = some fun _ => diagonal fun _ => initF q := by
  rw [initSite, if_pos rfl]
  congr 1
  funext s
  ext x y
  simp only [of_apply, diagonal_apply, Fin.ext_iff]
  rfl

theorem initSite_inc {q a b : ℕ} (ha : 0 < a) (hab : a < b) :
    initSite q a b = if b ≤ q * a then some (incTen q a b 1) else none := by
  rw [initSite, if_neg hab.ne]
  dsimp only
  rw [if_pos hab, max_eq_left hab.le]
  change Option.map _ (walk 1 b) = _
  split_ifs with h
  · obtain ⟨W, hW, hA, _⟩ := walk_inc (q := q) (a := a) (b := b) 1 ha b le_rfl h
    rw [hW]
    simp only [Option.map_some]
    congr 1
    funext s
    ext x y
    rw [hA, incTen, of_apply]
    simp
  · obtain ⟨W, hW, _, hp⟩ := walk_inc (q := q) (a := a) (b := b) 1 ha (q * a) (by omega) le_rfl
    rw [walk_none_mono 1 (i := q * a + 1) (by omega), Option.map_none]
    rw [walk_succ, hW, Option.bind_some, walkStep, if_neg]
    rw [(hp (by omega)).1, Nat.mul_div_cancel _ ha]; omega

theorem initSite_dec {q a b : ℕ} (hb : 0 < b) (hab : b < a) :
    initSite q a b = if a ≤ q * b then some (decTen q a b (initF q)) else none := by
  rw [initSite, if_neg hab.ne']
  dsimp only
  rw [if_neg (by omega), max_eq_right hab.le]
  change Option.map _ (walk (initF q) a) = _
  split_ifs with h
  · obtain ⟨W, hW, hA, _⟩ := walk_dec (q := q) (a := a) (b := b) (initF q) hb a le_rfl h
    rw [hW]
    simp only [Option.map_some]
    congr 1
    funext s
    ext x y
    rw [hA, decTen, of_apply]
    simp
  · obtain ⟨W, hW, _, hp⟩ :=
      walk_dec (q := q) (a := a) (b := b) (initF q) hb (q * b) (by omega) le_rfl
    rw [walk_none_mono (initF q) (i := q * b + 1) (by omega), Option.map_none]
    rw [walk_succ, hW, Option.bind_some, walkStep, if_neg]
    rw [(hp (by omega)).1, Nat.mul_div_cancel _ hb]; omega

/-- A diagonal matrix with positive real entries. -/
def PosDiag {m : ℕ} (M : Matrix (Fin m) (Fin m) ℂ) : Prop :=
  ∃ d : Fin m → ℝ, (∀ i, 0 < d i) ∧ M = diagonal fun i => (d i : ℂ)

theorem sum_diag_entry {q a b : ℕ} (t : Ten ℂ q a b) (d : Fin b → ℂ) (x x' : Fin a) :
    (∑ s, t s * diagonal d * (t s)ᴴ) x x' = ∑ s, ∑ y, t s x y * d y * star (t s x' y) := by
  rw [Matrix.sum_apply]
  refine Finset.sum_congr rfl fun s _ => ?_
  rw [Matrix.mul_apply]
  refine Finset.sum_congr rfl fun y _ => ?_
  rw [mul_diagonal, conjTranspose_apply]

theorem sum_diag_entry' {q a b : ℕ} (t : Ten ℂ q a b) (d : Fin a → ℂ) (y y' : Fin b) :
    (∑ s, (t s)ᴴ * diagonal d * t s) y y' = ∑ s, ∑ x, star (t s x y) * d x * t s x y' := by
  rw [Matrix.sum_apply]
  refine Finset.sum_congr rfl fun s _ => ?_
  rw [Matrix.mul_apply]
  refine Finset.sum_congr rfl fun y _ => ?_
  rw [mul_diagonal, conjTranspose_apply]

/-- Entries of the sums over the site index: at most one pair `(s, y)` contributes to row `x`. -/
theorem dec_sum1 {q a b : ℕ} (hb : 0 < b) (hab : a ≤ q * b) (f : ℂ) (d : Fin b → ℂ) (x x' : Fin a) :
    ∑ s : Fin q, ∑ y : Fin b, (if x.val = s.val * b + y.val then f else 0) * d y *
        star (if x'.val = s.val * b + y.val then f else 0)
      = if x = x' then f * star f * d ⟨x.val % b, Nat.mod_lt _ hb⟩ else 0 := by
  have hx : x.val / b < q := (Nat.div_lt_iff_lt_mul hb).mpr (lt_of_lt_of_le x.isLt hab)
  rw [Finset.sum_eq_single (⟨x.val / b, hx⟩ : Fin q),
    Finset.sum_eq_single (⟨x.val % b, Nat.mod_lt _ hb⟩ : Fin b)]
  · have e : x.val = x.val / b * b + x.val % b := by
      rw [mul_comm]; exact (Nat.div_add_mod _ _).symm
    dsimp only
    rw [← e, if_pos rfl]
    by_cases h : x = x'
    · subst h; rw [if_pos rfl, if_pos rfl]; ring
    · rw [if_neg h, if_neg (fun h' => h (Fin.ext h'.symm)), star_zero, mul_zero]
  · intro y _ hy
    rw [if_neg, zero_mul, zero_mul]
    intro h
    exact hy (Fin.ext ((div_mod_unique hb y.isLt).mp h).2)
  · intro h; exact absurd (Finset.mem_univ _) h
  · intro s _ hs
    refine Finset.sum_eq_zero fun y _ => ?_
    rw [if_neg, zero_mul, zero_mul]
    intro h
    exact hs (Fin.ext ((div_mod_unique hb y.isLt).mp h).1)
  · intro h; exact absurd (Finset.mem_univ _) h

theorem dec_sum2 {q a b : ℕ} (f : ℂ) (e : Fin a → ℂ) (y y' : Fin b) :
    ∑ s : Fin q, ∑ x : Fin a, star (if x.val = s.val * b + y.val then f else 0) * e x *
        (if x.val = s.val * b + y'.val then f else 0)
      = if y = y' then ∑ s : Fin q, ∑ x : Fin a,
          (if x.val = s.val * b + y.val then f * star f * e x else 0) else 0 := by
  split_ifs with h
  · subst h
    refine Finset.sum_congr rfl fun s _ => Finset.sum_congr rfl fun x _ => ?_
    split_ifs
    · ring
    · simp
  · refine Finset.sum_eq_zero fun s _ => Finset.sum_eq_zero fun x _ => ?_
    have : ¬ (x.val = s.val * b + y.val ∧ x.val = s.val * b + y'.val) := by
      rintro ⟨h1, h2⟩; exact h (Fin.ext (by omega))
    by_cases h1 : x.val = s.val * b + y.val
    · rw [if_neg (c := x.val = s.val * b + y'.val) (fun h2 => this ⟨h1, h2⟩), mul_zero]
    · rw [if_neg h1, star_zero, zero_mul, zero_mul]

theorem posDiag_dec1 {q a b : ℕ} (hb : 0 < b) (hab : a ≤ q * b) {f : ℂ} {c : ℝ} (hc : 0 < c)
    (hf : f * star f = (c : ℂ)) {M : Matrix (Fin b) (Fin b) ℂ} {M' : Matrix (Fin a) (Fin a) ℂ}
    (hM : PosDiag M)
    (h : ∀ d : Fin b → ℂ, M = diagonal d → ∀ x x', M' x x' = ∑ s : Fin q, ∑ y : Fin b,
      (if x.val = s.val * b + y.val then f else 0) * d y *
        star (if x'.val = s.val * b + y.val then f else 0)) : PosDiag M' := by
  obtain ⟨d, hd, hMd⟩ := hM
  refine ⟨fun x => c * d ⟨x.val % b, Nat.mod_lt _ hb⟩, fun x => mul_pos hc (hd _), ?_⟩
  ext x x'
  rw [h _ hMd, dec_sum1 hb hab, diagonal_apply, hf]
  push_cast
  rfl

theorem posDiag_dec2 {q a b : ℕ} (hq : 0 < q) (hba : b ≤ a) {f : ℂ} {c : ℝ} (hc : 0 < c)
    (hf : f * star f = (c : ℂ)) {M : Matrix (Fin a) (Fin a) ℂ} {M' : Matrix (Fin b) (Fin b) ℂ}
    (hM : PosDiag M)
    (h : ∀ d : Fin a → ℂ, M = diagonal d → ∀ y y', M' y y' = ∑ s : Fin q, ∑ x : Fin a,
      star (if x.val = s.val * b + y.val then f else 0) * d x *
        (if x.val = s.val * b + y'.val then f else 0)) : PosDiag M' := by
  obtain ⟨d, hd, hMd⟩ := hM
  refine ⟨fun y => ∑ s : Fin q, ∑ x : Fin a, if x.val = s.val * b + y.val then c * d x else 0,
    fun y => ?_, ?_⟩
  · have h0 : ∀ (s : Fin q) (x : Fin a),
        0 ≤ if x.val = s.val * b + y.val then c * d x else (0 : ℝ) := by
      intro s x
      split_ifs
      · exact (mul_pos hc (hd x)).le
      · exact le_rfl
    refine Finset.sum_pos' (fun s _ => Finset.sum_nonneg fun x _ => h0 s x)
      ⟨⟨0, hq⟩, Finset.mem_univ _, ?_⟩
    refine Finset.sum_pos' (fun x _ => h0 _ x)
      ⟨⟨y.val, lt_of_lt_of_le y.isLt hba⟩, Finset.mem_univ _, ?_⟩
    rw [if_pos (by simp)]
    exact mul_pos hc (hd _)
  · ext y y'
    rw [h _ hMd, dec_sum2, diagonal_apply, hf]
    refine if_congr Iff.rfl ?_ rfl
    push_cast
    refine Finset.sum_congr rfl fun s _ => Finset.sum_congr rfl fun x _ => ?_
    split_ifs
    · push_cast; rfl
    · simp

theorem posDiag_smul {m : ℕ} {M : Matrix (Fin m) (Fin m) ℂ} (h : PosDiag M) {c : ℝ} (hc : 0 < c) :
    PosDiag ((c : ℂ) • M) := by
  obtain ⟨d, hd, rfl⟩ := h
  refine ⟨fun i => c * d i, fun i => mul_pos hc (hd i), ?_⟩
  ext i j
  simp only [Matrix.smul_apply, diagonal_apply, smul_eq_mul, mul_ite, mul_zero]
  push_cast
  rfl

/-- The environments stay positive and diagonal across a site of the initial state. -/
theorem initSite_posDiag {q a b : ℕ} (hq : 0 < q) (ha : 0 < a) (hb : 0 < b) {t : Ten ℂ q a b}
    (ht : initSite q a b = some t) :
    (∀ l, PosDiag l → PosDiag (∑ s, (t s)ᴴ * l * t s)) ∧
      ∀ r, PosDiag r → PosDiag (∑ s, t s * r * (t s)ᴴ) := by
  have hqc : (0 : ℝ) < 1 / q := by positivity
  rcases lt_trichotomy a b with hab | rfl | hab
  · rw [initSite_inc ha hab] at ht
    split_ifs at ht with h
    obtain rfl := Option.some.inj ht
    constructor
    · intro l hl
      refine posDiag_dec1 (q := q) (f := 1) ha h one_pos (by simp) hl fun d hd y y' => ?_
      rw [hd, sum_diag_entry']
      refine Finset.sum_congr rfl fun s _ => Finset.sum_congr rfl fun x _ => ?_
      simp only [incTen, of_apply]
      split_ifs <;> simp
    · intro r hr
      refine posDiag_dec2 (q := q) (f := 1) hq hab.le one_pos (by simp) hr fun d hd x x' => ?_
      rw [hd, sum_diag_entry]
      refine Finset.sum_congr rfl fun s _ => Finset.sum_congr rfl fun y _ => ?_
      simp only [incTen, of_apply]
      split_ifs <;> simp
  · rw [initSite_eq] at ht
    obtain rfl := Option.some.inj ht
    have hd : (diagonal fun _ : Fin a => initF q) = initF q • (1 : Matrix (Fin a) (Fin a) ℂ) := by
      rw [smul_one_eq_diagonal]
    have hc : ∀ M : Matrix (Fin a) (Fin a) ℂ, (∑ _s : Fin q,
        (diagonal fun _ : Fin a => initF q)ᴴ * M * (diagonal fun _ : Fin a => initF q)) = M := by
      intro M
      simp only [hd, conjTranspose_smul, conjTranspose_one, smul_mul_assoc, one_mul, mul_smul_comm,
        mul_one, smul_smul, initF_mul, Finset.sum_const, Finset.card_univ, Fintype.card_fin]
      rw [← Nat.cast_smul_eq_nsmul ℂ, smul_smul]
      have : (q : ℂ) * ((1 / (q : ℝ) : ℝ) : ℂ) = 1 := by
        have : (q : ℂ) ≠ 0 := by exact_mod_cast hq.ne'
        push_cast
        field_simp
      rw [this, one_smul]
    refine ⟨fun l hl => by rw [hc]; exact hl, fun r hr => ?_⟩
    have : ∀ s : Fin q, (diagonal fun _ : Fin a => initF q) * r * (diagonal fun _ : Fin a => initF q)ᴴ
        = (diagonal fun _ : Fin a => initF q)ᴴ * r * (diagonal fun _ : Fin a => initF q) := by
      intro s
      simp only [hd, conjTranspose_smul, conjTranspose_one, smul_mul_assoc, one_mul, mul_smul_comm,
        mul_one, smul_smul, mul_comm]
    rw [Finset.sum_congr rfl fun s _ => this s, hc]
    exact hr
  · rw [initSite_dec hb hab] at ht
    split_ifs at ht with h
    obtain rfl := Option.some.inj ht
    constructor
    · intro l hl
      refine posDiag_dec2 (q := q) hq hab.le hqc (initF_mul q) hl fun d hd y y' => ?_
      rw [hd, sum_diag_entry']
      rfl
    · intro r hr
      refine posDiag_dec1 (q := q) hb h hqc (initF_mul q) hr fun d hd x x' => ?_
      rw [hd, sum_diag_entry]
      rfl

/-- A site whose left bond is not larger than the right one, or is the whole product space, is
left-orthonormal. -/
theorem initSite_orth {q a b : ℕ} (hq : 0 < q) (ha : 0 < a) (hb : 0 < b) {t : Ten ℂ q a b}
    (ht : initSite q a b = some t) (h : a ≤ b ∨ a = q * b) : ∑ s, (t s)ᴴ * t s = 1 := by
  have hqc : (q : ℂ) ≠ 0 := by exact_mod_cast hq.ne'
  have hone : ∀ s, (t s)ᴴ * t s = (t s)ᴴ * diagonal (fun _ : Fin a => (1 : ℂ)) * t s := by
    intro s; rw [diagonal_one, Matrix.mul_one]
  rcases lt_trichotomy a b with hab | rfl | hab
  · rw [initSite_inc ha hab] at ht
    split_ifs at ht with h
    obtain rfl := Option.some.inj ht
    rw [Finset.sum_congr rfl fun s _ => hone s]
    ext y y'
    rw [sum_diag_entry', one_apply]
    have := dec_sum1 (q := q) ha h 1 (fun _ => 1) y y'
    simp only [star_one, mul_one] at this
    rw [← this]
    refine Finset.sum_congr rfl fun s _ => Finset.sum_congr rfl fun x _ => ?_
    simp only [incTen, of_apply]
    split_ifs <;> simp
  · rw [initSite_eq] at ht
    obtain rfl := Option.some.inj ht
    simp only [diagonal_conjTranspose, diagonal_mul_diagonal]
    rw [Finset.sum_const, Finset.card_univ, Fintype.card_fin, ← diagonal_one, ← diagonal_smul]
    congr 1
    funext i
    simp only [Pi.smul_apply, Pi.star_apply, nsmul_eq_mul]
    rw [mul_comm (star _), initF_mul]
    push_cast
    field_simp
  · have hab' : a = q * b := by omega
    rw [initSite_dec hb hab] at ht
    split_ifs at ht with h
    obtain rfl := Option.some.inj ht
    rw [Finset.sum_congr rfl fun s _ => hone s]
    ext y y'
    rw [sum_diag_entry', one_apply]
    have := dec_sum2 (q := q) (initF q) (fun _ : Fin a => 1) y y'
    simp only [mul_one] at this
    simp only [decTen, of_apply, mul_one]
    rw [this]
    refine if_congr Iff.rfl ?_ rfl
    have hlt : ∀ s : Fin q, s.val * b + y.val < a := fun s => by
      have := Nat.mul_le_mul_right b (Nat.succ_le_of_lt s.isLt)
      rw [Nat.succ_mul] at this
      omega
    have : ∀ s : Fin q, (∑ x : Fin a, if x.val = s.val * b + y.val
        then initF q * star (initF q) else 0) = ((1 / (q : ℝ) : ℝ) : ℂ) := by
      intro s
      rw [Finset.sum_eq_single (⟨s.val * b + y.val, hlt s⟩ : Fin a), if_pos rfl, initF_mul]
      · intro x _ hx
        exact if_neg fun h => hx (Fin.ext h)
      · intro h; exact absurd (Finset.mem_univ _) h
    rw [Finset.sum_congr rfl fun s _ => this s, Finset.sum_const, Finset.card_univ,
      Fintype.card_fin, nsmul_eq_mul]
    push_cast
    field_simp

theorem initSite_isSome {q a b : ℕ} (hq : 0 < q) (ha : 0 < a) (hb : 0 < b) :
    (∃ t, initSite q a b = some t) ↔ b ≤ q * a ∧ a ≤ q * b := by
  have hle : ∀ m, m ≤ q * m := fun m => Nat.le_mul_of_pos_left m hq
  rcases lt_trichotomy a b with hab | rfl | hab
  · rw [initSite_inc ha hab]
    have := hle b
    split_ifs with h
    · simp only [Option.some.injEq, exists_eq', true_iff]; omega
    · simp only [exists_false, false_iff]; omega
  · rw [initSite_eq]
    have := hle a
    simp [this]
  · rw [initSite_dec hb hab]
    have := hle a
    split_ifs with h
    · simp only [Option.some.injEq, exists_eq', true_iff]; omega
    · simp only [exists_false, false_iff]; omega

theorem foldl_update_option {ι : ℕ → Type*} (g : ∀ n, Option (ι n)) (m : ℕ) (S0 : ∀ n, ι n) :
    (∀ S, (List.range' 0 m).foldl (fun (S : Option (∀ n, ι n)) n => S.bind fun A =>
        (g n).map fun t => Function.update A n t) (some S0) = some S →
      ∀ n < m, g n = some (S n)) ∧
    ((∀ n < m, ∃ t, g n = some t) → ∃ S, (List.range' 0 m).foldl
      (fun (S : Option (∀ n, ι n)) n => S.bind fun A =>
        (g n).map fun t => Function.update A n t) (some S0) = some S) := by
  induction m with
  | zero => exact ⟨fun S _ n hn => by omega, fun _ => ⟨S0, rfl⟩⟩
  | succ m ih =>
    rw [List.range'_concat, List.foldl_append]
    simp only [List.foldl_cons, List.foldl_nil, one_mul, zero_add]
    constructor
    · intro S hS n hn
      obtain ⟨S', h1, h2⟩ := Option.bind_eq_some_iff.mp hS
      obtain ⟨t, h3, rfl⟩ := Option.map_eq_some_iff.mp h2
      by_cases hnm : n = m
      · subst hnm; rw [Function.update_self]; exact h3
      · rw [Function.update_of_ne hnm]; exact ih.1 _ h1 n (by omega)
    · intro h
      obtain ⟨S, hS⟩ := ih.2 fun n hn => h n (by omega)
      obtain ⟨t, ht⟩ := h m (by omega)
      exact ⟨_, by rw [hS, ht]; rfl⟩

theorem initState_spec {N : ℕ} {q D : ℕ → ℕ} {A : Tensors ℂ q D}
    (h : initState N q D = some A) (n : ℕ) (hn : n < N) :
    initSite (q n) (D n) (D (n + 1)) = some (A n) :=
  (foldl_update_option (fun n => initSite (q n) (D n) (D (n + 1))) N 0).1 A h n hn

end EvoMPS
