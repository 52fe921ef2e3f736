import Verif.SandwichLemmas
import Mathlib.Analysis.Complex.Basic
import Mathlib.Tactic.NormNum

/-!
# C49: indices of the sandwich state, growing the finite part
-/

namespace EvoMPS

open Matrix SW

variable {R : Type*} [CommRing R] [StarRing R]

/-- **C49** `get_A`, `get_D`, `get_q`.  For every integer site the tensor returned is that of the infinite chain with
the left block repeated to the left of the finite part and the right block to its right, and `get_q`, `get_D` are
its dimensions. -/
theorem C49_tensors (S : State R) (hS : Shapes S) :
    SandwichOf S.uniL.L S.uniL.A S.N S.A S.uniR.L S.uniR.A (getA S)
      ∧ ∀ n, (getA S n).q = getQ S n ∧ (getA S n).a = getD S (n - 1) ∧ (getA S n).b = getD S n :=
  ⟨getA_sandwich S hS.L_left hS.L_right, hS.dims⟩

/-- There is only one such chain, so `C49_tensors` determines the answers of `get_A`. -/
theorem C49_tensors_unique (S : State R) (hS : Shapes S) (site : ℤ → AnyTen R)
    (h : SandwichOf S.uniL.L S.uniL.A S.N S.A S.uniR.L S.uniR.A site) : getA S = site :=
  (getA_sandwich S hS.L_left hS.L_right).unique hS.L_left hS.L_right h

/-- **C49** `get_l` and `get_r` after an update that does not change the tensors, partial.  The environments of the two
uniform parts are assumed to be up to date.  `l n`, `r n` are the environments of the infinite
chain at all integer cuts.  `get_l` returns them for all `n ≤ N + 1`, and for all `n` if the right block length divides
`N`.  `get_r` returns them for all `n ≤ N`, for `n > N + 1` if the right block length divides `N`, and for `n = N + 1`
if the stored entry happens to be the right one: the update does not write it.  The remaining cases fail,
see `C49_get_l_violated`, `C49_get_r_violated`. -/
theorem C49_environments_partial (S : State R) (hS : Shapes S)
    (hl : ∀ k < S.uniL.L, StepL (S.uniL.l ((k + S.uniL.L - 1) % S.uniL.L)) (S.uniL.A k) (S.uniL.l k))
    (hr : ∀ k < S.uniR.L, StepR (S.uniR.r k) (S.uniR.A k) (S.uniR.r ((k + S.uniR.L - 1) % S.uniR.L))) :
    ∃ S' l r, updateRaw S = some S' ∧ getA S' = getA S ∧ getD S' = getD S ∧ getQ S' = getQ S
      ∧ LeftEnv (getA S) S.uniL.L S.uniL.l l ∧ RightEnv (getA S) S.N S.uniR.L S.uniR.r r
      ∧ (∀ n : ℤ, n ≤ S.N + 1 ∨ S.uniR.L ∣ S.N → getL S' n = some (l n))
      ∧ (∀ n : ℤ, n ≤ S.N ∨ (n = S.N + 1 ∧ S.r (S.N + 1) = S.uniR.r 0) ∨ (S.N + 1 < n ∧ S.uniR.L ∣ S.N) →
          getR S' n = some (r n))
      ∧ ∀ n < 0, getR S' n (some (r (n + 1))) = some (r n) := by
  have hA := getA_sandwich S hS.L_left hS.L_right
  obtain ⟨l, hlE⟩ := leftEnv_exists hS.L_left (fun n hn => rep_down hA.left_rep hA.left_block hS.L_left n hn) hS.fit hl
  obtain ⟨r, hrE⟩ := rightEnv_exists hS.L_right (fun n hn => rep_up hA.right_rep hA.right_block hS.L_right n hn) hS.fit
    hr
  obtain ⟨S', h1, h2, h3, h4, h5⟩ := updateRaw_spec hS hlE hrE
  have eA : getA S' = getA S := by rw [h2]; rfl
  have eN : S'.N = S.N := by rw [h2]
  have eL : S'.uniL = S.uniL := by rw [h2]
  have eR : S'.uniR = S.uniR := by rw [h2]
  have hS' : Shapes S' := by
    rw [h2]
    exact ⟨hS.L_left, hS.L_right, hS.left, hS.right, hS.mid, hS.D_left, hS.D_right⟩
  have hlE' : LeftEnv (getA S') S'.uniL.L S'.uniL.l l := by rw [eA, eL]; exact hlE
  have hrE' : RightEnv (getA S') S'.N S'.uniR.L S'.uniR.r r := by rw [eA, eN, eR]; exact hrE
  refine ⟨S', l, r, h1, eA, by rw [h2]; rfl, by rw [h2]; rfl, hlE, hrE, ?_, ?_, ?_⟩
  · intro n hn
    exact getL_spec hS' hlE' (by rw [eN]; exact h3) n (by rw [eN, eR]; exact hn)
  · intro n hn
    refine getR_spec hS' hrE' (by rw [eN]; exact h4) n ?_
    rw [eN, eR, h5 _ (by omega)]
    exact hn
  · exact getR_next hrE'

/-- The environments of a chain are determined by it. -/
theorem C49_environments_unique {site : ℤ → AnyTen R} {LL N LR : ℕ} {lL rR : ℕ → AnyMat R} (hL : 0 < LL) (hR : 0 < LR) :
    (∀ l l', LeftEnv site LL lL l → LeftEnv site LL lL l' → l = l')
      ∧ ∀ r r', RightEnv site N LR rR r → RightEnv site N LR rR r' → r = r' :=
  ⟨fun _ _ h h' => h.unique hL h', fun _ _ h h' => h.unique hR h'⟩

/-- **C49** for a new state with one uniform chain `u` on both sides, whose environments are up to date, and `N` a
multiple of the block length: the state is the uniform chain, and after the update `get_l` and
`get_r` are correct at every integer. -/
theorem C49_new (N : ℕ) (u : Bulk R) (hu : BulkShapes u) (hN : u.L ∣ N)
    (hl : ∀ k < u.L, StepL (u.l ((k + u.L - 1) % u.L)) (u.A k) (u.l k))
    (hr : ∀ k < u.L, StepR (u.r k) (u.A k) (u.r ((k + u.L - 1) % u.L))) :
    ∃ S S' l r, new N u none = some S ∧ updateRaw S = some S'
      ∧ (∀ n : ℤ, getA S' (n + u.L) = getA S' n) ∧ (∀ k < u.L, getA S' (k + 1) = u.A k)
      ∧ LeftEnv (getA S') u.L u.l l ∧ RightEnv (getA S') N u.L u.r r
      ∧ ∀ n, getL S' n = some (l n) ∧ getR S' n = some (r n) := by
  obtain ⟨S, h1, h2, h3, h4, h5, h6, h7, h8⟩ := new_spec N hu none
  have h4' : S.uniR = u := h4
  have hA : ∀ n : ℤ, getA S n = u.A (pmod (n - 1) u.L) := by
    intro n
    rw [getA, h2, h3, h4']
    by_cases c1 : n < 1
    · rw [if_pos c1]
    · rw [if_neg c1]
      by_cases c2 : n > N
      · rw [if_pos c2, ← spmod_dvd hN (n - 1)]
        congr 2
        omega
      · rw [if_neg c2, h7 _ (by omega) (by omega), Int.toNat_of_nonneg (by omega)]
  have hS : Shapes S := by
    refine ⟨h3 ▸ hu.L_pos, h4' ▸ hu.L_pos, h3 ▸ hu.ten, h4' ▸ hu.ten, ?_, ?_, ?_⟩
    · intro n c1 c2
      rw [h7 n c1 (h2 ▸ c2), h5, h5, h6]
      exact hu.ten _ (spmod_lt hu.L_pos _)
    · rw [h5, h3]
    · rw [h5, h4']
  obtain ⟨S', l, r, e1, e2, _, _, e3, e4, e5, e6, _⟩ := C49_environments_partial S hS
    (by rw [h3]; exact hl) (by rw [h4']; exact hr)
  rw [h3] at e3
  rw [h4', h2] at e4
  refine ⟨S, S', l, r, h1, e1, ?_, ?_, e2 ▸ e3, e2 ▸ e4, ?_⟩
  · intro n
    rw [e2, hA, hA, show n + (u.L : ℤ) - 1 = n - 1 + u.L by omega, spmod_add]
  · intro k hk
    rw [e2, hA, add_sub_cancel_right, spmod_of_lt hk]
  · intro n
    refine ⟨e5 n (Or.inr (by rw [h4', h2]; exact hN)), e6 n ?_⟩
    by_cases c1 : n ≤ S.N
    · exact Or.inl c1
    · by_cases c2 : n = S.N + 1
      · refine Or.inr (Or.inl ⟨c2, ?_⟩)
        rw [h8 _ (by omega), h4']
        congr 1
        rw [h2]
        push_cast
        rw [add_sub_cancel_right, spmod_nat, Nat.mod_eq_zero_of_dvd hN]
      · exact Or.inr (Or.inr ⟨by omega, by rw [h4', h2]; exact hN⟩)

/-- **C49** `grow_left(m)` moves the finite part by `m` blocks and changes nothing else: the tensor at site `n + m L` of
the new chain is that at site `n` of the old one, for every integer `n`, and after an update the same
is true of `get_l` and `get_r` to the left of the right block. -/
theorem C49_grow_left (S : State R) (hS : Shapes S) (hq : S.q 0 = S.uniL.q) (m : ℕ)
    (hl : ∀ k < S.uniL.L, StepL (S.uniL.l ((k + S.uniL.L - 1) % S.uniL.L)) (S.uniL.A k) (S.uniL.l k))
    (hr : ∀ k < S.uniR.L, StepR (S.uniR.r k) (S.uniR.A k) (S.uniR.r ((k + S.uniR.L - 1) % S.uniR.L))) :
    ∃ S1 S' S1', updateRaw S = some S1 ∧ growLeft m S = some S' ∧ updateRaw S' = some S1'
      ∧ S'.N = S.N + m * S.uniL.L
      ∧ (∀ n : ℤ, getA S' (n + (m * S.uniL.L : ℕ)) = getA S n ∧ getD S' (n + (m * S.uniL.L : ℕ)) = getD S n
        ∧ getQ S' (n + (m * S.uniL.L : ℕ)) = getQ S n)
      ∧ (∀ n ≤ (S.N + 1 : ℤ), getL S1' (n + (m * S.uniL.L : ℕ)) = getL S1 n)
      ∧ ∀ n ≤ (S.N : ℤ), getR S1' (n + (m * S.uniL.L : ℕ)) = getR S1 n := by
  obtain ⟨S', g1, g2, g3, g4, _, g6, _, _, _, _, g11⟩ := growLeft_spec hS hq m
  obtain ⟨S1, l, r, e1, _, _, _, e5, e6, e7, e8, _⟩ := C49_environments_partial S hS hl hr
  obtain ⟨S1', l', r', f1, _, _, _, f5, f6, f7, f8, _⟩ := C49_environments_partial S' g6
    (by rw [g3]; exact hl) (by rw [g4]; exact hr)
  have hsh := e5.shift hS.L_left m (fun n => (g11 n).1)
  rw [g3] at f5
  have hl' := f5.unique hS.L_left hsh
  have hshr := e6.shift (m * S.uniL.L) (fun n => (g11 n).1)
  rw [g4, g2] at f6
  have hr' := f6.unique hS.L_right hshr
  refine ⟨S1, S', S1', e1, g1, f1, g2, g11, ?_, ?_⟩
  · intro n hn
    rw [e7 n (Or.inl hn), f7 _ (Or.inl (by rw [g2, Nat.cast_add]; omega)), hl']
    simp only [add_sub_cancel_right]
  · intro n hn
    rw [e8 n (Or.inl hn), f8 _ (Or.inl (by rw [g2, Nat.cast_add]; omega)), hr']
    simp only [add_sub_cancel_right]

/-- **C49** `grow_right(m)` with `m > 0` changes nothing at any site, and after an update `get_l` and `get_r` are
unchanged on the old finite part and to its left.  (`grow_right(0)` raises, see
`C49_grow_right_violated`.) -/
theorem C49_grow_right_partial (S : State R) (hS : Shapes S) (hq : S.q (S.N + 1) = S.uniR.q)
    (hD : S.D (S.N + 1) = S.uniR.D) (m : ℕ) (hm : 0 < m)
    (hl : ∀ k < S.uniL.L, StepL (S.uniL.l ((k + S.uniL.L - 1) % S.uniL.L)) (S.uniL.A k) (S.uniL.l k))
    (hr : ∀ k < S.uniR.L, StepR (S.uniR.r k) (S.uniR.A k) (S.uniR.r ((k + S.uniR.L - 1) % S.uniR.L))) :
    ∃ S1 S' S1', updateRaw S = some S1 ∧ growRight m S = some S' ∧ updateRaw S' = some S1'
      ∧ S'.N = S.N + m * S.uniR.L
      ∧ (∀ n : ℤ, getA S' n = getA S n ∧ getD S' n = getD S n ∧ getQ S' n = getQ S n)
      ∧ (∀ n ≤ (S.N + 1 : ℤ), getL S1' n = getL S1 n) ∧ ∀ n ≤ (S.N : ℤ), getR S1' n = getR S1 n := by
  obtain ⟨S', g1, g2, g3, g4, _, g6, _, _, _, _, g11⟩ := growRight_spec hS hq hD m hm
  obtain ⟨S1, l, r, e1, _, _, _, e5, e6, e7, e8, _⟩ := C49_environments_partial S hS hl hr
  obtain ⟨S1', l', r', f1, _, _, _, f5, f6, f7, f8, _⟩ := C49_environments_partial S' g6
    (by rw [g3]; exact hl) (by rw [g4]; exact hr)
  have hA : getA S' = getA S := funext fun n => (g11 n).1
  rw [g3, hA] at f5
  have hl' := f5.unique hS.L_left e5
  rw [g4, g2, hA] at f6
  have hr' := f6.unique hS.L_right (e6.regroup hS.L_right m)
  refine ⟨S1, S', S1', e1, g1, f1, g2, g11, ?_, ?_⟩
  · intro n hn
    rw [e7 n (Or.inl hn), f7 _ (Or.inl (by rw [g2, Nat.cast_add]; omega)), hl']
  · intro n hn
    rw [e8 n (Or.inl hn), f8 _ (Or.inl (by rw [g2, Nat.cast_add]; omega)), hr']

/-! ### Cases that violate the claim -/

omit [StarRing R] in
/-- **C49** is violated: growing by nothing raises on the right. -/
theorem C49_grow_right_violated (S : State R) : growRight 0 S = none := by
  simp [growRight]

/-- A site tensor with one number. -/
def numTen (z : ℂ) : AnyTen ℂ := ⟨1, 1, 1, fun _ => diagonal fun _ => z⟩

/-- A matrix with one number. -/
def numMat (z : ℂ) : AnyMat ℂ := ⟨1, 1, diagonal fun _ => z⟩

theorem numMat_inj {x y : ℂ} (h : numMat x = numMat y) : x = y := by
  simp only [numMat, AnyMat.mk.injEq, heq_eq_eq, true_and] at h
  have := congrFun (congrFun h 0) 0
  simpa using this

theorem stepL_num (x z : ℂ) : StepL (numMat x) (numTen z) (numMat (star z * x * z)) := by
  refine ⟨diagonal fun _ => x, rfl, ?_⟩
  have h : ∀ f : Fin 1 → Matrix (Fin 1) (Fin 1) ℂ, f = (fun _ => diagonal fun _ => z) →
      (⟨1, 1, diagonal fun _ => star z * x * z⟩ : AnyMat ℂ) = ⟨1, 1, ∑ s, (f s)ᴴ * (diagonal fun _ => x) * f s⟩ := by
    rintro f rfl
    congr 1
    ext i j
    fin_cases i; fin_cases j
    simp
  exact h _ rfl

theorem stepR_num (x z : ℂ) : StepR (numMat x) (numTen z) (numMat (z * x * star z)) := by
  refine ⟨diagonal fun _ => x, rfl, ?_⟩
  have h : ∀ f : Fin 1 → Matrix (Fin 1) (Fin 1) ℂ, f = (fun _ => diagonal fun _ => z) →
      (⟨1, 1, diagonal fun _ => z * x * star z⟩ : AnyMat ℂ) = ⟨1, 1, ∑ s, f s * (diagonal fun _ => x) * (f s)ᴴ⟩ := by
    rintro f rfl
    congr 1
    ext i j
    fin_cases i; fin_cases j
    simp
  exact h _ rfl

/-- A uniform chain with one site per block. -/
def demoBulk1 : Bulk ℂ where
  L := 1
  D := 1
  q := 1
  A _ := numTen 1
  l _ := numMat 1
  r _ := numMat 1

/-- A uniform chain with two different sites per block. -/
noncomputable def demoBulk2 : Bulk ℂ where
  L := 2
  D := 1
  q := 1
  A k := if k = 0 then numTen 2 else numTen (1 / 2)
  l k := if k = 0 then numMat 2 else numMat (1 / 2)
  r k := if k = 0 then numMat (1 / 2) else numMat 2

theorem demoBulk1_shapes : BulkShapes demoBulk1 :=
  ⟨Nat.one_pos, fun _ _ => ⟨rfl, rfl, rfl⟩, fun _ _ => ⟨⟨rfl, rfl⟩, rfl, rfl⟩⟩

theorem demoBulk2_shapes : BulkShapes demoBulk2 :=
  ⟨Nat.two_pos, fun k _ => by
      simp only [demoBulk2]
      split <;> exact ⟨rfl, rfl, rfl⟩,
    fun k _ => by
      simp only [demoBulk2]
      split <;> exact ⟨⟨rfl, rfl⟩, rfl, rfl⟩⟩

theorem demoBulk1_left (k : ℕ) (_ : k < demoBulk1.L) :
    StepL (demoBulk1.l ((k + demoBulk1.L - 1) % demoBulk1.L)) (demoBulk1.A k) (demoBulk1.l k) := by
  have := stepL_num 1 1
  simpa [demoBulk1] using this

theorem demoBulk2_right (k : ℕ) (hk : k < demoBulk2.L) :
    StepR (demoBulk2.r k) (demoBulk2.A k) (demoBulk2.r ((k + demoBulk2.L - 1) % demoBulk2.L)) := by
  have hk' : k = 0 ∨ k = 1 := by simp only [demoBulk2] at hk; omega
  rcases hk' with rfl | rfl
  · have := stepR_num (1 / 2) 2
    have h2 : (2 : ℂ) * (1 / 2) * star 2 = 2 := by rw [show star (2 : ℂ) = 2 from Complex.conj_ofNat 2]; norm_num
    rw [h2] at this
    simpa [demoBulk2] using this
  · have := stepR_num 2 (1 / 2)
    have h2 : (1 / 2 : ℂ) * 2 * star (1 / 2) = 1 / 2 := by
      rw [show star (1 / 2 : ℂ) = 1 / 2 by simp]
      norm_num
    rw [h2] at this
    simpa [demoBulk2] using this

theorem demoBulk2_left (k : ℕ) (hk : k < demoBulk2.L) :
    StepL (demoBulk2.l ((k + demoBulk2.L - 1) % demoBulk2.L)) (demoBulk2.A k) (demoBulk2.l k) := by
  have hk' : k = 0 ∨ k = 1 := by simp only [demoBulk2] at hk; omega
  rcases hk' with rfl | rfl
  · have := stepL_num (1 / 2) 2
    have h2 : star 2 * (1 / 2) * (2 : ℂ) = 2 := by rw [show star (2 : ℂ) = 2 from Complex.conj_ofNat 2]; norm_num
    rw [h2] at this
    simpa [demoBulk2] using this
  · have := stepL_num 2 (1 / 2)
    have h2 : star (1 / 2) * 2 * (1 / 2 : ℂ) = 1 / 2 := by
      rw [show star (1 / 2 : ℂ) = 1 / 2 by simp]
      norm_num
    rw [h2] at this
    simpa [demoBulk2] using this

/-- One site between a block of one and a block of two sites. -/
theorem demoSW_exists : ∃ S, new 1 demoBulk1 (some demoBulk2) = some S ∧ Shapes S ∧ S.N = 1 ∧ S.uniL = demoBulk1
    ∧ S.uniR = demoBulk2 ∧ S.A 1 = numTen 1 ∧ S.r 2 = numMat 1 := by
  obtain ⟨S, h1, h2, h3, h4, h5, h6, h7, h8⟩ := new_spec 1 demoBulk1_shapes (some demoBulk2)
  have h4' : S.uniR = demoBulk2 := h4
  refine ⟨S, h1, ⟨h3 ▸ demoBulk1_shapes.L_pos, h4' ▸ demoBulk2_shapes.L_pos, h3 ▸ demoBulk1_shapes.ten,
    h4' ▸ demoBulk2_shapes.ten, ?_, ?_, ?_⟩, h2, h3, h4', h7 1 le_rfl le_rfl, h8 2 le_rfl⟩
  · intro n c1 c2
    rw [h7 n c1 (h2 ▸ c2), h5, h5, h6]
    exact demoBulk1_shapes.ten _ (spmod_lt Nat.one_pos _)
  · rw [h5, h3]
  · rw [h5, h4']
    rfl

/-- The hypotheses of `C49_environments_partial` can be met. -/
example : ∃ S : State ℂ, Shapes S ∧ S.uniR.L = 2
    ∧ (∀ k < S.uniL.L, StepL (S.uniL.l ((k + S.uniL.L - 1) % S.uniL.L)) (S.uniL.A k) (S.uniL.l k))
    ∧ ∀ k < S.uniR.L, StepR (S.uniR.r k) (S.uniR.A k) (S.uniR.r ((k + S.uniR.L - 1) % S.uniR.L)) := by
  obtain ⟨S, _, h2, _, h4, h5, _⟩ := demoSW_exists
  exact ⟨S, h2, by rw [h5]; rfl, by rw [h4]; exact demoBulk1_left, by rw [h5]; exact demoBulk2_right⟩

/-- The hypotheses of `C49_new` can be met with a block of two sites. -/
example : ∃ S S' l r, new 4 demoBulk2 none = some S ∧ updateRaw S = some S'
    ∧ LeftEnv (getA S') 2 demoBulk2.l l ∧ RightEnv (getA S') 4 2 demoBulk2.r r
    ∧ ∀ n, getL S' n = some (l n) ∧ getR S' n = some (r n) :=
  let ⟨S, S', l, r, h1, h2, _, _, h3, h4, h5⟩ := C49_new 4 demoBulk2 demoBulk2_shapes ⟨2, rfl⟩ demoBulk2_left
    demoBulk2_right
  ⟨S, S', l, r, h1, h2, h3, h4, h5⟩

/-- **C49** is violated by `get_l` to the right of site `N + 1` when the right block length does not divide
`N`: it goes through the block with the wrong offset. -/
theorem C49_get_l_violated : ∃ S S', new 1 demoBulk1 (some demoBulk2) = some S ∧ updateRaw S = some S'
    ∧ (∃ l, LeftEnv (getA S') S'.uniL.L S'.uniL.l l)
    ∧ ∀ l, LeftEnv (getA S') S'.uniL.L S'.uniL.l l → getL S' 3 ≠ some (l 3) := by
  obtain ⟨S, h1, hS, h3, h4, h5, h6, _⟩ := demoSW_exists
  obtain ⟨S', l, r, e1, e2, _, _, e5, e6, e7, _⟩ := C49_environments_partial S hS
    (by rw [h4]; exact demoBulk1_left) (by rw [h5]; exact demoBulk2_right)
  obtain ⟨S'', f1, f2, f3, _⟩ := updateRaw_spec hS e5 e6
  rw [e1] at f1
  cases f1
  have eL : S'.uniL = S.uniL := by rw [f2]
  have eR : S'.uniR = S.uniR := by rw [f2]
  have eN : S'.N = S.N := by rw [f2]
  refine ⟨S, S', h1, e1, ⟨l, by rw [e2, eL]; exact e5⟩, ?_⟩
  intro l' hl' hcon
  rw [e2, eL] at hl'
  have : l' = l := hl'.unique hS.L_left e5
  subst this
  have hA := getA_sandwich S hS.L_left hS.L_right
  have l0 : l' 0 = numMat 1 := by
    have := rep_down e5.left_rep e5.left_block hS.L_left 0 le_rfl
    rw [this, h4]
    rfl
  have l1 : l' 1 = numMat 1 := by
    have s1 := e5.step 1
    rw [show (1 : ℤ) - 1 = 0 from rfl, l0] at s1
    have a1 := hA.mid 1 le_rfl (by rw [h3])
    rw [Nat.cast_one] at a1
    rw [a1, h6] at s1
    have := s1.unique (stepL_num 1 1)
    rw [this]
    simp
  have l2 : l' 2 = numMat 4 := by
    have s1 := e5.step 2
    rw [show (2 : ℤ) - 1 = 1 from rfl, l1] at s1
    have a1 := hA.right_block 0 hS.L_right
    rw [h3, h5] at a1
    change getA S 2 = numTen 2 at a1
    rw [a1] at s1
    have := s1.unique (stepL_num 1 2)
    rw [this, show star (2 : ℂ) = 2 from Complex.conj_ofNat 2]
    norm_num
  have l3 : l' 3 = numMat 1 := by
    have s1 := e5.step 3
    rw [show (3 : ℤ) - 1 = 2 from rfl, l2] at s1
    have a1 := hA.right_block 1 (by rw [h5]; exact Nat.one_lt_two)
    rw [h3, h5] at a1
    change getA S 3 = numTen (1 / 2) at a1
    rw [a1] at s1
    have := s1.unique (stepL_num 4 (1 / 2))
    rw [this, show star (1 / 2 : ℂ) = 1 / 2 by simp]
    norm_num
  have hg : getL S' 3 = epsLAny (numMat 4) (numTen 2) := by
    have e := f3 2 (by rw [h3])
    rw [Nat.cast_ofNat, l2] at e
    rw [getL, eN, h3, if_neg (by norm_num), if_neg (by norm_num), eR, h5]
    change (epsLAny (S'.l 2) (numTen 2)) = _
    rw [e]
  rw [hg, l3, epsLAny_iff] at hcon
  have := numMat_inj (hcon.unique (stepL_num 4 2))
  rw [show star (2 : ℂ) = 2 from Complex.conj_ofNat 2] at this
  norm_num at this

/-- **C49** is violated by `get_r` at the cut after site `N + 1`: the entry of a new state is that of the left
chain. -/
theorem C49_get_r_violated : ∃ S S', new 1 demoBulk1 (some demoBulk2) = some S ∧ updateRaw S = some S'
    ∧ (∃ r, RightEnv (getA S') S'.N S'.uniR.L S'.uniR.r r)
    ∧ ∀ r, RightEnv (getA S') S'.N S'.uniR.L S'.uniR.r r → getR S' 2 ≠ some (r 2) := by
  obtain ⟨S, h1, hS, h3, h4, h5, h6, h7⟩ := demoSW_exists
  obtain ⟨S', l, r, e1, e2, _, _, e5, e6, e7, _⟩ := C49_environments_partial S hS
    (by rw [h4]; exact demoBulk1_left) (by rw [h5]; exact demoBulk2_right)
  obtain ⟨S'', f1, f2, f3, f4, f5⟩ := updateRaw_spec hS e5 e6
  rw [e1] at f1
  cases f1
  have eR : S'.uniR = S.uniR := by rw [f2]
  have eN : S'.N = S.N := by rw [f2]
  refine ⟨S, S', h1, e1, ⟨r, by rw [e2, eN, eR]; exact e6⟩, ?_⟩
  intro r' hr' hcon
  rw [eN, eR, h3, h5] at hr'
  have r2 := hr'.right_block 0 Nat.two_pos
  change r' 2 = numMat (1 / 2) at r2
  rw [r2, getR, eN, h3, if_pos (by norm_num)] at hcon
  have h8 := f5 2 (by rw [h3]; exact Nat.one_lt_two)
  rw [h7] at h8
  change some (S'.r 2) = _ at hcon
  rw [h8] at hcon
  have := numMat_inj (Option.some_inj.mp hcon)
  norm_num at this

/-- **C49** is violated by `get_r` after growing a chain whose right block has two sites, even if the block length
divides `N`: `grow_right` stores the environment of the cut `N` for the cut `N + 1`. -/
theorem C49_grow_right_end_violated : ∃ S S' S1' : State ℂ, new 2 demoBulk2 none = some S ∧ growRight 1 S = some S'
    ∧ updateRaw S' = some S1' ∧ S1'.N = 4
    ∧ ∀ r, RightEnv (getA S1') S1'.N S1'.uniR.L S1'.uniR.r r → getR S1' 5 ≠ some (r 5) := by
  obtain ⟨S, h1, h2, h3, h4, h5, h6, h7, h8⟩ := new_spec 2 demoBulk2_shapes none
  have h4' : S.uniR = demoBulk2 := h4
  have hS : Shapes S := by
    refine ⟨h3 ▸ demoBulk2_shapes.L_pos, h4' ▸ demoBulk2_shapes.L_pos, h3 ▸ demoBulk2_shapes.ten,
      h4' ▸ demoBulk2_shapes.ten, ?_, ?_, ?_⟩
    · intro n c1 c2
      rw [h7 n c1 (h2 ▸ c2), h5, h5, h6]
      exact demoBulk2_shapes.ten _ (spmod_lt Nat.two_pos _)
    · rw [h5, h3]
    · rw [h5, h4']
  obtain ⟨S', g1, g2, g3, g4, _, g6, _, _, _, g10, _⟩ := growRight_spec hS (by rw [h6, h4']) (by rw [h5, h4']) 1
    Nat.one_pos
  obtain ⟨S1', l, r, e1, _, _, _, e5, e6, _⟩ := C49_environments_partial S' g6
    (by rw [g3, h3]; exact demoBulk2_left) (by rw [g4, h4']; exact demoBulk2_right)
  obtain ⟨S'', f1, f2, _, _, f5⟩ := updateRaw_spec g6 e5 e6
  rw [e1] at f1
  cases f1
  have hN : S'.N = 4 := by rw [g2, h2, h4']; rfl
  have eR : S1'.uniR = demoBulk2 := by rw [f2]; exact g4.trans h4'
  have eN : S1'.N = 4 := by rw [f2]; exact hN
  refine ⟨S, S', S1', h1, g1, e1, eN, ?_⟩
  intro r' hr' hcon
  rw [eN, eR] at hr'
  have r5 := hr'.right_block 0 Nat.two_pos
  change r' 5 = numMat (1 / 2) at r5
  rw [r5, getR, eN, if_pos (by norm_num)] at hcon
  have h9 := f5 5 (by rw [hN]; norm_num)
  rw [hN] at g10
  have h10 := h8 2 (by norm_num)
  rw [h2] at g10
  rw [g10, h10] at h9
  change S1'.r 5 = numMat 2 at h9
  change some (S1'.r 5) = _ at hcon
  rw [h9] at hcon
  have := numMat_inj (Option.some_inj.mp hcon)
  norm_num at this

/-- **C49** is violated by `get_q` for states made from given tensors: the dimensions of the sites of the finite
part are those of the left chain. -/
theorem C49_get_q_violated : ∃ S : State ℂ,
    fromTensors demoBulk1 demoBulk1 [⟨2, 1, 1, fun _ => 1⟩] = some S ∧ (getA S 1).q = 2 ∧ getQ S 1 = 1 := by
  obtain ⟨S, h1, h2, h3, h4, h5, h6, h7, h8⟩ := new_spec 1 demoBulk1_shapes (some demoBulk1)
  have e : fromTensors demoBulk1 demoBulk1 [⟨2, 1, 1, fun _ => 1⟩] = some
      { S with
        A := fun n => if 1 ≤ n then [(⟨2, 1, 1, fun _ => 1⟩ : AnyTen ℂ)].getD (n - 1) (S.A n) else S.A n
        D := fun n => if n = 0 then demoBulk1.D else if n ≤ 1 then
          ([(⟨2, 1, 1, fun _ => 1⟩ : AnyTen ℂ)].getD (n - 1) (S.A n)).b else demoBulk1.D } := by
    unfold fromTensors
    rw [List.length_singleton, h1, Option.map_some]
  refine ⟨_, e, ?_, ?_⟩
  · rw [getA, if_neg (by norm_num), if_neg (by simp [h2])]
    rfl
  · rw [getQ, if_neg (by norm_num), if_neg (by simp [h2])]
    exact h6 _

end EvoMPS
