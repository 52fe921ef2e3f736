import Verif.UniformCF
import Verif.UniformCFSpec
import Verif.UniformLimit
import Verif.UniformEig

/-!
# The uniform chain: canonical forms (helper lemmas)
-/

set_option linter.unusedSectionVars false

namespace EvoMPS

open Matrix
open scoped ComplexOrder

section gauge
variable {R : Type*} [CommRing R] [StarRing R] {q D : ℕ}

theorem GaugeBy.prod {L : ℕ} (hL : 0 < L) {g gi : ℕ → Matrix (Fin D) (Fin D) R}
    {A A' : ℕ → Fin q → Matrix (Fin D) (Fin D) R} (h : GaugeBy L g gi A A') (k : ℕ) :
    ∀ n (s : Fin n → Fin q), chainProd L A' k n s
      = gi ((k + L - 1) % L) * chainProd L A k n s * g ((k + n + L - 1) % L) := by
  intro n
  induction n with
  | zero =>
    intro s
    rw [chainProd_zero, chainProd_zero, Matrix.mul_one, Nat.add_zero,
      (h.inv _ (Nat.mod_lt _ hL)).2]
  | succ n ih =>
    intro s
    rw [← Fin.snoc_init_self s, chainProd_snoc, chainProd_snoc, ih, h.eq _ (Nat.mod_lt _ hL),
      mod_pred hL, show k + (n + 1) + L - 1 = k + n + 1 + L - 1 by omega, mod_pred_succ]
    simp only [Matrix.mul_assoc]
    rw [← Matrix.mul_assoc (g _) (gi _), (h.inv _ (Nat.mod_lt _ hL)).1, Matrix.one_mul]

/-- A gauge transformation of tensors and environments. -/
structure GaugeRel (L : ℕ) (g gi : ℕ → Matrix (Fin D) (Fin D) R)
    (A : ℕ → Fin q → Matrix (Fin D) (Fin D) R) (l r : ℕ → Matrix (Fin D) (Fin D) R)
    (A' : ℕ → Fin q → Matrix (Fin D) (Fin D) R) (l' r' : ℕ → Matrix (Fin D) (Fin D) R) : Prop where
  by_ : GaugeBy L g gi A A'
  left : ∀ k < L, l' k = (g k)ᴴ * l k * g k
  right : ∀ k < L, r' k = gi k * r k * (gi k)ᴴ

variable {L : ℕ} {g gi : ℕ → Matrix (Fin D) (Fin D) R}
    {A : ℕ → Fin q → Matrix (Fin D) (Fin D) R} {l r : ℕ → Matrix (Fin D) (Fin D) R}
    {A' : ℕ → Fin q → Matrix (Fin D) (Fin D) R} {l' r' : ℕ → Matrix (Fin D) (Fin D) R}

theorem inv_star {x y : Matrix (Fin D) (Fin D) R} (h : x * y = 1) : yᴴ * xᴴ = 1 := by
  rw [← Matrix.conjTranspose_mul, h, Matrix.conjTranspose_one]

theorem GaugeBy.trace (hL : 0 < L) (h : GaugeBy L g gi A A') (k m : ℕ) (s : Fin (m * L) → Fin q) :
    (chainProd L A' k (m * L) s).trace = (chainProd L A k (m * L) s).trace := by
  rw [h.prod hL, show k + m * L + L - 1 = k + L - 1 + m * L by omega, Nat.add_mul_mod_self_right,
    Matrix.trace_mul_cycle, (h.inv _ (Nat.mod_lt _ hL)).1, Matrix.one_mul]

theorem GaugeBy.transfer (hL : 0 < L) (h : GaugeBy L g gi A A') (k n : ℕ)
    (x : Matrix (Fin D) (Fin D) R) : chainTransfer L L A' A' k n x
      = gi ((k + L - 1) % L) * chainTransfer L L A A k n
        (g ((k + n + L - 1) % L) * x * (g ((k + n + L - 1) % L))ᴴ) * (gi ((k + L - 1) % L))ᴴ := by
  simp only [chainTransfer, h.prod hL, Finset.mul_sum, Finset.sum_mul, Matrix.conjTranspose_mul,
    Matrix.mul_assoc]

theorem GaugeRel.same (hL : 0 < L) (h : GaugeRel L g gi A l r A' l' r') :
    SameChain L g gi A l r A' l' r' where
  trace := h.by_.trace hL
  transfer := h.by_.transfer hL
  expect k n O := by
    simp only [chainExpect]
    refine Finset.sum_congr rfl fun s _ => Finset.sum_congr rfl fun t _ => ?_
    congr 1
    rw [h.by_.prod hL, h.by_.prod hL, h.left _ (Nat.mod_lt _ hL), h.right _ (Nat.mod_lt _ hL)]
    obtain ⟨h1, h2⟩ := h.by_.inv ((k + L - 1) % L) (Nat.mod_lt _ hL)
    obtain ⟨h3, h4⟩ := h.by_.inv ((k + n + L - 1) % L) (Nat.mod_lt _ hL)
    generalize g ((k + L - 1) % L) = G at *
    generalize gi ((k + L - 1) % L) = Gi at *
    generalize g ((k + n + L - 1) % L) = H at *
    generalize gi ((k + n + L - 1) % L) = Hi at *
    generalize chainProd L A k n t = X at *
    generalize chainProd L A k n s = Y at *
    generalize l _ = x at *
    generalize r _ = y at *
    have e1 : (Gᴴ * x * G)ᴴ * (Gi * X * H) * (Hi * y * Hiᴴ) * (Gi * Y * H)ᴴ
        = Gᴴ * (xᴴ * (G * Gi) * X * (H * Hi) * y * (Hiᴴ * Hᴴ) * Yᴴ * Giᴴ) := by
      simp only [Matrix.conjTranspose_mul, Matrix.conjTranspose_conjTranspose, Matrix.mul_assoc]
    rw [e1, h1, h3, inv_star h3, Matrix.trace_mul_comm]
    simp only [Matrix.mul_one, Matrix.mul_assoc]
    rw [inv_star h1, Matrix.mul_one]

theorem GaugeRel.env (hL : 0 < L) (h : GaugeRel L g gi A l r A' l' r') (hE : ChainEnv L A l r) :
    ChainEnv L A' l' r' where
  left k hk := by
    rw [h.left k hk, hE.left k hk, h.left _ (Nat.mod_lt _ hL), Finset.mul_sum, Finset.sum_mul]
    refine Finset.sum_congr rfl fun s _ => ?_
    rw [h.by_.eq k hk]
    obtain ⟨h1, _⟩ := h.by_.inv ((k + L - 1) % L) (Nat.mod_lt _ hL)
    generalize g ((k + L - 1) % L) = G at *
    generalize gi ((k + L - 1) % L) = Gi at *
    have : (Gi * A k s * g k)ᴴ * (Gᴴ * l ((k + L - 1) % L) * G) * (Gi * A k s * g k)
        = (g k)ᴴ * (A k s)ᴴ * (Giᴴ * Gᴴ) * l ((k + L - 1) % L) * (G * Gi) * A k s * g k := by
      simp only [Matrix.conjTranspose_mul, Matrix.mul_assoc]
    rw [this, h1, inv_star h1]
    simp only [Matrix.mul_one, Matrix.mul_assoc]
  right k hk := by
    rw [h.right _ (Nat.mod_lt _ hL), hE.right k hk, h.right k hk, Finset.mul_sum, Finset.sum_mul]
    refine Finset.sum_congr rfl fun s _ => ?_
    rw [h.by_.eq k hk]
    obtain ⟨h1, _⟩ := h.by_.inv k hk
    generalize gi ((k + L - 1) % L) = Gi at *
    have : Gi * A k s * g k * (gi k * r k * (gi k)ᴴ) * (Gi * A k s * g k)ᴴ
        = Gi * A k s * (g k * gi k) * r k * ((gi k)ᴴ * (g k)ᴴ) * (A k s)ᴴ * Giᴴ := by
      simp only [Matrix.conjTranspose_mul, Matrix.mul_assoc]
    rw [this, h1, inv_star h1]
    simp only [Matrix.mul_one, Matrix.mul_assoc]
  norm k hk := by
    rw [← hE.norm k hk, h.left k hk, h.right k hk]
    obtain ⟨h1, _⟩ := h.by_.inv k hk
    have : ((g k)ᴴ * l k * g k)ᴴ * (gi k * r k * (gi k)ᴴ)
        = (g k)ᴴ * ((l k)ᴴ * (g k * gi k) * r k * (gi k)ᴴ) := by
      simp only [Matrix.conjTranspose_mul, Matrix.conjTranspose_conjTranspose, Matrix.mul_assoc]
    rw [this, h1, Matrix.trace_mul_comm, Matrix.mul_one, Matrix.mul_assoc ((l k)ᴴ * r k),
      inv_star h1, Matrix.mul_one]

theorem GaugeBy.refl (L : ℕ) (A : ℕ → Fin q → Matrix (Fin D) (Fin D) R) :
    GaugeBy L (fun _ => 1) (fun _ => 1) A A :=
  ⟨fun _ _ => ⟨Matrix.mul_one _, Matrix.mul_one _⟩, fun _ _ _ => by rw [Matrix.one_mul, Matrix.mul_one]⟩

theorem GaugeBy.trans {g' gi' : ℕ → Matrix (Fin D) (Fin D) R}
    {A'' : ℕ → Fin q → Matrix (Fin D) (Fin D) R}
    (h : GaugeBy L g gi A A') (h' : GaugeBy L g' gi' A' A'') :
    GaugeBy L (fun k => g k * g' k) (fun k => gi' k * gi k) A A'' where
  inv k hk := by
    obtain ⟨h1, h2⟩ := h.inv k hk
    obtain ⟨h3, h4⟩ := h'.inv k hk
    constructor
    · rw [Matrix.mul_assoc, ← Matrix.mul_assoc (g' k), h3, Matrix.one_mul, h1]
    · rw [Matrix.mul_assoc, ← Matrix.mul_assoc (gi k), h2, Matrix.one_mul, h4]
  eq k hk s := by
    rw [h'.eq k hk, h.eq k hk]
    simp only [Matrix.mul_assoc]

theorem GaugeRel.refl (L : ℕ) (A : ℕ → Fin q → Matrix (Fin D) (Fin D) R)
    (l r : ℕ → Matrix (Fin D) (Fin D) R) : GaugeRel L (fun _ => 1) (fun _ => 1) A l r A l r :=
  ⟨.refl L A, fun _ _ => by simp, fun _ _ => by simp⟩

theorem GaugeRel.trans {g' gi' : ℕ → Matrix (Fin D) (Fin D) R}
    {A'' : ℕ → Fin q → Matrix (Fin D) (Fin D) R} {l'' r'' : ℕ → Matrix (Fin D) (Fin D) R}
    (h : GaugeRel L g gi A l r A' l' r') (h' : GaugeRel L g' gi' A' l' r' A'' l'' r'') :
    GaugeRel L (fun k => g k * g' k) (fun k => gi' k * gi k) A l r A'' l'' r'' where
  by_ := h.by_.trans h'.by_
  left k hk := by
    rw [h'.left k hk, h.left k hk]
    simp only [Matrix.conjTranspose_mul, Matrix.mul_assoc]
  right k hk := by
    rw [h'.right k hk, h.right k hk]
    simp only [Matrix.conjTranspose_mul, Matrix.mul_assoc]

end gauge

namespace Uni

variable {q D : ℕ}

theorem gaugeCut_by {L k : ℕ} (hk : k < L) {g gi : Matrix (Fin D) (Fin D) ℂ} (h : g * gi = 1)
    (A : ℕ → Ten ℂ q D D) :
    GaugeBy L (Function.update (fun _ => 1) k g) (Function.update (fun _ => 1) k gi) A
      (gaugeCut L k g gi A) where
  inv n _ := by
    by_cases hn : n = k
    · subst hn
      simp only [Function.update_self]
      exact ⟨h, mul_eq_one_comm.mp h⟩
    · simp [Function.update_of_ne hn]
  eq n hn s := by
    have hj : (n + L - 1) % L = k ↔ n = (k + 1) % L := by
      constructor
      · intro e
        rw [← e, Nat.mod_add_mod, show n + L - 1 + 1 = n + L by omega, Nat.add_mod_right, Nat.mod_eq_of_lt hn]
      · intro e
        rw [e, mod_pred (by omega), mod_pred_succ, Nat.mod_eq_of_lt hk]
    simp only [gaugeCut]
    by_cases hn1 : n = k
    · subst hn1
      rw [Function.update_self, Function.update_self]
      by_cases h2 : n = (n + 1) % L
      · rw [hj.mpr h2, ← h2, Function.update_self, Function.update_self]
      · rw [Function.update_of_ne h2, Function.update_of_ne (fun e => h2 (hj.mp e)), Matrix.one_mul]
    · rw [Function.update_of_ne hn1, Function.update_of_ne hn1, Matrix.mul_one]
      by_cases h2 : n = (k + 1) % L
      · rw [hj.mpr h2, ← h2, Function.update_self, Function.update_self]
      · rw [Function.update_of_ne h2, Function.update_of_ne (fun e => h2 (hj.mp e)), Matrix.one_mul]

theorem cut_rel {L k : ℕ} (hk : k < L) {g gi : Matrix (Fin D) (Fin D) ℂ} (h : g * gi = 1)
    (A : ℕ → Ten ℂ q D D) (l r : ℕ → Matrix (Fin D) (Fin D) ℂ) {lk rk : Matrix (Fin D) (Fin D) ℂ}
    (hl : lk = gᴴ * l k * g) (hr : rk = gi * r k * giᴴ) :
    GaugeRel L (Function.update (fun _ => 1) k g) (Function.update (fun _ => 1) k gi) A l r
      (gaugeCut L k g gi A) (Function.update l k lk) (Function.update r k rk) where
  by_ := gaugeCut_by hk h A
  left n _ := by
    by_cases hn : n = k
    · subst hn; simp [hl]
    · simp [Function.update_of_ne hn]
  right n _ := by
    by_cases hn : n = k
    · subst hn; simp [hr]
    · simp [Function.update_of_ne hn]

/-! ### The factorisation -/

theorem _root_.EvoMPS.AboveTol.posDef {n : ℕ} {tol : ℝ} (h0 : 0 ≤ tol) {A : Matrix (Fin n) (Fin n) ℂ}
    (h : AboveTol tol A) : A.PosDef := by
  have h1 : (((tol : ℝ) : ℂ) • (1 : Matrix (Fin n) (Fin n) ℂ)).PosSemidef := by
    have hz : (0 : ℂ) ≤ (tol : ℂ) := by exact_mod_cast h0
    exact Matrix.PosSemidef.one.smul hz
  have := Matrix.PosDef.add_posSemidef h h1
  simpa using this

theorem _root_.EvoMPS.AboveTol.ev {n : ℕ} {tol : ℝ} (eigh : Eigh ℂ) {A : Matrix (Fin n) (Fin n) ℂ} (hA : A.IsHermitian)
    (h : AboveTol tol A) (i : Fin n) : tol < (eigh.ev A i).re := by
  have hinj : Function.Injective (eigh.vec A).mulVec := by
    intro x y hxy
    have := congrArg ((eigh.vec A)ᴴ *ᵥ ·) hxy
    simpa [Matrix.mulVec_mulVec, eigh.unit A hA] using this
  have h1 := Matrix.PosDef.conjTranspose_mul_mul_same h hinj
  have h2 : (eigh.vec A)ᴴ * (A - (tol : ℂ) • (1 : Matrix (Fin n) (Fin n) ℂ)) * eigh.vec A
      = diagonal (fun i => eigh.ev A i - (tol : ℂ)) := by
    rw [Matrix.mul_sub, Matrix.sub_mul, Matrix.mul_assoc, eigh.eig A hA, ← Matrix.mul_assoc, eigh.unit A hA,
      Matrix.one_mul, Matrix.mul_smul, Matrix.mul_one, Matrix.smul_mul, eigh.unit A hA]
    ext a b
    by_cases hab : a = b
    · subst hab; simp
    · simp [hab]
  rw [h2] at h1
  have h3 := h1.diag_pos (i := i)
  rw [Matrix.diagonal_apply_eq] at h3
  have h4 := (Complex.lt_def.mp h3).1
  simpa using h4

theorem ev_real {n : ℕ} (eigh : Eigh ℂ) {A : Matrix (Fin n) (Fin n) ℂ} (hA : A.IsHermitian) (i : Fin n) :
    eigh.ev A i = (((eigh.ev A i).re : ℝ) : ℂ) :=
  (Complex.conj_eq_iff_real.mp (eigh.real A hA i)).elim fun r hr => by rw [hr, Complex.ofReal_re]

theorem countAbove_full {n : ℕ} {tol : ℝ} {ev : Fin n → ℝ} (h : ∀ i, tol < ev i) :
    countAbove tol ev = n := by
  rw [countAbove, Finset.filter_true_of_mem fun i _ => h i, Finset.card_univ, Fintype.card_fin]

theorem lastSlice_full (n : ℕ) (i : Fin n) : lastSlice n n i := Or.inr (by omega)

theorem csqrt_pos {e : ℝ} (he : 0 < e) : csqrt (e : ℂ) ≠ 0 := by
  rw [csqrt_ofReal he.le]
  exact_mod_cast (Real.sqrt_pos.mpr he).ne'

theorem csqrt_star {e : ℝ} (he : 0 ≤ e) : star (csqrt (e : ℂ)) = csqrt (e : ℂ) := by
  rw [csqrt_ofReal he, Complex.star_def, Complex.conj_ofReal]

/-- What the factorisation returns for matrices of full rank. -/
structure HermFac.Full {n : ℕ} (f : HermFac n) (A : Matrix (Fin n) (Fin n) ℂ) (lower calcInv : Bool) : Prop where
  rank : f.rank = n
  fac : if lower then f.x * f.xᴴ = A else f.xᴴ * f.x = A
  inv : calcInv = true → f.x * f.xi = 1

theorem hermFacEvd_full (eigh : Eigh ℂ) (lower calcInv : Bool) {tol : ℝ} (h0 : 0 ≤ tol) {n : ℕ}
    {A : Matrix (Fin n) (Fin n) ℂ} (h : AboveTol tol A) :
    ∃ f, hermFacEvd eigh lower calcInv tol A = some f ∧ f.Full A lower calcInv := by
  have hA : A.IsHermitian := (h.posDef h0).isHermitian
  have hev := h.ev eigh hA
  have hU := eigh.unit A hA
  have hU' := mul_eq_one_comm.mp hU
  have hAe : A = eigh.vec A * diagonal (eigh.ev A) * (eigh.vec A)ᴴ := by
    rw [← eigh.eig A hA, Matrix.mul_assoc, hU', Matrix.mul_one]
  have hcount : countAbove tol (fun i => (eigh.ev A i).re) = n := countAbove_full hev
  have hsq : lastOnly n (fun i => csqrt (eigh.ev A i)) = fun i => csqrt (eigh.ev A i) := by
    funext i
    rw [lastOnly, if_pos (lastSlice_full n i)]
  have hne : ∀ i, csqrt (eigh.ev A i) ≠ 0 := by
    intro i
    rw [ev_real eigh hA i]
    exact csqrt_pos (lt_of_le_of_lt h0 (hev i))
  have hrec : lastRecip n (fun i => csqrt (eigh.ev A i)) = some fun i => 1 / csqrt (eigh.ev A i) := by
    rw [lastRecip, if_neg (by rintro ⟨i, _, hi⟩; exact hne i hi)]
    congr 1
    funext i
    rw [if_pos (lastSlice_full n i)]
  have hst : (diagonal fun i => csqrt (eigh.ev A i))ᴴ = diagonal fun i => csqrt (eigh.ev A i) := by
    rw [Matrix.diagonal_conjTranspose]
    congr 1
    funext i
    rw [Pi.star_apply, ev_real eigh hA i]
    exact csqrt_star (h0.trans (hev i).le)
  have hmul : (diagonal fun i => csqrt (eigh.ev A i)) * (diagonal fun i => csqrt (eigh.ev A i))
      = diagonal (eigh.ev A) := by
    rw [Matrix.diagonal_mul_diagonal]
    congr 1
    funext i
    exact csqrt_sq _
  have hinv : (diagonal fun i => csqrt (eigh.ev A i)) * (diagonal fun i => 1 / csqrt (eigh.ev A i))
      = (1 : Matrix (Fin n) (Fin n) ℂ) := by
    rw [Matrix.diagonal_mul_diagonal, ← Matrix.diagonal_one]
    congr 1
    funext i
    exact mul_one_div_cancel (hne i)
  simp only [hermFacEvd, hcount, hsq, hrec]
  have e1 : (if calcInv = true then some (fun i => 1 / csqrt (eigh.ev A i)) else some 0)
      = some (if calcInv = true then (fun i => 1 / csqrt (eigh.ev A i)) else 0) := by
    cases calcInv <;> rfl
  rw [e1, Option.bind_some]
  refine ⟨_, rfl, ?_⟩
  cases lower
  · simp only [Bool.false_eq_true, if_false]
    refine ⟨rfl, ?_, ?_⟩
    · simp only [Bool.false_eq_true, if_false]
      rw [Matrix.conjTranspose_mul, Matrix.conjTranspose_conjTranspose, hst, Matrix.mul_assoc,
        ← Matrix.mul_assoc (diagonal _) (diagonal _), hmul, ← Matrix.mul_assoc]
      exact hAe.symm
    · intro hc
      simp only [hc, if_true]
      rw [Matrix.mul_assoc, ← Matrix.mul_assoc _ᴴ, hU, Matrix.one_mul, hinv]
  · simp only [if_true]
    refine ⟨rfl, ?_, ?_⟩
    · simp only [if_true]
      rw [Matrix.conjTranspose_mul, hst, Matrix.mul_assoc,
        ← Matrix.mul_assoc (diagonal _) (diagonal _), hmul, ← Matrix.mul_assoc]
      exact hAe.symm
    · intro hc
      simp only [hc, if_true]
      rw [Matrix.mul_assoc, ← Matrix.mul_assoc (diagonal _) (diagonal _), hinv, Matrix.one_mul, hU']

theorem hermFac_full (P : HermLib) (lower calcInv forceEvd : Bool) {tol : ℝ} (h0 : 0 ≤ tol) {n : ℕ}
    {A : Matrix (Fin n) (Fin n) ℂ} (h : AboveTol tol A) :
    ∃ f, hermFac P lower calcInv forceEvd tol A = some f ∧ f.Full A lower calcInv := by
  have hA := h.posDef h0
  unfold hermFac
  cases forceEvd
  · obtain ⟨x, hx⟩ := P.chol.ok lower A hA
    simp only [Bool.false_eq_true, if_false, hx]
    refine ⟨_, rfl, rfl, ?_, ?_⟩
    · cases lower
      · exact (P.chol.upper A x hA hx).1
      · exact (P.chol.lower A x hA hx).1
    · intro hc
      simp only [hc, if_true]
      apply Matrix.mul_nonsing_inv
      have hdet : IsUnit A.det := (Matrix.isUnit_iff_isUnit_det A).mp hA.isUnit
      have : x.det ≠ 0 := by
        intro h1
        apply hdet.ne_zero
        cases lower
        · rw [← (P.chol.upper A x hA hx).1, Matrix.det_mul, h1, mul_zero]
        · rw [← (P.chol.lower A x hA hx).1, Matrix.det_mul, h1, zero_mul]
      exact isUnit_iff_ne_zero.mpr this
  · simp only [if_true]
    exact hermFacEvd_full P.eigh lower calcInv h0 h

/-! ### The passes of the three loops -/

theorem rankEye_full (D : ℕ) : rankEye D D = 1 := if_pos rfl

theorem rcfCut_spec (P : HermLib) {tol : ℝ} (h0 : 0 ≤ tol) (diagL : Bool) (S : UMPS ℂ q D) (Gs Gis : GList D)
    (k : ℕ) (hr : AboveTol tol (S.r k)) (hl : (S.l k).PosSemidef) :
    ∃ G Gi lk, rcfCut P tol diagL (S, Gs, Gis) k = some ({ S with
        A := gaugeCut S.L k G Gi S.A
        l := Function.update S.l k lk
        r := Function.update S.r k 1 }, Function.update Gs k (some G), Function.update Gis k (some Gi))
      ∧ G * Gi = 1 ∧ lk = Gᴴ * S.l k * G ∧ 1 = Gi * S.r k * Giᴴ
      ∧ (diagL = true → ∃ e : Fin D → ℝ, (∀ i, 0 ≤ e i) ∧ lk = diagonal fun i => (e i : ℂ)) := by
  obtain ⟨f, hf, hF⟩ := hermFac_full P true true false h0 hr
  have hinv := hF.inv rfl
  have hinv' := mul_eq_one_comm.mp hinv
  have hfac : f.x * f.xᴴ = S.r k := hF.fac
  have hr1 : (1 : Matrix (Fin D) (Fin D) ℂ) = f.xi * S.r k * f.xiᴴ := by
    rw [← hfac, ← Matrix.mul_assoc, hinv', Matrix.one_mul, inv_star hinv']
  set M := f.xᴴ * (S.l k * f.x) with hM
  have hMp : M.PosSemidef := by
    rw [hM, ← Matrix.mul_assoc]
    exact hl.conjTranspose_mul_mul_same f.x
  have hMh := hMp.isHermitian
  have hU := P.eigh.unit M hMh
  have hU' := mul_eq_one_comm.mp hU
  have hD : (P.eigh.vec M)ᴴ * M * P.eigh.vec M = diagonal (P.eigh.ev M) := by
    rw [Matrix.mul_assoc, P.eigh.eig M hMh, ← Matrix.mul_assoc, hU, Matrix.one_mul]
  simp only [rcfCut, hf, Option.bind_some, hF.rank, rankEye_full, ← hM]
  refine ⟨_, _, _, rfl, ?_, ?_, ?_, ?_⟩
  · cases diagL
    · exact hinv
    · simp only [if_true]
      rw [Matrix.mul_assoc, ← Matrix.mul_assoc (P.eigh.vec M), hU', Matrix.one_mul, hinv]
  · cases diagL
    · simp only [Bool.false_eq_true, if_false, hM, Matrix.mul_assoc]
    · simp only [if_true]
      rw [← hD, hM]
      simp only [Matrix.conjTranspose_mul, Matrix.mul_assoc]
  · cases diagL
    · exact hr1
    · simp only [if_true]
      have : (P.eigh.vec M)ᴴ * f.xi * S.r k * ((P.eigh.vec M)ᴴ * f.xi)ᴴ
          = (P.eigh.vec M)ᴴ * (f.xi * S.r k * f.xiᴴ) * P.eigh.vec M := by
        simp only [Matrix.conjTranspose_mul, Matrix.conjTranspose_conjTranspose, Matrix.mul_assoc]
      rw [this, ← hr1, Matrix.mul_one, hU]
  · intro hd
    simp only [hd, if_true]
    refine ⟨fun i => (P.eigh.ev M i).re, fun i => ?_, ?_⟩
    · have h1 := (hMp.conjTranspose_mul_mul_same (P.eigh.vec M))
      rw [hD] at h1
      have h2 := h1.diag_nonneg (i := i)
      rw [Matrix.diagonal_apply_eq] at h2
      exact (Complex.le_def.mp h2).1
    · congr 1
      funext i
      exact ev_real P.eigh hMh i

theorem lcfCut_spec (P : HermLib) {tol : ℝ} (h0 : 0 ≤ tol) (diagR : Bool) (S : UMPS ℂ q D) (Gs Gis : GList D)
    (k : ℕ) (hl : AboveTol tol (S.l k)) (hr : (S.r k).PosSemidef) :
    ∃ G Gi rk, lcfCut P tol diagR (S, Gs, Gis) k = some ({ S with
        A := gaugeCut S.L k G Gi S.A
        r := Function.update S.r k rk
        l := Function.update S.l k 1 }, Function.update Gs k (some G), Function.update Gis k (some Gi))
      ∧ G * Gi = 1
      ∧ (diagR = false → 1 = Gᴴ * S.l k * G ∧ rk = Gi * S.r k * Giᴴ) := by
  obtain ⟨f, hf, hF⟩ := hermFac_full P false true false h0 hl
  have hinv := hF.inv rfl
  have hinv' := mul_eq_one_comm.mp hinv
  have hfac : f.xᴴ * f.x = S.l k := hF.fac
  set M := f.x * (S.r k * f.xᴴ) with hM
  have hMp : M.PosSemidef := by
    rw [hM, ← Matrix.mul_assoc]
    exact hr.mul_mul_conjTranspose_same f.x
  have hMh := hMp.isHermitian
  have hU := P.eigh.unit M hMh
  have hU' := mul_eq_one_comm.mp hU
  simp only [lcfCut, hf, Option.bind_some, hF.rank, rankEye_full, ← hM]
  refine ⟨_, _, _, rfl, ?_, ?_⟩
  · cases diagR
    · exact hinv'
    · simp only [if_true]
      rw [Matrix.mul_assoc, ← Matrix.mul_assoc f.xi, hinv', Matrix.one_mul, hU']
  · intro hd
    simp only [hd, Bool.false_eq_true, if_false]
    constructor
    · rw [← hfac, ← Matrix.mul_assoc, inv_star hinv, Matrix.one_mul, hinv]
    · rw [hM, Matrix.mul_assoc]

/-- The singular value decomposition of a square matrix as a product. -/
theorem svd_square {n : ℕ} {Z : Matrix (Fin n) (Fin n) ℂ} (f : SvdOf Z) :
    Z = f.U * (diagonal fun i => (f.sv (Fin.cast (Nat.min_self n).symm i) : ℂ)) * f.Vh := by
  ext i j
  rw [f.eq i j, Matrix.mul_apply]
  simp only [Matrix.mul_diagonal]
  rw [← (finCongr (Nat.min_self n).symm).sum_comp]
  rfl

theorem psd_flip {n : ℕ} {tol : ℝ} (h0 : 0 ≤ tol) {Y : Matrix (Fin n) (Fin n) ℂ} (h : AboveTol tol (Yᴴ * Y)) :
    (Y * Yᴴ - (tol : ℂ) • (1 : Matrix (Fin n) (Fin n) ℂ)).PosSemidef := by
  have hdet : IsUnit (Yᴴ * Y).det := (Matrix.isUnit_iff_isUnit_det _).mp (h.posDef h0).isUnit
  have hY : IsUnit Y.det := by
    rw [Matrix.det_mul] at hdet
    exact isUnit_of_mul_isUnit_right hdet
  have hz : (0 : ℂ) ≤ (tol : ℂ) := by exact_mod_cast h0
  set l := Yᴴ * Y with hl
  set d := l - (tol : ℂ) • (1 : Matrix (Fin n) (Fin n) ℂ) with hd
  have hdd : d.PosSemidef := Matrix.PosDef.posSemidef h
  have h1 : (l * l - (tol : ℂ) • l).PosSemidef := by
    have h2 : l * l - (tol : ℂ) • l = dᴴ * d + (tol : ℂ) • d := by
      rw [hdd.isHermitian.eq, hd, Matrix.sub_mul, Matrix.mul_sub, Matrix.mul_sub, Matrix.smul_mul, Matrix.smul_mul,
        Matrix.mul_smul, Matrix.mul_smul, Matrix.one_mul, Matrix.mul_one, Matrix.mul_one, smul_sub]
      abel
    rw [h2]
    exact (Matrix.posSemidef_conjTranspose_mul_self d).add (hdd.smul hz)
  have h3 := h1.conjTranspose_mul_mul_same Y⁻¹
  have h4 : Y * Y⁻¹ = 1 := Matrix.mul_nonsing_inv Y hY
  have h5 : (Y⁻¹)ᴴ * Yᴴ = 1 := inv_star h4
  have h6 : (Y⁻¹)ᴴ * (l * l - (tol : ℂ) • l) * Y⁻¹ = Y * Yᴴ - (tol : ℂ) • (1 : Matrix (Fin n) (Fin n) ℂ) := by
    rw [Matrix.mul_sub, Matrix.sub_mul, Matrix.mul_smul, Matrix.smul_mul, hl]
    have e1 : (Y⁻¹)ᴴ * (Yᴴ * Y * (Yᴴ * Y)) * Y⁻¹ = ((Y⁻¹)ᴴ * Yᴴ) * Y * Yᴴ * (Y * Y⁻¹) := by
      simp only [Matrix.mul_assoc]
    have e2 : (Y⁻¹)ᴴ * (Yᴴ * Y) * Y⁻¹ = ((Y⁻¹)ᴴ * Yᴴ) * (Y * Y⁻¹) := by
      simp only [Matrix.mul_assoc]
    rw [e1, e2, h4, h5, Matrix.one_mul, Matrix.mul_one, Matrix.one_mul]
  rwa [h6] at h3

theorem scfCut_spec (P : HermLib) (svd : Svd) (hsvd : ∀ Z : Matrix (Fin D) (Fin D) ℂ, (svd Z).isSome) {tol : ℝ}
    (h0 : 0 ≤ tol) (forceEvd : Bool) (S : UMPS ℂ q D)
    (k : ℕ) (hl : AboveTol tol (S.l k)) (hr : AboveTol tol (S.r k)) :
    ∃ (G Gi : Matrix (Fin D) (Fin D) ℂ) (e : Fin D → ℝ), scfCut P svd tol forceEvd S k = some { S with
        A := gaugeCut S.L k G Gi S.A
        l := Function.update S.l k (diagonal fun i => (e i : ℂ))
        r := Function.update S.r k (diagonal fun i => (e i : ℂ)) }
      ∧ G * Gi = 1 ∧ (diagonal fun i => (e i : ℂ)) = Gᴴ * S.l k * G
      ∧ (diagonal fun i => (e i : ℂ)) = Gi * S.r k * Giᴴ ∧ (∀ i, tol < e i)
      ∧ ∀ i j, i ≤ j → e j ≤ e i := by
  obtain ⟨fX, hfX, hFX⟩ := hermFac_full P true false forceEvd h0 hr
  obtain ⟨fY, hfY, hFY⟩ := hermFac_full P false false forceEvd h0 hl
  have hX : fX.x * fX.xᴴ = S.r k := hFX.fac
  have hY : fY.xᴴ * fY.x = S.l k := hFY.fac
  obtain ⟨f, hf⟩ := Option.isSome_iff_exists.mp (hsvd (fY.x * fX.x))
  have hsq := svd_square f
  obtain ⟨U, sv, Vh, hUU, hVV, hnn, hdesc, heq⟩ := f
  obtain ⟨e, he⟩ : ∃ e : Fin D → ℝ, ∀ i, sv (Fin.cast (Nat.min_self D).symm i) = e i := ⟨_, fun _ => rfl⟩
  simp only [he] at hsq
  have hUU' := mul_eq_one_comm.mp hUU
  have hdiag : (diagonal fun i => (e i : ℂ))ᴴ = diagonal fun i => (e i : ℂ) := by
    rw [Matrix.diagonal_conjTranspose]
    congr 1
    funext i
    simp
  have hYrY : fY.x * S.r k * fY.xᴴ = U * (diagonal fun i => (e i : ℂ) * (e i : ℂ)) * Uᴴ := by
    have e1 : fY.x * S.r k * fY.xᴴ = (fY.x * fX.x) * (fY.x * fX.x)ᴴ := by
      rw [← hX, Matrix.conjTranspose_mul]
      simp only [Matrix.mul_assoc]
    rw [e1, hsq, Matrix.conjTranspose_mul, Matrix.conjTranspose_mul, hdiag]
    simp only [Matrix.mul_assoc]
    rw [← Matrix.mul_assoc Vh, hVV, Matrix.one_mul, ← Matrix.mul_assoc (diagonal _) (diagonal _),
      Matrix.diagonal_mul_diagonal]
  have hpos : ∀ i, tol < e i := by
    have hYdet : IsUnit fY.x := by
      rw [Matrix.isUnit_iff_isUnit_det]
      have := (Matrix.isUnit_iff_isUnit_det _).mp (hl.posDef h0).isUnit
      rw [← hY, Matrix.det_mul] at this
      exact isUnit_of_mul_isUnit_right this
    have h1 : (fY.x * (S.r k - (tol : ℂ) • (1 : Matrix (Fin D) (Fin D) ℂ)) * fY.xᴴ).PosDef :=
      Matrix.PosDef.mul_mul_conjTranspose_same hr (Matrix.vecMul_injective_of_isUnit hYdet)
    have hz : (0 : ℂ) ≤ (tol : ℂ) := by exact_mod_cast h0
    have h2 := (psd_flip h0 (Y := fY.x) (by rw [hY]; exact hl)).smul hz
    have h3 := Matrix.PosDef.add_posSemidef h1 h2
    have hUinj : Function.Injective U.mulVec := by
      intro x y hxy
      have := congrArg (Uᴴ *ᵥ ·) hxy
      simpa [Matrix.mulVec_mulVec, hUU] using this
    have h4 := Matrix.PosDef.conjTranspose_mul_mul_same h3 hUinj
    have h5 : Uᴴ * (fY.x * (S.r k - (tol : ℂ) • (1 : Matrix (Fin D) (Fin D) ℂ)) * fY.xᴴ
        + (tol : ℂ) • (fY.x * fY.xᴴ - (tol : ℂ) • (1 : Matrix (Fin D) (Fin D) ℂ))) * U
        = diagonal fun i => (e i : ℂ) * (e i : ℂ) - (tol : ℂ) * (tol : ℂ) := by
      have e1 : fY.x * (S.r k - (tol : ℂ) • (1 : Matrix (Fin D) (Fin D) ℂ)) * fY.xᴴ
        + (tol : ℂ) • (fY.x * fY.xᴴ - (tol : ℂ) • (1 : Matrix (Fin D) (Fin D) ℂ))
          = fY.x * S.r k * fY.xᴴ - ((tol : ℂ) * (tol : ℂ)) • (1 : Matrix (Fin D) (Fin D) ℂ) := by
        rw [Matrix.mul_sub, Matrix.sub_mul, Matrix.mul_smul, Matrix.mul_one, Matrix.smul_mul, smul_sub, smul_smul]
        abel
      rw [e1, hYrY, Matrix.mul_sub, Matrix.sub_mul, Matrix.mul_smul, Matrix.mul_one, Matrix.smul_mul, hUU]
      have e2 : Uᴴ * (U * (diagonal fun i => (e i : ℂ) * (e i : ℂ)) * Uᴴ) * U
          = (Uᴴ * U) * (diagonal fun i => (e i : ℂ) * (e i : ℂ)) * (Uᴴ * U) := by
        simp only [Matrix.mul_assoc]
      rw [e2, hUU, Matrix.one_mul, Matrix.mul_one]
      ext a b
      by_cases hab : a = b
      · subst hab; simp
      · simp [hab]
    rw [h5] at h4
    intro i
    have h6 := h4.diag_pos (i := i)
    rw [Matrix.diagonal_apply_eq] at h6
    have h7 : (0 : ℝ) < e i * e i - tol * tol := by exact_mod_cast h6
    have h8 : 0 ≤ e i := (he i) ▸ hnn _
    nlinarith
  have hne : ∀ i, csqrt (e i : ℂ) ≠ 0 := fun i => csqrt_pos (lt_of_le_of_lt h0 (hpos i))
  have hcount : countAbove tol e = D := countAbove_full hpos
  have hrec : lastRecip D (fun i => csqrt (e i : ℂ)) = some fun i => 1 / csqrt (e i : ℂ) := by
    rw [lastRecip, if_neg (by rintro ⟨i, _, hi⟩; exact hne i hi)]
    congr 1
    funext i
    rw [if_pos (lastSlice_full D i)]
  set T : Matrix (Fin D) (Fin D) ℂ := diagonal fun i => 1 / csqrt (e i : ℂ) with hT
  have hTs : Tᴴ = T := by
    rw [hT, Matrix.diagonal_conjTranspose]
    congr 1
    funext i
    rw [Pi.star_apply, star_div₀, star_one, csqrt_star (h0.trans (hpos i).le)]
  have hTe : T * (diagonal fun i => (e i : ℂ)) * T = 1 := by
    rw [hT, Matrix.diagonal_mul_diagonal, Matrix.diagonal_mul_diagonal, ← Matrix.diagonal_one]
    congr 1
    funext i
    have := csqrt_sq (e i : ℂ)
    field_simp [hne i]
    rw [pow_two, this]
  have hTee : T * (diagonal fun i => (e i : ℂ) * (e i : ℂ)) * T = diagonal fun i => (e i : ℂ) := by
    rw [hT, Matrix.diagonal_mul_diagonal, Matrix.diagonal_mul_diagonal]
    congr 1
    funext i
    have := csqrt_sq (e i : ℂ)
    field_simp [hne i]
    rw [pow_two (csqrt _), this]
    ring
  simp only [scfCut, hfX, hfY, hf, Option.bind_some, he, hcount, hrec, ← hT]
  refine ⟨_, _, e, rfl, ?_, ?_, ?_, hpos, ?_⟩
  · rw [mul_eq_one_comm]
    have : T * Uᴴ * fY.x * (fX.x * Vhᴴ * T) = T * (Uᴴ * (fY.x * fX.x) * Vhᴴ) * T := by
      simp only [Matrix.mul_assoc]
    rw [this, hsq]
    have e2 : Uᴴ * (U * (diagonal fun i => (e i : ℂ)) * Vh) * Vhᴴ
        = (Uᴴ * U) * (diagonal fun i => (e i : ℂ)) * (Vh * Vhᴴ) := by
      simp only [Matrix.mul_assoc]
    rw [e2, hUU, hVV, Matrix.one_mul, Matrix.mul_one, hTe]
  · rw [← hY]
    have e1 : (fX.x * Vhᴴ * T)ᴴ * (fY.xᴴ * fY.x) * (fX.x * Vhᴴ * T)
        = T * (Vh * ((fY.x * fX.x)ᴴ * (fY.x * fX.x)) * Vhᴴ) * T := by
      simp only [Matrix.conjTranspose_mul, Matrix.conjTranspose_conjTranspose, hTs, Matrix.mul_assoc]
    rw [e1, hsq, Matrix.conjTranspose_mul, Matrix.conjTranspose_mul, hdiag]
    have e2 : Vh * (Vhᴴ * ((diagonal fun i => (e i : ℂ)) * Uᴴ) * (U * (diagonal fun i => (e i : ℂ)) * Vh))
        * Vhᴴ = (Vh * Vhᴴ) * ((diagonal fun i => (e i : ℂ)) * (Uᴴ * U)
          * (diagonal fun i => (e i : ℂ))) * (Vh * Vhᴴ) := by
      simp only [Matrix.mul_assoc]
    rw [e2, hUU, hVV, Matrix.one_mul, Matrix.mul_one, Matrix.mul_one, Matrix.diagonal_mul_diagonal, hTee]
  · have e1 : T * Uᴴ * fY.x * S.r k * (T * Uᴴ * fY.x)ᴴ
        = T * (Uᴴ * (fY.x * S.r k * fY.xᴴ) * U) * T := by
      simp only [Matrix.conjTranspose_mul, Matrix.conjTranspose_conjTranspose, hTs, Matrix.mul_assoc]
    rw [e1, hYrY]
    have e2 : Uᴴ * (U * (diagonal fun i => (e i : ℂ) * (e i : ℂ)) * Uᴴ) * U
        = (Uᴴ * U) * (diagonal fun i => (e i : ℂ) * (e i : ℂ)) * (Uᴴ * U) := by
      simp only [Matrix.mul_assoc]
    rw [e2, hUU, Matrix.one_mul, Matrix.mul_one, hTee]
  · intro i j hij
    rw [← he i, ← he j]
    exact hdesc _ _ hij

/-! ### The loops over the cuts -/

/-- The loop over the cuts, for any of the three routines. -/
theorem cuts_fold {σ : Type*} (st : σ → UMPS ℂ q D) (step : σ → ℕ → Option σ) (full : Prop)
    (good : ℕ → Matrix (Fin D) (Fin D) ℂ → Matrix (Fin D) (Fin D) ℂ → Prop)
    (rec : σ → ℕ → Matrix (Fin D) (Fin D) ℂ → Matrix (Fin D) (Fin D) ℂ → Prop) (s0 : σ) (ks : List ℕ)
    (hstep : ∀ s, ∀ k ∈ ks, (st s).L = (st s0).L → (st s).l k = (st s0).l k → (st s).r k = (st s0).r k →
      ∃ s' G Gi lk rk, step s k = some s' ∧ st s' = { st s with
          A := gaugeCut (st s).L k G Gi (st s).A
          l := Function.update (st s).l k lk
          r := Function.update (st s).r k rk } ∧ G * Gi = 1 ∧
        (full → lk = Gᴴ * (st s).l k * G ∧ rk = Gi * (st s).r k * Giᴴ) ∧ good k lk rk ∧
        rec s' k G Gi ∧ ∀ k' ≠ k, ∀ g gi, rec s k' g gi → rec s' k' g gi)
    (hnd : ks.Nodup) (hks : ∀ k ∈ ks, k < (st s0).L) :
    ∃ s' g gi, ks.foldl (fun s k => s.bind fun s => step s k) (some s0) = some s'
      ∧ (st s').L = (st s0).L ∧ (st s').AA = (st s0).AA ∧ (st s').lL = (st s0).lL ∧ (st s').rL = (st s0).rL
      ∧ GaugeBy (st s0).L g gi (st s0).A (st s').A
      ∧ (full → GaugeRel (st s0).L g gi (st s0).A (st s0).l (st s0).r (st s').A (st s').l (st s').r)
      ∧ (∀ k ∈ ks, good k ((st s').l k) ((st s').r k) ∧ rec s' k (g k) (gi k))
      ∧ ∀ k, k ∉ ks → (st s').l k = (st s0).l k ∧ (st s').r k = (st s0).r k ∧ g k = 1 ∧ gi k = 1 := by
  induction ks using List.reverseRecOn with
  | nil =>
    exact ⟨s0, fun _ => 1, fun _ => 1, rfl, rfl, rfl, rfl, rfl, .refl _ _, fun _ => .refl _ _ _ _,
      by simp, by simp⟩
  | append_singleton ks k ih =>
    have hk : k ∉ ks := by
      rw [List.nodup_append] at hnd
      intro h
      exact hnd.2.2 k h k (by simp) rfl
    obtain ⟨s1, g, gi, h1, h2, h3, h4, h5, h6, h7, h8, h9⟩ := ih
      (fun s k' hk' => hstep s k' (by simp [hk'])) (List.nodup_append.mp hnd).1 (fun k' hk' => hks k' (by simp [hk']))
    obtain ⟨e1, e2, e3, e4⟩ := h9 k hk
    obtain ⟨s', G, Gi, lk, rk, j1, j2, j3, j4, j5, j6, j7⟩ := hstep s1 k (by simp) h2 e1 e2
    have hkL : k < (st s0).L := hks k (by simp)
    have hby := gaugeCut_by hkL j3 (st s1).A
    refine ⟨s', fun n => g n * Function.update (fun _ => (1 : Matrix (Fin D) (Fin D) ℂ)) k G n,
      fun n => Function.update (fun _ => (1 : Matrix (Fin D) (Fin D) ℂ)) k Gi n * gi n, ?_, ?_, ?_, ?_, ?_, ?_, ?_, ?_, ?_⟩
    · rw [List.foldl_append, h1]
      simpa using j1
    · rw [j2]; exact h2
    · rw [j2]; exact h3
    · rw [j2]; exact h4
    · rw [j2]; exact h5
    · rw [j2, h2]
      exact h6.trans hby
    · intro hf
      rw [j2, h2]
      obtain ⟨i1, i2⟩ := j4 hf
      exact (h7 hf).trans (cut_rel hkL j3 _ _ _ i1 i2)
    · intro k' hk'
      by_cases hkk : k' = k
      · subst hkk
        rw [j2]
        simp only [Function.update_self, e3, e4, Matrix.one_mul, Matrix.mul_one]
        exact ⟨j5, j6⟩
      · have hm : k' ∈ ks := by
          rcases List.mem_append.mp hk' with h | h
          · exact h
          · exact absurd (List.mem_singleton.mp h) hkk
        rw [j2]
        simp only [Function.update_of_ne hkk, Matrix.one_mul, Matrix.mul_one]
        exact ⟨(h8 k' hm).1, j7 k' hkk _ _ (h8 k' hm).2⟩
    · intro k' hk'
      have hkk : k' ≠ k := fun h => hk' (by simp [h])
      have hm : k' ∉ ks := fun h => hk' (by simp [h])
      rw [j2]
      simp only [Function.update_of_ne hkk, Matrix.one_mul, Matrix.mul_one]
      exact h9 k' hm

theorem foldl_guard {σ : Type*} (step : σ → ℕ → Option σ) (L : ℕ) (ks : List ℕ) (h : ∀ k ∈ ks, k < L)
    (s : Option σ) :
    ks.foldl (fun st k => st.bind fun st => if k < L then step st k else none) s
      = ks.foldl (fun st k => st.bind fun st => step st k) s := by
  induction ks generalizing s with
  | nil => rfl
  | cons k ks ih =>
    simp only [List.foldl_cons]
    rw [ih (fun k' hk' => h k' (by simp [hk'])), show (fun st => if k < L then step st k else none)
      = fun st => step st k from funext fun st => if_pos (h k (by simp))]

end Uni

end EvoMPS
