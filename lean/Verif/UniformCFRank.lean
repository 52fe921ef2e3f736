import Verif.UniformCFLemmas
import Mathlib.Order.Interval.Finset.Fin

/-!
# The uniform chain: right canonical form without full rank (helper lemmas)
-/

set_option linter.unusedSectionVars false

namespace EvoMPS

open Matrix
open scoped ComplexOrder

section
variable {q D : ℕ}

/-- At the cut `k` of the chain the gauge matrices act as inverses of each other on the range of `r k`. -/
structure CutRel (g gi l r l' r' : Matrix (Fin D) (Fin D) ℂ) : Prop where
  supp : g * gi * r = r
  range : g = r * giᴴ
  left : l' = gᴴ * l * g
  right : r' = gi * r * giᴴ

/-- All cuts are transformed in this way. -/
structure SupportRel (L : ℕ) (g gi : ℕ → Matrix (Fin D) (Fin D) ℂ)
    (A : ℕ → Fin q → Matrix (Fin D) (Fin D) ℂ) (l r : ℕ → Matrix (Fin D) (Fin D) ℂ)
    (A' : ℕ → Fin q → Matrix (Fin D) (Fin D) ℂ) (l' r' : ℕ → Matrix (Fin D) (Fin D) ℂ) : Prop where
  eq : ∀ k < L, ∀ s, A' k s = gi ((k + L - 1) % L) * A k s * g k
  cut : ∀ k < L, CutRel (g k) (gi k) (l k) (r k) (l' k) (r' k)
  psd : ∀ k < L, (r k).PosSemidef

/-- A sum of positive semidefinite matrices vanishes only if all its terms do. -/
theorem psd_sum_zero {ι : Type*} [Fintype ι] {n : ℕ} (M : ι → Matrix (Fin n) (Fin n) ℂ)
    (h : ∀ i, (M i).PosSemidef) (h0 : ∑ i, M i = 0) (i : ι) : M i = 0 := by
  have h1 : ∑ i, (M i).trace = 0 := by rw [← Matrix.trace_sum, h0, Matrix.trace_zero]
  have h2 := (Finset.sum_eq_zero_iff_of_nonneg (fun i _ => (h i).trace_nonneg)).mp h1 i (Finset.mem_univ i)
  exact (h i).trace_eq_zero_iff.mp h2

theorem psd_conj_zero {n : ℕ} {X r : Matrix (Fin n) (Fin n) ℂ} (hr : r.PosSemidef) (h : X * r * Xᴴ = 0) :
    X * r = 0 := by
  have hx : ∀ v, r *ᵥ (Xᴴ *ᵥ v) = 0 := by
    intro v
    rw [← hr.dotProduct_mulVec_zero_iff]
    have h1 : star (Xᴴ *ᵥ v) ⬝ᵥ r *ᵥ Xᴴ *ᵥ v = star v ⬝ᵥ ((X * r * Xᴴ) *ᵥ v) := by
      rw [Matrix.star_mulVec, Matrix.conjTranspose_conjTranspose, ← Matrix.dotProduct_mulVec, Matrix.mulVec_mulVec,
        Matrix.mulVec_mulVec, Matrix.mul_assoc]
    rw [h1, h, Matrix.zero_mulVec, dotProduct_zero]
  have h2 : r * Xᴴ = 0 := by
    ext i j
    have := congrFun (hx (Pi.single j 1)) i
    rw [Matrix.mulVec_mulVec, Matrix.mulVec_single_one] at this
    exact this
  have h3 := congrArg Matrix.conjTranspose h2
  rwa [Matrix.conjTranspose_mul, Matrix.conjTranspose_conjTranspose, hr.isHermitian.eq, Matrix.conjTranspose_zero] at h3

variable {L : ℕ} {g gi : ℕ → Matrix (Fin D) (Fin D) ℂ}
    {A : ℕ → Fin q → Matrix (Fin D) (Fin D) ℂ} {l r : ℕ → Matrix (Fin D) (Fin D) ℂ}
    {A' : ℕ → Fin q → Matrix (Fin D) (Fin D) ℂ} {l' r' : ℕ → Matrix (Fin D) (Fin D) ℂ}

/-- Tensors map the range of `r k` into that of `r (k - 1)`. -/
theorem SupportRel.absorb (hL : 0 < L) (h : SupportRel L g gi A l r A' l' r') (hE : ChainEnv L A l r) (k : ℕ)
    (hk : k < L) (s : Fin q) :
    g ((k + L - 1) % L) * gi ((k + L - 1) % L) * (A k s * g k) = A k s * g k := by
  have hp := Nat.mod_lt (k + L - 1) hL
  have hc := h.cut _ hp
  set Q := 1 - g ((k + L - 1) % L) * gi ((k + L - 1) % L) with hQ
  have h1 : Q * r ((k + L - 1) % L) = 0 := by
    rw [hQ, Matrix.sub_mul, Matrix.one_mul, hc.supp, sub_self]
  have h2 : ∑ s, (Q * A k s) * r k * (Q * A k s)ᴴ = 0 := by
    have : ∀ s, (Q * A k s) * r k * (Q * A k s)ᴴ = Q * (A k s * r k * (A k s)ᴴ) * Qᴴ := by
      intro s
      simp only [Matrix.conjTranspose_mul, Matrix.mul_assoc]
    simp only [this]
    rw [← Finset.sum_mul, ← Finset.mul_sum, ← hE.right k hk, h1, Matrix.zero_mul]
  have h3 := psd_sum_zero _ (fun s => (h.psd k hk).mul_mul_conjTranspose_same (Q * A k s)) h2 s
  have h4 := psd_conj_zero (h.psd k hk) h3
  have h5 : Q * (A k s * g k) = 0 := by
    rw [(h.cut k hk).range, ← Matrix.mul_assoc, ← Matrix.mul_assoc, h4, Matrix.zero_mul]
  rw [hQ, Matrix.sub_mul, Matrix.one_mul, sub_eq_zero] at h5
  exact h5.symm

theorem CutRel.supp_g {g gi l r l' r' : Matrix (Fin D) (Fin D) ℂ} (h : CutRel g gi l r l' r') : g * gi * g = g := by
  calc g * gi * g = g * gi * (r * giᴴ) := by rw [← h.range]
    _ = g * gi * r * giᴴ := by rw [Matrix.mul_assoc (g * gi) r]
    _ = g := by rw [h.supp, ← h.range]

theorem CutRel.supp_star {g gi l r l' r' : Matrix (Fin D) (Fin D) ℂ} (h : CutRel g gi l r l' r')
    (hr : r.PosSemidef) : r * (giᴴ * gᴴ) = r := by
  have := congrArg Matrix.conjTranspose h.supp
  rwa [Matrix.conjTranspose_mul, hr.isHermitian.eq, Matrix.conjTranspose_mul] at this

theorem SupportRel.absorbProd (hL : 0 < L) (h : SupportRel L g gi A l r A' l' r') (hE : ChainEnv L A l r) (k : ℕ) :
    ∀ n (s : Fin n → Fin q), g ((k + L - 1) % L) * gi ((k + L - 1) % L)
      * (chainProd L A k n s * g ((k + n + L - 1) % L)) = chainProd L A k n s * g ((k + n + L - 1) % L) := by
  intro n
  induction n with
  | zero =>
    intro s
    rw [chainProd_zero, Matrix.one_mul, Nat.add_zero]
    exact (h.cut _ (Nat.mod_lt _ hL)).supp_g
  | succ n ih =>
    intro s
    have hj := Nat.mod_lt (k + n) hL
    have ha := h.absorb hL hE _ hj (s (Fin.last n))
    rw [mod_pred hL] at ha
    rw [← Fin.snoc_init_self s, chainProd_snoc, show k + (n + 1) + L - 1 = k + n + 1 + L - 1 by omega, mod_pred_succ,
      Matrix.mul_assoc (chainProd L A k n _), ← ha]
    have hi := ih (Fin.init s)
    generalize g ((k + L - 1) % L) * gi ((k + L - 1) % L) = Q at *
    generalize A ((k + n) % L) (s (Fin.last n)) * g ((k + n) % L) = Z at *
    rw [Matrix.mul_assoc (g _) (gi _) Z, ← Matrix.mul_assoc (chainProd _ _ _ _ _) (g _), ← Matrix.mul_assoc Q, hi]

theorem SupportRel.prod (hL : 0 < L) (h : SupportRel L g gi A l r A' l' r') (hE : ChainEnv L A l r) (k : ℕ) :
    ∀ n (s : Fin (n + 1) → Fin q), chainProd L A' k (n + 1) s
      = gi ((k + L - 1) % L) * (chainProd L A k (n + 1) s * g ((k + n) % L)) := by
  intro n
  induction n with
  | zero =>
    intro s
    rw [chainProd_one, chainProd_one, h.eq _ (Nat.mod_lt _ hL), mod_pred hL, Nat.add_zero, Matrix.mul_assoc]
  | succ n ih =>
    intro s
    have ha := h.absorb hL hE _ (Nat.mod_lt (k + (n + 1)) hL) (s (Fin.last (n + 1)))
    rw [mod_pred hL, show k + (n + 1) + L - 1 = k + n + 1 + L - 1 by omega, mod_pred_succ] at ha
    rw [← Fin.snoc_init_self s, chainProd_snoc, chainProd_snoc, ih, h.eq _ (Nat.mod_lt _ hL),
      mod_pred hL, show k + (n + 1) + L - 1 = k + n + 1 + L - 1 by omega, mod_pred_succ]
    conv_rhs => rw [Matrix.mul_assoc (chainProd L A k (n + 1) _), ← ha]
    simp only [Matrix.mul_assoc]

theorem SupportRel.env (hL : 0 < L) (h : SupportRel L g gi A l r A' l' r') (hE : ChainEnv L A l r) :
    ChainEnv L A' l' r' where
  left k hk := by
    have hp := Nat.mod_lt (k + L - 1) hL
    rw [(h.cut k hk).left, hE.left k hk, (h.cut _ hp).left, Finset.mul_sum, Finset.sum_mul]
    refine Finset.sum_congr rfl fun s _ => ?_
    rw [h.eq k hk]
    have ha := h.absorb hL hE k hk s
    generalize g ((k + L - 1) % L) = G at *
    generalize gi ((k + L - 1) % L) = Gi at *
    have e1 : (Gi * A k s * g k)ᴴ * (Gᴴ * l ((k + L - 1) % L) * G) * (Gi * A k s * g k)
        = (G * Gi * (A k s * g k))ᴴ * l ((k + L - 1) % L) * (G * Gi * (A k s * g k)) := by
      simp only [Matrix.conjTranspose_mul, Matrix.mul_assoc]
    rw [e1, ha]
    simp only [Matrix.conjTranspose_mul, Matrix.mul_assoc]
  right k hk := by
    have hp := Nat.mod_lt (k + L - 1) hL
    rw [(h.cut _ hp).right, hE.right k hk, (h.cut k hk).right, Finset.mul_sum, Finset.sum_mul]
    refine Finset.sum_congr rfl fun s _ => ?_
    rw [h.eq k hk]
    have h1 := (h.cut k hk).supp
    have h2 := (h.cut k hk).supp_star (h.psd k hk)
    generalize gi ((k + L - 1) % L) = Gi at *
    have : Gi * A k s * g k * (gi k * r k * (gi k)ᴴ) * (Gi * A k s * g k)ᴴ
        = Gi * A k s * ((g k * gi k * r k) * ((gi k)ᴴ * (g k)ᴴ)) * (A k s)ᴴ * Giᴴ := by
      simp only [Matrix.conjTranspose_mul, Matrix.mul_assoc]
    rw [this, h1, h2]
    simp only [Matrix.mul_assoc]
  norm k hk := by
    rw [← hE.norm k hk, (h.cut k hk).left, (h.cut k hk).right]
    have h1 := (h.cut k hk).supp
    have h2 := (h.cut k hk).supp_star (h.psd k hk)
    have : ((g k)ᴴ * l k * g k)ᴴ * (gi k * r k * (gi k)ᴴ)
        = (g k)ᴴ * ((l k)ᴴ * (g k * gi k * r k) * (gi k)ᴴ) := by
      simp only [Matrix.conjTranspose_mul, Matrix.conjTranspose_conjTranspose, Matrix.mul_assoc]
    rw [this, h1, Matrix.trace_mul_comm, Matrix.mul_assoc ((l k)ᴴ * r k), Matrix.mul_assoc, h2]

theorem SupportRel.expect (hL : 0 < L) (h : SupportRel L g gi A l r A' l' r') (hE : ChainEnv L A l r)
    (k n : ℕ) (O : (Fin n → Fin q) → (Fin n → Fin q) → ℂ) :
    chainExpect L A' l' r' k n O = chainExpect L A l r k n O := by
  simp only [chainExpect]
  refine Finset.sum_congr rfl fun s _ => Finset.sum_congr rfl fun t _ => ?_
  congr 1
  have hp := Nat.mod_lt (k + L - 1) hL
  cases n with
  | zero =>
    have h1 := (h.env hL hE).norm _ hp
    have h2 := hE.norm _ hp
    simp only [chainProd_zero, Matrix.mul_one, Matrix.conjTranspose_one, Nat.add_zero]
    rw [h1, h2]
  | succ n =>
    rw [h.prod hL hE, h.prod hL hE, show k + (n + 1) + L - 1 = k + n + 1 + L - 1 by omega, mod_pred_succ]
    have hj := Nat.mod_lt (k + n) hL
    have ht := h.absorbProd hL hE k (n + 1) t
    have hs := h.absorbProd hL hE k (n + 1) s
    rw [show k + (n + 1) + L - 1 = k + n + 1 + L - 1 by omega, mod_pred_succ] at ht hs
    have hc := h.cut _ hj
    have h1 := hc.supp
    have h2 := hc.supp_star (h.psd _ hj)
    rw [(h.cut _ hp).left, hc.right]
    generalize g ((k + L - 1) % L) = G at *
    generalize gi ((k + L - 1) % L) = Gi at *
    generalize g ((k + n) % L) = H at *
    generalize gi ((k + n) % L) = Hi at *
    generalize chainProd L A k (n + 1) t = X at *
    generalize chainProd L A k (n + 1) s = Y at *
    generalize l ((k + L - 1) % L) = x at *
    generalize r ((k + n) % L) = y at *
    have e1 : (Gᴴ * x * G)ᴴ * (Gi * (X * H)) * (Hi * y * Hiᴴ) * (Gi * (Y * H))ᴴ
        = Gᴴ * (xᴴ * (G * Gi * (X * H)) * (Hi * y * Hiᴴ) * (Gi * (Y * H))ᴴ) := by
      simp only [Matrix.conjTranspose_mul, Matrix.conjTranspose_conjTranspose, Matrix.mul_assoc]
    have e2 : xᴴ * (X * H) * (Hi * y * Hiᴴ) * (Gi * (Y * H))ᴴ * Gᴴ
        = xᴴ * (X * H) * (Hi * y * Hiᴴ) * (G * Gi * (Y * H))ᴴ := by
      simp only [Matrix.conjTranspose_mul, Matrix.mul_assoc]
    have e3 : xᴴ * (X * H) * (Hi * y * Hiᴴ) * (Y * H)ᴴ = xᴴ * X * ((H * Hi * y) * (Hiᴴ * Hᴴ)) * Yᴴ := by
      simp only [Matrix.conjTranspose_mul, Matrix.mul_assoc]
    rw [e1, ht, Matrix.trace_mul_comm, e2, hs, e3, h1, h2]

end

namespace Uni

variable {q D : ℕ}

open Classical in
/-- An upward closed set of indices is the slice `[-m:]` with its number `m` of elements. -/
theorem up_iff {n : ℕ} (p : Fin n → Prop) (up : ∀ i j, i ≤ j → p i → p j) (i : Fin n) :
    p i ↔ n ≤ i + (Finset.univ.filter p).card := by
  constructor
  · intro hi
    have : Finset.Ici i ⊆ Finset.univ.filter p := by
      intro j hj
      exact Finset.mem_filter.mpr ⟨Finset.mem_univ _, up i j (Finset.mem_Ici.mp hj) hi⟩
    have := Finset.card_le_card this
    rw [Fin.card_Ici] at this
    omega
  · intro h
    by_contra hi
    have : Finset.univ.filter p ⊆ Finset.Ioi i := by
      intro j hj
      rw [Finset.mem_Ioi]
      by_contra hji
      exact hi (up j i (not_lt.mp hji) (Finset.mem_filter.mp hj).2)
    have := Finset.card_le_card this
    rw [Fin.card_Ioi] at this
    have := i.2
    omega

/-- The diagonal matrix with ones in the slice `[-m:]`. -/
def lastEye (n m : ℕ) : Matrix (Fin n) (Fin n) ℂ := diagonal fun i => if n ≤ i + m then 1 else 0

theorem rankEye_eq {n m : ℕ} (hm : 0 < m) : rankEye n m = lastEye n m := by
  unfold rankEye lastEye
  split
  · subst m
    rw [← Matrix.diagonal_one]
    congr 1
    funext i
    rw [if_pos (by omega)]
  · congr 1
    funext i
    simp only [lastSlice, hm.ne', false_or]

/-- What the factorisation `A = x xᴴ` of a matrix of any rank fulfils. -/
structure HermFac.Rank {n : ℕ} (f : HermFac n) (A : Matrix (Fin n) (Fin n) ℂ) : Prop where
  pos : 0 < f.rank
  supp : f.x * f.xi * A = A
  range : f.x = A * f.xiᴴ
  proj : f.xi * A * f.xiᴴ = lastEye n f.rank
  inv : f.xi * f.x = lastEye n f.rank

theorem eigvec_ne {n : ℕ} (eigh : Eigh ℂ) {A : Matrix (Fin n) (Fin n) ℂ} (hA : A.IsHermitian) (i : Fin n) :
    (fun j => eigh.vec A j i) ≠ 0 := by
  intro h
  have h1 := congrFun (congrFun (eigh.unit A hA) i) i
  rw [Matrix.mul_apply, Matrix.one_apply_eq] at h1
  have h2 : ∀ j, eigh.vec A j i = 0 := fun j => congrFun h j
  simp [h2] at h1

theorem eigvec_eq {n : ℕ} (eigh : Eigh ℂ) {A : Matrix (Fin n) (Fin n) ℂ} (hA : A.IsHermitian) (i : Fin n) :
    A *ᵥ (fun j => eigh.vec A j i) = eigh.ev A i • (fun j => eigh.vec A j i) := by
  funext a
  have h1 := congrFun (congrFun (eigh.eig A hA) a) i
  rw [Matrix.mul_diagonal, mul_comm] at h1
  exact h1

theorem hermFacEvd_rank (P : HermLib) {tol : ℝ} (h0 : 0 ≤ tol) {n : ℕ} {A : Matrix (Fin n) (Fin n) ℂ}
    (hA : A.PosSemidef) (hne : A ≠ 0) (hgap : ZeroOrAbove tol A) :
    ∃ f, hermFacEvd P.eigh true true tol A = some f ∧ f.Rank A := by
  have hH := hA.isHermitian
  set ev := P.eigh.ev A with hev
  set U := P.eigh.vec A with hUdef
  have hU : Uᴴ * U = 1 := P.eigh.unit A hH
  have hU' := mul_eq_one_comm.mp hU
  have hAe : A = U * diagonal ev * Uᴴ := by
    rw [← P.eigh.eig A hH, Matrix.mul_assoc, hU', Matrix.mul_one]
  have hreal : ∀ i, ev i = (((ev i).re : ℝ) : ℂ) := fun i => ev_real P.eigh hH i
  have hz : ∀ i, (ev i).re = 0 ∨ tol < (ev i).re := by
    intro i
    refine hgap _ _ (eigvec_ne P.eigh hH i) ?_
    rw [← hreal i]
    exact eigvec_eq P.eigh hH i
  set m := countAbove tol (fun i => (ev i).re) with hm
  have hup := up_iff (fun i => tol < (ev i).re) (fun i j hij hi => lt_of_lt_of_le hi (P.asc A hH i j hij))
  have hcard : (Finset.univ.filter fun i => tol < (ev i).re).card = m := by
    rw [hm, countAbove]
  have hup' : ∀ i : Fin n, tol < (ev i).re ↔ n ≤ i + m := by
    intro i
    rw [← hcard]
    convert hup i
  have hmpos : 0 < m := by
    rcases Nat.eq_zero_or_pos m with h | h
    · exfalso
      apply hne
      have : ev = fun _ => 0 := by
        funext i
        rw [hreal i]
        rcases hz i with h1 | h1
        · rw [h1, Complex.ofReal_zero]
        · have := (hup' i).mp h1
          omega
      rw [hAe, this, Matrix.diagonal_zero, Matrix.mul_zero, Matrix.zero_mul]
    · exact h
  have hslice : ∀ i : Fin n, lastSlice n m i ↔ tol < (ev i).re := by
    intro i
    rw [hup' i, lastSlice]
    simp [hmpos.ne']
  have hev0 : ∀ i, ¬ tol < (ev i).re → ev i = 0 := by
    intro i hi
    rw [hreal i, (hz i).resolve_right hi, Complex.ofReal_zero]
  have hsqne : ∀ i, tol < (ev i).re → csqrt (ev i) ≠ 0 := by
    intro i hi
    rw [hreal i]
    exact csqrt_pos (lt_of_le_of_lt h0 hi)
  have hsqst : ∀ i, tol < (ev i).re → star (csqrt (ev i)) = csqrt (ev i) := by
    intro i hi
    rw [hreal i]
    exact csqrt_star (h0.trans hi.le)
  set sq : Fin n → ℂ := lastOnly m (fun i => csqrt (ev i)) with hsq
  have hsqv : ∀ i, sq i = if tol < (ev i).re then csqrt (ev i) else 0 := by
    intro i
    rw [hsq, lastOnly]
    simp only [hslice]
  set sqi : Fin n → ℂ := fun i => if tol < (ev i).re then 1 / csqrt (ev i) else 0 with hsqi
  have hrec : lastRecip m sq = some sqi := by
    rw [lastRecip, if_neg]
    · congr 1
      funext i
      simp only [hslice, hsqv, hsqi]
      split <;> rfl
    · rintro ⟨i, hi, h⟩
      rw [hslice] at hi
      rw [hsqv, if_pos hi] at h
      exact hsqne i hi h
  refine ⟨⟨U * diagonal sq, diagonal sqi * Uᴴ, m⟩, ?_, ?_⟩
  · simp only [hermFacEvd, if_true, ← hev, ← hm, ← hsq, hrec, Option.bind_some, ← hUdef]
  · have hst : (diagonal sqi)ᴴ = diagonal sqi := by
      rw [Matrix.diagonal_conjTranspose]
      congr 1
      funext i
      simp only [hsqi, Pi.star_apply]
      split
      · next h => rw [star_div₀, star_one, hsqst i h]
      · exact star_zero ℂ
    have hone : lastEye n m = diagonal fun i => if tol < (ev i).re then (1 : ℂ) else 0 := by
      unfold lastEye
      congr 1
      funext i
      simp only [hup' i]
    refine ⟨hmpos, ?_, ?_, ?_, ?_⟩
    · simp only
      conv_lhs => rw [hAe]
      conv_rhs => rw [hAe]
      have : U * diagonal sq * (diagonal sqi * Uᴴ) * (U * diagonal ev * Uᴴ)
          = U * (diagonal sq * diagonal sqi * (Uᴴ * U) * diagonal ev) * Uᴴ := by
        simp only [Matrix.mul_assoc]
      rw [this, hU, Matrix.mul_one, Matrix.diagonal_mul_diagonal, Matrix.diagonal_mul_diagonal]
      congr 3
      funext i
      rw [hsqv, hsqi]
      by_cases h : tol < (ev i).re
      · simp only [if_pos h]
        rw [mul_one_div_cancel (hsqne i h), one_mul]
      · simp only [hev0 i h, mul_zero]
    · simp only
      rw [Matrix.conjTranspose_mul, Matrix.conjTranspose_conjTranspose, hst]
      conv_rhs => rw [hAe]
      have : U * diagonal ev * Uᴴ * (U * diagonal sqi) = U * (diagonal ev * (Uᴴ * U) * diagonal sqi) := by
        simp only [Matrix.mul_assoc]
      rw [this, hU, Matrix.mul_one, Matrix.diagonal_mul_diagonal]
      congr 2
      funext i
      rw [hsqv, hsqi]
      by_cases h : tol < (ev i).re
      · simp only [if_pos h]
        have := csqrt_sq (ev i)
        have hn := hsqne i h
        field_simp
        rw [pow_two, this]
      · simp only [if_neg h, mul_zero]
    · simp only
      rw [Matrix.conjTranspose_mul, Matrix.conjTranspose_conjTranspose, hst]
      conv_lhs => rw [hAe]
      have : diagonal sqi * Uᴴ * (U * diagonal ev * Uᴴ) * (U * diagonal sqi)
          = diagonal sqi * (Uᴴ * U) * diagonal ev * (Uᴴ * U) * diagonal sqi := by
        simp only [Matrix.mul_assoc]
      rw [this, hU, Matrix.mul_one, Matrix.mul_one, Matrix.diagonal_mul_diagonal, Matrix.diagonal_mul_diagonal, hone]
      congr 1
      funext i
      rw [hsqi]
      by_cases h : tol < (ev i).re
      · simp only [if_pos h]
        have := csqrt_sq (ev i)
        have hn := hsqne i h
        field_simp
        rw [pow_two, this]
      · simp only [if_neg h, mul_zero]
    · simp only
      have : diagonal sqi * Uᴴ * (U * diagonal sq) = diagonal sqi * (Uᴴ * U) * diagonal sq := by
        simp only [Matrix.mul_assoc]
      rw [this, hU, Matrix.mul_one, Matrix.diagonal_mul_diagonal, hone]
      congr 1
      funext i
      rw [hsqv, hsqi]
      by_cases h : tol < (ev i).re
      · simp only [if_pos h]
        rw [one_div_mul_cancel (hsqne i h)]
      · simp only [if_neg h, mul_zero]

theorem lastEye_full (n : ℕ) : lastEye n n = 1 := by
  rw [lastEye, ← Matrix.diagonal_one]
  congr 1
  funext i
  rw [if_pos (by omega)]

theorem hermFac_rank (P : HermLib) {tol : ℝ} (h0 : 0 ≤ tol) {n : ℕ} {A : Matrix (Fin n) (Fin n) ℂ}
    (hA : A.PosSemidef) (hne : A ≠ 0) (hgap : ZeroOrAbove tol A) :
    ∃ f, hermFac P true true false tol A = some f ∧ f.Rank A := by
  by_cases hpd : A.PosDef
  · obtain ⟨f, hf, hF⟩ := hermFac_full P true true false (le_refl (0 : ℝ)) (A := A) (by
      rw [AboveTol, Complex.ofReal_zero, zero_smul, sub_zero]; exact hpd)
    obtain ⟨x, hx⟩ := P.chol.ok true A hpd
    refine ⟨f, ?_, ?_⟩
    · rw [← hf]
      unfold hermFac
      simp only [Bool.false_eq_true, if_false, hx]
    · have hn : 0 < n := by
        rcases Nat.eq_zero_or_pos n with h | h
        · subst h
          exact absurd (Subsingleton.elim A 0) hne
        · exact h
      have hinv := hF.inv rfl
      have hinv' := mul_eq_one_comm.mp hinv
      have hfac : f.x * f.xᴴ = A := hF.fac
      have hr := hF.rank
      refine ⟨by omega, ?_, ?_, ?_, ?_⟩
      · rw [hinv, Matrix.one_mul]
      · rw [← hfac, Matrix.mul_assoc, inv_star hinv', Matrix.mul_one]
      · rw [hr, lastEye_full, ← hfac, ← Matrix.mul_assoc, hinv', Matrix.one_mul, inv_star hinv']
      · rw [hr, lastEye_full, hinv']
  · unfold hermFac
    rw [P.chol.fail true A hA.isHermitian hpd]
    exact hermFacEvd_rank P h0 hA hne hgap

/-- The eigenvectors of a matrix whose kernel is that of a slice projector do not mix the slice with its
complement. -/
theorem mask_eig (P : HermLib) {n m : ℕ} {M : Matrix (Fin n) (Fin n) ℂ} (hM : M.PosSemidef)
    (h1 : lastEye n m * M = M) (h2 : ∀ x, M *ᵥ x = 0 → lastEye n m *ᵥ x = 0) :
    (P.eigh.vec M)ᴴ * lastEye n m * P.eigh.vec M = lastEye n m := by
  classical
  have hH := hM.isHermitian
  set ev := P.eigh.ev M with hev
  set U := P.eigh.vec M with hUdef
  have hU : Uᴴ * U = 1 := P.eigh.unit M hH
  have hU' := mul_eq_one_comm.mp hU
  have hreal : ∀ i, ev i = (((ev i).re : ℝ) : ℂ) := fun i => ev_real P.eigh hH i
  have hnn : ∀ i, 0 ≤ (ev i).re := by
    intro i
    have hD : Uᴴ * M * U = diagonal ev := by
      rw [Matrix.mul_assoc, P.eigh.eig M hH, ← Matrix.mul_assoc, hU, Matrix.one_mul]
    have h3 := (hM.conjTranspose_mul_mul_same U)
    rw [hD] at h3
    have h4 := h3.diag_nonneg (i := i)
    rw [Matrix.diagonal_apply_eq] at h4
    exact (Complex.le_def.mp h4).1
  have hcol : ∀ i, lastEye n m *ᵥ (fun j => U j i) = (if 0 < (ev i).re then (1 : ℂ) else 0) • (fun j => U j i) := by
    intro i
    have he : M *ᵥ (fun j => U j i) = ev i • (fun j => U j i) := eigvec_eq P.eigh hH i
    split
    · next h =>
      have hne : ev i ≠ 0 := by
        rw [hreal i]
        exact_mod_cast h.ne'
      have h3 : (fun j => U j i) = (ev i)⁻¹ • (M *ᵥ (fun j => U j i)) := by
        rw [he, smul_smul, inv_mul_cancel₀ hne, one_smul]
      rw [one_smul]
      conv_lhs => rw [h3]
      rw [Matrix.mulVec_smul, Matrix.mulVec_mulVec, h1, ← h3]
    · next h =>
      have h0 : ev i = 0 := by
        rw [hreal i, le_antisymm (not_lt.mp h) (hnn i), Complex.ofReal_zero]
      rw [zero_smul]
      apply h2
      rw [he, h0, zero_smul]
  have hPU : lastEye n m * U = U * diagonal fun i => if 0 < (ev i).re then (1 : ℂ) else 0 := by
    ext a i
    rw [Matrix.mul_diagonal, mul_comm]
    exact congrFun (hcol i) a
  have hE : Uᴴ * lastEye n m * U = diagonal fun i => if 0 < (ev i).re then (1 : ℂ) else 0 := by
    rw [Matrix.mul_assoc, hPU, ← Matrix.mul_assoc, hU, Matrix.one_mul]
  rw [hE]
  have htr := congrArg Matrix.trace hE
  rw [Matrix.mul_assoc, Matrix.trace_mul_comm, Matrix.mul_assoc, hU', Matrix.mul_one, lastEye, Matrix.trace_diagonal,
    Matrix.trace_diagonal, Finset.sum_boole, Finset.sum_boole] at htr
  have hcard : (Finset.univ.filter fun i : Fin n => n ≤ i + m).card
      = (Finset.univ.filter fun i : Fin n => 0 < (ev i).re).card := by exact_mod_cast htr
  have u1 := up_iff (fun i : Fin n => n ≤ i + m) (fun i j hij hi => by
    have : (i : ℕ) ≤ j := hij
    omega)
  have u2 := up_iff (fun i : Fin n => 0 < (ev i).re) (fun i j hij hi => lt_of_lt_of_le hi (P.asc M hH i j hij))
  unfold lastEye
  congr 1
  funext i
  have : (0 < (ev i).re) ↔ n ≤ i + m := by
    have e1 := u1 i
    have e2 := u2 i
    rw [e1, e2]
    have hc2 : (@Finset.filter (Fin n) (fun i => n ≤ ↑i + m) (fun a => Classical.propDecidable _) Finset.univ).card
        = (@Finset.filter (Fin n) (fun i => 0 < (ev i).re) (fun a => Classical.propDecidable _) Finset.univ).card := by
      convert hcard
    rw [hc2]
  simp only [this]

theorem lastEye_herm (n m : ℕ) : (lastEye n m)ᴴ = lastEye n m := by
  rw [lastEye, Matrix.diagonal_conjTranspose]
  congr 1
  funext i
  simp only [Pi.star_apply]
  split <;> simp

theorem rcfCut_rank (P : HermLib) {tol : ℝ} (h0 : 0 ≤ tol) (diagL : Bool) (S : UMPS ℂ q D) (Gs Gis : GList D)
    (k : ℕ) (hr : (S.r k).PosSemidef) (hne : S.r k ≠ 0) (hgap : ZeroOrAbove tol (S.r k)) (hl : (S.l k).PosDef) :
    ∃ G Gi lk rk, rcfCut P tol diagL (S, Gs, Gis) k = some ({ S with
        A := gaugeCut S.L k G Gi S.A
        l := Function.update S.l k lk
        r := Function.update S.r k rk }, Function.update Gs k (some G), Function.update Gis k (some Gi))
      ∧ CutRel G Gi (S.l k) (S.r k) lk rk ∧ (∃ m, 0 < m ∧ rk = lastEye D m)
      ∧ (diagL = true → ∃ e : Fin D → ℝ, (∀ i, 0 ≤ e i) ∧ lk = diagonal fun i => (e i : ℂ)) := by
  obtain ⟨f, hf, hF⟩ := hermFac_rank P h0 hr hne hgap
  set M := f.xᴴ * (S.l k * f.x) with hM
  have hM2 : M = f.xᴴ * S.l k * f.x := by rw [hM, Matrix.mul_assoc]
  have hMp : M.PosSemidef := by
    rw [hM2]
    exact hl.posSemidef.conjTranspose_mul_mul_same f.x
  have hMh := hMp.isHermitian
  have hU := P.eigh.unit M hMh
  have hU' := mul_eq_one_comm.mp hU
  have hD : (P.eigh.vec M)ᴴ * M * P.eigh.vec M = diagonal (P.eigh.ev M) := by
    rw [Matrix.mul_assoc, P.eigh.eig M hMh, ← Matrix.mul_assoc, hU, Matrix.one_mul]
  have hxP : f.x * lastEye D f.rank = f.x := by
    have : f.x * f.xi * f.x = f.x := by
      calc f.x * f.xi * f.x = f.x * f.xi * (S.r k * f.xiᴴ) := by rw [← hF.range]
        _ = f.x * f.xi * S.r k * f.xiᴴ := by rw [Matrix.mul_assoc (f.x * f.xi)]
        _ = f.x := by rw [hF.supp, ← hF.range]
    rw [← hF.inv, ← Matrix.mul_assoc, this]
  have hPM : lastEye D f.rank * M = M := by
    have h1 := congrArg Matrix.conjTranspose hxP
    rw [Matrix.conjTranspose_mul, lastEye_herm] at h1
    rw [hM, ← Matrix.mul_assoc, h1]
  have hker : ∀ x, M *ᵥ x = 0 → lastEye D f.rank *ᵥ x = 0 := by
    intro x hx
    have h1 : star (f.x *ᵥ x) ⬝ᵥ (S.l k *ᵥ (f.x *ᵥ x)) = star x ⬝ᵥ (M *ᵥ x) := by
      rw [Matrix.star_mulVec, ← Matrix.dotProduct_mulVec, Matrix.mulVec_mulVec, Matrix.mulVec_mulVec, hM2]
    have h2 : f.x *ᵥ x = 0 := by
      by_contra hcon
      have := hl.dotProduct_mulVec_pos hcon
      rw [h1, hx, dotProduct_zero] at this
      exact lt_irrefl _ this
    rw [← hF.inv, ← Matrix.mulVec_mulVec, h2, Matrix.mulVec_zero]
  have hmask := mask_eig P hMp hPM hker
  simp only [rcfCut, hf, Option.bind_some, ← hM]
  refine ⟨_, _, _, _, rfl, ?_, ⟨f.rank, hF.pos, rankEye_eq hF.pos⟩, ?_⟩
  · cases diagL
    · simp only [Bool.false_eq_true, if_false]
      exact ⟨hF.supp, hF.range, hM2, by rw [rankEye_eq hF.pos, hF.proj]⟩
    · simp only [if_true]
      refine ⟨?_, ?_, ?_, ?_⟩
      · have : f.x * P.eigh.vec M * ((P.eigh.vec M)ᴴ * f.xi) * S.r k
            = f.x * (P.eigh.vec M * (P.eigh.vec M)ᴴ) * f.xi * S.r k := by
          simp only [Matrix.mul_assoc]
        rw [this, hU', Matrix.mul_one, hF.supp]
      · rw [Matrix.conjTranspose_mul, Matrix.conjTranspose_conjTranspose, ← Matrix.mul_assoc, ← hF.range]
      · rw [← hD, hM]
        simp only [Matrix.conjTranspose_mul, Matrix.mul_assoc]
      · have : (P.eigh.vec M)ᴴ * f.xi * S.r k * ((P.eigh.vec M)ᴴ * f.xi)ᴴ
            = (P.eigh.vec M)ᴴ * (f.xi * S.r k * f.xiᴴ) * P.eigh.vec M := by
          simp only [Matrix.conjTranspose_mul, Matrix.conjTranspose_conjTranspose, Matrix.mul_assoc]
        rw [this, hF.proj, hmask, rankEye_eq hF.pos]
  · intro hd
    simp only [hd, if_true]
    refine ⟨fun i => (P.eigh.ev M i).re, fun i => ?_, ?_⟩
    · have h1 := (hMp.conjTranspose_mul_mul_same (P.eigh.vec M))
      rw [hD] at h1
      have h2 := h1.diag_nonneg (i := i)
      rw [Matrix.diagonal_apply_eq] at h2
      exact (Complex.le_def.mp h2).1
    · congr 1
      funext i
      exact ev_real P.eigh hMh i

theorem gaugeCut_eq {L k : ℕ} (hk : k < L) (g gi : Matrix (Fin D) (Fin D) ℂ)
    (A : ℕ → Ten ℂ q D D) (n : ℕ) (hn : n < L) (s : Fin q) :
    gaugeCut L k g gi A n s = Function.update (fun _ => (1 : Matrix (Fin D) (Fin D) ℂ)) k gi ((n + L - 1) % L) * A n s
      * Function.update (fun _ => (1 : Matrix (Fin D) (Fin D) ℂ)) k g n := by
  have hj : (n + L - 1) % L = k ↔ n = (k + 1) % L := by
    constructor
    · intro e
      rw [← e, Nat.mod_add_mod, show n + L - 1 + 1 = n + L by omega, Nat.add_mod_right, Nat.mod_eq_of_lt hn]
    · intro e
      rw [e, mod_pred (by omega), mod_pred_succ, Nat.mod_eq_of_lt hk]
  simp only [gaugeCut]
  by_cases hn1 : n = k
  · subst hn1
    rw [Function.update_self, Function.update_self]
    by_cases h2 : n = (n + 1) % L
    · rw [hj.mpr h2, ← h2, Function.update_self, Function.update_self]
    · rw [Function.update_of_ne h2, Function.update_of_ne (fun e => h2 (hj.mp e)), Matrix.one_mul]
  · rw [Function.update_of_ne hn1, Function.update_of_ne hn1, Matrix.mul_one]
    by_cases h2 : n = (k + 1) % L
    · rw [hj.mpr h2, ← h2, Function.update_self, Function.update_self]
    · rw [Function.update_of_ne h2, Function.update_of_ne (fun e => h2 (hj.mp e)), Matrix.one_mul]

/-- The loop of `restore_RCF` over the cuts, for environments of any rank. -/
theorem cuts_rank {σ : Type*} (st : σ → UMPS ℂ q D) (step : σ → ℕ → Option σ)
    (good : ℕ → Matrix (Fin D) (Fin D) ℂ → Matrix (Fin D) (Fin D) ℂ → Prop) (s0 : σ) (ks : List ℕ)
    (hstep : ∀ s, ∀ k ∈ ks, (st s).L = (st s0).L → (st s).l k = (st s0).l k → (st s).r k = (st s0).r k →
      ∃ s' G Gi lk rk, step s k = some s' ∧ st s' = { st s with
          A := gaugeCut (st s).L k G Gi (st s).A
          l := Function.update (st s).l k lk
          r := Function.update (st s).r k rk } ∧ CutRel G Gi ((st s).l k) ((st s).r k) lk rk ∧ good k lk rk)
    (hnd : ks.Nodup) (hks : ∀ k ∈ ks, k < (st s0).L) :
    ∃ s', ∃ g gi : ℕ → Matrix (Fin D) (Fin D) ℂ, ks.foldl (fun s k => s.bind fun s => step s k) (some s0) = some s'
      ∧ (st s').L = (st s0).L
      ∧ (∀ k < (st s0).L, ∀ s, (st s').A k s = gi ((k + (st s0).L - 1) % (st s0).L) * (st s0).A k s * g k)
      ∧ (∀ k ∈ ks, CutRel (g k) (gi k) ((st s0).l k) ((st s0).r k) ((st s').l k) ((st s').r k)
          ∧ good k ((st s').l k) ((st s').r k))
      ∧ ∀ k, k ∉ ks → (st s').l k = (st s0).l k ∧ (st s').r k = (st s0).r k ∧ g k = 1 ∧ gi k = 1 := by
  induction ks using List.reverseRecOn with
  | nil =>
    exact ⟨s0, fun _ => 1, fun _ => 1, rfl, rfl, fun _ _ _ => by rw [Matrix.one_mul, Matrix.mul_one], by simp, by simp⟩
  | append_singleton ks k ih =>
    have hk : k ∉ ks := by
      rw [List.nodup_append] at hnd
      intro h
      exact hnd.2.2 k h k (by simp) rfl
    obtain ⟨s1, g, gi, h1, h2, h6, h8, h9⟩ := ih
      (fun s k' hk' => hstep s k' (by simp [hk'])) (List.nodup_append.mp hnd).1 (fun k' hk' => hks k' (by simp [hk']))
    obtain ⟨e1, e2, e3, e4⟩ := h9 k hk
    obtain ⟨s', G, Gi, lk, rk, j1, j2, j3, j4⟩ := hstep s1 k (by simp) h2 e1 e2
    have hkL : k < (st s0).L := hks k (by simp)
    refine ⟨s', fun n => g n * Function.update (fun _ => (1 : Matrix (Fin D) (Fin D) ℂ)) k G n,
      fun n => Function.update (fun _ => (1 : Matrix (Fin D) (Fin D) ℂ)) k Gi n * gi n, ?_, ?_, ?_, ?_, ?_⟩
    · rw [List.foldl_append, h1]
      simpa using j1
    · rw [j2]; exact h2
    · intro n hn s
      rw [j2]
      simp only
      rw [h2, gaugeCut_eq hkL G Gi _ n hn s, h6 n hn s]
      simp only [Matrix.mul_assoc]
    · intro k' hk'
      by_cases hkk : k' = k
      · subst hkk
        rw [j2]
        simp only [Function.update_self, e3, e4, Matrix.one_mul, Matrix.mul_one]
        rw [e1, e2] at j3
        exact ⟨j3, j4⟩
      · have hm : k' ∈ ks := by
          rcases List.mem_append.mp hk' with h | h
          · exact h
          · exact absurd (List.mem_singleton.mp h) hkk
        rw [j2]
        simp only [Function.update_of_ne hkk, Matrix.one_mul, Matrix.mul_one]
        exact h8 k' hm
    · intro k' hk'
      have hkk : k' ≠ k := fun h => hk' (by simp [h])
      have hm : k' ∉ ks := fun h => hk' (by simp [h])
      rw [j2]
      simp only [Function.update_of_ne hkk, Matrix.one_mul, Matrix.mul_one]
      exact h9 k' hm

end Uni

end EvoMPS
