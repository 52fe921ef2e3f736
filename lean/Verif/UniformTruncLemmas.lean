import Verif.UniformTrunc
import Verif.UniformLimit

/-!
# Truncation of the uniform chain (helper lemmas)
-/

namespace EvoMPS.Uni

open Matrix

variable {q D D' : ℕ}

theorem keepIdx_inj (symm : Bool) (h : D' ≤ D) : Function.Injective (keepIdx symm h) := by
  intro i j hij
  cases symm <;> simp only [keepIdx, if_true, Bool.false_eq_true, if_false, Fin.mk.injEq] at hij <;>
    exact Fin.ext (by omega)

theorem sum_keep {M : Type*} [AddCommMonoid M] {e : Fin D' → Fin D} (he : Function.Injective e) (f : Fin D → M)
    (hf : ∀ i, (∀ i', e i' ≠ i) → f i = 0) : ∑ i, f i = ∑ i', f (e i') := by
  rw [← Finset.sum_image (s := Finset.univ) (g := e) (f := f) (fun a _ b _ h => he h)]
  refine (Finset.sum_subset (Finset.subset_univ _) fun i _ hi => hf i fun i' h => hi ?_).symm
  exact Finset.mem_image.2 ⟨i', Finset.mem_univ _, h⟩

/-- Weights: `l k` is diagonal with these non-negative numbers. -/
structure Weights (L : ℕ) (l : ℕ → Matrix (Fin D) (Fin D) ℂ) (w : ℕ → Fin D → ℝ) : Prop where
  eq : ∀ k < L, l k = Matrix.diagonal fun i => (w k i : ℂ)
  nonneg : ∀ k < L, ∀ i, 0 ≤ w k i

/-- A diagonal entry of the transfer of weights. -/
theorem weight_sum (B : Fin q → Matrix (Fin D) (Fin D) ℂ) (v : Fin D → ℝ) (j : Fin D) :
    (∑ s, (B s)ᴴ * Matrix.diagonal (fun i => (v i : ℂ)) * B s) j j = ((∑ s, ∑ i, v i * ‖B s i j‖ ^ 2 : ℝ) : ℂ) := by
  rw [Matrix.sum_apply, Complex.ofReal_sum]
  refine Finset.sum_congr rfl fun s _ => ?_
  rw [Matrix.mul_apply, Complex.ofReal_sum]
  refine Finset.sum_congr rfl fun i _ => ?_
  rw [Matrix.mul_diagonal, conjTranspose_apply, Complex.ofReal_mul, Complex.ofReal_pow, ← Complex.conj_mul' (B s i j)]
  rw [Complex.star_def]
  ring

theorem weight_zero {B : Fin q → Matrix (Fin D) (Fin D) ℂ} {v : Fin D → ℝ} (hv : ∀ i, 0 ≤ v i) {j : Fin D}
    (h : (∑ s, (B s)ᴴ * Matrix.diagonal (fun i => (v i : ℂ)) * B s) j j = 0) (s : Fin q) (i : Fin D) (hi : v i ≠ 0) :
    B s i j = 0 := by
  rw [weight_sum] at h
  have h0 := Complex.ofReal_eq_zero.1 h
  have hn : ∀ s, 0 ≤ ∑ i, v i * ‖B s i j‖ ^ 2 := fun s => Finset.sum_nonneg fun i _ => mul_nonneg (hv i) (sq_nonneg _)
  have h1 := (Finset.sum_eq_zero_iff_of_nonneg fun s _ => hn s).1 h0 s (Finset.mem_univ _)
  have h2 := (Finset.sum_eq_zero_iff_of_nonneg fun i _ => mul_nonneg (hv i) (sq_nonneg _)).1 h1 i (Finset.mem_univ _)
  rcases mul_eq_zero.1 h2 with h3 | h3
  · exact absurd h3 hi
  · exact norm_eq_zero.1 (pow_eq_zero_iff (two_ne_zero)|>.1 h3)

section
variable {L : ℕ} (hL : 0 < L) {A : ℕ → Ten ℂ q D D} {l : ℕ → Matrix (Fin D) (Fin D) ℂ} {w : ℕ → Fin D → ℝ}
variable (hw : Weights L l w) (hl : ∀ k < L, l k = ∑ s, (A k s)ᴴ * l ((k + L - 1) % L) * A k s)
variable {e : Fin D' → Fin D} (he : Function.Injective e) (hdrop : ∀ k < L, ∀ i, (∀ i', e i' ≠ i) → w k i = 0)

include hL hw hl in
/-- The tensors do not lead from weight to no weight. -/
theorem no_leak {k : ℕ} (hk : k < L) (s : Fin q) (i j : Fin D) (hi : w ((k + L - 1) % L) i ≠ 0) (hj : w k j = 0) :
    A k s i j = 0 := by
  have hp := Nat.mod_lt (k + L - 1) hL
  refine weight_zero (hw.nonneg _ hp) ?_ s i hi
  rw [← hw.eq _ hp, ← hl k hk, hw.eq k hk, Matrix.diagonal_apply_eq, hj, Complex.ofReal_zero]

include hL hw hl he hdrop in
theorem chainProd_keep (k n : ℕ) (s : Fin n → Fin q) (i : Fin D) (hi : w ((k + L - 1) % L) i ≠ 0) :
    (∀ j, w ((k + n + L - 1) % L) j = 0 → chainProd L A k n s i j = 0) ∧
    ∀ i' j', e i' = i → chainProd L A k n s i (e j') = chainProd L (fun k s => (A k s).submatrix e e) k n s i' j' := by
  induction n with
  | zero =>
    rw [chainProd_zero, Nat.add_zero]
    refine ⟨fun j hj => Matrix.one_apply_ne fun h => hi (h ▸ hj), fun i' j' h => ?_⟩
    rw [chainProd_zero, ← h, Matrix.one_apply, Matrix.one_apply]
    simp only [he.eq_iff]
  | succ n ih =>
    obtain ⟨s, t, rfl⟩ : ∃ s' t, s = Fin.snoc s' t := ⟨Fin.init s, s (Fin.last n), (Fin.snoc_init_self s).symm⟩
    obtain ⟨h1, h2⟩ := ih s
    have hm := Nat.mod_lt (k + n) hL
    have hpred : ((k + n) % L + L - 1) % L = (k + n + L - 1) % L := by
      rw [show (k + n) % L + L - 1 = (k + n) % L + (L - 1) by omega, show k + n + L - 1 = k + n + (L - 1) by omega,
        Nat.mod_add_mod]
    have hlast : (k + (n + 1) + L - 1) % L = (k + n) % L := by
      rw [show k + (n + 1) + L - 1 = k + n + L by omega, Nat.add_mod_right]
    rw [hlast]
    refine ⟨fun j hj => ?_, fun i' j' h => ?_⟩
    · rw [chainProd_snoc, Matrix.mul_apply]
      refine Finset.sum_eq_zero fun m _ => ?_
      by_cases hz : w ((k + n + L - 1) % L) m = 0
      · rw [h1 m hz, zero_mul]
      · rw [no_leak hL hw hl hm t m j (by rwa [hpred]) hj, mul_zero]
    · rw [chainProd_snoc, chainProd_snoc, Matrix.mul_apply, Matrix.mul_apply,
        sum_keep he _ fun m hm' => by rw [h1 m (hdrop _ (Nat.mod_lt _ hL) m hm'), zero_mul]]
      exact Finset.sum_congr rfl fun m _ => by rw [h2 i' m h]; rfl

include hL hw hl he hdrop in
/-- Expectation values do not change if indices without weight are dropped. -/
theorem chainExpect_keep (r : ℕ → Matrix (Fin D) (Fin D) ℂ) (k n : ℕ) (O : (Fin n → Fin q) → (Fin n → Fin q) → ℂ) :
    chainExpect L (fun k s => (A k s).submatrix e e) (fun k => (l k).submatrix e e) (fun k => (r k).submatrix e e) k n O
      = chainExpect L A l r k n O := by
  refine Finset.sum_congr rfl fun s _ => Finset.sum_congr rfl fun t _ => ?_
  congr 1
  have hp := Nat.mod_lt (k + L - 1) hL
  have hp' := Nat.mod_lt (k + n + L - 1) hL
  have hld : ∀ (X : Matrix (Fin D) (Fin D) ℂ), ((l ((k + L - 1) % L))ᴴ * X).trace = ∑ i, (w ((k + L - 1) % L) i : ℂ) * X i i := by
    intro X
    rw [hw.eq _ hp, diagonal_conjTranspose, Matrix.trace]
    refine Finset.sum_congr rfl fun i _ => ?_
    rw [Matrix.diag_apply, Matrix.diagonal_mul]
    simp
  have hld' : ∀ (X : Matrix (Fin D') (Fin D') ℂ), (((l ((k + L - 1) % L)).submatrix e e)ᴴ * X).trace
      = ∑ i', (w ((k + L - 1) % L) (e i') : ℂ) * X i' i' := by
    intro X
    rw [hw.eq _ hp, Matrix.submatrix_diagonal _ _ he, diagonal_conjTranspose, Matrix.trace]
    refine Finset.sum_congr rfl fun i _ => ?_
    rw [Matrix.diag_apply, Matrix.diagonal_mul]
    simp
  simp only [Matrix.mul_assoc]
  rw [hld, hld', sum_keep he _ fun i hi => by rw [hdrop _ hp i hi, Complex.ofReal_zero, zero_mul]]
  refine Finset.sum_congr rfl fun i' _ => ?_
  by_cases hz : w ((k + L - 1) % L) (e i') = 0
  · rw [hz, Complex.ofReal_zero, zero_mul, zero_mul]
  congr 1
  have ht := chainProd_keep hL hw hl he hdrop k n t (e i') hz
  have hs := chainProd_keep hL hw hl he hdrop k n s (e i') hz
  rw [Matrix.mul_apply, Matrix.mul_apply, sum_keep he _ fun j hj => by rw [ht.1 j (hdrop _ hp' j hj), zero_mul]]
  refine Finset.sum_congr rfl fun j' _ => ?_
  rw [ht.2 i' j' rfl]
  congr 1
  rw [Matrix.mul_apply, Matrix.mul_apply,
    sum_keep he _ fun j hj => by rw [conjTranspose_apply, hs.1 j (hdrop _ hp' j hj), star_zero, mul_zero]]
  refine Finset.sum_congr rfl fun m _ => ?_
  rw [conjTranspose_apply, conjTranspose_apply, hs.2 i' m rfl]
  rfl

include hL hw hl he hdrop in
theorem left_keep (k : ℕ) (hk : k < L) :
    (l k).submatrix e e = ∑ s, ((A k s).submatrix e e)ᴴ * (l ((k + L - 1) % L)).submatrix e e * (A k s).submatrix e e := by
  have hp := Nat.mod_lt (k + L - 1) hL
  rw [hw.eq _ hp, Matrix.submatrix_diagonal _ _ he]
  ext i j
  rw [Matrix.submatrix_apply, hl k hk, Matrix.sum_apply, Matrix.sum_apply]
  refine Finset.sum_congr rfl fun s _ => ?_
  rw [Matrix.mul_apply, Matrix.mul_apply, hw.eq _ hp, sum_keep he _ fun m hm => by
    rw [Matrix.mul_diagonal, hdrop _ hp m hm, Complex.ofReal_zero, mul_zero, zero_mul]]
  refine Finset.sum_congr rfl fun m _ => ?_
  rw [Matrix.mul_diagonal, Matrix.mul_diagonal]
  rfl

include hw he hdrop in
theorem norm_keep (r : Matrix (Fin D) (Fin D) ℂ) (k : ℕ) (hk : k < L) :
    (((l k).submatrix e e)ᴴ * r.submatrix e e).trace = ((l k)ᴴ * r).trace := by
  rw [hw.eq _ hk, Matrix.submatrix_diagonal _ _ he, diagonal_conjTranspose, diagonal_conjTranspose, Matrix.trace, Matrix.trace,
    sum_keep he _ fun i hi => by
      rw [Matrix.diag_apply, Matrix.diagonal_mul]; simp [hdrop k hk i hi]]
  refine Finset.sum_congr rfl fun i _ => ?_
  rw [Matrix.diag_apply, Matrix.diag_apply, Matrix.diagonal_mul, Matrix.diagonal_mul]
  rfl

include hL hw hl he hdrop in
/-- The right environments, if the kept indices all have weight. -/
theorem right_keep {r : ℕ → Matrix (Fin D) (Fin D) ℂ} (hr : ∀ k < L, r ((k + L - 1) % L) = ∑ s, A k s * r k * (A k s)ᴴ)
    (hpos : ∀ k < L, ∀ i', w k (e i') ≠ 0) (k : ℕ) (hk : k < L) :
    (r ((k + L - 1) % L)).submatrix e e = ∑ s, (A k s).submatrix e e * (r k).submatrix e e * ((A k s).submatrix e e)ᴴ := by
  have hp := Nat.mod_lt (k + L - 1) hL
  have hz : ∀ s i' j, (∀ j', e j' ≠ j) → A k s (e i') j = 0 := fun s i' j hj =>
    no_leak hL hw hl hk s (e i') j (hpos _ hp i') (hdrop k hk j hj)
  ext i j
  rw [Matrix.submatrix_apply, hr k hk, Matrix.sum_apply, Matrix.sum_apply]
  refine Finset.sum_congr rfl fun s _ => ?_
  rw [Matrix.mul_apply, Matrix.mul_apply, sum_keep he _ fun m hm => by
    rw [conjTranspose_apply, hz s j m hm, star_zero, mul_zero]]
  refine Finset.sum_congr rfl fun m _ => ?_
  congr 1
  rw [Matrix.mul_apply, Matrix.mul_apply, sum_keep he _ fun m' hm => by rw [hz s i m' hm, zero_mul]]
  rfl

/-- The right environments in the symmetric gauge. -/
theorem right_keep_symm {L : ℕ} {A : ℕ → Ten ℂ q D D} {r : ℕ → Matrix (Fin D) (Fin D) ℂ} {w : ℕ → Fin D → ℝ}
    (hw : Weights L r w) {e : Fin D' → Fin D} (he : Function.Injective e)
    (hdrop : ∀ k < L, ∀ i, (∀ i', e i' ≠ i) → w k i = 0)
    (hr : ∀ k < L, r ((k + L - 1) % L) = ∑ s, A k s * r k * (A k s)ᴴ) (k : ℕ) (hk : k < L) :
    (r ((k + L - 1) % L)).submatrix e e = ∑ s, (A k s).submatrix e e * (r k).submatrix e e * ((A k s).submatrix e e)ᴴ := by
  ext i j
  rw [Matrix.submatrix_apply, hr k hk, Matrix.sum_apply, Matrix.sum_apply, hw.eq k hk, Matrix.submatrix_diagonal _ _ he]
  refine Finset.sum_congr rfl fun s _ => ?_
  rw [Matrix.mul_apply, Matrix.mul_apply, sum_keep he _ fun m hm => by
    rw [Matrix.mul_diagonal, hdrop k hk m hm, Complex.ofReal_zero, mul_zero, zero_mul]]
  refine Finset.sum_congr rfl fun m _ => ?_
  rw [Matrix.mul_diagonal, Matrix.mul_diagonal]
  rfl

end

/-- What `new_D_l` is: at least the number of entries above the tolerance at every cut. -/
theorem autoD_spec (S : UMPS ℂ q D) (tol : ℝ) :
    1 ≤ S.autoD tol ∧ (∀ k < S.L, S.countAbove tol k ≤ S.autoD tol) ∧
    (S.autoD tol = 1 ∨ ∃ k < S.L, S.autoD tol = S.countAbove tol k) := by
  unfold UMPS.autoD
  generalize S.L = L
  induction L with
  | zero => simp
  | succ n ih =>
    rw [List.range_succ, List.foldl_append, List.foldl_cons, List.foldl_nil]
    obtain ⟨h1, h2, h3⟩ := ih
    refine ⟨le_max_of_le_right h1, fun k hk => ?_, ?_⟩
    · rcases Nat.lt_succ_iff_lt_or_eq.1 hk with h | rfl
      · exact le_max_of_le_right (h2 k h)
      · exact le_max_left _ _
    · rcases le_total (S.countAbove tol n) ((List.range n).foldl (fun n k => max (S.countAbove tol k) n) 1) with h | h
      · rw [max_eq_right h]
        rcases h3 with h3 | ⟨k, hk, h3⟩
        · exact Or.inl h3
        · exact Or.inr ⟨k, by omega, h3⟩
      · rw [max_eq_left h]
        exact Or.inr ⟨n, by omega, rfl⟩

end EvoMPS.Uni
