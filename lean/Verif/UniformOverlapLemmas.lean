import Verif.UniformOverlap
import Verif.UniformOverlapSpec
import Verif.SwEnergySpec
import Verif.ExciteLimit
import Verif.CorrLemmas
import Verif.Props.UniformTangent
import Verif.Props.UniformK

/-!
# Lemmas for C79
-/

namespace EvoMPS.Ovl

open Matrix Uni Filter Topology

variable {q D L : ℕ} {A : ℕ → Ten ℂ q D D} {l r : ℕ → Matrix (Fin D) (Fin D) ℂ}

section
variable (L A)

/-- The transfer map as a linear map. -/
def tlin (k n : ℕ) : Matrix (Fin D) (Fin D) ℂ →ₗ[ℂ] Matrix (Fin D) (Fin D) ℂ where
  toFun x := chainTransfer L L A A k n x
  map_add' x y := chainTransfer_plus k n x y
  map_smul' c x := mixedT_smul k n c x

theorem tlin_zero (k : ℕ) (x) : tlin L A k 0 x = x := chainTransfer_zero _ _ _ _ k x

theorem tlin_add (k a b : ℕ) (x) : tlin L A k (a + b) x = tlin L A k a (tlin L A (k + a) b x) := chainTransfer_add _ _ _ _ k a b x

theorem tlin_shift {k k' : ℕ} (h : k % L = k' % L) (n : ℕ) (x) : tlin L A k n x = tlin L A k' n x := chainTransfer_shift L A h n x

theorem tlin_one (k : ℕ) (x) : tlin L A k 1 x = epsR x (A (k % L)) (A (k % L)) := chainTransfer_one _ _ _ _ k x

/-- The tensors at the sites `k, ..., L-1` of a block and the matrix `x` behind it. -/
noncomputable def farG (z : ℂ) (G : ℕ → Matrix (Fin D) (Fin D) ℂ) (x : Matrix (Fin D) (Fin D) ℂ) (k : ℕ) : Matrix (Fin D) (Fin D) ℂ :=
  (∑ j ∈ Finset.range (L - k), z ^ j • tlin L A k j (G (k + j))) + z ^ (L - k) • tlin L A k (L - k) x

theorem farG_last (z : ℂ) (G : ℕ → Matrix (Fin D) (Fin D) ℂ) (x) : farG L A z G x L = x := by
  simp [farG, tlin_zero]

theorem farG_step (z : ℂ) (G : ℕ → Matrix (Fin D) (Fin D) ℂ) (x) {k : ℕ} (hk : k < L) :
    farG L A z G x k = G k + z • epsR (farG L A z G x (k + 1)) (A k) (A k) := by
  have hm : k % L = k := Nat.mod_eq_of_lt hk
  obtain ⟨d, hd⟩ : ∃ d, L - k = d + 1 := ⟨L - k - 1, by omega⟩
  have hd' : L - (k + 1) = d := by omega
  have e : ∀ y, epsR y (A k) (A k) = tlin L A k 1 y := fun y => by rw [tlin_one, hm]
  have e1 : ∀ j y, tlin L A k (j + 1) y = tlin L A k 1 (tlin L A (k + 1) j y) := fun j y => by rw [Nat.add_comm j 1, tlin_add]
  have e2 : ∑ j ∈ Finset.range d, z ^ (j + 1) • tlin L A k (j + 1) (G (k + (j + 1)))
      = z • tlin L A k 1 (∑ j ∈ Finset.range d, z ^ j • tlin L A (k + 1) j (G (k + 1 + j))) := by
    rw [map_sum, Finset.smul_sum]
    refine Finset.sum_congr rfl fun j _ => ?_
    rw [e1, map_smul, smul_smul, pow_succ', show k + (j + 1) = k + 1 + j by omega]
  have e3 : z ^ (d + 1) • tlin L A k (d + 1) x = z • tlin L A k 1 (z ^ d • tlin L A (k + 1) d x) := by
    rw [e1, map_smul, smul_smul, pow_succ']
  rw [farG, farG, hd, hd', Finset.sum_range_succ', e, map_add, smul_add, e2, e3, tlin_zero, pow_zero, one_smul,
    show k + 0 = k from rfl, add_comm _ (G k), add_assoc]

end

/-! ## The loops of the model -/

section
variable (S : UMPS ℂ q D) (B : ℕ → Ten ℂ q D D) (p : ℝ) (conj : Bool)

theorem ovBlock_eq (hL : 0 < S.L) :
    S.ovBlock B p conj = farG S.L S.A (Complex.exp (Complex.I * p)) (S.ovBRr B conj) 0 0 := by
  have h := foldDown_inv (fun BRblock k =>
    let BRblock := if k < S.L - 1 then Complex.exp (Complex.I * p) • epsR BRblock (S.A k) (S.A k) else BRblock
    BRblock + S.ovBRr B conj k) (fun n x => x = farG S.L S.A (Complex.exp (Complex.I * p)) (S.ovBRr B conj) 0 n) 0 S.L 0
    (by simp [farG_last]) ?_
  · rw [UMPS.ovBlock, List.range_eq_range']; exact h
  · rintro n h1 h2 x rfl
    simp only []
    rw [farG_step _ _ _ _ _ (show n < S.L by omega), add_comm]
    split
    · rfl
    · rw [show n + 1 = S.L by omega, farG_last]
      simp [epsR_eq]

theorem ovLoop_eq (hL : 0 < S.L) (x : Matrix (Fin D) (Fin D) ℂ) (k : ℕ) (hk : k < S.L) :
    S.ovLoop B p conj x ((k + 1) % S.L) = farG S.L S.A (Complex.exp (Complex.I * p)) (S.ovBRr B conj) x (k + 1) := by
  have h := foldDown_inv (fun (BR : ℕ → Matrix (Fin D) (Fin D) ℂ) k =>
    Function.update BR k (S.ovBRr B conj k + Complex.exp (Complex.I * p) • epsR (BR ((k + 1) % S.L)) (S.A k) (S.A k)))
    (fun n BR => BR 0 = x ∧ ∀ k, n ≤ k → k < S.L → BR k = farG S.L S.A (Complex.exp (Complex.I * p)) (S.ovBRr B conj) x k) 1 (S.L - 1)
    (Function.update (fun _ => 0) 0 x) ⟨by simp, fun k h1 h2 => by omega⟩ ?_
  · change S.ovLoop B p conj x 0 = x ∧ _ at h
    by_cases he : k + 1 = S.L
    · rw [he, Nat.mod_self, farG_last]; exact h.1
    · rw [Nat.mod_eq_of_lt (by omega)]; exact h.2 _ (by omega) (by omega)
  · rintro n h1 h2 BR ⟨h3, h4⟩
    refine ⟨by rw [Function.update_of_ne (by omega)]; exact h3, fun k hk1 hk2 => ?_⟩
    by_cases he : k = n
    · subst he
      rw [Function.update_self, farG_step _ _ _ _ _ hk2]
      congr 3
      by_cases he : k + 1 = S.L
      · rw [he, Nat.mod_self, farG_last]; exact h3
      · rw [Nat.mod_eq_of_lt (by omega)]; exact h4 _ (by omega) (by omega)
    · rw [Function.update_of_ne he]; exact h4 k (by omega) hk2

end

/-! ## Sums over the sites behind a block -/

section
variable (hL : 0 < L) (E : ChainEnv L A l r)

include hL E in
theorem tlin_r (k n : ℕ) : tlin L A k n (r ((k + n + L - 1) % L)) = r ((k + L - 1) % L) := E.transferR hL k n

include hL E in
theorem adot_tlin (k n : ℕ) (x) : adot (l ((k + L - 1) % L)) (tlin L A k n x) = adot (l ((k + n + L - 1) % L)) x := by
  rw [← E.transferL hL k n, adot_chainTransferL]; rfl

theorem idx_last (hL : 0 < L) : (0 + L - 1) % L = L - 1 := by
  rw [Nat.zero_add, Nat.mod_eq_of_lt (by omega)]

variable (L A l r) in
/-- The overlap of a tensor with the uniform state. -/
def gam (G : ℕ → Matrix (Fin D) (Fin D) ℂ) (j : ℕ) : ℂ := adot (l ((j + L - 1) % L)) (G (j % L))

variable (L A l r) in
/-- The first `M` sites, each with its part along the uniform state taken off. -/
noncomputable def conN (z : ℂ) (G : ℕ → Matrix (Fin D) (Fin D) ℂ) (M : ℕ) : Matrix (Fin D) (Fin D) ℂ :=
  ∑ j ∈ Finset.range M, z ^ j • (tlin L A 0 j (G (j % L)) - gam L l G j • r (L - 1))

include hL in
theorem gam_shift (G : ℕ → Matrix (Fin D) (Fin D) ℂ) (m j : ℕ) : gam L l G (m * L + j) = gam L l G j := by
  have h1 : (m * L + j) % L = j % L := by rw [Nat.add_comm, Nat.add_mul_mod_self_right]
  rw [gam, gam, h1, ← mod_pred hL (m * L + j), h1, mod_pred hL]

theorem iter_tlin (m : ℕ) (x) : (tlin L A 0 L)^[m] x = tlin L A 0 (m * L) x := by
  induction m generalizing x with
  | zero => rw [Nat.zero_mul, tlin_zero]; rfl
  | succ m ih =>
    rw [Function.iterate_succ_apply, ih, Nat.succ_mul, tlin_add]
    congr 1
    exact tlin_shift L A (by rw [Nat.zero_add, Nat.mul_mod_left, Nat.zero_mod]) _ _

include hL E in
theorem conN_blocks (z : ℂ) (G : ℕ → Matrix (Fin D) (Fin D) ℂ) (N : ℕ) :
    conN L A l r z G (N * L) = ∑ m ∈ Finset.range N, (z ^ L) ^ m • (tlin L A 0 L)^[m] (conN L A l r z G L) := by
  induction N with
  | zero => simp [conN]
  | succ N ih =>
    rw [Finset.sum_range_succ, ← ih, Nat.succ_mul, conN, Finset.sum_range_add, ← conN]
    congr 1
    rw [iter_tlin, conN, map_sum, Finset.smul_sum]
    refine Finset.sum_congr rfl fun j hj => ?_
    have h1 : (N * L + j) % L = j % L := by rw [Nat.add_comm, Nat.add_mul_mod_self_right]
    have h2 := tlin_r hL E 0 (N * L)
    rw [Nat.zero_add, show N * L + L - 1 = L - 1 + N * L by omega, Nat.add_mul_mod_self_right, Nat.mod_eq_of_lt (by omega),
      idx_last hL] at h2
    rw [gam_shift hL, h1, map_smul, map_sub, map_smul, h2, smul_smul, tlin_add, pow_add, pow_mul']
    congr 3
    exact tlin_shift L A (by rw [Nat.zero_add, Nat.mul_mod_left, Nat.zero_mod]) _ _

include hL E in
theorem fid_eq (z : ℂ) (G : ℕ → Matrix (Fin D) (Fin D) ℂ) :
    adot (l (L - 1)) (farG L A z G 0 0) = ∑ k ∈ Finset.range L, z ^ k * gam L l G k := by
  rw [farG, map_zero, smul_zero, add_zero, adot_sum_right, Nat.sub_zero]
  refine Finset.sum_congr rfl fun k hk => ?_
  have hk := Finset.mem_range.1 hk
  have := adot_tlin hL E 0 k (G k)
  rw [idx_last hL, Nat.zero_add] at this
  rw [Nat.zero_add, adot_smul_right, this, gam, Nat.mod_eq_of_lt hk]

include hL E in
theorem conN_block (z : ℂ) (G : ℕ → Matrix (Fin D) (Fin D) ℂ) :
    conN L A l r z G L = farG L A z G 0 0 - adot (l (L - 1)) (farG L A z G 0 0) • r (L - 1) := by
  rw [fid_eq hL E, conN, farG, map_zero, smul_zero, add_zero, Finset.sum_smul, Nat.sub_zero, ← Finset.sum_sub_distrib]
  refine Finset.sum_congr rfl fun k hk => ?_
  rw [smul_sub, smul_smul, Nat.mod_eq_of_lt (Finset.mem_range.1 hk), Nat.zero_add]

include hL E in
/-- One site of the first block, all sites behind it. -/
theorem inner_sum (z : ℂ) (G : ℕ → Matrix (Fin D) (Fin D) ℂ) (φ : Matrix (Fin D) (Fin D) ℂ →ₗ[ℂ] ℂ) {k : ℕ} (hk : k < L) (N : ℕ) :
    (∑ b ∈ Finset.range ((N + 1) * L), if k < b then z ^ (b - k) * (φ (tlin L A (k + 1) (b - k - 1) (G (b % L)))
        - if L ≤ b then φ (r k) * gam L l G b else 0) else 0)
      = z * φ (farG L A z G (conN L A l r z G (N * L)) (k + 1)) := by
  rw [show (N + 1) * L = k + 1 + ((L - (k + 1)) + N * L) by rw [Nat.succ_mul]; omega, Finset.sum_range_add _ (k + 1),
    Finset.sum_range_add _ (L - (k + 1)), Finset.sum_eq_zero (s := Finset.range (k + 1)), zero_add, farG, map_add, map_sum, map_smul, mul_add, Finset.mul_sum]
  · congr 1
    · refine Finset.sum_congr rfl fun j hj => ?_
      have := Finset.mem_range.1 hj
      rw [if_pos (by omega), if_neg (by omega), sub_zero, Nat.mod_eq_of_lt (show k + 1 + j < L by omega), map_smul,
        show k + 1 + j - k = j + 1 by omega, show j + 1 - 1 = j by omega, pow_succ']
      simp [mul_assoc]
    · rw [conN, map_sum, map_sum, Finset.smul_sum, Finset.mul_sum]
      refine Finset.sum_congr rfl fun j hj => ?_
      have h0 : k + 1 + (L - (k + 1) + j) = 1 * L + j := by omega
      have h1 : (1 * L + j) % L = j % L := by rw [Nat.add_comm, Nat.add_mul_mod_self_right]
      have h2 : r k = tlin L A (k + 1) (L - (k + 1)) (r (L - 1)) := by
        have := tlin_r hL E (k + 1) (L - (k + 1))
        rw [show k + 1 + (L - (k + 1)) + L - 1 = L - 1 + L by omega, Nat.add_mod_right, Nat.mod_eq_of_lt (by omega),
          mod_pred_succ, Nat.mod_eq_of_lt hk] at this
        exact this.symm
      have h3 : tlin L A (k + 1 + (L - (k + 1))) j (G (j % L)) = tlin L A 0 j (G (j % L)) :=
        tlin_shift L A (by rw [show k + 1 + (L - (k + 1)) = L by omega, Nat.mod_self, Nat.zero_mod]) _ _
      rw [h0, if_pos (by omega), if_pos (by omega), gam_shift hL, h1, show 1 * L + j - k = 1 + (L - (k + 1)) + j by omega,
        show 1 + (L - (k + 1)) + j - 1 = L - (k + 1) + j by omega, tlin_add, h3, h2]
      simp only [map_smul, map_sub, smul_eq_mul, pow_add, pow_one]
      ring
  · intro b hb
    rw [if_neg (by have := Finset.mem_range.1 hb; omega)]

/-! ## Overlaps in a window -/

include hL E in
theorem window_two (X Y : ℕ → Ten ℂ q D D) (a b w : ℕ) (hab : a < b) (hb : b < w)
    (hX : ∀ j, j ≠ a → j ≠ b → X j = A (j % L)) (hY : ∀ j, j ≠ a → j ≠ b → Y j = A (j % L)) :
    windowBraket L l r 0 w Y X = adot (l ((a + L - 1) % L))
      (∑ s, X a s * tlin L A (a + 1) (b - a - 1) (∑ t, X b t * r (b % L) * (Y b t)ᴴ) * (Y a s)ᴴ) := by
  obtain ⟨d, rfl⟩ : ∃ d, b = a + 1 + d := ⟨b - a - 1, by omega⟩
  obtain ⟨e, rfl⟩ : ∃ e, w = a + 1 + d + 1 + e := ⟨w - (a + 1 + d + 1), by omega⟩
  have hr := E.transferR hL (a + 1 + d + 1) e
  rw [windowBraket_eq, lineTransfer_add, lineTransfer_congr (c := 0 + (a + 1 + d + 1)) (X' := fun j => A (j % L)) (Y' := fun j => A (j % L))
    (fun j h1 h2 => hX j (by omega) (by omega)) (fun j h1 h2 => hY j (by omega) (by omega)), lineTransfer_uniform]
  simp only [Nat.zero_add]
  rw [hr, show a + 1 + d + 1 + L - 1 = a + 1 + d + L by omega, Nat.add_mod_right, lineTransfer_succ, Nat.zero_add, lineTransfer_add,
    lineTransfer_congr (c := 0 + (a + 1)) (X' := fun j => A (j % L)) (Y' := fun j => A (j % L))
    (fun j h1 h2 => hX j (by omega) (by omega)) (fun j h1 h2 => hY j (by omega) (by omega)), lineTransfer_uniform, lineTransfer_succ,
    lineTransfer_congr (c := 0) (n := a) (X' := fun j => A (j % L)) (Y' := fun j => A (j % L))
    (fun j h1 h2 => hX j (by omega) (by omega)) (fun j h1 h2 => hY j (by omega) (by omega)), lineTransfer_uniform,
    ← adot_chainTransferL]
  have := E.transferL hL 0 a
  simp only [Nat.zero_add] at this ⊢
  rw [this, show a + 1 + d - a - 1 = d by omega]
  rfl

/-! ## The double sum -/

theorem sum_lt {L M : ℕ} (h : L ≤ M) (f : ℕ → ℂ) : (∑ a ∈ Finset.range M, if a < L then f a else 0) = ∑ a ∈ Finset.range L, f a := by
  obtain ⟨d, rfl⟩ := Nat.exists_eq_add_of_le h
  rw [Finset.sum_range_add, Finset.sum_eq_zero (s := Finset.range d), add_zero]
  · exact Finset.sum_congr rfl fun a ha => if_pos (Finset.mem_range.1 ha)
  · intro a _; rw [if_neg (by omega)]

theorem split_sum {L M : ℕ} (h : L ≤ M) (P H : ℕ → ℕ → ℂ) :
    (∑ a ∈ Finset.range M, ∑ b ∈ Finset.range M, if a < L ∨ b < L then P a b - H a b else 0)
      = (∑ a ∈ Finset.range L, P a a)
        + (∑ a ∈ Finset.range L, ∑ b ∈ Finset.range M, if a < b then P a b - (if L ≤ b then H a b else 0) else 0)
        + (∑ b ∈ Finset.range L, ∑ a ∈ Finset.range M, if b < a then P a b - (if L ≤ a then H a b else 0) else 0)
        - ∑ a ∈ Finset.range L, ∑ b ∈ Finset.range L, H a b := by
  have e0 : ∑ a ∈ Finset.range L, P a a
      = ∑ a ∈ Finset.range M, ∑ b ∈ Finset.range M, if a < L then (if a = b then P a b else 0) else 0 := by
    rw [← sum_lt h]
    refine Finset.sum_congr rfl fun a ha => ?_
    split
    · rw [Finset.sum_ite_eq, if_pos ha]
    · simp
  have e1 : ∀ f : ℕ → ℕ → ℂ, ∑ a ∈ Finset.range L, ∑ b ∈ Finset.range M, f a b
      = ∑ a ∈ Finset.range M, ∑ b ∈ Finset.range M, if a < L then f a b else 0 := by
    intro f
    rw [← sum_lt h]
    refine Finset.sum_congr rfl fun a ha => ?_
    split <;> simp
  have e2 : ∑ a ∈ Finset.range L, ∑ b ∈ Finset.range L, H a b
      = ∑ a ∈ Finset.range M, ∑ b ∈ Finset.range M, if a < L then (if b < L then H a b else 0) else 0 := by
    rw [← e1]
    exact Finset.sum_congr rfl fun a _ => (sum_lt h _).symm
  have e3 : (∑ b ∈ Finset.range L, ∑ a ∈ Finset.range M, if b < a then P a b - (if L ≤ a then H a b else 0) else 0)
      = ∑ a ∈ Finset.range M, ∑ b ∈ Finset.range M, if b < L then (if b < a then P a b - (if L ≤ a then H a b else 0) else 0) else 0 := by
    rw [e1 fun b a => if b < a then P a b - (if L ≤ a then H a b else 0) else 0, Finset.sum_comm]
  rw [e0, e3, e1, e2]
  simp only [← Finset.sum_add_distrib, ← Finset.sum_sub_distrib]
  refine Finset.sum_congr rfl fun a _ => Finset.sum_congr rfl fun b _ => ?_
  split_ifs <;> first | (exfalso; omega) | ring

/-- One site closed from the left. -/
def phi (w : Matrix (Fin D) (Fin D) ℂ) (P Q : Ten ℂ q D D) : Matrix (Fin D) (Fin D) ℂ →ₗ[ℂ] ℂ where
  toFun x := adot w (∑ s, P s * x * (Q s)ᴴ)
  map_add' x y := by simp only [Matrix.mul_add, Matrix.add_mul, Finset.sum_add_distrib, adot_add_right]
  map_smul' c x := by
    simp only [Matrix.mul_smul, Matrix.smul_mul, ← Finset.smul_sum, adot_smul_right, RingHom.id_apply, smul_eq_mul]

theorem phi_apply (w : Matrix (Fin D) (Fin D) ℂ) (P Q : Ten ℂ q D D) (x) : phi w P Q x = adot w (epsR x P Q) := by
  rw [epsR_eq]; rfl

theorem phase_ge (p : ℝ) {a b : ℕ} (h : a ≤ b) :
    Complex.exp (Complex.I * p * ((b : ℂ) - a)) = Complex.exp (Complex.I * p) ^ (b - a) := by
  rw [← Complex.exp_nat_mul, Nat.cast_sub h]; congr 1; ring

theorem phase_le (p : ℝ) {a b : ℕ} (h : b ≤ a) :
    Complex.exp (Complex.I * p * ((b : ℂ) - a)) = Complex.exp (Complex.I * (-p : ℝ)) ^ (a - b) := by
  rw [← Complex.exp_nat_mul, Nat.cast_sub h]; congr 1; push_cast; ring

theorem phase_mul (p : ℝ) (a b : ℕ) :
    Complex.exp (Complex.I * p * ((b : ℂ) - a)) = Complex.exp (Complex.I * (-p : ℝ)) ^ a * Complex.exp (Complex.I * p) ^ b := by
  rw [← Complex.exp_nat_mul, ← Complex.exp_nat_mul, ← Complex.exp_add]; congr 1; push_cast; ring

theorem replaced_self (p : ℕ) : replaced L A p (A (p % L)) = fun j => A (j % L) := by
  funext j
  unfold replaced
  split
  · rename_i h; rw [h]
  · rfl

variable (L A l r) in
/-- What the sum over `N + 1` blocks is, in terms of the matrices in the model. -/
theorem pairSum_eq (hL : 0 < L) (E : ChainEnv L A l r) (B2 B1 : ℕ → Ten ℂ q D D) (p : ℝ) (G1 G2 : ℕ → Matrix (Fin D) (Fin D) ℂ)
    (h1 : ∀ k, G1 k = ∑ s, B1 k s * r k * (A k s)ᴴ) (h2 : ∀ k, G2 k = ∑ s, A k s * r k * (B2 k s)ᴴ) (N : ℕ) :
    pairSum L A l r B2 B1 p (N + 1)
      = (∑ k ∈ Finset.range L, adot (l ((k + L - 1) % L)) (∑ s, B1 k s * r k * (B2 k s)ᴴ))
        + (∑ k ∈ Finset.range L, Complex.exp (Complex.I * p) * phi (l ((k + L - 1) % L)) (A k) (B2 k)
            (farG L A (Complex.exp (Complex.I * p)) G1 (conN L A l r (Complex.exp (Complex.I * p)) G1 (N * L)) (k + 1)))
        + (∑ k ∈ Finset.range L, Complex.exp (Complex.I * (-p : ℝ)) * phi (l ((k + L - 1) % L)) (B1 k) (A k)
            (farG L A (Complex.exp (Complex.I * (-p : ℝ))) G2 (conN L A l r (Complex.exp (Complex.I * (-p : ℝ))) G2 (N * L)) (k + 1)))
        - (∑ k ∈ Finset.range L, Complex.exp (Complex.I * p) ^ k * gam L l G1 k)
          * ∑ k ∈ Finset.range L, Complex.exp (Complex.I * (-p : ℝ)) ^ k * gam L l G2 k := by
  have hM : L ≤ (N + 1) * L := Nat.le_mul_of_pos_left L (by omega)
  have s1 : ∀ b < (N + 1) * L, windowBraket L l r 0 ((N + 1) * L) (fun j => A (j % L)) (replaced L A b (B1 (b % L))) = gam L l G1 b := by
    intro b hb
    have := windowBraket_same hL E 0 ((N + 1) * L) b (by omega) (by omega) (B1 (b % L)) (A (b % L))
    rw [replaced_self] at this
    rw [this, gam, h1]
  have s2 : ∀ a < (N + 1) * L, windowBraket L l r 0 ((N + 1) * L) (replaced L A a (B2 (a % L))) (fun j => A (j % L)) = gam L l G2 a := by
    intro a ha
    have := windowBraket_same hL E 0 ((N + 1) * L) a (by omega) (by omega) (A (a % L)) (B2 (a % L))
    rw [replaced_self] at this
    rw [this, gam, h2]
  have rep : ∀ (a : ℕ) (b : Ten ℂ q D D), replaced L A a b a = b := fun a b => if_pos rfl
  have rep' : ∀ (a j : ℕ) (b : Ten ℂ q D D), j ≠ a → replaced L A a b j = A (j % L) := fun a j b h => if_neg h
  have p1 : ∀ a b, a < L → a < b → b < (N + 1) * L →
      windowBraket L l r 0 ((N + 1) * L) (replaced L A a (B2 (a % L))) (replaced L A b (B1 (b % L)))
        = phi (l ((a + L - 1) % L)) (A a) (B2 a) (tlin L A (a + 1) (b - a - 1) (G1 (b % L))) := by
    intro a b ha hab hb
    rw [window_two hL E _ _ a b _ hab hb (fun j _ hj => rep' _ _ _ hj) (fun j hj _ => rep' _ _ _ hj), rep, rep, rep' _ _ _ hab.ne,
      rep' _ _ _ hab.ne', Nat.mod_eq_of_lt ha, ← h1]
    rfl
  have p2 : ∀ a b, b < L → b < a → a < (N + 1) * L →
      windowBraket L l r 0 ((N + 1) * L) (replaced L A a (B2 (a % L))) (replaced L A b (B1 (b % L)))
        = phi (l ((b + L - 1) % L)) (B1 b) (A b) (tlin L A (b + 1) (a - b - 1) (G2 (a % L))) := by
    intro a b hb hab ha
    rw [window_two hL E _ _ b a _ hab ha (fun j hj _ => rep' _ _ _ hj) (fun j _ hj => rep' _ _ _ hj), rep, rep, rep' _ _ _ hab.ne,
      rep' _ _ _ hab.ne', Nat.mod_eq_of_lt hb, ← h2]
    rfl
  have e0 : pairSum L A l r B2 B1 p (N + 1) = ∑ a ∈ Finset.range ((N + 1) * L), ∑ b ∈ Finset.range ((N + 1) * L), if a < L ∨ b < L then
      Complex.exp (Complex.I * p * ((b : ℂ) - a)) *
        windowBraket L l r 0 ((N + 1) * L) (replaced L A a (B2 (a % L))) (replaced L A b (B1 (b % L)))
      - Complex.exp (Complex.I * p * ((b : ℂ) - a)) *
        (windowBraket L l r 0 ((N + 1) * L) (replaced L A a (B2 (a % L))) (fun j => A (j % L))
          * windowBraket L l r 0 ((N + 1) * L) (fun j => A (j % L)) (replaced L A b (B1 (b % L)))) else 0 := by
    rw [pairSum]
    refine Finset.sum_congr rfl fun a _ => Finset.sum_congr rfl fun b _ => ?_
    split
    · rw [mul_sub]
    · rfl
  rw [e0, split_sum hM]
  congr 1
  · congr 1
    · congr 1
      · refine Finset.sum_congr rfl fun k hk => ?_
        have hk := Finset.mem_range.1 hk
        rw [windowBraket_same hL E 0 _ k (by omega) (by omega), sub_self, mul_zero, Complex.exp_zero, one_mul, Nat.mod_eq_of_lt hk]
      · refine Finset.sum_congr rfl fun k hk => ?_
        have hk := Finset.mem_range.1 hk
        rw [← inner_sum hL E _ G1 _ hk]
        refine Finset.sum_congr rfl fun b hb => ?_
        have hb := Finset.mem_range.1 hb
        split
        · rename_i hkb
          have e : phi (l ((k + L - 1) % L)) (A k) (B2 k) (r k) = gam L l G2 k := by
            rw [gam, Nat.mod_eq_of_lt hk, h2]; rfl
          rw [p1 k b hk hkb hb, s1 b hb, s2 k (by omega), phase_ge p hkb.le, e]
          split <;> ring
        · rfl
    · refine Finset.sum_congr rfl fun k hk => ?_
      have hk := Finset.mem_range.1 hk
      rw [← inner_sum hL E _ G2 _ hk]
      refine Finset.sum_congr rfl fun b hb => ?_
      have hb := Finset.mem_range.1 hb
      split
      · rename_i hkb
        have e : phi (l ((k + L - 1) % L)) (B1 k) (A k) (r k) = gam L l G1 k := by
          rw [gam, Nat.mod_eq_of_lt hk, h1]; rfl
        rw [p2 b k hk hkb hb, s2 b hb, s1 k (by omega), phase_le p hkb.le, e]
        split <;> ring
      · rfl
  · rw [Finset.sum_mul_sum, Finset.sum_comm]
    refine Finset.sum_congr rfl fun b hb => Finset.sum_congr rfl fun a ha => ?_
    have hb := Finset.mem_range.1 hb
    have ha := Finset.mem_range.1 ha
    rw [s1 b (by omega), s2 a (by omega), phase_mul]
    ring

theorem farG_continuous (z : ℂ) (G : ℕ → Matrix (Fin D) (Fin D) ℂ) (k : ℕ) : Continuous fun x => farG L A z G x k := by
  have h : Continuous (z ^ (L - k) • tlin L A k (L - k)) := LinearMap.continuous_of_finiteDimensional _
  exact continuous_const.add h

theorem phi_farG_continuous (φ : Matrix (Fin D) (Fin D) ℂ →ₗ[ℂ] ℂ) (z : ℂ) (G : ℕ → Matrix (Fin D) (Fin D) ℂ) (k : ℕ) :
    Continuous fun x => φ (farG L A z G x k) :=
  (LinearMap.continuous_of_finiteDimensional φ).comp (farG_continuous z G k)

theorem conN_zero {z : ℂ} {G : ℕ → Matrix (Fin D) (Fin D) ℂ} (hL : 0 < L) (hG : ∀ k < L, G k = 0) (M : ℕ) : conN L A l r z G M = 0 := by
  rw [conN]
  refine Finset.sum_eq_zero fun j _ => ?_
  rw [gam, hG _ (Nat.mod_lt j hL), map_zero, adot_zero_right, zero_smul, sub_zero, smul_zero]

theorem farG_zero {z : ℂ} {G : ℕ → Matrix (Fin D) (Fin D) ℂ} (hG : ∀ k < L, G k = 0) (k : ℕ) : farG L A z G 0 k = 0 := by
  rw [farG, map_zero, smul_zero, add_zero]
  refine Finset.sum_eq_zero fun j hj => ?_
  have := Finset.mem_range.1 hj
  rw [hG _ (by omega), map_zero, smul_zero]

end

/-! ## The answer of the solver -/

/-- The solver's answer solves every system with the operator for momentum `p`. -/
def Exact (S : UMPS ℂ q D) (solver : Solver D) (junk : Matrix (Fin D) (Fin D) ℂ) (p : ℝ) : Prop :=
  ∀ op x x0, PinvOp.new p S.list S.list (some (S.l (S.L - 1))) (some (S.r (S.L - 1))) false true = some op →
    op.matvec junk (solver (op.matvec junk) (ravel x) x0).1 = some (ravel x)

theorem phase_pow (L : ℕ) (p : ℝ) : Complex.exp (Complex.I * ((L * p : ℝ) : ℂ)) = Complex.exp (Complex.I * p) ^ L := by
  rw [← Complex.exp_nat_mul]; congr 1; push_cast; ring

theorem phase_norm (p : ℝ) : ‖Complex.exp (Complex.I * p)‖ = 1 := by
  rw [mul_comm, Complex.norm_exp_ofReal_mul_I]

theorem ovBR_spec (S : UMPS ℂ q D) (hL : 0 < S.L) (E : ChainEnv S.L S.A S.l S.r) (solver : Solver D) (junk : Matrix (Fin D) (Fin D) ℂ)
    (B : ℕ → Ten ℂ q D D) (p : ℝ) (conj : Bool) (hs : Exact S solver junk (S.L * p)) (hf : ¬ CloseZero (S.ovBlock B p conj)) :
    ∃ M : Matrix (Fin D) (Fin D) ℂ,
      S.ovBR solver junk B p conj = some (some (S.ovLoop B p conj M), adot (S.l (S.L - 1)) (S.ovBlock B p conj)) ∧
      adot (S.l (S.L - 1)) M = 0 ∧
      M = S.ovBlock B p conj - adot (S.l (S.L - 1)) (S.ovBlock B p conj) • S.r (S.L - 1)
        + Complex.exp (Complex.I * p) ^ S.L • tlin S.L S.A 0 S.L M := by
  set X := S.ovBlock B p conj
  set c := adot (S.l (S.L - 1)) X
  have hQ : ((S.l (S.L - 1))ᴴ * (X - c • S.r (S.L - 1))).trace = 0 := by
    rw [Matrix.mul_sub, Matrix.mul_smul, Matrix.trace_sub, Matrix.trace_smul, E.norm _ (by omega), ← adot_eq_trace]
    simp [c]
  obtain ⟨y, h1, -, h2, h3⟩ := C44_solution_right solver (S.L * p) S.list S.list _ _ (biFixed_of_env S hL E) junk
    (X - c • S.r (S.L - 1)) (some (X - c • S.r (S.L - 1))) (fun op x0 h => hs op _ x0 h)
  refine ⟨y, ?_, by rw [adot_eq_trace, h2, hQ], ?_⟩
  · unfold UMPS.ovBR
    rw [if_neg (by omega)]
    simp only []
    rw [if_neg hf, h1]
    rfl
  · rw [hQ, mul_zero, zero_smul, sub_zero, phase_pow, blockMap_list S hL] at h3
    exact (sub_eq_iff_eq_add.1 h3)

theorem conN_limit (S : UMPS ℂ q D) (hL : 0 < S.L) (E : ChainEnv S.L S.A S.l S.r)
    (hmix : BlockMixing S.L S.A (S.l (S.L - 1)) (S.r (S.L - 1))) {z : ℂ} (hz : ‖z‖ = 1) (G : ℕ → Matrix (Fin D) (Fin D) ℂ)
    {M : Matrix (Fin D) (Fin D) ℂ} (h0 : adot (S.l (S.L - 1)) M = 0)
    (hM : M = conN S.L S.A S.l S.r z G S.L + z ^ S.L • tlin S.L S.A 0 S.L M) :
    Tendsto (fun N : ℕ => conN S.L S.A S.l S.r z G (N * S.L)) atTop (𝓝 M) := by
  simp only [conN_blocks hL E]
  refine Exc.geom_limit (map_add _) (fun c x => map_smul _ c x) (by rw [norm_pow, hz, one_pow]) hM ?_
  have := hmix M
  rw [← adot_eq_trace, h0, zero_smul] at this
  simp only [iter_tlin]
  exact this

/-- What the model returns for one of the two orders, given a tensor that is gauge-fixed or not close to it. -/
theorem con_spec (S : UMPS ℂ q D) (hL : 0 < S.L) (E : ChainEnv S.L S.A S.l S.r)
    (hmix : BlockMixing S.L S.A (S.l (S.L - 1)) (S.r (S.L - 1))) (solver : Solver D) (junk : Matrix (Fin D) (Fin D) ℂ)
    (B C : ℕ → Ten ℂ q D D) (p pp : ℝ) (conj gf : Bool) (hpp : pp = if conj then -p else p) (hs : Exact S solver junk (S.L * pp))
    (h : (∀ k < S.L, S.ovBRr B conj k = 0) ∨ gf = false ∧ ¬ CloseZero (S.ovBlock B pp conj)) :
    ∃ M : Matrix (Fin D) (Fin D) ℂ,
      (if gf then some (0, 0) else S.calcCon solver junk B C p conj) = some
        (∑ k ∈ Finset.range S.L, Complex.exp (Complex.I * pp) * phi (S.l ((k + S.L - 1) % S.L)) (if conj then C k else S.A k)
          (if conj then S.A k else C k) (farG S.L S.A (Complex.exp (Complex.I * pp)) (S.ovBRr B conj) M (k + 1)),
        ∑ k ∈ Finset.range S.L, Complex.exp (Complex.I * pp) ^ k * gam S.L S.l (S.ovBRr B conj) k) ∧
      Tendsto (fun N : ℕ => conN S.L S.A S.l S.r (Complex.exp (Complex.I * pp)) (S.ovBRr B conj) (N * S.L)) atTop (𝓝 M) := by
  by_cases hG : ∀ k < S.L, S.ovBRr B conj k = 0
  · refine ⟨0, ?_, ?_⟩
    · simp only [farG_zero hG, map_zero, mul_zero, Finset.sum_const_zero]
      have e : ∑ k ∈ Finset.range S.L, Complex.exp (Complex.I * pp) ^ k * gam S.L S.l (S.ovBRr B conj) k = 0 :=
        Finset.sum_eq_zero fun k hk => by rw [gam, hG _ (Nat.mod_lt k hL), adot_zero_right, mul_zero]
      rw [e]
      cases gf
      · unfold UMPS.calcCon UMPS.ovBR
        simp only [Bool.false_eq_true, if_false]
        rw [← hpp, ovBlock_eq S B pp conj hL, farG_zero hG, if_neg (by omega), if_pos (by intro i j; simp; norm_num)]
        rfl
      · rfl
    · simp only [conN_zero hL hG]
      exact tendsto_const_nhds
  · obtain ⟨rfl, hf⟩ := h.resolve_left hG
    obtain ⟨M, h1, h2, h3⟩ := ovBR_spec S hL E solver junk B pp conj hs hf
    refine ⟨M, ?_, conN_limit S hL E hmix (phase_norm pp) _ h2 ?_⟩
    · unfold UMPS.calcCon
      simp only [Bool.false_eq_true, if_false]
      rw [← hpp, h1]
      simp only [Option.map_some]
      rw [ovBlock_eq S B pp conj hL, fid_eq hL E]
      congr 2
      rw [foldl_add_eq, zero_add, sum_list_range, Finset.sum_mul]
      refine Finset.sum_congr rfl fun k hk => ?_
      have hk := Finset.mem_range.1 hk
      rw [pmod_pred hL, ovLoop_eq S B pp conj hL M k hk, phi_apply, mul_comm]
      cases conj <;> rfl
    · rw [conN_block hL E, ← ovBlock_eq S B pp conj hL]; exact h3

end EvoMPS.Ovl
