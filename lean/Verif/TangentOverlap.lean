import Verif.EnergyLemmas
import Verif.Correl
import Verif.TangentSpec

/-!
# Overlaps of chains that differ in one tensor (helper lemmas)
-/

set_option linter.unusedSectionVars false

namespace EvoMPS

open Matrix

variable {R : Type*} [CommRing R] [StarRing R] {q D : ℕ → ℕ} {N : ℕ}
  {A : Tensors R q D} {l r : Envs R D}

/-- If ket and bra agree with `A` on the sites `n..N-1` the right environment closes the
contraction. -/
theorem adot_mixL_last2 (h : UpToDate N A l r) (B B' : Tensors R q D) (h0 : D 0 = 1) (hN : D N = 1)
    (n : ℕ) (hn : n ≤ N) (hB : ∀ m, n ≤ m → m < N → B m = A m)
    (hB' : ∀ m, n ≤ m → m < N → B' m = A m) :
    braket (psi (N := N) B' h0 hN) (psi B h0 hN) = adot (mixL B B' 1 n) (r n) := by
  rw [← adot_mixL_one]
  obtain ⟨j, rfl⟩ := Nat.exists_eq_add_of_le hn
  clear hn
  induction j generalizing n with
  | zero => rw [← h.r_last]; rfl
  | succ j ih =>
    have h1 : n + 1 + j = n + (j + 1) := by omega
    rw [h.r_pred n (by omega)]
    have := ih (n + 1)
    rw [h1] at this
    rw [this h hN (fun m h1 h2 => hB m (by omega) h2) (fun m h1 h2 => hB' m (by omega) h2),
      adot_mixL_step, epsR_eq, hB n le_rfl (by omega), hB' n le_rfl (by omega)]

/-- Overlap of two chains that agree with `A` behind site `k`. -/
theorem overlap_site (h : UpToDate N A l r) (B B' : Tensors R q D) (h0 : D 0 = 1) (hN : D N = 1)
    (k : ℕ) (hk : k < N) (hB : ∀ m, k < m → m < N → B m = A m)
    (hB' : ∀ m, k < m → m < N → B' m = A m) :
    braket (psi (N := N) B' h0 hN) (psi B h0 hN)
      = adot (mixL B B' 1 k) (∑ s, B k s * r (k + 1) * (B' k s)ᴴ) := by
  rw [adot_mixL_last2 h B B' h0 hN (k + 1) hk (fun m h1 h2 => hB m h1 h2)
    (fun m h1 h2 => hB' m h1 h2), adot_mixL_step, epsR_eq]

theorem psi_congr {B B' : Tensors R q D} (h0 : D 0 = 1) (hN : D N = 1)
    (h : ∀ m < N, B m = B' m) : psi (N := N) B h0 hN = psi B' h0 hN := by
  funext s
  rw [psi, psi, amp_congr h]

theorem braket_swap {q : ℕ → ℕ} {N : ℕ} (φ ψ : Cfg q N → R) : star (braket φ ψ) = braket ψ φ := by
  simp only [braket, star_sum, star_mul, star_star]

/-! ## Orthogonality from the right gauge condition -/

theorem rightGauge_conj {p a b : ℕ} {A B : Fin p → Matrix (Fin a) (Fin b) R}
    {r : Matrix (Fin b) (Fin b) R} (hr : rᴴ = r) (h : RightGauge A B r) :
    ∑ s, A s * r * (B s)ᴴ = 0 := by
  have := congrArg conjTranspose h
  simpa [Matrix.conjTranspose_sum, Matrix.conjTranspose_mul, hr, Matrix.mul_assoc] using this

/-- A gauge-fixed tangent vector of site `k` is orthogonal to every chain that agrees with `A` at
site `k` and behind it. -/
theorem right_orth (h : UpToDate N A l r) (h0 : D 0 = 1) (hN : D N = 1) (k : ℕ) (hk : k < N)
    (b : Fin (q k) → Matrix (Fin (D k)) (Fin (D (k + 1))) R) (hb : RightGauge (A k) b (r (k + 1)))
    (B' : Tensors R q D) (hB' : ∀ m, k ≤ m → m < N → B' m = A m) :
    braket (psi (N := N) B' h0 hN) (oneSite A h0 hN k b) = 0 := by
  rw [oneSite, overlap_site h _ _ h0 hN k hk
    (fun m h1 _ => Function.update_of_ne (by omega) _ _) (fun m h1 h2 => hB' m (by omega) h2),
    Function.update_self, hB' k le_rfl hk, hb, adot_zero_right]

/-- Overlap of two tangent vectors of the same site. -/
theorem overlap_same (h : UpToDate N A l r) (h0 : D 0 = 1) (hN : D N = 1) (k : ℕ) (hk : k < N)
    (b b' : Fin (q k) → Matrix (Fin (D k)) (Fin (D (k + 1))) R) :
    braket (oneSite (N := N) A h0 hN k b') (oneSite A h0 hN k b)
      = adot (l k) (∑ s, b s * r (k + 1) * (b' s)ᴴ) := by
  rw [oneSite, oneSite, overlap_site h _ _ h0 hN k hk
    (fun m h1 _ => Function.update_of_ne (by omega) _ _)
    (fun m h1 _ => Function.update_of_ne (by omega) _ _), Function.update_self,
    Function.update_self, h.l_eq k hk.le]
  congr 1
  exact mixL_congr (fun m hm => Function.update_of_ne (by omega) _ _)
    (fun m hm => Function.update_of_ne (by omega) _ _)

/-! ## Orthogonality from the left gauge condition -/

theorem mixL_succ (B B' : Tensors R q D) (x : Matrix (Fin (D 0)) (Fin (D 0)) R) (n : ℕ) :
    mixL B B' x (n + 1) = ∑ s, (B n s)ᴴ * mixL B B' x n * B' n s := rfl

theorem mixL_zero_of (B B' : Tensors R q D) (x : Matrix (Fin (D 0)) (Fin (D 0)) R) {k : ℕ}
    (hk : mixL B B' x k = 0) : ∀ n, k ≤ n → mixL B B' x n = 0 := by
  intro n hn
  obtain ⟨j, rfl⟩ := Nat.exists_eq_add_of_le hn
  clear hn
  induction j with
  | zero => exact hk
  | succ j ih =>
    rw [← Nat.add_assoc, mixL_succ, ih]
    simp

/-- A left gauge-fixed tangent vector of site `k` is orthogonal to every chain that agrees with `A`
at site `k` and in front of it. -/
theorem left_orth (h : UpToDate N A l r) (h0 : D 0 = 1) (hN : D N = 1) (k : ℕ) (hk : k < N)
    (b : Fin (q k) → Matrix (Fin (D k)) (Fin (D (k + 1))) R) (hb : LeftGauge (A k) b (l k))
    (B' : Tensors R q D) (hB' : ∀ m, m ≤ k → B' m = A m) :
    braket (oneSite (N := N) A h0 hN k b) (psi B' h0 hN) = 0 := by
  rw [oneSite, ← adot_mixL_one, mixL_zero_of B' (Function.update A k b) 1 (k := k + 1) ?_ N hk]
  · simp [adot_eq_trace]
  · rw [mixL_succ, Function.update_self, hB' k le_rfl,
      mixL_congr (A := B') (B := A) (B' := A) (fun m hm => hB' m (by omega))
        (fun m hm => Function.update_of_ne (by omega) _ _), ← h.l_eq k hk.le]
    exact hb

/-! ## Matrix elements of the Hamiltonian terms -/

/-- Product operators between a chain `A'` and the chain `A`, trivial from site `e` on, where the
chains agree. -/
theorem matElem_window2 (h : UpToDate N A l r) (A' : Tensors R q D) (h0 : D 0 = 1) (hN : D N = 1)
    (o : ∀ n, Fin (q n) → Fin (q n) → R) (e : ℕ) (he : e ≤ N)
    (ho : ∀ n, e ≤ n → n < N → o n = idOp (q n)) (hA' : ∀ n, e ≤ n → n < N → A' n = A n) :
    matElem (psi A' h0 hN) (prodOp o) (psi A h0 hN) = adot (mixL (opT o A) A' 1 e) (r e) := by
  rw [matElem_prodOp, adot_mixL_last2 h (opT o A) A' h0 hN e he
    (fun m h1 h2 => opT_id A (ho m h1 h2)) hA']

theorem mixL_opT_id (A A' : Tensors R q D) (x : Matrix (Fin (D 0)) (Fin (D 0)) R) (k : ℕ)
    (o : ∀ n, Fin (q n) → Fin (q n) → R) (ho : ∀ n < k, o n = idOp (q n)) :
    mixL (opT o A) A' x k = mixL A A' x k :=
  mixL_congr (fun m hm => opT_id A (ho m hm)) fun _ _ => rfl

/-- The contraction of a two-site term with bra tensors `b`, `b'`. -/
def bra2 {p p' x y z c : ℕ} (C : Ten2 R p p' x c) (rr : Matrix (Fin c) (Fin c) R)
    (b : Ten R p y z) (b' : Ten R p' z c) : Matrix (Fin x) (Fin y) R :=
  ∑ s, ∑ t, C s t * rr * (b s * b' t)ᴴ

theorem matElem_two (h : UpToDate N A l r) (A' : Tensors R q D) (h0 : D 0 = 1) (hN : D N = 1)
    (k : ℕ) (hk : k + 1 < N) (hA' : ∀ n, k + 2 ≤ n → n < N → A' n = A n)
    (op : Fin (q k) → Fin (q (k + 1)) → Fin (q k) → Fin (q (k + 1)) → R) :
    matElem (psi A' h0 hN) (siteOp2 k hk op) (psi A h0 hN)
      = adot (mixL A A' 1 k) (bra2 (calcC op (calcAA (A k) (A (k + 1)))) (r (k + 1 + 1))
          (A' k) (A' (k + 1))) := by
  rw [siteOp2_units, matElem_sum]
  simp only [Fintype.sum_prod_type, bra2, calcC_eq, Matrix.sum_mul, adot_sum_right, Matrix.smul_mul,
    adot_smul_right, calcAA]
  refine Finset.sum_congr rfl fun s _ => Finset.sum_congr rfl fun t _ =>
    Finset.sum_congr rfl fun u _ => Finset.sum_congr rfl fun v _ => ?_
  congr 1
  have ho : ∀ n, n ≠ k → n ≠ k + 1 → at1 k (unitOp (R := R) s u)
      (at1 (k + 1) (unitOp t v) fun n => idOp (q n)) n = idOp (q n) := fun n h1 h2 => by
    rw [at1, Function.update_of_ne h1, at1, Function.update_of_ne h2]
  rw [matElem_window2 h A' h0 hN _ (k + 1 + 1) hk (fun n h1 _ => ho n (by omega) (by omega)) hA',
    adot_mixL_step, adot_mixL_step,
    mixL_opT_id A A' 1 k _ (fun n hn => ho n (by omega) (by omega)),
    opT_at A (k := k) (op := unitOp s u) (by rw [at1, Function.update_self]),
    opT_at A (k := k + 1) (op := unitOp t v)
      (by rw [at1, Function.update_of_ne (by omega), at1, Function.update_self]),
    epsR_opSite_unit, epsR_opSite_unit, Matrix.conjTranspose_mul]
  simp only [Matrix.mul_assoc]

/-- The contraction of a three-site term with bra tensors `b`, `b'`, `b''`. -/
def bra3 {p p' p'' x y z w c : ℕ} (C : Ten3 R p p' p'' x c) (rr : Matrix (Fin c) (Fin c) R)
    (b : Ten R p y z) (b' : Ten R p' z w) (b'' : Ten R p'' w c) : Matrix (Fin x) (Fin y) R :=
  ∑ s, ∑ t, ∑ u, C s t u * rr * (b s * b' t * b'' u)ᴴ

theorem matElem_three (h : UpToDate N A l r) (A' : Tensors R q D) (h0 : D 0 = 1) (hN : D N = 1)
    (k : ℕ) (hk : k + 2 < N) (hA' : ∀ n, k + 3 ≤ n → n < N → A' n = A n)
    (op : Fin (q k) → Fin (q (k + 1)) → Fin (q (k + 2)) →
      Fin (q k) → Fin (q (k + 1)) → Fin (q (k + 2)) → R) :
    matElem (psi A' h0 hN) (siteOp3 k hk op) (psi A h0 hN)
      = adot (mixL A A' 1 k) (bra3 (calcC3 op (calcAAA (A k) (A (k + 1)) (A (k + 2))))
          (r (k + 2 + 1)) (A' k) (A' (k + 1)) (A' (k + 2))) := by
  rw [siteOp3_units, matElem_sum]
  simp only [Fintype.sum_prod_type, bra3, calcC3_eq, Matrix.sum_mul, adot_sum_right, Matrix.smul_mul,
    adot_smul_right, calcAAA]
  refine Finset.sum_congr rfl fun s _ => Finset.sum_congr rfl fun t _ =>
    Finset.sum_congr rfl fun w _ => Finset.sum_congr rfl fun u _ =>
    Finset.sum_congr rfl fun v _ => Finset.sum_congr rfl fun z _ => ?_
  congr 1
  have ho : ∀ n, n ≠ k → n ≠ k + 1 → n ≠ k + 2 → at1 k (unitOp (R := R) s u)
      (at1 (k + 1) (unitOp t v) (at1 (k + 2) (unitOp w z) fun n => idOp (q n))) n
        = idOp (q n) := fun n h1 h2 h3 => by
    rw [at1, Function.update_of_ne h1, at1, Function.update_of_ne h2, at1,
      Function.update_of_ne h3]
  rw [matElem_window2 h A' h0 hN _ (k + 2 + 1) hk
      (fun n h1 _ => ho n (by omega) (by omega) (by omega)) hA',
    adot_mixL_step, adot_mixL_step, adot_mixL_step,
    mixL_opT_id A A' 1 k _ (fun n hn => ho n (by omega) (by omega) (by omega)),
    opT_at A (k := k) (op := unitOp s u) (by rw [at1, Function.update_self]),
    opT_at A (k := k + 1) (op := unitOp t v)
      (by rw [at1, Function.update_of_ne (by omega), at1, Function.update_self]),
    opT_at A (k := k + 2) (op := unitOp w z)
      (by rw [at1, Function.update_of_ne (by omega), at1, Function.update_of_ne (by omega), at1,
        Function.update_self]),
    epsR_opSite_unit, epsR_opSite_unit, epsR_opSite_unit, Matrix.conjTranspose_mul,
    Matrix.conjTranspose_mul]
  simp only [Matrix.mul_assoc]

/-- Terms in front of site `k` do not contribute to the overlap with a gauge-fixed tangent vector
of site `k`. -/
theorem matElem_before (h : UpToDate N A l r) (h0 : D 0 = 1) (hN : D N = 1) (ham : Ham R q)
    (k : ℕ) (hk : k < N) (b : Fin (q k) → Matrix (Fin (D k)) (Fin (D (k + 1))) R)
    (hb : RightGauge (A k) b (r (k + 1))) (j : ℕ) (hj : j + ham.sites ≤ k) :
    matElem (oneSite A h0 hN k b) (ham.term (N := N) j) (psi A h0 hN) = 0 := by
  have key : ∀ o : ∀ n, Fin (q n) → Fin (q n) → R, (∀ n, k ≤ n → o n = idOp (q n)) →
      matElem (oneSite (N := N) A h0 hN k b) (prodOp o) (psi A h0 hN) = 0 := by
    intro o ho
    rw [oneSite, matElem_window2 h _ h0 hN o (k + 1) hk (fun n h1 _ => ho n (by omega))
      (fun n h1 _ => Function.update_of_ne (by omega) _ _), adot_mixL_step, Function.update_self,
      opT_id A (ho k le_rfl), epsR_eq, rightGauge_conj (h.r_herm _ (by omega)) hb, adot_zero_right]
  cases ham with
  | two hm =>
    simp only [Ham.sites] at hj
    rw [Ham.term]
    rw [dif_pos (show j + 1 < N by omega)]
    cases hm j with
    | none => simp [matElem]
    | some op =>
      rw [Option.elim_some, siteOp2_units, matElem_sum]
      refine Finset.sum_eq_zero fun x _ => ?_
      rw [key, mul_zero]
      intro n hn
      rw [at1, Function.update_of_ne (by omega), at1, Function.update_of_ne (by omega)]
  | three hm =>
    simp only [Ham.sites] at hj
    rw [Ham.term]
    rw [dif_pos (show j + 2 < N by omega)]
    cases hm j with
    | none => simp [matElem]
    | some op =>
      rw [Option.elim_some, siteOp3_units, matElem_sum]
      refine Finset.sum_eq_zero fun x _ => ?_
      rw [key, mul_zero]
      intro n hn
      rw [at1, Function.update_of_ne (by omega), at1, Function.update_of_ne (by omega), at1,
        Function.update_of_ne (by omega)]

end EvoMPS
