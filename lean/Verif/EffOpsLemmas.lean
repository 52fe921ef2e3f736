import Verif.EffOps
import Verif.EffOpsSpec
import Verif.TangentGrad

/-!
# Matrix elements of the Hamiltonian between two chains that differ at a few sites (helper lemmas)
-/

set_option linter.unusedSectionVars false

namespace EvoMPS

open Matrix

namespace Eff

section
variable {R : Type*} [CommRing R] [StarRing R] {q D : ℕ → ℕ} {N : ℕ}

/-- Right contractions of the chain `B` with the conjugate of `B'`. -/
structure Mixed (N : ℕ) (B B' : Tensors R q D) (rr : Envs R D) : Prop where
  last : rr N = 1
  pred : ∀ n < N, rr n = epsR (rr (n + 1)) (B n) (B' n)

theorem exists_mixed (N : ℕ) (B B' : Tensors R q D) : ∃ rr, Mixed N B B' rr := by
  obtain ⟨h1, h2⟩ := foldDown_spec (X := fun n => Matrix (Fin (D n)) (Fin (D n)) R)
    (fun m x => epsR x (B m) (B' m)) (fun _ => 1) 0 N
  exact ⟨_, h1 N (by omega), fun n hn => h2 n (by omega) (by omega)⟩

theorem Mixed.close {B B' : Tensors R q D} {rr : Envs R D} (h : Mixed N B B' rr) (E : Tensors R q D) (n : ℕ)
    (hn : n ≤ N) (hE : ∀ m, n ≤ m → m < N → E m = B m) :
    adot (mixL E B' 1 n) (rr n) = adot (mixL E B' 1 N) 1 := by
  obtain ⟨j, rfl⟩ := Nat.exists_eq_add_of_le hn
  clear hn
  induction j generalizing n with
  | zero => rw [← h.last]; rfl
  | succ j ih =>
    have h1 : n + 1 + j = n + (j + 1) := by omega
    rw [h.pred n (by omega)]
    have := ih (n + 1)
    rw [h1] at this
    rw [← this h (fun m h1 h2 => hE m (by omega) h2), adot_mixL_step, hE n le_rfl (by omega)]

theorem Mixed.elem {B B' : Tensors R q D} {rr : Envs R D} (h : Mixed N B B' rr) (h0 : D 0 = 1) (hN : D N = 1)
    (o : ∀ n, Fin (q n) → Fin (q n) → R) (e : ℕ) (he : e ≤ N) (ho : ∀ n, e ≤ n → n < N → o n = idOp (q n)) :
    matElem (psi B' h0 hN) (prodOp o) (psi B h0 hN) = adot (mixL (opT o B) B' 1 e) (rr e) := by
  rw [matElem_prodOp, ← adot_mixL_one, h.close _ e he fun m h1 h2 => opT_id B (ho m h1 h2)]

theorem Mixed.two {B B' : Tensors R q D} {rr : Envs R D} (h : Mixed N B B' rr) (h0 : D 0 = 1) (hN : D N = 1)
    (k : ℕ) (hk : k + 1 < N) (op : Fin (q k) → Fin (q (k + 1)) → Fin (q k) → Fin (q (k + 1)) → R) :
    matElem (psi B' h0 hN) (siteOp2 k hk op) (psi B h0 hN)
      = adot (mixL B B' 1 k) (bra2 (calcC op (calcAA (B k) (B (k + 1)))) (rr (k + 1 + 1)) (B' k) (B' (k + 1))) := by
  rw [siteOp2_units, matElem_sum]
  simp only [Fintype.sum_prod_type, bra2, calcC_eq, Matrix.sum_mul, adot_sum_right, Matrix.smul_mul,
    adot_smul_right, calcAA]
  refine Finset.sum_congr rfl fun s _ => Finset.sum_congr rfl fun t _ =>
    Finset.sum_congr rfl fun u _ => Finset.sum_congr rfl fun v _ => ?_
  congr 1
  have ho : ∀ n, n ≠ k → n ≠ k + 1 → at1 k (unitOp (R := R) s u)
      (at1 (k + 1) (unitOp t v) fun n => idOp (q n)) n = idOp (q n) := fun n h1 h2 => by
    rw [at1, Function.update_of_ne h1, at1, Function.update_of_ne h2]
  rw [h.elem h0 hN _ (k + 1 + 1) hk (fun n h1 _ => ho n (by omega) (by omega)),
    adot_mixL_step, adot_mixL_step,
    mixL_opT_id B B' 1 k _ (fun n hn => ho n (by omega) (by omega)),
    opT_at B (k := k) (op := unitOp s u) (by rw [at1, Function.update_self]),
    opT_at B (k := k + 1) (op := unitOp t v)
      (by rw [at1, Function.update_of_ne (by omega), at1, Function.update_self]),
    epsR_opSite_unit, epsR_opSite_unit, Matrix.conjTranspose_mul]
  simp only [Matrix.mul_assoc]

theorem Mixed.three {B B' : Tensors R q D} {rr : Envs R D} (h : Mixed N B B' rr) (h0 : D 0 = 1) (hN : D N = 1)
    (k : ℕ) (hk : k + 2 < N)
    (op : Fin (q k) → Fin (q (k + 1)) → Fin (q (k + 2)) → Fin (q k) → Fin (q (k + 1)) → Fin (q (k + 2)) → R) :
    matElem (psi B' h0 hN) (siteOp3 k hk op) (psi B h0 hN)
      = adot (mixL B B' 1 k) (bra3 (calcC3 op (calcAAA (B k) (B (k + 1)) (B (k + 2)))) (rr (k + 2 + 1))
          (B' k) (B' (k + 1)) (B' (k + 2))) := by
  rw [siteOp3_units, matElem_sum]
  simp only [Fintype.sum_prod_type, bra3, calcC3_eq, Matrix.sum_mul, adot_sum_right, Matrix.smul_mul,
    adot_smul_right, calcAAA]
  refine Finset.sum_congr rfl fun s _ => Finset.sum_congr rfl fun t _ =>
    Finset.sum_congr rfl fun w _ => Finset.sum_congr rfl fun u _ =>
    Finset.sum_congr rfl fun v _ => Finset.sum_congr rfl fun z _ => ?_
  congr 1
  have ho : ∀ n, n ≠ k → n ≠ k + 1 → n ≠ k + 2 → at1 k (unitOp (R := R) s u)
      (at1 (k + 1) (unitOp t v) (at1 (k + 2) (unitOp w z) fun n => idOp (q n))) n
        = idOp (q n) := fun n h1 h2 h3 => by
    rw [at1, Function.update_of_ne h1, at1, Function.update_of_ne h2, at1,
      Function.update_of_ne h3]
  rw [h.elem h0 hN _ (k + 2 + 1) hk (fun n h1 _ => ho n (by omega) (by omega) (by omega)),
    adot_mixL_step, adot_mixL_step, adot_mixL_step,
    mixL_opT_id B B' 1 k _ (fun n hn => ho n (by omega) (by omega) (by omega)),
    opT_at B (k := k) (op := unitOp s u) (by rw [at1, Function.update_self]),
    opT_at B (k := k + 1) (op := unitOp t v)
      (by rw [at1, Function.update_of_ne (by omega), at1, Function.update_self]),
    opT_at B (k := k + 2) (op := unitOp w z)
      (by rw [at1, Function.update_of_ne (by omega), at1, Function.update_of_ne (by omega), at1,
        Function.update_self]),
    epsR_opSite_unit, epsR_opSite_unit, epsR_opSite_unit, Matrix.conjTranspose_mul,
    Matrix.conjTranspose_mul]
  simp only [Matrix.mul_assoc]

/-! ## The term at site `j` -/

/-- The contraction of the term at site `j`. -/
def termBra (ham : Ham R q) (B B' : Tensors R q D) (rr : Envs R D) (j : ℕ) : Matrix (Fin (D j)) (Fin (D j)) R :=
  match ham with
  | .two h => (h j).elim 0 fun op =>
      bra2 (calcC op (calcAA (B j) (B (j + 1)))) (rr (j + 1 + 1)) (B' j) (B' (j + 1))
  | .three h => (h j).elim 0 fun op =>
      bra3 (calcC3 op (calcAAA (B j) (B (j + 1)) (B (j + 2)))) (rr (j + 2 + 1)) (B' j) (B' (j + 1)) (B' (j + 2))

theorem Mixed.term {B B' : Tensors R q D} {rr : Envs R D} (h : Mixed N B B' rr) (h0 : D 0 = 1) (hN : D N = 1)
    (ham : Ham R q) (j : ℕ) (hj : j + ham.sites ≤ N) :
    matElem (psi B' h0 hN) (ham.term (N := N) j) (psi B h0 hN)
      = adot (mixL B B' 1 j) (termBra ham B B' rr j) := by
  cases ham with
  | two hm =>
    simp only [Ham.sites] at hj
    rw [Ham.term, dif_pos (show j + 1 < N by omega), termBra]
    cases hm j with
    | none => simp [matElem, adot_zero_right]
    | some op => exact h.two h0 hN j (by omega) op
  | three hm =>
    simp only [Ham.sites] at hj
    rw [Ham.term, dif_pos (show j + 2 < N by omega), termBra]
    cases hm j with
    | none => simp [matElem, adot_zero_right]
    | some op => exact h.three h0 hN j (by omega) op

/-! ## Orthonormal tensors -/

theorem mixL_one {A B B' : Tensors R q D} {k : ℕ} (hB : ∀ n < k, B n = A n) (hB' : ∀ n < k, B' n = A n)
    (hA : ∀ n < k, LOrth (A n)) : ∀ j ≤ k, mixL B B' 1 j = 1 := by
  intro j hj
  induction j with
  | zero => rfl
  | succ j ih =>
    rw [mixL_succ, ih (by omega), hB j hj, hB' j hj]
    have := hA j hj
    rw [LOrth] at this
    simpa using this

theorem Mixed.one {A B B' : Tensors R q D} {rr : Envs R D} (h : Mixed N B B' rr) {m : ℕ}
    (hB : ∀ n, m ≤ n → n < N → B n = A n) (hB' : ∀ n, m ≤ n → n < N → B' n = A n)
    (hA : ∀ n, m ≤ n → n < N → ROrth (A n)) : ∀ n, m ≤ n → n ≤ N → rr n = 1 := by
  have key : ∀ d n, m ≤ n → n + d = N → rr n = 1 := by
    intro d
    induction d with
    | zero => rintro n _ rfl; exact h.last
    | succ d ih =>
      intro n h1 hd
      have := hA n h1 (by omega)
      rw [ROrth] at this
      rw [h.pred n (by omega), ih (n + 1) (by omega) (by omega), hB n h1 (by omega), hB' n h1 (by omega), epsR_eq]
      simpa using this
  exact fun n h1 h2 => key (N - n) n h1 (by omega)

/-! ## The accumulated terms -/

/-- The contribution of the term at site `j` to the left matrix behind its last site. -/
def hl (ham : Ham R q) (A : Tensors R q D) (j : ℕ) :
    Matrix (Fin (D (j + (ham.sites - 1) + 1))) (Fin (D (j + (ham.sites - 1) + 1))) R :=
  match ham with
  | .two h => (h j).elim 0 fun op => epsL2 1 (calcAA (A j) (A (j + 1))) (calcC op (calcAA (A j) (A (j + 1))))
  | .three h => (h j).elim 0 fun op =>
      epsL3 1 (calcAAA (A j) (A (j + 1)) (A (j + 2))) (calcC3 op (calcAAA (A j) (A (j + 1)) (A (j + 2))))

/-- The contribution of the term at site `j` to the right matrix in front of it. -/
def hr (ham : Ham R q) (A : Tensors R q D) (j : ℕ) : Matrix (Fin (D j)) (Fin (D j)) R :=
  match ham with
  | .two h => (h j).elim 0 fun op => epsR2 1 (calcC op (calcAA (A j) (A (j + 1)))) (calcAA (A j) (A (j + 1)))
  | .three h => (h j).elim 0 fun op =>
      epsR3 1 (calcC3 op (calcAAA (A j) (A (j + 1)) (A (j + 2)))) (calcAAA (A j) (A (j + 1)) (A (j + 2)))

/-- The left matrices hold the terms that end in front of their bond. -/
structure IsLeft (ham : Ham R q) (A : Tensors R q D) (k : ℕ) (K : Envs R D) : Prop where
  small : ∀ n, n < ham.sites → K n = 0
  step : ∀ j, j + ham.sites ≤ k → K (j + (ham.sites - 1) + 1)
    = epsL (K (j + (ham.sites - 1))) (A (j + (ham.sites - 1))) (A (j + (ham.sites - 1))) + hl ham A j

/-- The right matrices hold the terms that start behind their bond. -/
def IsRight (N : ℕ) (ham : Ham R q) (A : Tensors R q D) (k : ℕ) (K : Envs R D) : Prop :=
  ∀ n, k ≤ n → n ≤ N → K n = if n + ham.sites ≤ N then epsR (K (n + 1)) (A n) (A n) + hr ham A n else 0

theorem sites_pos (ham : Ham R q) : 2 ≤ ham.sites := by cases ham <;> simp [Ham.sites]

theorem termBra_left (ham : Ham R q) (A B B' : Tensors R q D) (rr : Envs R D) (j : ℕ)
    (hB : ∀ n, n < j + ham.sites → B n = A n) (hB' : ∀ n, n < j + ham.sites → B' n = A n) :
    adot 1 (termBra ham B B' rr j)
      = adotNoconj (hl ham A j) (rr (j + (ham.sites - 1) + 1)) := by
  cases ham with
  | two h =>
    simp only [Ham.sites] at hB hB'
    simp only [termBra, hl, Ham.sites]
    cases h j with
    | none => exact (adot_zero_right _).trans (adotNoconj_zero _).symm
    | some op =>
      simp only [Option.elim_some]
      erw [adotNoconj_epsL2 1 (by simp)]
      rw [epsR2_eq, bra2, hB j (by omega), hB (j + 1) (by omega), hB' j (by omega), hB' (j + 1) (by omega)]
      rfl
  | three h =>
    simp only [Ham.sites] at hB hB'
    simp only [termBra, hl, Ham.sites]
    cases h j with
    | none => exact (adot_zero_right _).trans (adotNoconj_zero _).symm
    | some op =>
      simp only [Option.elim_some]
      erw [adotNoconj_epsL3 1 (by simp)]
      rw [epsR3_eq, bra3, hB j (by omega), hB (j + 1) (by omega), hB (j + 2) (by omega), hB' j (by omega),
        hB' (j + 1) (by omega), hB' (j + 2) (by omega)]
      rfl

/-- The terms that end in front of site `k`. -/
theorem sum_left {ham : Ham R q} {A B B' : Tensors R q D} {k : ℕ} {K rr : Envs R D} (hK : IsLeft ham A k K)
    (h : Mixed N B B' rr) (hB : ∀ n < k, B n = A n) (hB' : ∀ n < k, B' n = A n) (hA : ∀ n < k, LOrth (A n))
    (hk : k ≤ N) (h0 : D 0 = 1) (hN : D N = 1) :
    adotNoconj (K k) (rr k) = ∑ j ∈ Finset.range (k + 1 - ham.sites),
      matElem (psi B' h0 hN) (ham.term (N := N) j) (psi B h0 hN) := by
  have hs := sites_pos ham
  by_cases hks : k < ham.sites
  · rw [hK.small k hks, adotNoconj_zero, show k + 1 - ham.sites = 0 by omega, Finset.sum_range_zero]
  obtain ⟨c, hc⟩ : ∃ c, ham.sites = c + 1 := ⟨ham.sites - 1, by omega⟩
  have key : ∀ m, m + (ham.sites - 1) ≤ k → adotNoconj (K (m + (ham.sites - 1))) (rr (m + (ham.sites - 1)))
      = ∑ j ∈ Finset.range m, matElem (psi B' h0 hN) (ham.term (N := N) j) (psi B h0 hN) := by
    intro m hm
    induction m with
    | zero => rw [hK.small _ (by omega), adotNoconj_zero, Finset.sum_range_zero]
    | succ m ih =>
      have e : ∀ n, n = m + (ham.sites - 1) + 1 → adotNoconj (K n) (rr n)
          = ∑ j ∈ Finset.range (m + 1), matElem (psi B' h0 hN) (ham.term (N := N) j) (psi B h0 hN) := by
        rintro n rfl
        rw [hK.step m (by omega), adotNoconj_add, adotNoconj_epsL, Finset.sum_range_succ, ← ih (by omega),
          h.pred (m + (ham.sites - 1)) (by omega), hB _ (by omega), hB' _ (by omega),
          h.term h0 hN ham m (by omega), mixL_one hB hB' hA m (by omega),
          termBra_left ham A B B' rr m (fun n hn => hB n (by omega)) (fun n hn => hB' n (by omega))]
      exact e _ (by omega)
  have := key (k - (ham.sites - 1)) (by omega)
  rw [show k - (ham.sites - 1) = k + 1 - ham.sites by omega] at this
  rw [← this]
  have e : ∀ n, n = k → adotNoconj (K k) (rr k) = adotNoconj (K n) (rr n) := by rintro n rfl; rfl
  exact e _ (by omega)

theorem termBra_right (ham : Ham R q) (A B B' : Tensors R q D) (rr : Envs R D) (j : ℕ) (hj : j + ham.sites ≤ N)
    (hB : ∀ n, j ≤ n → n < N → B n = A n) (hB' : ∀ n, j ≤ n → n < N → B' n = A n)
    (hr1 : ∀ n, j ≤ n → n ≤ N → rr n = 1) : termBra ham B B' rr j = hr ham A j := by
  cases ham with
  | two h =>
    simp only [Ham.sites] at hj
    simp only [termBra, hr]
    cases h j with
    | none => rfl
    | some op =>
      simp only [Option.elim_some]
      rw [epsR2_eq, bra2, hB j (by omega) (by omega), hB (j + 1) (by omega) (by omega), hB' j (by omega) (by omega),
        hB' (j + 1) (by omega) (by omega), hr1 (j + 1 + 1) (by omega) (by omega)]
      rfl
  | three h =>
    simp only [Ham.sites] at hj
    simp only [termBra, hr]
    cases h j with
    | none => rfl
    | some op =>
      simp only [Option.elim_some]
      rw [epsR3_eq, bra3, hB j (by omega) (by omega), hB (j + 1) (by omega) (by omega),
        hB (j + 2) (by omega) (by omega), hB' j (by omega) (by omega),
        hB' (j + 1) (by omega) (by omega), hB' (j + 2) (by omega) (by omega), hr1 (j + 2 + 1) (by omega) (by omega)]
      rfl

/-- The terms that start at site `m` or behind it. -/
theorem sum_right {ham : Ham R q} {A B B' : Tensors R q D} {m : ℕ} {K rr : Envs R D} (hK : IsRight N ham A m K)
    (h : Mixed N B B' rr) (hB : ∀ n, m ≤ n → n < N → B n = A n) (hB' : ∀ n, m ≤ n → n < N → B' n = A n)
    (hA : ∀ n, m ≤ n → n < N → ROrth (A n)) (hm : m ≤ N) (h0 : D 0 = 1) (hN : D N = 1) :
    adot (mixL B B' 1 m) (K m) = ∑ j ∈ Finset.Ico m N,
      matElem (psi B' h0 hN) (ham.term (N := N) j) (psi B h0 hN) := by
  have hs := sites_pos ham
  have h1 := h.one hB hB' hA
  have key : ∀ d n, m ≤ n → n + d = N → adot (mixL B B' 1 n) (K n) = ∑ j ∈ Finset.Ico n N,
      matElem (psi B' h0 hN) (ham.term (N := N) j) (psi B h0 hN) := by
    intro d
    induction d with
    | zero =>
      intro n hmn hd
      rw [hK n hmn (by omega), if_neg (by omega), adot_zero_right, Finset.Ico_eq_empty (by omega), Finset.sum_empty]
    | succ d ih =>
      intro n hmn hd
      rw [Finset.sum_eq_sum_Ico_succ_bot (by omega), ← ih (n + 1) (by omega) (by omega), hK n hmn (by omega)]
      split
      · next hle =>
        rw [h.term h0 hN ham n hle, termBra_right ham A B B' rr n hle (fun a b c => hB a (by omega) c)
          (fun a b c => hB' a (by omega) c) (fun a b c => h1 a (by omega) c), adot_add_right, adot_mixL_step,
          hB n hmn (by omega), hB' n hmn (by omega), add_comm]
      · next hgt =>
        rw [term_zero ham n (by omega), adot_zero_right, zero_add, hK (n + 1) (by omega) (by omega),
          if_neg (by omega), adot_zero_right]
  exact key (N - m) m le_rfl (by omega)

end

end Eff

end EvoMPS
