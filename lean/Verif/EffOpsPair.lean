import Verif.EffOpsSite
import Verif.PairTangent

/-!
# The two-site operator (helper lemmas)
-/

set_option linter.unusedSectionVars false

namespace EvoMPS

open Matrix

namespace Eff

section
variable {R : Type*} [CommRing R] [StarRing R] {q D : ℕ → ℕ} {N : ℕ}

/-- The inner product of two-site tensors. -/
def pair2 {p p' a c : ℕ} (g x : Ten2 R p p' a c) : R := ∑ s, ∑ t, (g s t * (x s t)ᴴ).trace

theorem pair2_zero {p p' a c : ℕ} (x : Ten2 R p p' a c) : pair2 0 x = 0 := by
  simp [pair2]

theorem pair2_add {p p' a c : ℕ} (g g' x : Ten2 R p p' a c) : pair2 (g + g') x = pair2 g x + pair2 g' x := by
  simp [pair2, Matrix.add_mul, Finset.sum_add_distrib]

theorem pair2_sum_left {p p' a c : ℕ} {ι : Type*} (S : Finset ι) (g : ι → Ten2 R p p' a c) (x : Ten2 R p p' a c) :
    pair2 (∑ i ∈ S, g i) x = ∑ i ∈ S, pair2 (g i) x := by
  induction S using Finset.cons_induction with
  | empty => simp [pair2_zero]
  | cons a S ha ih => rw [Finset.sum_cons, Finset.sum_cons, pair2_add, ih]

theorem pair2_sum_right {p p' a c : ℕ} {ι : Type*} (S : Finset ι) (g : Ten2 R p p' a c) (x : ι → Ten2 R p p' a c) :
    pair2 g (∑ i ∈ S, x i) = ∑ i ∈ S, pair2 g (x i) := by
  induction S using Finset.cons_induction with
  | empty => simp [pair2]
  | cons a S ha ih =>
    rw [Finset.sum_cons, Finset.sum_cons, ← ih]
    simp [pair2, Matrix.mul_add, Finset.sum_add_distrib]

/-- The chain with the tensors of the sites `k` and `k + 1` replaced. -/
def upd2 (A : Tensors R q D) (k : ℕ) (x : Ten R (q k) (D k) (D (k + 1)))
    (y : Ten R (q (k + 1)) (D (k + 1)) (D (k + 1 + 1))) : Tensors R q D :=
  Function.update (Function.update A k x) (k + 1) y

theorem upd2_fst (A : Tensors R q D) (k : ℕ) (x y) : upd2 A k x y k = x := by
  rw [upd2, Function.update_of_ne (by omega), Function.update_self]

theorem upd2_snd (A : Tensors R q D) (k : ℕ) (x y) : upd2 A k x y (k + 1) = y := by
  rw [upd2, Function.update_self]

theorem upd2_ne (A : Tensors R q D) (k : ℕ) (x y) {n : ℕ} (h : n ≠ k) (h' : n ≠ k + 1) : upd2 A k x y n = A n := by
  rw [upd2, Function.update_of_ne h', Function.update_of_ne h]

/-- A two-site tensor is a sum of products. -/
theorem exists_products {p p' a b c : ℕ} (hb : 0 < b) (X : Ten2 R p p' a c) :
    ∃ (x : Fin p × Fin a → Ten R p a b) (y : Fin p × Fin a → Ten R p' b c), X = ∑ i, calcAA (x i) (y i) := by
  refine ⟨fun i s => Matrix.of fun u v => if s = i.1 ∧ u = i.2 ∧ v = ⟨0, hb⟩ then 1 else 0,
    fun i t => Matrix.of fun v w => X i.1 t i.2 w, ?_⟩
  funext s t
  ext u w
  rw [Finset.sum_apply, Finset.sum_apply, Matrix.sum_apply, Finset.sum_eq_single (s, u)]
  · simp [calcAA, Matrix.mul_apply]
  · rintro ⟨s', u'⟩ - hne
    simp only [calcAA, Matrix.mul_apply, Matrix.of_apply]
    refine Finset.sum_eq_zero fun v _ => ?_
    rw [if_neg, zero_mul]
    rintro ⟨rfl, rfl, -⟩
    exact hne rfl
  · simp

theorem twoSite_sum {ι : Type*} [Fintype ι] (A : Tensors R q D) (h0 : D 0 = 1) (hN : D N = 1) (k : ℕ) (hk : k + 1 < N)
    (X : Pairs R q D) (x : ι → Ten R (q k) (D k) (D (k + 1)))
    (y : ι → Ten R (q (k + 1)) (D (k + 1)) (D (k + 1 + 1))) (hX : X k = ∑ i, calcAA (x i) (y i)) :
    twoSite (N := N) A h0 hN X k = fun s => ∑ i, psi (upd2 A k (x i) (y i)) h0 hN s := by
  have key : ∀ d (s : Cfg q (k + 2 + d)), amp2 A X k (k + 2 + d) s = ∑ i, amp (upd2 A k (x i) (y i)) (k + 2 + d) s := by
    intro d
    induction d with
    | zero =>
      intro s
      show amp2 A X k (k + 2) s = _
      rw [amp2_at, hX, Finset.sum_apply, Finset.sum_apply, Matrix.mul_sum]
      refine Finset.sum_congr rfl fun i _ => ?_
      show _ = amp (upd2 A k (x i) (y i)) k (fun i => s i.castSucc.castSucc)
        * upd2 A k (x i) (y i) k (s (Fin.last k).castSucc) * upd2 A k (x i) (y i) (k + 1) (s (Fin.last (k + 1)))
      rw [upd2_fst, upd2_snd, amp_congr (A := upd2 A k (x i) (y i)) (B := A)
        (fun m hm => upd2_ne A k _ _ (by omega) (by omega))]
      simp only [calcAA, Matrix.mul_assoc]
    | succ d ih =>
      intro s
      have := amp2_steps A X k (k + 2 + d) (by omega) s
      refine this.trans ?_
      rw [ih, Matrix.sum_mul]
      refine Finset.sum_congr rfl fun i _ => ?_
      show _ = amp (upd2 A k (x i) (y i)) (k + 2 + d) (fun i => s i.castSucc)
        * upd2 A k (x i) (y i) (k + 2 + d) (s (Fin.last (k + 2 + d)))
      congr 1
      exact congrFun (upd2_ne A k (x i) (y i) (n := k + 2 + d) (by omega) (by omega)).symm _
  funext s
  obtain ⟨d, rfl⟩ : ∃ d, N = k + 2 + d := ⟨N - (k + 2), by omega⟩
  rw [twoSite, key, Matrix.sum_apply]
  rfl

theorem matElem_sum_right {ι : Type*} (S : Finset ι) (φ : Cfg q N → R) (O : Cfg q N → Cfg q N → R)
    (f : ι → Cfg q N → R) : matElem φ O (fun s => ∑ i ∈ S, f i s) = ∑ i ∈ S, matElem φ O (f i) := by
  simp only [matElem, Finset.mul_sum]
  exact (Finset.sum_congr rfl fun s _ => Finset.sum_comm).trans Finset.sum_comm

/-- A bilinear identity holds for all two-site tensors if it holds for products. -/
theorem bilin (A : Tensors R q D) (h0 : D 0 = 1) (hN : D N = 1) (k : ℕ) (hk : k + 1 < N) (hD : 0 < D (k + 1))
    (S : Finset ℕ) (O : ℕ → Cfg q N → Cfg q N → R)
    (F : Ten2 R (q k) (q (k + 1)) (D k) (D (k + 1 + 1)) → Ten2 R (q k) (q (k + 1)) (D k) (D (k + 1 + 1)))
    (hF : ∀ X X', F (X + X') = F X + F X')
    (h : ∀ x y x' y', ∑ j ∈ S, matElem (psi (upd2 A k x' y') h0 hN) (O j) (psi (upd2 A k x y) h0 hN)
      = pair2 (F (calcAA x y)) (calcAA x' y')) (X Y : Pairs R q D) :
    ∑ j ∈ S, matElem (twoSite (N := N) A h0 hN Y k) (O j) (twoSite A h0 hN X k) = pair2 (F (X k)) (Y k) := by
  obtain ⟨x, y, hx⟩ := exists_products hD (X k)
  obtain ⟨x', y', hy⟩ := exists_products hD (Y k)
  rw [twoSite_sum A h0 hN k hk X x y hx, twoSite_sum A h0 hN k hk Y x' y' hy, hx, hy]
  have hF' : F (∑ i, calcAA (x i) (y i)) = ∑ i, F (calcAA (x i) (y i)) :=
    map_sum (AddMonoidHom.mk' F hF) _ _
  rw [hF', pair2_sum_left]
  simp only [pair2_sum_right, ← h, matElem_sum_left, matElem_sum_right]
  rw [Finset.sum_comm]
  refine (Finset.sum_congr rfl fun i _ => Finset.sum_comm).trans ?_
  rw [Finset.sum_comm]

section
variable [DecidableEq R]

theorem dotLeft_eq {p p' a c : ℕ} (tmp : Fin p → Fin p → Matrix (Fin a) (Fin a) R) (X : Ten2 R p p' a c) (s t) :
    dotLeft tmp X s t = ∑ s', tmp s s' * X s' t := by
  ext i j
  simp [dotLeft, Matrix.sum_apply, Matrix.mul_apply]

theorem dotRight_eq {p p' a c : ℕ} (tmp : Fin p' → Fin p' → Matrix (Fin c) (Fin c) R) (X : Ten2 R p p' a c) (s t) :
    dotRight tmp X s t = ∑ t', X s t' * tmp t t' := by
  ext i j
  simp [dotRight, Matrix.sum_apply, Matrix.mul_apply]

theorem dotLeft_add {p p' a c : ℕ} (tmp : Fin p → Fin p → Matrix (Fin a) (Fin a) R) (X X' : Ten2 R p p' a c) :
    dotLeft tmp (X + X') = dotLeft tmp X + dotLeft tmp X' := by
  funext s t
  simp [dotLeft_eq, Matrix.mul_add, Finset.sum_add_distrib]

theorem dotRight_add {p p' a c : ℕ} (tmp : Fin p' → Fin p' → Matrix (Fin c) (Fin c) R) (X X' : Ten2 R p p' a c) :
    dotRight tmp (X + X') = dotRight tmp X + dotRight tmp X' := by
  funext s t
  simp [dotRight_eq, Matrix.add_mul, Finset.sum_add_distrib]

theorem calcC_add' {p p' a c : ℕ} (op : Fin p → Fin p' → Fin p → Fin p' → R) (X X' : Ten2 R p p' a c) :
    calcC op (X + X') = calcC op X + calcC op X' := by
  funext s t
  simp [calcC_eq, smul_add, Finset.sum_add_distrib]

end

section
variable {A : Tensors R q D} {k : ℕ} {x x' : Ten R (q k) (D k) (D (k + 1))}
  {y y' : Ten R (q (k + 1)) (D (k + 1)) (D (k + 1 + 1))} {rr : Envs R D}

variable (hL : ∀ n < k, LOrth (A n)) (hR : ∀ n, k + 1 < n → n < N → ROrth (A n))
  (h : Mixed N (upd2 A k x y) (upd2 A k x' y') rr)

include hR h in
theorem rr_behind2 (n : ℕ) (h1 : k + 1 < n) (h2 : n ≤ N) : rr n = 1 :=
  h.one (m := k + 2) (A := A) (fun n _ _ => upd2_ne A k _ _ (by omega) (by omega))
    (fun n _ _ => upd2_ne A k _ _ (by omega) (by omega)) (fun n a b => hR n (by omega) b) n h1 h2

include hL in
theorem mix_front2 (j : ℕ) (hj : j ≤ k) : mixL (upd2 A k x y) (upd2 A k x' y') 1 j = 1 :=
  mixL_one (A := A) (fun n _ => upd2_ne A k _ _ (by omega) (by omega))
    (fun n _ => upd2_ne A k _ _ (by omega) (by omega)) hL j hj

include hR h in
theorem rr_mid (hk : k + 1 < N) : rr (k + 1) = ∑ t, y t * (y' t)ᴴ := by
  rw [h.pred (k + 1) hk, rr_behind2 hR h _ (by omega) (by omega), epsR_eq, upd2_snd, upd2_snd]
  simp

include hR h in
theorem rr_before (hk : k + 1 < N) : rr k = ∑ s, ∑ t, calcAA x y s t * (calcAA x' y' s t)ᴴ := by
  rw [h.pred k (by omega), rr_mid hR h hk, epsR_eq, upd2_fst, upd2_fst]
  simp only [Matrix.mul_sum, Matrix.sum_mul, calcAA, Matrix.conjTranspose_mul, Matrix.mul_assoc]

include hL in
theorem mix_behind : mixL (upd2 A k x y) (upd2 A k x' y') 1 (k + 1 + 1)
    = ∑ s, ∑ t, (calcAA x y s t)ᴴ * calcAA x' y' s t := by
  rw [mixL_succ, mixL_succ, mix_front2 hL k le_rfl, upd2_fst, upd2_fst, upd2_snd, upd2_snd, Finset.sum_comm]
  simp only [Matrix.mul_sum, Matrix.sum_mul, calcAA, Matrix.conjTranspose_mul, Matrix.mul_assoc, Matrix.one_mul]

end

section
variable [DecidableEq R]

theorem tr_L2 {pm p p' z a b c : ℕ} (op : Fin pm → Fin p → Fin pm → Fin p → R) (A : Ten R pm z a) (x x' : Ten R p a b)
    (y y' : Ten R p' b c) :
    (∑ t, ∑ s, calcC op (calcAA A x) t s * (∑ u, y u * (y' u)ᴴ) * (A t * x' s)ᴴ).trace
      = pair2 (dotLeft (fun s s' => (epsLOp1 1 A A (fun t t' => op t s t' s'))ᴴ) (calcAA x y)) (calcAA x' y') := by
  rw [pair2, Finset.sum_comm, Matrix.trace_sum]
  refine Finset.sum_congr rfl fun s _ => ?_
  have e : ∀ u, dotLeft (fun s s' => (epsLOp1 1 A A (fun t t' => op t s t' s'))ᴴ) (calcAA x y) s u
      = (∑ t, (A t)ᴴ * calcC op (calcAA A x) t s) * y u := by
    intro u
    simp only [dotLeft_eq, epsLOp1_eq, calcC_eq, calcAA, Matrix.conjTranspose_sum, Matrix.conjTranspose_smul,
      star_star, Matrix.conjTranspose_mul, Matrix.conjTranspose_conjTranspose, Matrix.mul_one, Matrix.mul_sum,
      Matrix.sum_mul, Matrix.smul_mul, Matrix.mul_smul, Matrix.mul_assoc]
    rw [sum_rot3]
    refine Finset.sum_congr rfl fun t _ => ?_
    rw [Finset.sum_comm]
  simp only [e]
  simp only [Matrix.sum_mul, Matrix.mul_sum, Matrix.trace_sum]
  rw [Finset.sum_comm]
  refine Finset.sum_congr rfl fun u _ => Finset.sum_congr rfl fun t _ => ?_
  simp only [calcAA, Matrix.conjTranspose_mul, ← Matrix.mul_assoc]
  rw [Matrix.trace_mul_comm]
  simp only [Matrix.mul_assoc]

theorem tr_right {p p' a b c : ℕ} (x x' : Ten R p a b) (y' : Ten R p' b c) (E : Ten R p' b c)
    (f : Fin p' → Matrix (Fin b) (Fin b) R) (hf : ∀ t, f t = E t * (y' t)ᴴ) {Z : Ten2 R p p' a c}
    (hZ : ∀ s t, Z s t = x s * E t) : adot (∑ s, (x s)ᴴ * x' s) (∑ t, f t) = pair2 Z (calcAA x' y') := by
  simp only [pair2, hZ, hf, adot_eq_trace, Matrix.conjTranspose_sum, Matrix.sum_mul, Matrix.trace_sum]
  refine Finset.sum_congr rfl fun s _ => ?_
  rw [Matrix.mul_sum, Matrix.trace_sum]
  refine Finset.sum_congr rfl fun t _ => ?_
  simp only [calcAA, Matrix.conjTranspose_mul, Matrix.conjTranspose_conjTranspose, Matrix.mul_assoc]
  rw [Matrix.trace_mul_comm]
  simp only [Matrix.mul_assoc]

theorem tr_R2 {pn p p' a b c d : ℕ} (op : Fin p' → Fin pn → Fin p' → Fin pn → R) (A : Ten R pn c d) (x x' : Ten R p a b)
    (y y' : Ten R p' b c) :
    adot (∑ s, (x s)ᴴ * x' s) (∑ t, ∑ u, calcC op (calcAA y A) t u * (y' t * A u)ᴴ)
      = pair2 (dotRight (fun t t' => epsROp1 1 A A (fun u u' => op t u t' u')) (calcAA x y)) (calcAA x' y') := by
  have e : ∀ s t, dotRight (fun t t' => epsROp1 1 A A (fun u u' => op t u t' u')) (calcAA x y) s t
      = x s * ∑ u, calcC op (calcAA y A) t u * (A u)ᴴ := by
    intro s t
    simp only [dotRight_eq, epsROp1_eq, calcC_eq, calcAA, Matrix.mul_one, Matrix.mul_sum, Matrix.sum_mul,
      Matrix.smul_mul, Matrix.mul_smul, Matrix.mul_assoc]
    rw [Finset.sum_comm]
  exact tr_right x x' y' _ _ (fun t => by simp only [Matrix.sum_mul, Matrix.conjTranspose_mul, Matrix.mul_assoc]) e

theorem tr_LL3 {pl pm p p' w z a b c : ℕ} (op : Fin pl → Fin pm → Fin p → Fin pl → Fin pm → Fin p → R)
    (A : Ten R pl w z) (A' : Ten R pm z a) (x x' : Ten R p a b) (y y' : Ten R p' b c) :
    (∑ t, ∑ u, ∑ s, calcC3 op (calcAAA A A' x) t u s * (∑ v, y v * (y' v)ᴴ) * (A t * A' u * x' s)ᴴ).trace
      = pair2 (dotLeft (fun s s' => epsL2 1 (calcAA A A') (calcC (fun t u t' u' => op t u s t' u' s') (calcAA A A')))
          (calcAA x y)) (calcAA x' y') := by
  rw [pair2, sum_rot3, Matrix.trace_sum]
  refine Finset.sum_congr rfl fun s _ => ?_
  have e : ∀ v, dotLeft (fun s s' => epsL2 1 (calcAA A A') (calcC (fun t u t' u' => op t u s t' u' s') (calcAA A A')))
      (calcAA x y) s v = (∑ t, ∑ u, (A t * A' u)ᴴ * calcC3 op (calcAAA A A' x) t u s) * y v := by
    intro v
    simp only [dotLeft_eq, epsL2_eq, calcC_eq, calcC3_eq, calcAA, calcAAA, Matrix.mul_one, Matrix.mul_sum,
      Matrix.sum_mul, Matrix.smul_mul, Matrix.mul_smul, Matrix.mul_assoc, Matrix.conjTranspose_mul]
    rw [Finset.sum_comm]
    refine Finset.sum_congr rfl fun t _ => ?_
    rw [Finset.sum_comm]
    refine Finset.sum_congr rfl fun u _ => ?_
    rw [← sum_rot3]
  simp only [e]
  simp only [Matrix.sum_mul, Matrix.mul_sum, Matrix.trace_sum]
  rw [sum_rot3]
  refine Finset.sum_congr rfl fun v _ => Finset.sum_congr rfl fun t _ => Finset.sum_congr rfl fun u _ => ?_
  rw [Matrix.conjTranspose_mul _ (x' s), calcAA, Matrix.conjTranspose_mul (x' s)]
  simp only [← Matrix.mul_assoc]
  rw [Matrix.trace_mul_comm]
  simp only [Matrix.mul_assoc]

theorem tr_L3 {pm p p' z a b c : ℕ} (op : Fin pm → Fin p → Fin p' → Fin pm → Fin p → Fin p' → R)
    (A : Ten R pm z a) (x x' : Ten R p a b) (y y' : Ten R p' b c) (ho : FirstHerm op) :
    (∑ t, ∑ s, ∑ u, calcC3 op (calcAAA A x y) t s u * (A t * x' s * y' u)ᴴ).trace
      = pair2 (fun s u => Matrix.of fun i j => ∑ s', ∑ u', ∑ i', epsLOp1 1 A A (fun t t' => op t s u t' s' u') i i'
          * calcAA x y s' u' i' j) (calcAA x' y') := by
  have e : ∀ s u, (Matrix.of fun i j => ∑ s', ∑ u', ∑ i', epsLOp1 1 A A (fun t t' => op t s u t' s' u') i i'
          * calcAA x y s' u' i' j) = ∑ t, (A t)ᴴ * calcC3 op (calcAAA A x y) t s u := by
    intro s u
    have e1 : (Matrix.of fun i j => ∑ s', ∑ u', ∑ i', epsLOp1 1 A A (fun t t' => op t s u t' s' u') i i'
          * calcAA x y s' u' i' j) = ∑ s', ∑ u', epsLOp1 1 A A (fun t t' => op t s u t' s' u') * calcAA x y s' u' := by
      ext i j
      simp [Matrix.sum_apply, Matrix.mul_apply]
    rw [e1]
    simp only [epsLOp1_eq, calcC3_eq, calcAA, calcAAA, Matrix.mul_one, Matrix.mul_sum,
      Matrix.sum_mul, Matrix.smul_mul, Matrix.mul_smul, Matrix.mul_assoc]
    rw [sum_rot3]
    refine Finset.sum_congr rfl fun t _ => ?_
    rw [sum_rot3]
    refine Finset.sum_congr rfl fun t' _ => Finset.sum_congr rfl fun s' _ => Finset.sum_congr rfl fun u' _ => ?_
    rw [ho t s u t' s' u']
  simp only [pair2, e]
  simp only [Matrix.sum_mul, Matrix.trace_sum]
  rw [← sum_rot3]
  refine Finset.sum_congr rfl fun s _ => Finset.sum_congr rfl fun u _ => Finset.sum_congr rfl fun t _ => ?_
  rw [Matrix.mul_assoc (A t), Matrix.conjTranspose_mul (A t), ← Matrix.mul_assoc, Matrix.trace_mul_comm, calcAA]
  simp only [Matrix.mul_assoc]

theorem tr_R3 {pn p p' a b c d : ℕ} (op : Fin p → Fin p' → Fin pn → Fin p → Fin p' → Fin pn → R)
    (A : Ten R pn c d) (x x' : Ten R p a b) (y y' : Ten R p' b c) :
    (∑ s, ∑ t, ∑ u, calcC3 op (calcAAA x y A) s t u * (x' s * y' t * A u)ᴴ).trace
      = pair2 (fun s t => Matrix.of fun i j => ∑ s', ∑ t', ∑ j', epsROp1 1 A A (fun u u' => op s t u s' t' u') j' j
          * calcAA x y s' t' i j') (calcAA x' y') := by
  have e : ∀ s t, (Matrix.of fun i j => ∑ s', ∑ t', ∑ j', epsROp1 1 A A (fun u u' => op s t u s' t' u') j' j
          * calcAA x y s' t' i j') = ∑ u, calcC3 op (calcAAA x y A) s t u * (A u)ᴴ := by
    intro s t
    have e1 : (Matrix.of fun i j => ∑ s', ∑ t', ∑ j', epsROp1 1 A A (fun u u' => op s t u s' t' u') j' j
          * calcAA x y s' t' i j') = ∑ s', ∑ t', calcAA x y s' t' * epsROp1 1 A A (fun u u' => op s t u s' t' u') := by
      ext i j
      simp [Matrix.sum_apply, Matrix.mul_apply, mul_comm]
    rw [e1]
    simp only [epsROp1_eq, calcC3_eq, calcAA, calcAAA, Matrix.mul_one, Matrix.mul_sum,
      Matrix.sum_mul, Matrix.smul_mul, Matrix.mul_smul, Matrix.mul_assoc]
    rw [sum_rot3]
  simp only [pair2, e]
  simp only [Matrix.sum_mul, Matrix.trace_sum]
  refine Finset.sum_congr rfl fun s _ => Finset.sum_congr rfl fun t _ => Finset.sum_congr rfl fun u _ => ?_
  simp only [calcAA, Matrix.conjTranspose_mul, Matrix.mul_assoc]

theorem sum_swap22 {M α β γ δ : Type*} [AddCommMonoid M] [Fintype α] [Fintype β] [Fintype γ] [Fintype δ]
    (f : α → β → γ → δ → M) : ∑ a, ∑ b, ∑ c, ∑ d, f a b c d = ∑ c, ∑ d, ∑ a, ∑ b, f a b c d := by
  rw [Finset.sum_congr rfl fun a _ => (sum_rot3 (fun c d b => f a b c d)).symm, ← sum_rot3 (fun c d a => ∑ b, f a b c d)]

theorem tr_RR3 {pn po p p' a b c d f : ℕ} (op : Fin p' → Fin pn → Fin po → Fin p' → Fin pn → Fin po → R)
    (A : Ten R pn c d) (A' : Ten R po d f) (x x' : Ten R p a b) (y y' : Ten R p' b c) (ho : LastHerm op) :
    adot (∑ s, (x s)ᴴ * x' s) (∑ t, ∑ u, ∑ v, calcC3 op (calcAAA y A A') t u v * (y' t * A u * A' v)ᴴ)
      = pair2 (dotRight (fun t t' => epsR2 1 (calcAA A A') (calcC (fun u v u' v' => op t u v t' u' v') (calcAA A A')))
          (calcAA x y)) (calcAA x' y') := by
  have e : ∀ s t, dotRight (fun t t' => epsR2 1 (calcAA A A') (calcC (fun u v u' v' => op t u v t' u' v') (calcAA A A')))
      (calcAA x y) s t = x s * ∑ u, ∑ v, calcC3 op (calcAAA y A A') t u v * (A u * A' v)ᴴ := by
    intro s t
    simp only [dotRight_eq, epsR2_eq, calcC_eq, calcC3_eq, calcAA, calcAAA, Matrix.mul_one, Matrix.mul_sum,
      Matrix.sum_mul, Matrix.smul_mul, Matrix.mul_smul, Matrix.conjTranspose_sum, Matrix.conjTranspose_smul,
      Matrix.mul_assoc]
    rw [sum_rot3 (fun u v t' => ∑ u', ∑ v', op t u v t' u' v' • (x s * (y t' * (A u' * (A' v' * (A u * A' v)ᴴ)))))]
    refine Finset.sum_congr rfl fun t' _ => ?_
    rw [sum_swap22]
    refine Finset.sum_congr rfl fun u _ => Finset.sum_congr rfl fun v _ => Finset.sum_congr rfl fun u' _ =>
      Finset.sum_congr rfl fun v' _ => ?_
    rw [ho t u v t' u' v']
  exact tr_right x x' y' _ _ (fun t => by simp only [Matrix.sum_mul, Matrix.conjTranspose_mul, Matrix.mul_assoc]) e

end

section
variable {A : Tensors R q D} (h0 : D 0 = 1) (hN : D N = 1)

/-- The matrix element between the states with the two-site tensors `Y` and `X`. -/
def elem2 (N : ℕ) (A : Tensors R q D) (h0 : D 0 = 1) (hN : D N = 1) (k : ℕ) (Y X : Pairs R q D)
    (O : Cfg q N → Cfg q N → R) : R :=
  matElem (twoSite (N := N) A h0 hN Y k) O (twoSite A h0 hN X k)

theorem bilin1 (k : ℕ) (hk : k + 1 < N) (hD : 0 < D (k + 1)) (O : Cfg q N → Cfg q N → R)
    (F : Ten2 R (q k) (q (k + 1)) (D k) (D (k + 1 + 1)) → Ten2 R (q k) (q (k + 1)) (D k) (D (k + 1 + 1)))
    (hF : ∀ X X', F (X + X') = F X + F X')
    (h : ∀ x y x' y', matElem (psi (upd2 A k x' y') h0 hN) O (psi (upd2 A k x y) h0 hN)
      = pair2 (F (calcAA x y)) (calcAA x' y')) (X Y : Pairs R q D) :
    elem2 N A h0 hN k Y X O = pair2 (F (X k)) (Y k) := by
  have := bilin A h0 hN k hk hD {0} (fun _ => O) F hF (fun x y x' y' => by rw [Finset.sum_singleton, h]) X Y
  rwa [Finset.sum_singleton] at this

theorem elem2_total (ham : Ham R q) (k : ℕ) (hk : k + 1 < N) (hD : 0 < D (k + 1)) (X Y : Pairs R q D)
    (hL : ∀ n < k, LOrth (A n)) (hR : ∀ n, k + 1 < n → n < N → ROrth (A n)) {KL KR : Envs R D}
    (hKL : IsLeft ham A k KL) (hKR : IsRight N ham A (k + 1 + 1) KR) :
    elem2 N A h0 hN k Y X (ham.total (N := N)) = pair2 (fun s t => KL k * X k s t) (Y k)
      + ∑ j ∈ Finset.Ico (k + 1 - ham.sites) (k + 1 + 1), elem2 N A h0 hN k Y X (ham.term (N := N) j)
      + pair2 (fun s t => X k s t * KR (k + 1 + 1)) (Y k) := by
  have h1 := bilin A h0 hN k hk hD (Finset.range (k + 1 - ham.sites)) (fun j => ham.term (N := N) j)
    (fun X s t => KL k * X s t) (fun X X' => by funext s t; exact Matrix.mul_add _ _ _) (fun x y x' y' => by
      obtain ⟨rr, h⟩ := exists_mixed N (upd2 A k x y) (upd2 A k x' y')
      rw [← sum_left hKL h (fun n _ => upd2_ne A k _ _ (by omega) (by omega))
        (fun n _ => upd2_ne A k _ _ (by omega) (by omega)) hL (by omega) h0 hN, rr_before hR h hk, adotNoconj_eq_trace,
        pair2]
      simp only [Matrix.mul_sum, Matrix.trace_sum, Matrix.mul_assoc]) X Y
  have h2 := bilin A h0 hN k hk hD (Finset.Ico (k + 1 + 1) N) (fun j => ham.term (N := N) j)
    (fun X s t => X s t * KR (k + 1 + 1)) (fun X X' => by funext s t; exact Matrix.add_mul _ _ _) (fun x y x' y' => by
      obtain ⟨rr, h⟩ := exists_mixed N (upd2 A k x y) (upd2 A k x' y')
      rw [← sum_right hKR h (fun n _ _ => upd2_ne A k _ _ (by omega) (by omega))
        (fun n _ _ => upd2_ne A k _ _ (by omega) (by omega)) (fun n a b => hR n (by omega) b) (by omega) h0 hN,
        mix_behind hL, adot_eq_trace, pair2]
      simp only [Matrix.conjTranspose_sum, Matrix.sum_mul, Matrix.trace_sum]
      refine Finset.sum_congr rfl fun s _ => Finset.sum_congr rfl fun t _ => ?_
      rw [Matrix.conjTranspose_mul, Matrix.conjTranspose_conjTranspose, Matrix.mul_assoc, Matrix.trace_mul_comm]) X Y
  rw [elem2, matElem_total, ← Finset.sum_range_add_sum_Ico _ (show k + 1 + 1 ≤ N by omega),
    ← Finset.sum_range_add_sum_Ico _ (show k + 1 - ham.sites ≤ k + 1 + 1 by omega), h1, h2]
  rfl

variable [DecidableEq R]

theorem pair_M2 (hm : Ham2 R q) (k : ℕ) (hk : k + 1 < N) (hD : 0 < D (k + 1)) (X Y : Pairs R q D)
    (hL : ∀ n < k, LOrth (A n)) (hR : ∀ n, k + 1 < n → n < N → ROrth (A n)) {a} (ha : pairM2 hm k (X k) = some a) :
    elem2 N A h0 hN k Y X ((Ham.two hm).term (N := N) k) = pair2 a (Y k) := by
  rw [pairM2] at ha
  obtain ⟨op, ho, rfl⟩ := Option.map_eq_some_iff.1 ha
  refine bilin1 h0 hN k hk hD _ (fun X => calcC op X) (calcC_add' op) (fun x y x' y' => ?_) X Y
  obtain ⟨rr, h⟩ := exists_mixed N (upd2 A k x y) (upd2 A k x' y')
  rw [h.term h0 hN _ k (by simp only [Ham.sites]; omega), mix_front2 hL k le_rfl, adot_one_left, termBra]
  simp only [ho, Option.elim_some, bra2, upd2_fst, upd2_snd]
  rw [rr_behind2 hR h _ (by omega) (by omega), pair2]
  simp only [Matrix.trace_sum, Matrix.mul_one]
  rfl


theorem pair_L2 (hm : Ham2 R q) (k : ℕ) (hk : k + 1 + 1 < N) (hD : 0 < D (k + 1 + 1)) (X Y : Pairs R q D)
    (hL : ∀ n < k + 1, LOrth (A n)) (hR : ∀ n, k + 1 + 1 < n → n < N → ROrth (A n)) {a}
    (ha : pairL2 hm A (k + 1) (X (k + 1)) = some a) :
    elem2 N A h0 hN (k + 1) Y X ((Ham.two hm).term (N := N) k) = pair2 a (Y (k + 1)) := by
  simp only [pairL2] at ha
  obtain ⟨op, ho, rfl⟩ := Option.map_eq_some_iff.1 ha
  refine bilin1 h0 hN (k + 1) hk hD _ (fun X => dotLeft (fun s s' => (epsLOp1 1 (A k) (A k) (fun t t' => op t s t' s'))ᴴ)
    X) (fun X X' => dotLeft_add _ X X') (fun x y x' y' => ?_) X Y
  obtain ⟨rr, h⟩ := exists_mixed N (upd2 A (k + 1) x y) (upd2 A (k + 1) x' y')
  rw [h.term h0 hN _ k (by simp only [Ham.sites]; omega), mix_front2 hL k (by omega), adot_one_left, termBra]
  simp only [ho, Option.elim_some, bra2, upd2_fst]
  rw [upd2_ne A (k + 1) _ _ (by omega) (by omega), upd2_ne A (k + 1) _ _ (by omega) (by omega), rr_mid hR h hk]
  exact tr_L2 op (A k) x x' y y'


theorem pair_R2 (hm : Ham2 R q) (k : ℕ) (hk : k + 1 < N) (hD : 0 < D (k + 1)) (X Y : Pairs R q D)
    (hL : ∀ n < k, LOrth (A n)) (hR : ∀ n, k + 1 < n → n < N → ROrth (A n)) {a}
    (ha : pairR2 N hm A k (X k) = some a) :
    elem2 N A h0 hN k Y X ((Ham.two hm).term (N := N) (k + 1)) = pair2 a (Y k) := by
  rw [pairR2] at ha
  split at ha
  · next hk2 =>
    obtain ⟨op, ho, rfl⟩ := Option.map_eq_some_iff.1 ha
    refine bilin1 h0 hN k hk hD _ (fun X => dotRight (fun t t' => epsROp1 1 (A (k + 2)) (A (k + 2))
      (fun u u' => op t u t' u')) X) (fun X X' => dotRight_add _ X X') (fun x y x' y' => ?_) X Y
    obtain ⟨rr, h⟩ := exists_mixed N (upd2 A k x y) (upd2 A k x' y')
    rw [h.term h0 hN _ (k + 1) (by simp only [Ham.sites]; omega), mixL_succ, mix_front2 hL k le_rfl, termBra]
    simp only [ho, Option.elim_some, bra2, upd2_fst, upd2_snd, Matrix.mul_one]
    rw [upd2_ne A k _ _ (by omega) (by omega), upd2_ne A k _ _ (by omega) (by omega),
      rr_behind2 hR h _ (by omega) (by omega)]
    simp only [Matrix.mul_one]
    exact tr_R2 op (A (k + 2)) x x' y y'
  · next hk2 =>
    obtain rfl := Option.some.inj ha
    rw [elem2, term_zero _ (k + 1) (by simp only [Ham.sites]; omega), pair2_zero]

theorem pair_LL3 (hm : Ham3 R q) (k : ℕ) (hk : k + 2 + 1 < N) (hD : 0 < D (k + 2 + 1)) (X Y : Pairs R q D)
    (hL : ∀ n < k + 2, LOrth (A n)) (hR : ∀ n, k + 2 + 1 < n → n < N → ROrth (A n)) {a}
    (ha : pairLL3 hm A (k + 2) (X (k + 2)) = some a) :
    elem2 N A h0 hN (k + 2) Y X ((Ham.three hm).term (N := N) k) = pair2 a (Y (k + 2)) := by
  simp only [pairLL3] at ha
  obtain ⟨op, ho, rfl⟩ := Option.map_eq_some_iff.1 ha
  refine bilin1 h0 hN (k + 2) hk hD _ (fun X => dotLeft (fun s s' => epsL2 1 (calcAA (A k) (A (k + 1)))
    (calcC (fun t u t' u' => op t u s t' u' s') (calcAA (A k) (A (k + 1))))) X) (fun X X' => dotLeft_add _ X X')
    (fun x y x' y' => ?_) X Y
  obtain ⟨rr, h⟩ := exists_mixed N (upd2 A (k + 2) x y) (upd2 A (k + 2) x' y')
  rw [h.term h0 hN _ k (by simp only [Ham.sites]; omega), mix_front2 hL k (by omega), adot_one_left, termBra]
  simp only [ho, Option.elim_some, bra3, upd2_fst]
  rw [upd2_ne A (k + 2) _ _ (by omega) (by omega), upd2_ne A (k + 2) _ _ (by omega) (by omega),
    upd2_ne A (k + 2) _ _ (by omega) (by omega), upd2_ne A (k + 2) _ _ (by omega) (by omega), rr_mid hR h hk]
  exact tr_LL3 op (A k) (A (k + 1)) x x' y y'

theorem pair_L3 (hm : Ham3 R q) (k : ℕ) (hk : k + 1 + 1 < N) (hD : 0 < D (k + 1 + 1)) (X Y : Pairs R q D)
    (hL : ∀ n < k + 1, LOrth (A n)) (hR : ∀ n, k + 1 + 1 < n → n < N → ROrth (A n)) {a}
    (hH : ∀ op, hm k = some op → FirstHerm op) (ha : pairL3 hm A (k + 1) (X (k + 1)) = some a) :
    elem2 N A h0 hN (k + 1) Y X ((Ham.three hm).term (N := N) k) = pair2 a (Y (k + 1)) := by
  simp only [pairL3] at ha
  obtain ⟨op, ho, rfl⟩ := Option.map_eq_some_iff.1 ha
  refine bilin1 h0 hN (k + 1) hk hD _ (fun X s t => Matrix.of fun i j => ∑ s', ∑ t', ∑ i',
    epsLOp1 1 (A k) (A k) (fun u u' => op u s t u' s' t') i i' * X s' t' i' j) (fun X X' => ?_)
    (fun x y x' y' => ?_) X Y
  · funext s t
    ext i j
    simp [mul_add, Finset.sum_add_distrib]
  obtain ⟨rr, h⟩ := exists_mixed N (upd2 A (k + 1) x y) (upd2 A (k + 1) x' y')
  rw [h.term h0 hN _ k (by simp only [Ham.sites]; omega), mix_front2 hL k (by omega), adot_one_left, termBra]
  simp only [ho, Option.elim_some, bra3, upd2_fst]
  rw [upd2_ne A (k + 1) x y (n := k) (by omega) (by omega), upd2_ne A (k + 1) x' y' (n := k) (by omega) (by omega),
    rr_behind2 hR h _ (by omega) (by omega), show upd2 A (k + 1) x y (k + 2) = y from upd2_snd A (k + 1) x y,
    show upd2 A (k + 1) x' y' (k + 2) = y' from upd2_snd A (k + 1) x' y']
  simp only [Matrix.mul_one]
  exact tr_L3 op (A k) x x' y y' (hH op ho)

theorem pair_R3 (hm : Ham3 R q) (k : ℕ) (hk : k + 1 < N) (hD : 0 < D (k + 1)) (X Y : Pairs R q D)
    (hL : ∀ n < k, LOrth (A n)) (hR : ∀ n, k + 1 < n → n < N → ROrth (A n)) {a}
    (ha : pairR3 N hm A k (X k) = some a) :
    elem2 N A h0 hN k Y X ((Ham.three hm).term (N := N) k) = pair2 a (Y k) := by
  rw [pairR3] at ha
  split at ha
  · next hk2 =>
    obtain ⟨op, ho, rfl⟩ := Option.map_eq_some_iff.1 ha
    refine bilin1 h0 hN k hk hD _ (fun X s t => Matrix.of fun i j => ∑ s', ∑ t', ∑ j',
      epsROp1 1 (A (k + 2)) (A (k + 2)) (fun u u' => op s t u s' t' u') j' j * X s' t' i j') (fun X X' => ?_)
      (fun x y x' y' => ?_) X Y
    · funext s t
      ext i j
      simp [mul_add, Finset.sum_add_distrib]
    obtain ⟨rr, h⟩ := exists_mixed N (upd2 A k x y) (upd2 A k x' y')
    rw [h.term h0 hN _ k (by simp only [Ham.sites]; omega), mix_front2 hL k le_rfl, adot_one_left, termBra]
    simp only [ho, Option.elim_some, bra3, upd2_fst, upd2_snd]
    rw [upd2_ne A k _ _ (by omega) (by omega), upd2_ne A k _ _ (by omega) (by omega),
      rr_behind2 hR h _ (by omega) (by omega)]
    simp only [Matrix.mul_one]
    exact tr_R3 op (A (k + 2)) x x' y y'
  · next hk2 =>
    obtain rfl := Option.some.inj ha
    rw [elem2, term_zero _ k (by simp only [Ham.sites]; omega), pair2_zero]

theorem pair_RR3 (hm : Ham3 R q) (k : ℕ) (hk : k + 1 < N) (hD : 0 < D (k + 1)) (X Y : Pairs R q D)
    (hL : ∀ n < k, LOrth (A n)) (hR : ∀ n, k + 1 < n → n < N → ROrth (A n)) {a}
    (hH : ∀ op, k + 3 < N → hm (k + 1) = some op → LastHerm op) (ha : pairRR3 N hm A k (X k) = some a) :
    elem2 N A h0 hN k Y X ((Ham.three hm).term (N := N) (k + 1)) = pair2 a (Y k) := by
  rw [pairRR3] at ha
  split at ha
  · next hk2 =>
    obtain ⟨op, ho, rfl⟩ := Option.map_eq_some_iff.1 ha
    refine bilin1 h0 hN k hk hD _ (fun X => dotRight (fun t t' => epsR2 1 (calcAA (A (k + 2)) (A (k + 3)))
      (calcC (fun u v u' v' => op t u v t' u' v') (calcAA (A (k + 2)) (A (k + 3))))) X)
      (fun X X' => dotRight_add _ X X') (fun x y x' y' => ?_) X Y
    obtain ⟨rr, h⟩ := exists_mixed N (upd2 A k x y) (upd2 A k x' y')
    rw [h.term h0 hN _ (k + 1) (by simp only [Ham.sites]; omega), mixL_succ, mix_front2 hL k le_rfl, termBra]
    simp only [ho, Option.elim_some, bra3, upd2_fst, upd2_snd, Matrix.mul_one]
    rw [upd2_ne A k _ _ (by omega) (by omega), upd2_ne A k _ _ (by omega) (by omega),
      upd2_ne A k _ _ (by omega) (by omega), upd2_ne A k _ _ (by omega) (by omega),
      rr_behind2 hR h _ (by omega) (by omega)]
    simp only [Matrix.mul_one]
    exact tr_RR3 op (A (k + 2)) (A (k + 3)) x x' y y' (hH op hk2 ho)
  · next hk2 =>
    obtain rfl := Option.some.inj ha
    rw [elem2, term_zero _ (k + 1) (by simp only [Ham.sites]; omega), pair2_zero]

theorem pair2_addK {p p' a b : ℕ} (KL : Option (Matrix (Fin a) (Fin a) R)) (KR : Option (Matrix (Fin b) (Fin b) R))
    (c X Y : Ten2 R p p' a b) :
    pair2 (KR.elim (KL.elim c fun K s t => c s t + K * X s t) fun K s t =>
        (KL.elim c fun K s t => c s t + K * X s t) s t + X s t * K) Y
      = pair2 (fun s t => KL.getD 0 * X s t) Y + pair2 c Y + pair2 (fun s t => X s t * KR.getD 0) Y := by
  have e : ∀ f g : Ten2 R p p' a b, pair2 (fun s t => f s t + g s t) Y = pair2 f Y + pair2 g Y :=
    fun f g => pair2_add f g Y
  have z : pair2 (fun _ _ => 0 : Ten2 R p p' a b) Y = 0 := pair2_zero Y
  cases KL <;> cases KR <;> simp only [Option.elim_none, Option.elim_some, Option.getD_none, Option.getD_some,
    Matrix.zero_mul, Matrix.mul_zero, e, z] <;> ring

/-- The conditions under which the three-site branch uses the right operators. -/
def Terms (N : ℕ) (ham : Ham R q) (k : ℕ) : Prop :=
  match ham with
  | .two _ => True
  | .three h => (∀ j op, j + 1 = k → h j = some op → FirstHerm op) ∧
      ∀ op, k + 3 < N → h (k + 1) = some op → LastHerm op

theorem pairLocal_eq (ham : Ham R q) (k : ℕ) (hk : k + 1 < N) (hD : 0 < D (k + 1)) (X Y : Pairs R q D)
    (hT : Terms N ham k) (hL : ∀ n < k, LOrth (A n)) (hR : ∀ n, k + 1 < n → n < N → ROrth (A n)) {KL KR : OptEnvs R D}
    (hKL : IsLeft ham A k fun n => (KL n).getD 0) (hKR : IsRight N ham A (k + 1 + 1) fun n => (KR n).getD 0) {res}
    (hres : pairLocal N ham A k (KL k) (KR (k + 1 + 1)) (X k) = some res) :
    elem2 N A h0 hN k Y X (ham.total (N := N)) = pair2 res (Y k) := by
  rw [elem2_total h0 hN ham k hk hD X Y hL hR hKL hKR]
  cases ham with
  | two hm =>
    simp only [pairLocal] at hres
    obtain ⟨c, hc, hres⟩ := Option.map_eq_some_iff.1 hres
    obtain ⟨a, ha, hc⟩ := Option.bind_eq_some_iff.1 hc
    obtain ⟨b, hb, hc⟩ := Option.bind_eq_some_iff.1 hc
    obtain ⟨d, hd, rfl⟩ := Option.map_eq_some_iff.1 hc
    rw [← hres, pair2_addK, add_left_inj, add_right_inj]
    rw [Finset.sum_Ico_succ_top (by simp only [Ham.sites]; omega),
      Finset.sum_Ico_succ_top (by simp only [Ham.sites]; omega), pair_R2 h0 hN hm k hk hD X Y hL hR hd,
      pair_M2 h0 hN hm k hk hD X Y hL hR hb, pair2_add, pair2_add]
    congr 2
    cases k with
    | zero =>
      obtain rfl := Option.some.inj ha
      simp [pair2_zero]
    | succ k =>
      simp only [Ham.sites]
      rw [show k + 1 + 1 - 2 = k by omega, Nat.Ico_succ_singleton, Finset.sum_singleton,
        pair_L2 h0 hN hm k hk hD X Y hL hR ha]
  | three hm =>
    simp only [pairLocal] at hres
    obtain ⟨c, hc, hres⟩ := Option.map_eq_some_iff.1 hres
    obtain ⟨a, ha, hc⟩ := Option.bind_eq_some_iff.1 hc
    obtain ⟨a', ha', hc⟩ := Option.bind_eq_some_iff.1 hc
    obtain ⟨b, hb, hc⟩ := Option.bind_eq_some_iff.1 hc
    obtain ⟨d, hd, rfl⟩ := Option.map_eq_some_iff.1 hc
    obtain ⟨hT1, hT2⟩ := hT
    rw [← hres, pair2_addK, add_left_inj, add_right_inj]
    rw [Finset.sum_Ico_succ_top (by simp only [Ham.sites]; omega),
      Finset.sum_Ico_succ_top (by simp only [Ham.sites]; omega), pair_RR3 h0 hN hm k hk hD X Y hL hR hT2 hd,
      pair_R3 h0 hN hm k hk hD X Y hL hR hb, pair2_add, pair2_add]
    congr 2
    match k with
    | 0 =>
      obtain rfl := Option.some.inj ha
      obtain rfl := Option.some.inj ha'
      simp [pair2_zero]
    | 1 =>
      obtain rfl := Option.some.inj ha
      simp only [Ham.sites]
      rw [show 1 + 1 - 3 = 0 by omega, Nat.Ico_succ_singleton, Finset.sum_singleton,
        pair_L3 h0 hN hm 0 hk hD X Y hL hR (fun op => hT1 0 op rfl) ha', pair2_add, pair2_zero]
      exact (zero_add _).symm
    | k + 2 =>
      simp only [Ham.sites]
      rw [show k + 2 + 1 - 3 = k by omega, Finset.sum_Ico_succ_top (by omega), Nat.Ico_succ_singleton,
        Finset.sum_singleton, pair_L3 h0 hN hm (k + 1) hk hD X Y hL hR (fun op => hT1 _ op rfl) ha',
        pair_LL3 h0 hN hm k hk hD X Y hL hR ha, pair2_add]

end

end

end Eff

end EvoMPS
