import Verif.Loops

/-!
# Local operators and expectation values (helper lemmas)
-/

set_option linter.unusedSectionVars false

namespace EvoMPS

open Matrix

variable {R : Type*} [CommRing R] [StarRing R] {q D : ℕ → ℕ} {N : ℕ}

/-! ## Matrix elements are linear in the operator -/

theorem matElem_sum {ι : Type*} (S : Finset ι) (c : ι → R) (O : ι → Cfg q N → Cfg q N → R)
    (φ ψ : Cfg q N → R) :
    matElem φ (fun s t => ∑ i ∈ S, c i * O i s t) ψ = ∑ i ∈ S, c i * matElem φ (O i) ψ := by
  simp only [matElem, Finset.mul_sum, Finset.sum_mul]
  rw [Finset.sum_comm]
  conv_rhs => rw [Finset.sum_comm]
  conv_lhs => rw [Finset.sum_comm]
  refine Finset.sum_congr rfl fun s _ => ?_
  rw [Finset.sum_comm]
  refine Finset.sum_congr rfl fun t _ => Finset.sum_congr rfl fun i _ => ?_
  ring

/-! ## Local operators as product operators -/

/-- The operator that is `op` on one site. -/
def at1 (k : ℕ) (op : Fin (q k) → Fin (q k) → R) (o : ∀ n, Fin (q n) → Fin (q n) → R) :
    ∀ n, Fin (q n) → Fin (q n) → R :=
  Function.update o k op

theorem prodOp_outside (P : ℕ → Prop) [DecidablePred P] (o : ∀ n, Fin (q n) → Fin (q n) → R)
    (ho : ∀ n < N, ¬ P n → o n = idOp (q n)) (s t : Cfg q N) :
    prodOp o s t = if ∀ i : Fin N, ¬ P i → s i = t i then
      ∏ i ∈ Finset.univ.filter (fun i : Fin N => P i), o i (s i) (t i) else 0 := by
  rw [prodOp]
  split_ifs with h
  · symm
    refine Finset.prod_subset (Finset.subset_univ _) fun i _ hi => ?_
    have hi : ¬ P i := by simpa using hi
    rw [ho i i.isLt hi, idOp, if_pos (h i hi)]
  · push Not at h
    obtain ⟨i, hi, hne⟩ := h
    refine Finset.prod_eq_zero (Finset.mem_univ i) ?_
    rw [ho i i.isLt hi, idOp, if_neg hne]

theorem siteOp_eq (k : ℕ) (hk : k < N) (op : Fin (q k) → Fin (q k) → R) :
    siteOp (N := N) k hk op = prodOp (at1 k op fun n => idOp (q n)) := by
  funext s t
  rw [prodOp_outside (fun n => n = k) _ (fun n _ h => by rw [at1, Function.update_of_ne h]), siteOp]
  refine if_congr Iff.rfl ?_ rfl
  have : Finset.univ.filter (fun i : Fin N => i.val = k) = {⟨k, hk⟩} := by
    ext i; simp [Fin.ext_iff]
  rw [this, Finset.prod_singleton, at1, Function.update_self]

theorem siteOpPair_eq (j k : ℕ) (hj : j < N) (hk : k < N) (hjk : j ≠ k)
    (op1 : Fin (q j) → Fin (q j) → R) (op2 : Fin (q k) → Fin (q k) → R) :
    siteOpPair (N := N) j k hj hk op1 op2
      = prodOp (at1 j op1 (at1 k op2 fun n => idOp (q n))) := by
  funext s t
  rw [prodOp_outside (fun n => n = j ∨ n = k) _ (fun n _ h => by
    push Not at h; rw [at1, Function.update_of_ne h.1, at1, Function.update_of_ne h.2]),
    siteOpPair]
  refine if_congr (by simp only [not_or, and_imp]) ?_ rfl
  have : Finset.univ.filter (fun i : Fin N => i.val = j ∨ i.val = k)
      = {⟨j, hj⟩, ⟨k, hk⟩} := by
    ext i; simp [Fin.ext_iff]
  rw [this, Finset.prod_insert (by simpa using hjk), Finset.prod_singleton]
  simp only [at1, Function.update_self]
  rw [Function.update_of_ne (Ne.symm hjk), Function.update_self]

/-- The matrix unit `|a⟩⟨b|`. -/
def unitOp {m : ℕ} (a b : Fin m) : Fin m → Fin m → R :=
  fun s t => if s = a ∧ t = b then 1 else 0


theorem siteOp2_units (k : ℕ) (hk : k + 1 < N)
    (op : Fin (q k) → Fin (q (k + 1)) → Fin (q k) → Fin (q (k + 1)) → R) :
    siteOp2 (N := N) k hk op = fun s t =>
      ∑ p : Fin (q k) × Fin (q (k + 1)) × Fin (q k) × Fin (q (k + 1)),
        op p.1 p.2.1 p.2.2.1 p.2.2.2 *
          prodOp (at1 k (unitOp p.1 p.2.2.1)
            (at1 (k + 1) (unitOp p.2.1 p.2.2.2) fun n => idOp (q n))) s t := by
  funext s t
  have e : ∀ p : Fin (q k) × Fin (q (k + 1)) × Fin (q k) × Fin (q (k + 1)),
      prodOp (R := R) (N := N) (at1 k (unitOp p.1 p.2.2.1)
            (at1 (k + 1) (unitOp p.2.1 p.2.2.2) fun n => idOp (q n))) s t =
        if ∀ i : Fin N, i.val ≠ k → i.val ≠ k + 1 → s i = t i then
          (if (s ⟨k, by omega⟩, s ⟨k + 1, hk⟩, t ⟨k, by omega⟩, t ⟨k + 1, hk⟩) = p
            then 1 else 0) else 0 := by
    rintro ⟨a, b, c, d⟩
    rw [← siteOpPair_eq k (k + 1) (by omega) hk (by omega), siteOpPair]
    refine if_congr Iff.rfl ?_ rfl
    simp only [unitOp, Prod.mk.injEq, mul_ite, mul_one, mul_zero]
    split_ifs <;> simp_all
  simp only [e]
  rw [siteOp2]
  split_ifs with h
  · simp
  · simp

theorem siteOp3_units (k : ℕ) (hk : k + 2 < N)
    (op : Fin (q k) → Fin (q (k + 1)) → Fin (q (k + 2)) →
      Fin (q k) → Fin (q (k + 1)) → Fin (q (k + 2)) → R) :
    siteOp3 (N := N) k hk op = fun s t =>
      ∑ p : Fin (q k) × Fin (q (k + 1)) × Fin (q (k + 2)) ×
          Fin (q k) × Fin (q (k + 1)) × Fin (q (k + 2)),
        op p.1 p.2.1 p.2.2.1 p.2.2.2.1 p.2.2.2.2.1 p.2.2.2.2.2 *
          prodOp (at1 k (unitOp p.1 p.2.2.2.1)
            (at1 (k + 1) (unitOp p.2.1 p.2.2.2.2.1)
              (at1 (k + 2) (unitOp p.2.2.1 p.2.2.2.2.2) fun n => idOp (q n)))) s t := by
  funext s t
  have e : ∀ p : Fin (q k) × Fin (q (k + 1)) × Fin (q (k + 2)) ×
          Fin (q k) × Fin (q (k + 1)) × Fin (q (k + 2)),
      prodOp (R := R) (N := N) (at1 k (unitOp p.1 p.2.2.2.1)
            (at1 (k + 1) (unitOp p.2.1 p.2.2.2.2.1)
              (at1 (k + 2) (unitOp p.2.2.1 p.2.2.2.2.2) fun n => idOp (q n)))) s t =
        if ∀ i : Fin N, i.val ≠ k → i.val ≠ k + 1 → i.val ≠ k + 2 → s i = t i then
          (if (s ⟨k, by omega⟩, s ⟨k + 1, by omega⟩, s ⟨k + 2, hk⟩,
            t ⟨k, by omega⟩, t ⟨k + 1, by omega⟩, t ⟨k + 2, hk⟩) = p
            then 1 else 0) else 0 := by
    rintro ⟨a, b, c, d, e, f⟩
    rw [prodOp_outside (fun n => n = k ∨ n = k + 1 ∨ n = k + 2) _ (fun n _ h => by
      push Not at h
      rw [at1, Function.update_of_ne h.1, at1, Function.update_of_ne h.2.1, at1,
        Function.update_of_ne h.2.2])]
    refine if_congr (by simp only [not_or, and_imp, ne_eq]) ?_ rfl
    have : Finset.univ.filter (fun i : Fin N => i.val = k ∨ i.val = k + 1 ∨ i.val = k + 2)
        = {⟨k, by omega⟩, ⟨k + 1, by omega⟩, ⟨k + 2, hk⟩} := by
      ext i; simp [Fin.ext_iff]
    rw [this, Finset.prod_insert (by simp), Finset.prod_insert (by simp), Finset.prod_singleton]
    simp only [at1, Function.update_self]
    rw [Function.update_of_ne (by omega), Function.update_self, Function.update_of_ne (by omega),
      Function.update_of_ne (by omega), Function.update_self]
    simp only [unitOp, Prod.mk.injEq, mul_ite, mul_one, mul_zero]
    split_ifs <;> simp_all
  simp only [e]
  rw [siteOp3]
  split_ifs with h
  · simp
  · simp

/-! ## Contractions with an operator are contractions with a modified ket -/

/-- A single-site operator applied to a site tensor. -/
def opSite {m a b : ℕ} (op : Fin m → Fin m → R) (A : Ten R m a b) : Ten R m a b :=
  fun s => ∑ t, op s t • A t

theorem opT_at {o : ∀ n, Fin (q n) → Fin (q n) → R} (A : Tensors R q D) {k : ℕ}
    {op : Fin (q k) → Fin (q k) → R} (h : o k = op) : opT o A k = opSite op (A k) := by
  subst h; rfl

theorem opSite_unit {m a b : ℕ} (i j : Fin m) (A : Ten R m a b) :
    opSite (unitOp i j) A = fun s => if s = i then A j else 0 := by
  funext s
  rw [opSite]
  by_cases h : s = i
  · simp only [unitOp, h, true_and, ite_smul, one_smul, zero_smul, if_true]
    simp
  · simp [unitOp, h]

variable [DecidableEq R] {m a b a' b' : ℕ}

theorem epsLOp1_opSite (x : Matrix (Fin a) (Fin a') R) (A1 : Ten R m a b) (A2 : Ten R m a' b')
    (op : Fin m → Fin m → R) : epsLOp1 x A1 A2 op = epsL x (opSite op A1) A2 := by
  rw [epsLOp1_eq, epsL_eq, Finset.sum_comm]
  refine Finset.sum_congr rfl fun s _ => ?_
  rw [opSite, Matrix.conjTranspose_sum, Matrix.sum_mul, Matrix.sum_mul]
  refine Finset.sum_congr rfl fun t _ => ?_
  rw [Matrix.conjTranspose_smul, Matrix.smul_mul, Matrix.smul_mul]

theorem epsROp1_opSite (x : Matrix (Fin b) (Fin b') R) (A1 : Ten R m a b) (A2 : Ten R m a' b')
    (op : Fin m → Fin m → R) : epsROp1 x A1 A2 op = epsR x (opSite op A1) A2 := by
  rw [epsROp1_eq, epsR_eq]
  refine Finset.sum_congr rfl fun s _ => ?_
  rw [opSite, Matrix.sum_mul, Matrix.sum_mul]
  refine Finset.sum_congr rfl fun t _ => ?_
  rw [Matrix.smul_mul, Matrix.smul_mul]

omit [DecidableEq R] in
theorem epsR_opSite_unit (x : Matrix (Fin b) (Fin b') R) (A1 : Ten R m a b) (A2 : Ten R m a' b')
    (i j : Fin m) : epsR x (opSite (unitOp i j) A1) A2 = A1 j * x * (A2 i)ᴴ := by
  rw [epsR_eq, opSite_unit, Finset.sum_eq_single i] <;> simp +contextual

omit [DecidableEq R] in
theorem adot_sum_right {m n : ℕ} {ι : Type*} (S : Finset ι) (x : Matrix (Fin m) (Fin n) R)
    (y : ι → Matrix (Fin m) (Fin n) R) : adot x (∑ i ∈ S, y i) = ∑ i ∈ S, adot x (y i) := by
  simp only [adot_eq_trace, Matrix.mul_sum, Matrix.trace_sum]

omit [DecidableEq R] in
theorem adot_smul_right {m n : ℕ} (c : R) (x y : Matrix (Fin m) (Fin n) R) :
    adot x (c • y) = c * adot x y := by
  simp only [adot_eq_trace, Matrix.mul_smul, Matrix.trace_smul, smul_eq_mul]

/-! ## Expectation values as contractions -/

section

variable {A : Tensors R q D} {l r : Envs R D}

omit [DecidableEq R] in
theorem expval_1 (h : UpToDate N A l r) (h0 : D 0 = 1) (hN : D N = 1) (k : ℕ) (hk : k < N)
    (op : Fin (q k) → Fin (q k) → R) :
    matElem (psi A h0 hN) (siteOp k hk op) (psi A h0 hN)
      = adot (l k) (epsR (r (k + 1)) (opSite op (A k)) (A k)) := by
  have ho : ∀ n, n ≠ k → at1 k op (fun n => idOp (q n)) n = idOp (q n) := fun n hn => by
    rw [at1, Function.update_of_ne hn]
  rw [siteOp_eq, matElem_window h h0 hN _ (k + 1) hk (fun n h1 _ => ho n (by omega)),
    adot_mixL_step, mixL_window h _ k (by omega) (fun n hn => ho n (by omega)),
    opT_at A (op := op) (by rw [at1, Function.update_self])]

omit [DecidableEq R] in
theorem expval_2 (h : UpToDate N A l r) (h0 : D 0 = 1) (hN : D N = 1) (k : ℕ) (hk : k + 1 < N)
    (op : Fin (q k) → Fin (q (k + 1)) → Fin (q k) → Fin (q (k + 1)) → R) :
    matElem (psi A h0 hN) (siteOp2 k hk op) (psi A h0 hN)
      = ∑ s, ∑ t, ∑ u, ∑ v, op s t u v *
        adot (l k) (A k u * (A (k + 1) v * r (k + 1 + 1) * (A (k + 1) t)ᴴ) * (A k s)ᴴ) := by
  rw [siteOp2_units, matElem_sum]
  simp only [Fintype.sum_prod_type]
  refine Finset.sum_congr rfl fun s _ => Finset.sum_congr rfl fun t _ =>
    Finset.sum_congr rfl fun u _ => Finset.sum_congr rfl fun v _ => ?_
  congr 1
  have ho : ∀ n, n ≠ k → n ≠ k + 1 → at1 k (unitOp (R := R) s u)
      (at1 (k + 1) (unitOp t v) fun n => idOp (q n)) n = idOp (q n) := fun n h1 h2 => by
    rw [at1, Function.update_of_ne h1, at1, Function.update_of_ne h2]
  rw [matElem_window h h0 hN _ (k + 1 + 1) hk (fun n h1 _ => ho n (by omega) (by omega)),
    adot_mixL_step, adot_mixL_step,
    mixL_window h _ k (by omega) (fun n hn => ho n (by omega) (by omega)),
    opT_at A (k := k) (op := unitOp s u) (by rw [at1, Function.update_self]),
    opT_at A (k := k + 1) (op := unitOp t v)
      (by rw [at1, Function.update_of_ne (by omega), at1, Function.update_self]),
    epsR_opSite_unit, epsR_opSite_unit]

omit [DecidableEq R] in
theorem expval_3 (h : UpToDate N A l r) (h0 : D 0 = 1) (hN : D N = 1) (k : ℕ) (hk : k + 2 < N)
    (op : Fin (q k) → Fin (q (k + 1)) → Fin (q (k + 2)) →
      Fin (q k) → Fin (q (k + 1)) → Fin (q (k + 2)) → R) :
    matElem (psi A h0 hN) (siteOp3 k hk op) (psi A h0 hN)
      = ∑ s, ∑ t, ∑ w, ∑ u, ∑ v, ∑ z, op s t w u v z *
        adot (l k) (A k u * (A (k + 1) v * (A (k + 2) z * r (k + 2 + 1) * (A (k + 2) w)ᴴ) *
          (A (k + 1) t)ᴴ) * (A k s)ᴴ) := by
  rw [siteOp3_units, matElem_sum]
  simp only [Fintype.sum_prod_type]
  refine Finset.sum_congr rfl fun s _ => Finset.sum_congr rfl fun t _ =>
    Finset.sum_congr rfl fun w _ => Finset.sum_congr rfl fun u _ =>
    Finset.sum_congr rfl fun v _ => Finset.sum_congr rfl fun z _ => ?_
  congr 1
  have ho : ∀ n, n ≠ k → n ≠ k + 1 → n ≠ k + 2 → at1 k (unitOp (R := R) s u)
      (at1 (k + 1) (unitOp t v) (at1 (k + 2) (unitOp w z) fun n => idOp (q n))) n
        = idOp (q n) := fun n h1 h2 h3 => by
    rw [at1, Function.update_of_ne h1, at1, Function.update_of_ne h2, at1,
      Function.update_of_ne h3]
  rw [matElem_window h h0 hN _ (k + 2 + 1) hk
      (fun n h1 _ => ho n (by omega) (by omega) (by omega)),
    adot_mixL_step, adot_mixL_step, adot_mixL_step,
    mixL_window h _ k (by omega) (fun n hn => ho n (by omega) (by omega) (by omega)),
    opT_at A (k := k) (op := unitOp s u) (by rw [at1, Function.update_self]),
    opT_at A (k := k + 1) (op := unitOp t v)
      (by rw [at1, Function.update_of_ne (by omega), at1, Function.update_self]),
    opT_at A (k := k + 2) (op := unitOp w z)
      (by rw [at1, Function.update_of_ne (by omega), at1, Function.update_of_ne (by omega), at1,
        Function.update_self]),
    epsR_opSite_unit, epsR_opSite_unit, epsR_opSite_unit]

end

end EvoMPS
