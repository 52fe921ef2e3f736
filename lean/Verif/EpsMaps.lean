import Verif.Basic

/-!
# Contraction maps (`core_common.py`, `tdvp_common.py`)

Every definition mirrors one python function: the loops and the tests for vanishing
operator elements are kept.  The lemmas rewrite the loops as finite sums.
-/

namespace EvoMPS

open Matrix

variable {R : Type*} [CommRing R] [StarRing R]
variable {q q' q'' a a' b b' c c' : ℕ}

/-! ## Maps without operator -/

/-- `core_common.py:82-147` `eps_l_noop(x, A1, A2)`: `out += A1[s]^H (x A2[s])`. -/
def epsL (x : Matrix (Fin a) (Fin a') R) (A1 : Ten R q a b) (A2 : Ten R q a' b') :
    Matrix (Fin b) (Fin b') R :=
  forSum q fun s => (A1 s)ᴴ * (x * A2 s)

/-- `core_common.py:149-207` `eps_r_noop(x, A1, A2)`: `out += (A1[s] x) A2[s]^H`. -/
def epsR (x : Matrix (Fin b) (Fin b') R) (A1 : Ten R q a b) (A2 : Ten R q a' b') :
    Matrix (Fin a) (Fin a') R :=
  forSum q fun s => (A1 s * x) * (A2 s)ᴴ

theorem epsL_eq (x : Matrix (Fin a) (Fin a') R) (A1 : Ten R q a b) (A2 : Ten R q a' b') :
    epsL x A1 A2 = ∑ s, (A1 s)ᴴ * x * A2 s := by
  simp [epsL, forSum_eq, Matrix.mul_assoc]

theorem epsR_eq (x : Matrix (Fin b) (Fin b') R) (A1 : Ten R q a b) (A2 : Ten R q a' b') :
    epsR x A1 A2 = ∑ s, A1 s * x * (A2 s)ᴴ := by
  simp [epsR, forSum_eq]

/-! ## Maps with a single-site operator -/

section
variable [DecidableEq R]

/-- `core_common.py:209-245` `eps_l_op_1s(x, A1, A2, op)`.  The loop body is skipped when
the (conjugated) operator element vanishes. -/
def epsLOp1 (x : Matrix (Fin a) (Fin a') R) (A1 : Ten R q a b) (A2 : Ten R q a' b')
    (op : Fin q → Fin q → R) : Matrix (Fin b) (Fin b') R :=
  let opc : Fin q → Fin q → R := fun s t => star (op s t)
  (List.finRange q).foldl (fun out s =>
    (List.finRange q).foldl (fun out t =>
      let o := opc t s
      if o ≠ 0 then out + o • ((A1 s)ᴴ * (x * A2 t)) else out) out) 0

/-- `core_common.py:330-361` `eps_r_op_1s(x, A1, A2, op)`. -/
def epsROp1 (x : Matrix (Fin b) (Fin b') R) (A1 : Ten R q a b) (A2 : Ten R q a' b')
    (op : Fin q → Fin q → R) : Matrix (Fin a) (Fin a') R :=
  (List.finRange q).foldl (fun out s =>
    let xA2s := x * (A2 s)ᴴ
    (List.finRange q).foldl (fun out t =>
      let o := op s t
      if o ≠ 0 then out + o • (A1 t * xA2s) else out) out) 0

end

theorem foldl_ite_add {M ι : Type*} [AddCommMonoid M] (L : List ι) (p : ι → Prop)
    [DecidablePred p] (f : ι → M) (hf : ∀ i, ¬ p i → f i = 0) (a : M) :
    L.foldl (fun out s => if p s then out + f s else out) a
      = L.foldl (fun out s => out + f s) a := by
  congr 1
  funext out s
  by_cases h : p s
  · simp [h]
  · simp [h, hf s h]

theorem foldl_foldl_add {M ι κ : Type*} [AddCommMonoid M] (L : List ι) (L' : List κ)
    (f : ι → κ → M) (a : M) :
    L.foldl (fun out s => L'.foldl (fun out t => out + f s t) out) a
      = L.foldl (fun out s => out + (L'.map (f s)).sum) a := by
  congr 1
  funext out s
  exact foldl_add_eq _ _ _

theorem sum_map_finRange {M : Type*} [AddCommMonoid M] (q : ℕ) (f : Fin q → M) :
    ((List.finRange q).map f).sum = ∑ s, f s := by
  rw [← List.ofFn_eq_map, List.sum_ofFn]

theorem foldl2_eq_sum {M : Type*} [AddCommMonoid M] (m n : ℕ) (f : Fin m → Fin n → M) :
    (List.finRange m).foldl (fun out s =>
      (List.finRange n).foldl (fun out t => out + f s t) out) 0 = ∑ s, ∑ t, f s t := by
  rw [foldl_foldl_add, foldl_add_eq, zero_add, sum_map_finRange]
  simp [sum_map_finRange]

section
variable [DecidableEq R]

theorem epsLOp1_eq (x : Matrix (Fin a) (Fin a') R) (A1 : Ten R q a b) (A2 : Ten R q a' b')
    (op : Fin q → Fin q → R) :
    epsLOp1 x A1 A2 op = ∑ s, ∑ t, star (op t s) • ((A1 s)ᴴ * x * A2 t) := by
  simp only [epsLOp1]
  rw [← foldl2_eq_sum]
  congr 1
  funext out s
  rw [foldl_ite_add (p := fun t => star (op t s) ≠ 0)]
  · simp [Matrix.mul_assoc]
  · intro t ht
    simp only [ne_eq, not_not] at ht
    simp [ht]

theorem epsROp1_eq (x : Matrix (Fin b) (Fin b') R) (A1 : Ten R q a b) (A2 : Ten R q a' b')
    (op : Fin q → Fin q → R) :
    epsROp1 x A1 A2 op = ∑ s, ∑ t, op s t • (A1 t * x * (A2 s)ᴴ) := by
  simp only [epsROp1]
  rw [← foldl2_eq_sum]
  congr 1
  funext out s
  rw [foldl_ite_add (p := fun t => op s t ≠ 0)]
  · simp [Matrix.mul_assoc]
  · intro t ht
    simp only [ne_eq, not_not] at ht
    simp [ht]

end

/-! ## Products of neighbouring tensors -/

/-- `core_common.py:13-24` `calc_AA`. -/
def calcAA (A : Ten R q a b) (Ap1 : Ten R q' b c) : Ten2 R q q' a c :=
  fun u v => A u * Ap1 v

/-- `core_common.py:33-50` `calc_AAA`. -/
def calcAAA {d : ℕ} (A : Ten R q a b) (Ap1 : Ten R q' b c) (Ap2 : Ten R q'' c d) :
    Ten3 R q q' q'' a d :=
  fun u v w => (A u * Ap1 v) * Ap2 w

/-- `core_common.py:52-65` `calc_AAA_AA`. -/
def calcAAA_AA {d : ℕ} (AA : Ten2 R q q' a c) (Ap2 : Ten R q'' c d) : Ten3 R q q' q'' a d :=
  fun u v w => AA u v * Ap2 w

/-- `core_common.py:67-80` `calc_AAA_AAr`. -/
def calcAAA_AAr {d : ℕ} (A : Ten R q a b) (AAp1 : Ten2 R q' q'' b d) : Ten3 R q q' q'' a d :=
  fun u v w => A u * AAp1 v w

/-! ## Row-major reshapes -/

/-- Position of `(i, j)` in the row-major flattening of a pair of axes of lengths `m, n`
(numpy's `reshape`, order `'C'`). -/
def flat {m n : ℕ} (i : Fin m) (j : Fin n) : Fin (m * n) :=
  ⟨i * n + j, by
    have hi := i.isLt; have hj := j.isLt
    calc i.val * n + j.val < i.val * n + n := by omega
      _ = (i.val + 1) * n := by ring
      _ ≤ m * n := Nat.mul_le_mul_right n hi⟩

theorem flat_eq {m n : ℕ} (i : Fin m) (j : Fin n) : flat i j = finProdFinEquiv (i, j) := by
  apply Fin.ext
  simp [flat, finProdFinEquiv]
  ring

@[simp] theorem flat_divNat {m n : ℕ} (i : Fin m) (j : Fin n) : (flat i j).divNat = i := by
  rw [flat_eq]
  exact congrArg Prod.fst (finProdFinEquiv.symm_apply_apply (i, j))

@[simp] theorem flat_modNat {m n : ℕ} (i : Fin m) (j : Fin n) : (flat i j).modNat = j := by
  rw [flat_eq]
  exact congrArg Prod.snd (finProdFinEquiv.symm_apply_apply (i, j))

theorem sum_flat {M : Type*} [AddCommMonoid M] {m n : ℕ} (f : Fin (m * n) → M) :
    ∑ k, f k = ∑ i : Fin m, ∑ j : Fin n, f (flat i j) := by
  rw [← finProdFinEquiv.sum_comp f, Fintype.sum_prod_type]
  simp [flat_eq]

/-- `AA.reshape((q*q', a, b))`: merge the two site axes (`tdvp_common.py:38-41`). -/
def mergeSites (C : Ten2 R q q' a b) : Ten R (q * q') a b :=
  fun k => C k.divNat k.modNat

/-- `AAA.reshape((q*q'*q'', a, b))`: merge three site axes (`tdvp_common.py:59-62`). -/
def mergeSites3 (C : Ten3 R q q' q'' a b) : Ten R (q * q' * q'') a b :=
  fun k => C k.divNat.divNat k.divNat.modNat k.modNat

/-- `AA.reshape((q*q', a*b))` (`tdvp_common.py:74`). -/
def matOfTen2 (AA : Ten2 R q q' a b) : Matrix (Fin (q * q')) (Fin (a * b)) R :=
  fun k j => AA k.divNat k.modNat j.divNat j.modNat

/-- `op.reshape((q*q', q*q'))` (`tdvp_common.py:75`). -/
def matOfOp2 (op : Fin q → Fin q' → Fin q → Fin q' → R) :
    Matrix (Fin (q * q')) (Fin (q * q')) R :=
  fun k j => op k.divNat k.modNat j.divNat j.modNat

/-- `C_.reshape(AA.shape)` (`tdvp_common.py:77`). -/
def ten2OfMat (C : Matrix (Fin (q * q')) (Fin (a * b)) R) : Ten2 R q q' a b :=
  fun u v i j => C (flat u v) (flat i j)

/-! ## Two-site operators -/

/-- `tdvp_common.py:73-77` `calc_C_mat_op_AA`. -/
def calcC (op : Fin q → Fin q' → Fin q → Fin q' → R) (AA : Ten2 R q q' a b) :
    Ten2 R q q' a b :=
  ten2OfMat (matOfOp2 op * matOfTen2 AA)

/-- `tdvp_common.py:37-43` `eps_r_op_2s_AA12_C34` (also bound to `eps_r_op_2s_C12_AA34`). -/
def epsR2 (x : Matrix (Fin b) (Fin b') R) (AA12 : Ten2 R q q' a b) (C34 : Ten2 R q q' a' b') :
    Matrix (Fin a) (Fin a') R :=
  epsR x (mergeSites AA12) (mergeSites C34)

/-- `tdvp_common.py:45-49` `eps_l_op_2s_AA12_C34`. -/
def epsL2 (x : Matrix (Fin a) (Fin a') R) (AA12 : Ten2 R q q' a b) (C34 : Ten2 R q q' a' b') :
    Matrix (Fin b) (Fin b') R :=
  epsL x (mergeSites AA12) (mergeSites C34)

theorem calcC_eq (op : Fin q → Fin q' → Fin q → Fin q' → R) (AA : Ten2 R q q' a b)
    (s : Fin q) (t : Fin q') : calcC op AA s t = ∑ u, ∑ v, op s t u v • AA u v := by
  ext i j
  simp only [calcC, ten2OfMat, Matrix.mul_apply, sum_flat, matOfOp2, matOfTen2, flat_divNat,
    flat_modNat, Matrix.sum_apply, Matrix.smul_apply, smul_eq_mul]

theorem epsR2_eq (x : Matrix (Fin b) (Fin b') R) (AA12 : Ten2 R q q' a b)
    (C34 : Ten2 R q q' a' b') :
    epsR2 x AA12 C34 = ∑ s, ∑ t, AA12 s t * x * (C34 s t)ᴴ := by
  simp only [epsR2, epsR_eq, sum_flat, mergeSites, flat_divNat, flat_modNat]

theorem epsL2_eq (x : Matrix (Fin a) (Fin a') R) (AA12 : Ten2 R q q' a b)
    (C34 : Ten2 R q q' a' b') :
    epsL2 x AA12 C34 = ∑ s, ∑ t, (AA12 s t)ᴴ * x * (C34 s t) := by
  simp only [epsL2, epsL_eq, sum_flat, mergeSites, flat_divNat, flat_modNat]

/-! ## Three-site operators -/

/-- `AAA.reshape((q*q'*q'', a*b))` (`tdvp_common.py:80-81`). -/
def matOfTen3 (AAA : Ten3 R q q' q'' a b) : Matrix (Fin (q * q' * q'')) (Fin (a * b)) R :=
  fun k j => AAA k.divNat.divNat k.divNat.modNat k.modNat j.divNat j.modNat

/-- `op.reshape((q*q'*q'', q*q'*q''))` (`tdvp_common.py:82-83`). -/
def matOfOp3 (op : Fin q → Fin q' → Fin q'' → Fin q → Fin q' → Fin q'' → R) :
    Matrix (Fin (q * q' * q'')) (Fin (q * q' * q'')) R :=
  fun k j => op k.divNat.divNat k.divNat.modNat k.modNat j.divNat.divNat j.divNat.modNat j.modNat

/-- `C_.reshape(AAA.shape)` (`tdvp_common.py:85`). -/
def ten3OfMat (C : Matrix (Fin (q * q' * q'')) (Fin (a * b)) R) : Ten3 R q q' q'' a b :=
  fun u v w i j => C (flat (flat u v) w) (flat i j)

/-- `tdvp_common.py:79-85` `calc_C_3s_mat_op_AAA`. -/
def calcC3 (op : Fin q → Fin q' → Fin q'' → Fin q → Fin q' → Fin q'' → R)
    (AAA : Ten3 R q q' q'' a b) : Ten3 R q q' q'' a b :=
  ten3OfMat (matOfOp3 op * matOfTen3 AAA)

/-- `tdvp_common.py:58-62` `eps_r_op_3s_C123_AAA456`. -/
def epsR3 (x : Matrix (Fin b) (Fin b') R) (C123 : Ten3 R q q' q'' a b)
    (AAA456 : Ten3 R q q' q'' a' b') : Matrix (Fin a) (Fin a') R :=
  epsR x (mergeSites3 C123) (mergeSites3 AAA456)

/-- `tdvp_common.py:64-68` `eps_l_op_3s_AAA123_C456`. -/
def epsL3 (x : Matrix (Fin a) (Fin a') R) (AAA123 : Ten3 R q q' q'' a b)
    (C456 : Ten3 R q q' q'' a' b') : Matrix (Fin b) (Fin b') R :=
  epsL x (mergeSites3 AAA123) (mergeSites3 C456)

theorem calcC3_eq (op : Fin q → Fin q' → Fin q'' → Fin q → Fin q' → Fin q'' → R)
    (AAA : Ten3 R q q' q'' a b) (s : Fin q) (t : Fin q') (u : Fin q'') :
    calcC3 op AAA s t u = ∑ s', ∑ t', ∑ u', op s t u s' t' u' • AAA s' t' u' := by
  ext i j
  simp only [calcC3, ten3OfMat, Matrix.mul_apply, sum_flat, matOfOp3, matOfTen3, flat_divNat,
    flat_modNat, Matrix.sum_apply, Matrix.smul_apply, smul_eq_mul]

theorem epsR3_eq (x : Matrix (Fin b) (Fin b') R) (C123 : Ten3 R q q' q'' a b)
    (AAA456 : Ten3 R q q' q'' a' b') :
    epsR3 x C123 AAA456 = ∑ s, ∑ t, ∑ u, C123 s t u * x * (AAA456 s t u)ᴴ := by
  simp only [epsR3, epsR_eq, sum_flat, mergeSites3, flat_divNat, flat_modNat]

theorem epsL3_eq (x : Matrix (Fin a) (Fin a') R) (AAA123 : Ten3 R q q' q'' a b)
    (C456 : Ten3 R q q' q'' a' b') :
    epsL3 x AAA123 C456 = ∑ s, ∑ t, ∑ u, (AAA123 s t u)ᴴ * x * (C456 s t u) := by
  simp only [epsL3, epsL_eq, sum_flat, mergeSites3, flat_divNat, flat_modNat]

/-! ## Duality of the left and right maps -/

theorem adot_epsL (x : Matrix (Fin a) (Fin a') R) (y : Matrix (Fin b) (Fin b') R)
    (A1 : Ten R q a b) (A2 : Ten R q a' b') :
    adot (epsL x A1 A2) y = adot x (epsR y A1 A2) := by
  simp only [adot_eq_trace, epsL_eq, epsR_eq, Matrix.conjTranspose_sum, Matrix.sum_mul,
    Matrix.mul_sum, Matrix.trace_sum, Matrix.conjTranspose_mul, Matrix.conjTranspose_conjTranspose]
  refine Finset.sum_congr rfl fun s _ => ?_
  rw [Matrix.mul_assoc, Matrix.trace_mul_comm]
  simp only [Matrix.mul_assoc]

end EvoMPS
