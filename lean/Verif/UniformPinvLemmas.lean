import Verif.UniformPinv
import Verif.UniformLemmas
import Verif.UniformEnvLemmas
import Mathlib.LinearAlgebra.Matrix.ToLin
import Mathlib.LinearAlgebra.Matrix.ConjTranspose

/-!
# The pseudo-inverse (helper lemmas)
-/

set_option linter.unusedSectionVars false

namespace EvoMPS.Uni

open Matrix

variable {q D : ℕ}

/-- The block map of two lists. -/
noncomputable def blockMap (A1 A2 : List (Ten ℂ q D D)) (x : Matrix (Fin D) (Fin D) ℂ) : Matrix (Fin D) (Fin D) ℂ :=
  chainTransfer A1.length A2.length (fun k => A1.getD k 0) (fun k => A2.getD k 0) 0 A1.length x

noncomputable def blockMapL (A1 A2 : List (Ten ℂ q D D)) (x : Matrix (Fin D) (Fin D) ℂ) : Matrix (Fin D) (Fin D) ℂ :=
  chainTransferL A1.length A2.length (fun k => A1.getD k 0) (fun k => A2.getD k 0) 0 A1.length x

theorem reshape_ravel_pinv {R : Type*} {m n : ℕ} (x : Matrix (Fin m) (Fin n) R) : reshape (ravel x) = x := by
  ext i j
  simp [reshape, ravel]

theorem sites_right (A1 A2 : List (Ten ℂ q D D)) (hlen : A1.length = A2.length) (h0 : 0 < A1.length)
    (junk x : Matrix (Fin D) (Fin D) ℂ) :
    ∃ j, (List.range A1.length).reverse.foldl (fun b n => b.bind fun b => (EOp.mk A1 A2 false).site b n)
      (some (x, junk)) = some (blockMap A1 A2 x, j) := by
  have hE : (A1.isEmpty || A2.isEmpty) = false := by
    cases A1 <;> cases A2 <;> simp_all
  have h := matvec_right A1 A2 hlen h0 junk (ravel x)
  simp only [EOp.matvec, hE, Bool.false_eq_true, if_false, reshape_ravel_pinv] at h
  obtain ⟨b, hb, hr⟩ := Option.map_eq_some_iff.1 h
  refine ⟨b.2, hb.trans ?_⟩
  have : b.1 = blockMap A1 A2 x := by
    rw [← reshape_ravel_pinv b.1, hr, reshape_ravel_pinv]; rfl
  rw [← this]

theorem sites_left (A1 A2 : List (Ten ℂ q D D)) (hlen : A1.length = A2.length) (h0 : 0 < A1.length)
    (junk x : Matrix (Fin D) (Fin D) ℂ) :
    ∃ j, (List.range A1.length).foldl (fun b n => b.bind fun b => (EOp.mk A1 A2 true).site b n)
      (some (x, junk)) = some (blockMapL A1 A2 x, j) := by
  have hE : (A1.isEmpty || A2.isEmpty) = false := by
    cases A1 <;> cases A2 <;> simp_all
  have h := matvec_left A1 A2 hlen h0 junk (ravel x)
  simp only [EOp.matvec, hE, Bool.false_eq_true, if_false, if_true, reshape_ravel_pinv] at h
  obtain ⟨b, hb, hr⟩ := Option.map_eq_some_iff.1 h
  refine ⟨b.2, hb.trans ?_⟩
  have : b.1 = blockMapL A1 A2 x := by
    rw [← reshape_ravel_pinv b.1, hr, reshape_ravel_pinv]; rfl
  rw [← this]

/-- The operators as maps of matrices. -/
noncomputable def opR (A1 A2 : List (Ten ℂ q D D)) (l r : Matrix (Fin D) (Fin D) ℂ) (p : ℝ) (pseudo : Bool)
    (x : Matrix (Fin D) (Fin D) ℂ) : Matrix (Fin D) (Fin D) ℂ :=
  x - Complex.exp (Complex.I * p) • (blockMap A1 A2 x - if pseudo then (lᴴ * x).trace • r else 0)

noncomputable def opL (A1 A2 : List (Ten ℂ q D D)) (l r : Matrix (Fin D) (Fin D) ℂ) (p : ℝ) (pseudo : Bool)
    (x : Matrix (Fin D) (Fin D) ℂ) : Matrix (Fin D) (Fin D) ℂ :=
  x - Complex.exp (-Complex.I * p) • (blockMapL A1 A2 x - if pseudo then (rᴴ * x).trace • l else 0)

theorem pinv_matvec_right (p : ℝ) (A1 A2 : List (Ten ℂ q D D)) (hlen : A1.length = A2.length) (h0 : 0 < A1.length)
    (l r : Matrix (Fin D) (Fin D) ℂ) (pseudo : Bool) (junk : Matrix (Fin D) (Fin D) ℂ) (v : Fin (D * D) → ℂ) :
    (PinvOp.mk p A1 A2 (some l) (some r) false pseudo).matvec junk v
      = some (ravel (opR A1 A2 l r p pseudo (reshape v))) := by
  obtain ⟨j, hj⟩ := sites_right A1 A2 hlen h0 junk (reshape v)
  simp only [PinvOp.matvec, Bool.false_eq_true, if_false]
  rw [hj, Option.bind_some]
  cases pseudo
  · simp only [Bool.false_eq_true, if_false, opR, sub_zero, neg_smul]
    rw [neg_add_eq_sub]
  · simp only [if_true, opR, neg_smul, adot_eq_trace]
    rw [neg_add_eq_sub]

theorem pinv_matvec_left (p : ℝ) (A1 A2 : List (Ten ℂ q D D)) (hlen : A1.length = A2.length) (h0 : 0 < A1.length)
    (l r : Matrix (Fin D) (Fin D) ℂ) (pseudo : Bool) (junk : Matrix (Fin D) (Fin D) ℂ) (v : Fin (D * D) → ℂ) :
    (PinvOp.mk p A1 A2 (some l) (some r) true pseudo).matvec junk v
      = some (ravel (opL A1 A2 l r p pseudo (reshape v))) := by
  obtain ⟨j, hj⟩ := sites_left A1 A2 hlen h0 junk (reshape v)
  simp only [PinvOp.matvec, if_true]
  rw [hj, Option.bind_some]
  cases pseudo
  · simp only [Bool.false_eq_true, if_false, opL, sub_zero, neg_smul]
    rw [neg_add_eq_sub]
  · simp only [if_true, opL, neg_smul, adot_eq_trace]
    rw [neg_add_eq_sub]

/-! ## The dense matrix -/

theorem bruteBlock_eq (A1 A2 : List (Ten ℂ q D D)) (hlen : A1.length = A2.length) (h0 : 0 < A1.length) :
    bruteBlock A1 A2 = denseLoop A1 A2 A1.length := by
  have h1 : A1[0]? = some (A1.getD 0 0) := by
    rw [List.getD, List.getElem?_eq_getElem h0]; rfl
  have h2 : A2[0]? = some (A2.getD 0 0) := by
    rw [List.getD, List.getElem?_eq_getElem (by omega)]; rfl
  unfold bruteBlock denseLoop
  obtain ⟨n, hn⟩ : ∃ n, A1.length = n + 1 := ⟨A1.length - 1, by omega⟩
  simp only [h1, h2]
  rw [hn, List.range_eq_range', List.range'_succ, List.foldl_cons]
  simp only [h1, h2, Option.bind_some, Matrix.one_mul, Nat.add_sub_cancel, Nat.zero_add]
  congr 1
  funext E k
  cases E with
  | none => rfl
  | some E =>
    simp only [Option.bind_some]
    generalize A1[k]? = a
    generalize A2[k]? = b
    cases a <;> cases b <;> rfl

theorem star_ravel_dot (l : Matrix (Fin D) (Fin D) ℂ) (v : Fin (D * D) → ℂ) :
    star (ravel l) ⬝ᵥ v = (lᴴ * reshape v).trace := by
  rw [← adot_eq_trace, adot, forSum_eq, dotProduct, sum_flat]
  refine Finset.sum_congr rfl fun i _ => ?_
  rw [forSum_eq]
  refine Finset.sum_congr rfl fun j _ => ?_
  simp [ravel, reshape]

theorem bruteBlock_spec (A1 A2 : List (Ten ℂ q D D)) (hlen : A1.length = A2.length) (h0 : 0 < A1.length) :
    ∃ M, bruteBlock A1 A2 = some M ∧ (∀ v, M *ᵥ v = ravel (blockMap A1 A2 (reshape v))) ∧
      ∀ v, Mᴴ *ᵥ v = ravel (blockMapL A1 A2 (reshape v)) := by
  rw [bruteBlock_eq A1 A2 hlen h0]
  obtain ⟨M, hM, hv⟩ := denseLoop_spec A1 A2 A1.length A2.length (fun k => A1.getD k 0) (fun k => A2.getD k 0)
    0 A1.length (fun j hj => by
      rw [Nat.zero_add, ← getElem?_mod A1 h0, Nat.mod_eq_of_lt hj]) (fun j hj => by
      rw [Nat.zero_add, ← getElem?_mod A2 (by omega), Nat.mod_eq_of_lt (by omega)])
  refine ⟨M, hM, fun v => ?_, fun v => ?_⟩
  · funext p
    rw [← finProdFinEquiv.apply_symm_apply p]
    generalize finProdFinEquiv.symm p = x
    obtain ⟨i, i'⟩ := x
    rw [Matrix.mulVec, dotProduct, sum_flat, ← flat_eq, ravel, flat_divNat, flat_modNat, blockMap, chainTransfer,
      transfer_entry]
    simp only [hv, reshape, Matrix.of_apply]
  · funext p
    rw [← finProdFinEquiv.apply_symm_apply p]
    generalize finProdFinEquiv.symm p = x
    obtain ⟨i, i'⟩ := x
    rw [Matrix.mulVec, dotProduct, sum_flat, ← flat_eq, ravel, flat_divNat, flat_modNat, blockMapL, chainTransferL,
      transferL_entry]
    simp only [hv, reshape, Matrix.of_apply, Matrix.conjTranspose_apply]

theorem ravel_add {R : Type*} [Add R] {m n : ℕ} (x y : Matrix (Fin m) (Fin n) R) : ravel (x + y) = ravel x + ravel y := rfl
theorem ravel_sub {R : Type*} [Sub R] {m n : ℕ} (x y : Matrix (Fin m) (Fin n) R) : ravel (x - y) = ravel x - ravel y := rfl
theorem ravel_smul {m n : ℕ} (c : ℂ) (x : Matrix (Fin m) (Fin n) ℂ) : ravel (c • x) = c • ravel x := rfl

theorem exp_conj (p : ℝ) : star (Complex.exp (Complex.I * p)) = Complex.exp (-Complex.I * p) := by
  rw [Complex.star_def, ← Complex.exp_conj, map_mul, Complex.conj_I, Complex.conj_ofReal]

theorem bruteMat_spec (A1 A2 : List (Ten ℂ q D D)) (hlen : A1.length = A2.length) (h0 : 0 < A1.length)
    (l r : Matrix (Fin D) (Fin D) ℂ) (p : ℝ) (pseudo : Bool) :
    ∃ M, bruteMat A1 A2 l r p pseudo = some M ∧
      (∀ v, M *ᵥ v = ravel (opR A1 A2 l r p pseudo (reshape v))) ∧
      ∀ v, Mᴴ *ᵥ v = ravel (opL A1 A2 l r p pseudo (reshape v)) := by
  obtain ⟨M, hM, h1, h2⟩ := bruteBlock_spec A1 A2 hlen h0
  refine ⟨_, by rw [bruteMat, hM, Option.bind_some], fun v => ?_, fun v => ?_⟩
  · cases pseudo
    · simp only [Bool.false_eq_true, if_false, opR, sub_zero, Matrix.sub_mulVec, Matrix.one_mulVec,
        Matrix.smul_mulVec, h1, ravel_sub, ravel_smul, ravel_reshape]
    · simp only [if_true, opR, Matrix.sub_mulVec, Matrix.one_mulVec,
        Matrix.smul_mulVec, h1, ravel_sub, ravel_smul, ravel_reshape, Matrix.vecMulVec_mulVec, star_ravel_dot,
        op_smul_eq_smul]
  · cases pseudo
    · simp only [Bool.false_eq_true, if_false, opL, sub_zero, Matrix.conjTranspose_sub, Matrix.conjTranspose_one,
        Matrix.conjTranspose_smul, Matrix.sub_mulVec, Matrix.one_mulVec,
        Matrix.smul_mulVec, h2, ravel_sub, ravel_smul, ravel_reshape, exp_conj]
    · simp only [if_true, opL, Matrix.conjTranspose_sub, Matrix.conjTranspose_one,
        Matrix.conjTranspose_smul, Matrix.sub_mulVec, Matrix.one_mulVec,
        Matrix.smul_mulVec, h2, ravel_sub, ravel_smul, ravel_reshape, exp_conj, Matrix.conjTranspose_vecMulVec,
        star_star, Matrix.vecMulVec_mulVec, star_ravel_dot, op_smul_eq_smul]

/-! ## Fixed points -/

theorem blockMap_smul (A1 A2 : List (Ten ℂ q D D)) (c : ℂ) (x : Matrix (Fin D) (Fin D) ℂ) :
    blockMap A1 A2 (c • x) = c • blockMap A1 A2 x := by
  simp only [blockMap, chainTransfer, Matrix.mul_smul, Matrix.smul_mul, Finset.smul_sum]

theorem blockMap_sub (A1 A2 : List (Ten ℂ q D D)) (x y : Matrix (Fin D) (Fin D) ℂ) :
    blockMap A1 A2 (x - y) = blockMap A1 A2 x - blockMap A1 A2 y := by
  simp only [blockMap, chainTransfer, Matrix.mul_sub, Matrix.sub_mul, Finset.sum_sub_distrib]

theorem trace_blockMap (A1 A2 : List (Ten ℂ q D D)) (x y : Matrix (Fin D) (Fin D) ℂ) :
    (xᴴ * blockMap A1 A2 y).trace = ((blockMapL A1 A2 x)ᴴ * y).trace := by
  rw [← adot_eq_trace, ← adot_eq_trace, blockMapL, adot_chainTransferL]; rfl

theorem trace_blockMapL (A1 A2 : List (Ten ℂ q D D)) (x y : Matrix (Fin D) (Fin D) ℂ) :
    (xᴴ * blockMapL A1 A2 y).trace = ((blockMap A1 A2 x)ᴴ * y).trace := by
  have h := congrArg star (trace_blockMap A1 A2 y x)
  rw [← Matrix.trace_conjTranspose, ← Matrix.trace_conjTranspose, Matrix.conjTranspose_mul,
    Matrix.conjTranspose_mul, Matrix.conjTranspose_conjTranspose, Matrix.conjTranspose_conjTranspose] at h
  exact h.symm

theorem opR_dot (A1 A2 : List (Ten ℂ q D D)) {l r : Matrix (Fin D) (Fin D) ℂ} (p : ℝ)
    (hl : blockMapL A1 A2 l = l) (hn : (lᴴ * r).trace = 1) (y : Matrix (Fin D) (Fin D) ℂ) :
    (lᴴ * opR A1 A2 l r p true y).trace = (lᴴ * y).trace := by
  rw [opR, if_pos rfl, Matrix.mul_sub, Matrix.mul_smul, Matrix.mul_sub, Matrix.mul_smul, Matrix.trace_sub,
    Matrix.trace_smul, Matrix.trace_sub, Matrix.trace_smul, trace_blockMap, hl, hn]
  simp

theorem opL_dot (A1 A2 : List (Ten ℂ q D D)) {l r : Matrix (Fin D) (Fin D) ℂ} (p : ℝ)
    (hr : blockMap A1 A2 r = r) (hn : (lᴴ * r).trace = 1) (y : Matrix (Fin D) (Fin D) ℂ) :
    (rᴴ * opL A1 A2 l r p true y).trace = (rᴴ * y).trace := by
  have hn' : (rᴴ * l).trace = 1 := by
    have h := congrArg star hn
    rwa [← Matrix.trace_conjTranspose, Matrix.conjTranspose_mul, Matrix.conjTranspose_conjTranspose, star_one] at h
  rw [opL, if_pos rfl, Matrix.mul_sub, Matrix.mul_smul, Matrix.mul_sub, Matrix.mul_smul, Matrix.trace_sub,
    Matrix.trace_smul, Matrix.trace_sub, Matrix.trace_smul, trace_blockMapL, hr, hn']
  simp

theorem ravel_inj {x y : Matrix (Fin D) (Fin D) ℂ} (h : ravel x = ravel y) : x = y := by
  rw [← reshape_ravel_pinv x, h, reshape_ravel_pinv]

/-- The matrix is invertible when the operator has no kernel. -/
theorem isUnit_det_iff {n : ℕ} (M : Matrix (Fin n) (Fin n) ℂ) : IsUnit M.det ↔ ∀ v, M *ᵥ v = 0 → v = 0 := by
  rw [← Matrix.isUnit_iff_isUnit_det, ← Matrix.mulVec_injective_iff_isUnit]
  constructor
  · intro h v hv
    exact h (by rw [hv, Matrix.mulVec_zero])
  · intro h a b hab
    have : a - b = 0 := h _ (by rw [Matrix.mulVec_sub]; exact sub_eq_zero.2 hab)
    exact sub_eq_zero.1 this

theorem new_eq (p : ℝ) (A1 A2 : List (Ten ℂ q D D)) (h0 : 0 < A1.length) (l r : Matrix (Fin D) (Fin D) ℂ)
    (left pseudo : Bool) :
    PinvOp.new p A1 A2 (some l) (some r) left pseudo = some (PinvOp.mk p A1 A2 (some l) (some r) left pseudo) := by
  have hE : A1.isEmpty = false := by cases A1 <;> simp_all
  simp [PinvOp.new, hE]

theorem pinv1mE_eq (solver : Solver D) (junk x : Matrix (Fin D) (Fin D) ℂ) (A1 A2 : List (Ten ℂ q D D))
    (h0 : 0 < A1.length) (l r : Matrix (Fin D) (Fin D) ℂ) (p : ℝ) (left pseudo : Bool)
    (out : Option (Matrix (Fin D) (Fin D) ℂ)) :
    ∃ x0, pinv1mE solver junk x A1 A2 (some l) (some r) p left pseudo out
      = some (reshape (solver ((PinvOp.mk p A1 A2 (some l) (some r) left pseudo).matvec junk) (ravel x) x0).1) := by
  unfold pinv1mE
  rw [new_eq p A1 A2 h0]
  exact ⟨_, rfl⟩

theorem columns_fold {n : ℕ} (f : (Fin n → ℂ) → Option (Fin n → ℂ)) (N : Matrix (Fin n) (Fin n) ℂ)
    (hf : ∀ v, f v = some (N *ᵥ v)) (l : List (Fin n)) (B : Matrix (Fin n) (Fin n) ℂ) :
    l.foldl (fun bop i => bop.bind fun bop =>
      (f (Pi.single i 1)).map fun y => Matrix.of fun a b => if b = i then y a else bop a b) (some B)
      = some (Matrix.of fun a b => if b ∈ l then N a b else B a b) := by
  induction l generalizing B with
  | nil => simp; rfl
  | cons i l ih =>
    rw [List.foldl_cons, Option.bind_some, hf, Option.map_some, ih]
    congr 1
    ext a b
    simp only [Matrix.of_apply, List.mem_cons, Matrix.mulVec_single_one, Matrix.col_apply]
    by_cases h1 : b ∈ l
    · simp [h1]
    · by_cases h2 : b = i
      · subst h2; simp [h1]
      · simp [h1, h2]

end EvoMPS.Uni
