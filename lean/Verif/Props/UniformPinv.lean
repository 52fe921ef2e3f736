import Verif.UniformPinvLemmas
import Verif.Props.UniformExpect

/-!
# C44: the pseudo-inverse of `1 - exp(i p) E`

`blockMap A1 A2` is the map `x ↦ Σ A1[s] x A2[s]†` of the whole block (the sum over the configurations of
the block, `chainTransfer`), `blockMapL` its adjoint.  `opR`, `opL` are the operators

    opR x = x - e^{ip} (E x - <l|x> r)        opL x = x - e^{-ip} (E† x - <r|x> l)

(without the projections if `pseudo` is false).
-/

namespace EvoMPS

open Matrix Uni

variable {q D : ℕ}

/-- **C44.** The operator handed to the solver, acting to the right: for row-major vectorisations and whatever
the work buffers hold. -/
theorem C44_operator_right (p : ℝ) (A1 A2 : List (Ten ℂ q D D)) (hlen : A1.length = A2.length)
    (h0 : 0 < A1.length) (l r : Matrix (Fin D) (Fin D) ℂ) (pseudo : Bool) (op : PinvOp q D)
    (hop : PinvOp.new p A1 A2 (some l) (some r) false pseudo = some op) (junk x : Matrix (Fin D) (Fin D) ℂ) :
    op.matvec junk (ravel x) = some (ravel (x - Complex.exp (Complex.I * p) •
      (blockMap A1 A2 x - if pseudo then (lᴴ * x).trace • r else 0))) := by
  have hE : A1.isEmpty = false := by cases A1 <;> simp_all
  simp only [PinvOp.new, Option.isNone_some, Bool.or_self, Bool.and_false, Bool.false_eq_true, if_false, hE] at hop
  obtain rfl := Option.some.inj hop
  rw [pinv_matvec_right p A1 A2 hlen h0, reshape_ravel_pinv]
  rfl

/-- **C44.** To the left. -/
theorem C44_operator_left (p : ℝ) (A1 A2 : List (Ten ℂ q D D)) (hlen : A1.length = A2.length)
    (h0 : 0 < A1.length) (l r : Matrix (Fin D) (Fin D) ℂ) (pseudo : Bool) (op : PinvOp q D)
    (hop : PinvOp.new p A1 A2 (some l) (some r) true pseudo = some op) (junk x : Matrix (Fin D) (Fin D) ℂ) :
    op.matvec junk (ravel x) = some (ravel (x - Complex.exp (-Complex.I * p) •
      (blockMapL A1 A2 x - if pseudo then (rᴴ * x).trace • l else 0))) := by
  have hE : A1.isEmpty = false := by cases A1 <;> simp_all
  simp only [PinvOp.new, Option.isNone_some, Bool.or_self, Bool.and_false, Bool.false_eq_true, if_false, hE] at hop
  obtain rfl := Option.some.inj hop
  rw [pinv_matvec_left p A1 A2 hlen h0, reshape_ravel_pinv]
  rfl

/-- **C44.** Missing environments are rejected when the pseudo-inverse is asked for. -/
theorem C44_missing (p : ℝ) (A1 A2 : List (Ten ℂ q D D)) (l r : Option (Matrix (Fin D) (Fin D) ℂ)) (left : Bool)
    (h : l = none ∨ r = none) : PinvOp.new p A1 A2 l r left true = none := by
  rcases h with rfl | rfl <;> simp [PinvOp.new]

/-- `l` and `r` are biorthonormal fixed points of the block map and its adjoint. -/
structure BiFixed (A1 A2 : List (Ten ℂ q D D)) (l r : Matrix (Fin D) (Fin D) ℂ) : Prop where
  len : A1.length = A2.length
  pos : 0 < A1.length
  right : blockMap A1 A2 r = r
  left : blockMapL A1 A2 l = l
  norm : (lᴴ * r).trace = 1

/-- **C44**, right.  If the solver's answer solves the system handed to it, the result `y` satisfies
`(1 - e^{ip} E) y = x - e^{ip} r <l|x>` and `<l|y> = <l|x>`; so for a projected right-hand side, `<l|x> = 0`,
`(1 - e^{ip} E) y = x` and `<l|y> = 0`. -/
theorem C44_solution_right (solver : Solver D) (p : ℝ) (A1 A2 : List (Ten ℂ q D D))
    (l r : Matrix (Fin D) (Fin D) ℂ) (F : BiFixed A1 A2 l r) (junk x : Matrix (Fin D) (Fin D) ℂ)
    (out : Option (Matrix (Fin D) (Fin D) ℂ))
    (hsol : ∀ op x0, PinvOp.new p A1 A2 (some l) (some r) false true = some op →
      op.matvec junk (solver (op.matvec junk) (ravel x) x0).1 = some (ravel x)) :
    ∃ y, pinv1mE solver junk x A1 A2 (some l) (some r) p false true out = some y ∧
      y - Complex.exp (Complex.I * p) • (blockMap A1 A2 y - (lᴴ * y).trace • r) = x ∧
      (lᴴ * y).trace = (lᴴ * x).trace ∧
      y - Complex.exp (Complex.I * p) • blockMap A1 A2 y
        = x - (Complex.exp (Complex.I * p) * (lᴴ * x).trace) • r := by
  have hop := new_eq p A1 A2 F.pos l r false true
  obtain ⟨x0, hx0⟩ := pinv1mE_eq solver junk x A1 A2 F.pos l r p false true out
  refine ⟨_, hx0, ?_⟩
  set v := (solver ((PinvOp.mk p A1 A2 (some l) (some r) false true).matvec junk) (ravel x) x0).1
  have h := hsol _ x0 hop
  rw [pinv_matvec_right p A1 A2 F.len F.pos] at h
  have h1 : opR A1 A2 l r p true (reshape v) = x := ravel_inj (Option.some.inj h)
  have h2 : (lᴴ * reshape v).trace = (lᴴ * x).trace := by
    rw [← h1, opR_dot A1 A2 p F.left F.norm]
  refine ⟨?_, h2, ?_⟩
  · rw [opR, if_pos rfl] at h1; exact h1
  · rw [opR, if_pos rfl] at h1
    rw [smul_sub, smul_smul] at h1
    rw [← h2, eq_sub_iff_add_eq]
    refine Eq.trans ?_ h1
    abel

/-- **C44**, left: `(1 - e^{-ip} E†) y = x - e^{-ip} l <r|x>` and `<r|y> = <r|x>`. -/
theorem C44_solution_left (solver : Solver D) (p : ℝ) (A1 A2 : List (Ten ℂ q D D))
    (l r : Matrix (Fin D) (Fin D) ℂ) (F : BiFixed A1 A2 l r) (junk x : Matrix (Fin D) (Fin D) ℂ)
    (out : Option (Matrix (Fin D) (Fin D) ℂ))
    (hsol : ∀ op x0, PinvOp.new p A1 A2 (some l) (some r) true true = some op →
      op.matvec junk (solver (op.matvec junk) (ravel x) x0).1 = some (ravel x)) :
    ∃ y, pinv1mE solver junk x A1 A2 (some l) (some r) p true true out = some y ∧
      y - Complex.exp (-Complex.I * p) • (blockMapL A1 A2 y - (rᴴ * y).trace • l) = x ∧
      (rᴴ * y).trace = (rᴴ * x).trace ∧
      y - Complex.exp (-Complex.I * p) • blockMapL A1 A2 y
        = x - (Complex.exp (-Complex.I * p) * (rᴴ * x).trace) • l := by
  have hop := new_eq p A1 A2 F.pos l r true true
  obtain ⟨x0, hx0⟩ := pinv1mE_eq solver junk x A1 A2 F.pos l r p true true out
  refine ⟨_, hx0, ?_⟩
  set v := (solver ((PinvOp.mk p A1 A2 (some l) (some r) true true).matvec junk) (ravel x) x0).1
  have h := hsol _ x0 hop
  rw [pinv_matvec_left p A1 A2 F.len F.pos] at h
  have h1 : opL A1 A2 l r p true (reshape v) = x := ravel_inj (Option.some.inj h)
  have h2 : (rᴴ * reshape v).trace = (rᴴ * x).trace := by
    rw [← h1, opL_dot A1 A2 p F.right F.norm]
  refine ⟨?_, h2, ?_⟩
  · rw [opL, if_pos rfl] at h1; exact h1
  · rw [opL, if_pos rfl] at h1
    rw [smul_sub, smul_smul] at h1
    rw [← h2, eq_sub_iff_add_eq]
    refine Eq.trans ?_ h1
    abel

/-- **C44**, `p = 0`: the projected right-hand side `x - r <l|x>`. -/
theorem C44_projected (solver : Solver D) (A1 A2 : List (Ten ℂ q D D))
    (l r : Matrix (Fin D) (Fin D) ℂ) (F : BiFixed A1 A2 l r) (junk x : Matrix (Fin D) (Fin D) ℂ)
    (out : Option (Matrix (Fin D) (Fin D) ℂ))
    (hsol : ∀ op x0, PinvOp.new 0 A1 A2 (some l) (some r) false true = some op →
      op.matvec junk (solver (op.matvec junk) (ravel (x - (lᴴ * x).trace • r)) x0).1
        = some (ravel (x - (lᴴ * x).trace • r))) :
    ∃ y, pinv1mE solver junk (x - (lᴴ * x).trace • r) A1 A2 (some l) (some r) 0 false true out = some y ∧
      y - blockMap A1 A2 y = x - (lᴴ * x).trace • r ∧ (lᴴ * y).trace = 0 := by
  obtain ⟨y, hy, -, h2, h3⟩ := C44_solution_right solver 0 A1 A2 l r F junk _ out hsol
  have h0 : (lᴴ * (x - (lᴴ * x).trace • r)).trace = 0 := by
    rw [Matrix.mul_sub, Matrix.mul_smul, Matrix.trace_sub, Matrix.trace_smul, F.norm]; simp
  refine ⟨y, hy, ?_, h2.trans h0⟩
  rw [h0] at h3
  simpa using h3

/-- **C44.** An answer with a residual: the result of any solver, whatever the exit status says.  The component
along the environments is off by that of the residual only. -/
theorem C44_residual (solver : Solver D) (p : ℝ) (A1 A2 : List (Ten ℂ q D D))
    (l r : Matrix (Fin D) (Fin D) ℂ) (F : BiFixed A1 A2 l r) (junk x : Matrix (Fin D) (Fin D) ℂ)
    (out : Option (Matrix (Fin D) (Fin D) ℂ)) :
    ∃ y, pinv1mE solver junk x A1 A2 (some l) (some r) p false true out = some y ∧
      ∀ op, PinvOp.new p A1 A2 (some l) (some r) false true = some op →
      ∃ res : Matrix (Fin D) (Fin D) ℂ, op.matvec junk (ravel y) = some (ravel (x + res)) ∧
        (lᴴ * y).trace = (lᴴ * x).trace + (lᴴ * res).trace := by
  have hop := new_eq p A1 A2 F.pos l r false true
  obtain ⟨x0, hx0⟩ := pinv1mE_eq solver junk x A1 A2 F.pos l r p false true out
  refine ⟨_, hx0, fun op ho => ?_⟩
  obtain rfl := Option.some.inj (hop.symm.trans ho)
  set y : Matrix (Fin D) (Fin D) ℂ := reshape (solver ((PinvOp.mk p A1 A2 (some l) (some r) false true).matvec junk) (ravel x) x0).1
  refine ⟨opR A1 A2 l r p true y - x, ?_, ?_⟩
  · rw [pinv_matvec_right p A1 A2 F.len F.pos, reshape_ravel_pinv]
    congr 2
    abel
  · rw [Matrix.mul_sub, Matrix.trace_sub, opR_dot A1 A2 p F.left F.norm]
    ring

/-- **C44.** The system has exactly one solution for every right-hand side if and only if no matrix orthogonal to `l`
is an eigenvector of `E` with the eigenvalue `e^{-ip}`. -/
theorem C44_unique (p : ℝ) (A1 A2 : List (Ten ℂ q D D)) (l r : Matrix (Fin D) (Fin D) ℂ) (F : BiFixed A1 A2 l r) :
    (∀ x, ∃! y, y - Complex.exp (Complex.I * p) • (blockMap A1 A2 y - (lᴴ * y).trace • r) = x) ↔
      ∀ z, (lᴴ * z).trace = 0 → Complex.exp (Complex.I * p) • blockMap A1 A2 z = z → z = 0 := by
  constructor
  · intro h z hz1 hz2
    obtain ⟨y, -, hu⟩ := h 0
    have e0 : (0 : Matrix (Fin D) (Fin D) ℂ) = y := hu 0 (by simp [blockMap, chainTransfer])
    have ez : z = y := hu z (by
      show z - Complex.exp (Complex.I * p) • (blockMap A1 A2 z - (lᴴ * z).trace • r) = 0
      rw [hz1, zero_smul, sub_zero, hz2, sub_self])
    rw [ez, e0]
  · intro h x
    obtain ⟨M, -, hM, -⟩ := bruteMat_spec A1 A2 F.len F.pos l r p true
    have hker : ∀ z, opR A1 A2 l r p true z = 0 → z = 0 := by
      intro z hz
      have h1 : (lᴴ * z).trace = 0 := by
        rw [← opR_dot A1 A2 p F.left F.norm z, hz]; simp
      refine h z h1 ?_
      rw [opR, if_pos rfl, h1, zero_smul, sub_zero] at hz
      exact (sub_eq_zero.1 hz).symm
    have hu : IsUnit M.det := (isUnit_det_iff M).2 fun v hv => by
      rw [hM] at hv
      have := hker (reshape v) (ravel_inj hv)
      rw [← ravel_reshape v, this]; rfl
    refine ⟨reshape (M⁻¹ *ᵥ ravel x), ?_, fun y hy => ?_⟩
    · have h1 : M *ᵥ (M⁻¹ *ᵥ ravel x) = ravel x := by
        rw [Matrix.mulVec_mulVec, Matrix.mul_nonsing_inv _ hu, Matrix.one_mulVec]
      rw [hM] at h1
      exact ravel_inj h1
    · have h1 : M *ᵥ ravel y = ravel x := by
        rw [hM, reshape_ravel_pinv]; exact congrArg ravel hy
      rw [← h1, Matrix.mulVec_mulVec, Matrix.nonsing_inv_mul _ hu, Matrix.one_mulVec, reshape_ravel_pinv]

/-- **C44.** The dense check: the matrix returned by `pinv_1mE_brute` applied to `x` is the only solution of the
system to the right, its adjoint applied to `x` the only solution of the system to the left. -/
theorem C44_brute (p : ℝ) (A1 A2 : List (Ten ℂ q D D)) (hlen : A1.length = A2.length) (h0 : 0 < A1.length)
    (l r : Matrix (Fin D) (Fin D) ℂ) (pseudo : Bool) (P : Matrix (Fin (D * D)) (Fin (D * D)) ℂ)
    (hP : pinvBrute A1 A2 l r p pseudo = some P) (x y : Matrix (Fin D) (Fin D) ℂ) :
    (opR A1 A2 l r p pseudo y = x ↔ ravel y = P *ᵥ ravel x) ∧
      (opL A1 A2 l r p pseudo y = x ↔ ravel y = Pᴴ *ᵥ ravel x) := by
  obtain ⟨M, hM, h1, h2⟩ := bruteMat_spec A1 A2 hlen h0 l r p pseudo
  rw [pinvBrute, hM, Option.bind_some, laInv] at hP
  split_ifs at hP with hu
  obtain rfl := Option.some.inj hP
  have hr : M * M⁻¹ = 1 := Matrix.mul_nonsing_inv _ hu
  have hl : M⁻¹ * M = 1 := Matrix.nonsing_inv_mul _ hu
  constructor
  · constructor
    · rintro rfl
      have := h1 (ravel y)
      rw [reshape_ravel_pinv] at this
      rw [← this, Matrix.mulVec_mulVec, hl, Matrix.one_mulVec]
    · intro hy
      apply ravel_inj
      have := h1 (ravel y)
      rw [reshape_ravel_pinv] at this
      rw [← this, hy, Matrix.mulVec_mulVec, hr, Matrix.one_mulVec]
  · constructor
    · rintro rfl
      have := h2 (ravel y)
      rw [reshape_ravel_pinv] at this
      rw [← this, Matrix.mulVec_mulVec, ← Matrix.conjTranspose_mul, hr, Matrix.conjTranspose_one, Matrix.one_mulVec]
    · intro hy
      apply ravel_inj
      have := h2 (ravel y)
      rw [reshape_ravel_pinv] at this
      rw [← this, hy, Matrix.mulVec_mulVec, ← Matrix.conjTranspose_mul, hl, Matrix.conjTranspose_one,
        Matrix.one_mulVec]

/-- **C44.** The dense check raises exactly when the system is singular. -/
theorem C44_brute_raises (p : ℝ) (A1 A2 : List (Ten ℂ q D D)) (hlen : A1.length = A2.length) (h0 : 0 < A1.length)
    (l r : Matrix (Fin D) (Fin D) ℂ) (pseudo : Bool) :
    pinvBrute A1 A2 l r p pseudo = none ↔ ∃ z, z ≠ 0 ∧ opR A1 A2 l r p pseudo z = 0 := by
  obtain ⟨M, hM, h1, -⟩ := bruteMat_spec A1 A2 hlen h0 l r p pseudo
  rw [pinvBrute, hM, Option.bind_some, laInv]
  split_ifs with hu
  · simp only [false_iff, not_exists, not_and]
    intro z hz h
    have h3 := (isUnit_det_iff M).1 hu (ravel z) (by rw [h1, reshape_ravel_pinv, h]; rfl)
    exact hz (ravel_inj h3)
  · simp only [true_iff]
    rw [isUnit_det_iff] at hu
    push Not at hu
    obtain ⟨v, hv, hne⟩ := hu
    refine ⟨reshape v, fun h => hne ?_, ravel_inj ?_⟩
    · rw [← ravel_reshape v, h]; rfl
    · rw [← h1, hv]; rfl

/-- **C44.** Both dense routines return the same matrix, in both directions. -/
theorem C44_brute_lop (p : ℝ) (A1 A2 : List (Ten ℂ q D D)) (hlen : A1.length = A2.length) (h0 : 0 < A1.length)
    (l r : Matrix (Fin D) (Fin D) ℂ) (pseudo left : Bool) (junk : Matrix (Fin D) (Fin D) ℂ) :
    pinvBruteLOP junk A1 A2 (some l) (some r) p pseudo left = pinvBrute A1 A2 l r p pseudo := by
  obtain ⟨M, hM, h1, h2⟩ := bruteMat_spec A1 A2 hlen h0 l r p pseudo
  rw [pinvBrute, hM, Option.bind_some, pinvBruteLOP, new_eq p A1 A2 h0, Option.bind_some]
  cases left
  · rw [columns_fold _ M (fun v => by rw [pinv_matvec_right p A1 A2 hlen h0, h1])]
    rw [Option.bind_some]
    congr 1
    ext a b
    simp
  · rw [columns_fold _ Mᴴ (fun v => by rw [pinv_matvec_left p A1 A2 hlen h0, h2])]
    rw [Option.bind_some]
    congr 1
    ext a b
    simp [Matrix.conjTranspose_apply]

/-! ## A case -/

/-- A solver that finds a solution whenever there is one. -/
noncomputable def idealSolver : Solver D := fun f b _ =>
  open Classical in (if h : ∃ y, f y = some b then h.choose else 0, 0)

/-- The hypothesis on the solver can be met whenever the system is not singular. -/
theorem C44_solvable (p : ℝ) (A1 A2 : List (Ten ℂ q D D)) (l r : Matrix (Fin D) (Fin D) ℂ) (F : BiFixed A1 A2 l r)
    (h : ∀ z, (lᴴ * z).trace = 0 → Complex.exp (Complex.I * p) • blockMap A1 A2 z = z → z = 0)
    (junk x : Matrix (Fin D) (Fin D) ℂ) (op : PinvOp q D) (x0 : Fin (D * D) → ℂ)
    (hop : PinvOp.new p A1 A2 (some l) (some r) false true = some op) :
    op.matvec junk (idealSolver (op.matvec junk) (ravel x) x0).1 = some (ravel x) := by
  obtain ⟨y, hy, -⟩ := (C44_unique p A1 A2 l r F).2 h x
  have hex : ∃ v, op.matvec junk v = some (ravel x) := by
    refine ⟨ravel y, ?_⟩
    rw [C44_operator_right p A1 A2 F.len F.pos l r true op hop, if_pos rfl]
    exact congrArg _ (congrArg ravel hy)
  simp only [idealSolver]
  rw [dif_pos hex]
  exact hex.choose_spec

noncomputable def demoDecay : Ten ℂ 2 2 2 := fun s => if s = 0 then !![1, 0; 0, 1 / 2] else 0

theorem demoDecay_map (x : Matrix (Fin 2) (Fin 2) ℂ) :
    blockMap [demoDecay] [demoDecay] x = !![x 0 0, x 0 1 / 2; x 1 0 / 2, x 1 1 / 4] := by
  have e : blockMap [demoDecay] [demoDecay] x = ∑ s, demoDecay s * x * (demoDecay s)ᴴ := by
    show chainTransfer 1 1 _ _ 0 1 x = _
    rw [chainTransfer_one, epsR_eq]
    rfl
  rw [e]
  ext i j
  fin_cases i <;> fin_cases j <;>
    simp [demoDecay, Matrix.mul_apply, Fin.sum_univ_two, Matrix.vecMul, dotProduct, Complex.conj_ofNat] <;> ring

theorem demoDecay_mapL (x : Matrix (Fin 2) (Fin 2) ℂ) :
    blockMapL [demoDecay] [demoDecay] x = !![x 0 0, x 0 1 / 2; x 1 0 / 2, x 1 1 / 4] := by
  have e : blockMapL [demoDecay] [demoDecay] x = ∑ s, (demoDecay s)ᴴ * x * demoDecay s := by
    show chainTransferL 1 1 _ _ 0 1 x = _
    rw [chainTransferL_one, epsL_eq]
    rfl
  rw [e]
  ext i j
  fin_cases i <;> fin_cases j <;>
    simp [demoDecay, Matrix.mul_apply, Fin.sum_univ_two, Complex.conj_ofNat] <;> ring

theorem demoDecay_fixed : BiFixed [demoDecay] [demoDecay] !![1, 0; 0, 0] !![1, 0; 0, 0] where
  len := rfl
  pos := by simp
  right := by rw [demoDecay_map]; simp
  left := by rw [demoDecay_mapL]; simp
  norm := by simp [Matrix.trace_fin_two, Matrix.mul_apply]

/-- All hypotheses together, for every momentum. -/
example (p : ℝ) (x : Matrix (Fin 2) (Fin 2) ℂ) :
    ∃ y, pinv1mE idealSolver 0 x [demoDecay] [demoDecay] (some !![1, 0; 0, 0]) (some !![1, 0; 0, 0]) p false true none
        = some y ∧
      (!![1, 0; 0, 0]ᴴ * y).trace = (!![1, 0; 0, 0]ᴴ * x).trace := by
  have hexp : ‖Complex.exp (Complex.I * p)‖ = 1 := by rw [mul_comm, Complex.norm_exp_ofReal_mul_I]
  obtain ⟨y, hy, -, h, -⟩ := C44_solution_right idealSolver p [demoDecay] [demoDecay] _ _ demoDecay_fixed 0 x none
    (fun op x0 hop => C44_solvable p _ _ _ _ demoDecay_fixed (fun z hz1 hz2 => by
      rw [demoDecay_map] at hz2
      have hz : ∀ (a c : ℂ), ‖c‖ < 1 → Complex.exp (Complex.I * p) * (a * c) = a → a = 0 := by
        intro a c hc ha
        by_contra hne
        have h1 := congrArg norm ha
        rw [norm_mul, norm_mul, hexp, one_mul] at h1
        have h2 : 0 < ‖a‖ := norm_pos_iff.2 hne
        nlinarith
      have h00 : z 0 0 = 0 := by simpa [Matrix.trace_fin_two, Matrix.mul_apply, Matrix.vecMul, dotProduct, Fin.sum_univ_two] using hz1
      have e01 := congrFun (congrFun hz2 0) 1
      have e10 := congrFun (congrFun hz2 1) 0
      have e11 := congrFun (congrFun hz2 1) 1
      simp only [Matrix.smul_apply, Matrix.of_apply, Matrix.cons_val', Matrix.cons_val_zero, Matrix.cons_val_one,
        Matrix.cons_val_fin_one, smul_eq_mul, div_eq_mul_inv] at e01 e10 e11
      have h01 := hz _ _ (by norm_num) e01
      have h10 := hz _ _ (by norm_num) e10
      have h11 := hz _ _ (by norm_num) e11
      ext i j
      fin_cases i <;> fin_cases j <;> simp [h00, h01, h10, h11]) 0 x op x0 hop)
  exact ⟨y, hy, h⟩

end EvoMPS
