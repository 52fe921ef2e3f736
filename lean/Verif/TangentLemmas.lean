import Verif.TangentGrad
import Verif.NullspaceLemmas
import Verif.MatMulLemmas
import Mathlib.LinearAlgebra.Matrix.PosDef
import Mathlib.Analysis.Complex.Order
import Mathlib.Analysis.Complex.Basic
import Mathlib.Analysis.Real.Sqrt

/-!
# Tangent vectors: square roots, null spaces, the loop of `calc_B` (helper lemmas)
-/

set_option linter.unusedSectionVars false

namespace EvoMPS

open Matrix ComplexOrder

/-! ## Square roots of the environments -/

/-- What is assumed about `scipy.sqrt` and the tolerance. -/
structure Num.Ok (P : Num) : Prop where
  sq : ∀ x : ℝ, 0 ≤ x → P.sq x = (Real.sqrt x : ℂ)
  tol : 0 ≤ P.tol

/-- What `herm_sqrt_inv` achieves. -/
structure Roots {n : ℕ} (X s si : Matrix (Fin n) (Fin n) ℂ) (tol : ℝ) : Prop where
  s_herm : sᴴ = s
  si_herm : siᴴ = si
  si_mul : si * X = s
  mul_si : X * si = s
  proj : si * s * si = si
  full : (X - (tol : ℂ) • 1).PosDef → s * si = 1 ∧ s * s = X

section
variable {n : ℕ} {P : Num} (hP : P.Ok) {z : ℂ} (hz : star z = z)

include hz in
theorem real_eq : z = (z.re : ℂ) := (Complex.conj_eq_iff_re.mp hz).symm

include hP hz in
theorem root_cases : z.re ≤ P.tol ∨ (0 < z.re ∧ ¬ z.re ≤ P.tol ∧ P.sq z = (Real.sqrt z.re : ℂ) ∧
    (Real.sqrt z.re : ℂ) ≠ 0 ∧ (Real.sqrt z.re : ℂ) * (Real.sqrt z.re : ℂ) = z) := by
  by_cases h : z.re ≤ P.tol
  · exact Or.inl h
  · have h0 : 0 < z.re := lt_of_le_of_lt hP.tol (not_le.mp h)
    refine Or.inr ⟨h0, h, ?_, ?_, ?_⟩
    · conv_lhs => rw [real_eq hz]
      exact hP.sq _ h0.le
    · simpa using (Real.sqrt_pos.mpr h0).ne'
    · rw [← Complex.ofReal_mul, Real.mul_self_sqrt h0.le, ← real_eq hz]

/-- The core of `herm_sqrt_inv`, for a matrix in diagonal form. -/
theorem roots_core (hP : P.Ok) (V : Matrix (Fin n) (Fin n) ℂ) (hV : Vᴴ * V = 1) (d : Fin n → ℂ)
    (hd : ∀ i, star (d i) = d i) :
    Roots (V * (diagonal d * Vᴴ))
      (V * (diagonal (fun i => if (d i).re ≤ P.tol then 0 else P.sq (d i)) * Vᴴ))
      (V * (diagonal (fun i => if (d i).re ≤ P.tol then 0 else 1 / P.sq (d i)) * Vᴴ)) P.tol := by
  have herm : ∀ f : Fin n → ℂ, (∀ i, star (f i) = f i) →
      (V * (diagonal f * Vᴴ))ᴴ = V * (diagonal f * Vᴴ) := by
    intro f hf
    have : star f = f := funext hf
    rw [Matrix.conjTranspose_mul, Matrix.conjTranspose_mul, Matrix.conjTranspose_conjTranspose,
      diagonal_conjTranspose, this, Matrix.mul_assoc]
  refine ⟨herm _ fun i => ?_, herm _ fun i => ?_, ?_, ?_, ?_, fun hpos => ?_⟩
  · rcases root_cases hP (hd i) with h | ⟨_, h, h2, _, _⟩
    · simp [h]
    · simp only [if_neg h, h2]; exact Complex.conj_ofReal _
  · rcases root_cases hP (hd i) with h | ⟨_, h, h2, _, _⟩
    · simp [h]
    · simp only [if_neg h, h2, one_div, star_inv₀]; congr 1; exact Complex.conj_ofReal _
  · rw [conj_diag_mul _ _ _ hV]
    congr 3
    funext i
    rcases root_cases hP (hd i) with h | ⟨_, h, h2, h3, h4⟩
    · simp [h]
    · simp only [if_neg h, h2]
      conv_lhs => rhs; rw [← h4]
      field_simp
  · rw [conj_diag_mul _ _ _ hV]
    congr 3
    funext i
    rcases root_cases hP (hd i) with h | ⟨_, h, h2, h3, h4⟩
    · simp [h]
    · simp only [if_neg h, h2]
      conv_lhs => lhs; rw [← h4]
      field_simp
  · rw [conj_diag_mul _ _ _ hV, conj_diag_mul _ _ _ hV]
    congr 3
    funext i
    rcases root_cases hP (hd i) with h | ⟨_, h, h2, h3, h4⟩
    · simp [h]
    · simp only [if_neg h, h2]
      field_simp
  · have hV' : V * Vᴴ = 1 := mul_eq_one_comm.mp hV
    have hgt : ∀ i, ¬ (d i).re ≤ P.tol := by
      have h1 := hpos.conjTranspose_mul_mul_same (B := V)
        (Matrix.mulVec_injective_of_isUnit (IsUnit.of_mul_eq_one _ hV'))
      have e : Vᴴ * (V * (diagonal d * Vᴴ) - (P.tol : ℂ) • 1) * V
          = diagonal fun i => d i - (P.tol : ℂ) := by
        rw [Matrix.mul_sub, Matrix.sub_mul, ← Matrix.mul_assoc, hV, Matrix.one_mul, Matrix.mul_assoc,
          hV, Matrix.mul_one, Matrix.mul_smul, Matrix.mul_one, Matrix.smul_mul, hV,
          ← diagonal_sub]
        congr 1
        ext i j
        simp [Matrix.one_apply, diagonal_apply]
      rw [e, posDef_diagonal_iff] at h1
      intro i
      have h2 := (Complex.lt_def.mp (h1 i)).1
      simp only [Complex.zero_re, Complex.sub_re, Complex.ofReal_re] at h2
      linarith
    have hc := fun i => (root_cases hP (hd i)).resolve_left (hgt i)
    constructor
    · rw [conj_diag_mul _ _ _ hV]
      have : (fun i => (if (d i).re ≤ P.tol then 0 else P.sq (d i)) *
          (if (d i).re ≤ P.tol then 0 else 1 / P.sq (d i))) = fun _ => 1 := by
        funext i
        obtain ⟨_, h, h2, h3, h4⟩ := hc i
        simp only [if_neg h, h2]
        field_simp
      rw [this, diagonal_one, Matrix.one_mul, hV']
    · rw [conj_diag_mul _ _ _ hV]
      congr 3
      funext i
      obtain ⟨_, h, h2, h3, h4⟩ := hc i
      simp only [if_neg h, h2, h4]

/-- `herm_sqrt_inv` does what it should for every class of matrix object. -/
theorem roots_spec (hP : P.Ok) (x : MM ℂ n n) (hx : x.toArray.IsHermitian) :
    Roots x.toArray (P.roots x).1 (P.roots x).2 P.tol := by
  cases x with
  | eye =>
    simp only [Num.roots, hermSqrtInv, toArray_eye]
    exact ⟨by simp, by simp, by simp, by simp, by simp, fun _ => by simp⟩
  | diag d =>
    have hd : ∀ i, star (d i) = d i := fun i => by
      have := congrFun (congrFun hx i) i
      simpa using this
    have := roots_core hP (1 : Matrix (Fin n) (Fin n) ℂ) (by simp) d hd
    simpa [Num.roots, hermSqrtInv] using this
  | dense M =>
    obtain ⟨h1, h2, h3⟩ := eigh_spectral P.eigh M hx
    have := roots_core hP (P.eigh.vec M) h1 (P.eigh.ev M) (P.eigh.real M hx)
    rw [← h3] at this
    simpa [Num.roots, hermSqrtInv, mmulDiagR_eq] using this

end

/-! ## The null spaces -/

section
variable {R : Type*} [CommRing R] [StarRing R] {p a b : ℕ} {qr : FullQR R} {A : Ten R p a b}
  {r_s : Matrix (Fin b) (Fin b) R} {l_s : Matrix (Fin a) (Fin a) R}

theorem calcVsh_some {Vsh} (h : calcVsh qr A r_s = some Vsh) :
    a < b * p ∧ Vsh = fun s => Matrix.of fun d α => nullspaceQr qr (vshMat A r_s)ᴴ (flat d s) α := by
  unfold calcVsh at h
  split at h
  · simp at h
  · exact ⟨by omega, (Option.some.inj h).symm⟩

theorem calcVsh_isSome (h : a < p * b) : ∃ Vsh, calcVsh qr A r_s = some Vsh := by
  unfold calcVsh
  rw [if_neg (by rw [Nat.mul_comm]; omega)]
  exact ⟨_, rfl⟩

theorem vshMat_mul {n : ℕ} (ns : Matrix (Fin (b * p)) (Fin n) R) :
    (vshMat A r_s)ᴴ * ns
      = ∑ s, A s * r_sᴴ * (Matrix.of fun d α => ns (flat d s) α) := by
  ext i α
  rw [Matrix.mul_apply, sum_flat, Finset.sum_comm, Matrix.sum_apply]
  refine Finset.sum_congr rfl fun s _ => ?_
  rw [show A s * r_sᴴ = (r_s * (A s)ᴴ)ᴴ by simp [Matrix.conjTranspose_mul], Matrix.mul_apply]
  refine Finset.sum_congr rfl fun d _ => ?_
  simp only [conjTranspose_apply, vshMat, Matrix.of_apply, flat_modNat, flat_divNat]

theorem vsh_null {Vsh} (h : calcVsh qr A r_s = some Vsh) : ∑ s, A s * r_sᴴ * Vsh s = 0 := by
  obtain ⟨_, rfl⟩ := calcVsh_some h
  rw [← vshMat_mul]
  exact nullspaceQr_null _ _

theorem vsh_iso {Vsh} (h : calcVsh qr A r_s = some Vsh) : ∑ s, (Vsh s)ᴴ * Vsh s = 1 := by
  obtain ⟨_, rfl⟩ := calcVsh_some h
  rw [← nullspaceQr_iso qr (vshMat A r_s)ᴴ]
  ext α β
  rw [Matrix.mul_apply, sum_flat, Finset.sum_comm, Matrix.sum_apply]
  rfl

theorem vshMat_gram : (vshMat A r_s)ᴴ * ((vshMat A r_s)ᴴ)ᴴ = ∑ s, A s * (r_sᴴ * r_s) * (A s)ᴴ := by
  rw [conjTranspose_conjTranspose, vshMat_mul]
  refine Finset.sum_congr rfl fun s _ => ?_
  rw [← Matrix.mul_assoc (A s), Matrix.mul_assoc _ r_s]
  congr 1
  ext d i
  simp only [vshMat, Matrix.of_apply, flat_modNat, flat_divNat]

/-- The columns of `Vsh` span the null space. -/
theorem nsVsh_complete (hu : IsUnit (∑ s, A s * (r_sᴴ * r_s) * (A s)ᴴ).det) {n : ℕ}
    (W : Fin p → Matrix (Fin b) (Fin n) R) (hW : ∑ s, A s * r_sᴴ * W s = 0) (s : Fin p) :
    (Matrix.of fun d α => nullspaceQr qr (vshMat A r_s)ᴴ (flat d s) α) *
      ∑ t, (Matrix.of fun d α => nullspaceQr qr (vshMat A r_s)ᴴ (flat d t) α)ᴴ * W t = W s := by
  rw [← vshMat_gram] at hu
  have key := nullspaceQr_complete qr (vshMat A r_s)ᴴ hu
    (Matrix.of fun (i : Fin (b * p)) j => W i.modNat i.divNat j) (by
      rw [vshMat_mul, ← hW]
      refine Finset.sum_congr rfl fun s _ => ?_
      congr 1
      ext d i
      simp only [Matrix.of_apply, flat_modNat, flat_divNat])
  have e : (nullspaceQr qr (vshMat A r_s)ᴴ)ᴴ * (Matrix.of fun (i : Fin (b * p)) j =>
      W i.modNat i.divNat j) =
      ∑ t, (Matrix.of fun d α => nullspaceQr qr (vshMat A r_s)ᴴ (flat d t) α)ᴴ * W t := by
    ext α j
    rw [Matrix.mul_apply, sum_flat, Finset.sum_comm, Matrix.sum_apply]
    refine Finset.sum_congr rfl fun t _ => ?_
    rw [Matrix.mul_apply]
    simp only [Matrix.of_apply, flat_modNat, flat_divNat, conjTranspose_apply]
  rw [e] at key
  ext d j
  have := congrFun (congrFun key (flat d s)) j
  simp only [Matrix.of_apply, flat_modNat, flat_divNat] at this
  exact this

theorem vsh_complete {Vsh} (h : calcVsh qr A r_s = some Vsh)
    (hu : IsUnit (∑ s, A s * (r_sᴴ * r_s) * (A s)ᴴ).det) {n : ℕ}
    (W : Fin p → Matrix (Fin b) (Fin n) R) (hW : ∑ s, A s * r_sᴴ * W s = 0) (s : Fin p) :
    Vsh s * ∑ t, (Vsh t)ᴴ * W t = W s := by
  obtain ⟨_, rfl⟩ := calcVsh_some h
  exact nsVsh_complete hu W hW s

/-- Without room for a null space there is no gauge-fixed tangent vector. -/
theorem vsh_trivial (qr : FullQR R) (hle : ¬ a < p * b)
    (hu : IsUnit (∑ s, A s * (r_sᴴ * r_s) * (A s)ᴴ).det) {n : ℕ}
    (W : Fin p → Matrix (Fin b) (Fin n) R) (hW : ∑ s, A s * r_sᴴ * W s = 0) (s : Fin p) :
    W s = 0 := by
  rw [← nsVsh_complete (qr := qr) hu W hW s]
  ext d j
  rw [Matrix.mul_apply]
  have : IsEmpty (Fin (b * p - a)) := by
    rw [show b * p - a = 0 by rw [Nat.mul_comm]; omega]
    infer_instance
  exact Finset.sum_of_isEmpty _

theorem calcVshl_some {Vsh} (h : calcVshl qr A l_s = some Vsh) :
    b < p * a ∧ Vsh = fun s => Matrix.of fun α i => star (nullspaceQr qr (vshlMat A l_s) (flat s i) α) := by
  unfold calcVshl at h
  split at h
  · simp at h
  · exact ⟨by omega, (Option.some.inj h).symm⟩

theorem calcVshl_isSome (h : b < p * a) : ∃ Vsh, calcVshl qr A l_s = some Vsh := by
  unfold calcVshl
  rw [if_neg (by omega)]
  exact ⟨_, rfl⟩

theorem vshlMat_mul {n : ℕ} (ns : Matrix (Fin (p * a)) (Fin n) R) :
    vshlMat A l_s * ns = ∑ s, (A s)ᴴ * l_sᴴ * (Matrix.of fun i α => ns (flat s i) α) := by
  ext i α
  rw [Matrix.mul_apply, sum_flat, Matrix.sum_apply]
  refine Finset.sum_congr rfl fun s _ => ?_
  rw [← Matrix.conjTranspose_mul, Matrix.mul_apply]
  refine Finset.sum_congr rfl fun d _ => ?_
  simp only [vshlMat, Matrix.of_apply, flat_modNat, flat_divNat]

theorem vshl_null {Vsh} (h : calcVshl qr A l_s = some Vsh) :
    ∑ s, (A s)ᴴ * l_sᴴ * (Vsh s)ᴴ = 0 := by
  obtain ⟨_, rfl⟩ := calcVshl_some h
  rw [← nullspaceQr_null qr (vshlMat A l_s), vshlMat_mul]
  refine Finset.sum_congr rfl fun s _ => ?_
  congr 1
  ext i α
  simp

theorem vshl_iso {Vsh} (h : calcVshl qr A l_s = some Vsh) : ∑ s, Vsh s * (Vsh s)ᴴ = 1 := by
  obtain ⟨_, rfl⟩ := calcVshl_some h
  rw [← nullspaceQr_iso qr (vshlMat A l_s)]
  ext α β
  rw [Matrix.mul_apply, sum_flat, Matrix.sum_apply]
  refine Finset.sum_congr rfl fun s _ => ?_
  rw [Matrix.mul_apply]
  simp

/-! ## Gauge conditions of the tensors built from a parameter matrix -/

theorem tenR_gauge {Vsh} (h : calcVsh qr A r_s = some Vsh) {r r_si : Matrix (Fin b) (Fin b) R}
    (hsi : r_siᴴ = r_si) (hr : r_si * r = r_s) (l_si : Matrix (Fin a) (Fin a) R) (x) :
    RightGauge A (tenR l_si r_si Vsh x) r := by
  have hn := congrArg conjTranspose (vsh_null h)
  rw [RightGauge]
  simp only [tenR, conjTranspose_mul, hsi]
  have : ∀ s, l_si * x * ((Vsh s)ᴴ * r_si) * r * (A s)ᴴ
      = l_si * x * (A s * r_sᴴ * Vsh s)ᴴ := by
    intro s
    simp only [conjTranspose_mul, conjTranspose_conjTranspose, ← hr, Matrix.mul_assoc]
  simp only [this]
  rw [← Matrix.mul_sum, ← conjTranspose_sum, hn, conjTranspose_zero, Matrix.mul_zero]

theorem tenL_gauge {Vsh} (h : calcVshl qr A l_s = some Vsh) {l l_si : Matrix (Fin a) (Fin a) R}
    (hs : l_sᴴ = l_s) (hl : l * l_si = l_s) (r_si : Matrix (Fin b) (Fin b) R) (x) :
    LeftGauge A (tenL l_si r_si Vsh x) l := by
  rw [LeftGauge]
  have : ∀ s, (A s)ᴴ * l * tenL l_si r_si Vsh x s = (A s)ᴴ * l_sᴴ * (Vsh s)ᴴ * (x * r_si) := by
    intro s
    rw [hs, ← hl]
    simp only [tenL, Matrix.mul_assoc]
  simp only [this]
  rw [← Matrix.sum_mul, vshl_null h, Matrix.zero_mul]

/-- Overlap in terms of the parameter matrices. -/
theorem tenR_overlap {Vsh} (h : calcVsh qr A r_s = some Vsh) {r r_si : Matrix (Fin b) (Fin b) R}
    {l l_si : Matrix (Fin a) (Fin a) R}
    (hsi : r_siᴴ = r_si) (hr : r_si * r = r_s) (hri : r_s * r_si = 1)
    (hl : lᴴ = l) (hlsi : l_siᴴ = l_si) (hls : l * l_si = l_s)
    (x x' : Matrix (Fin a) (Fin (b * p - a)) R) (hx : l_si * l_s * x = x) :
    adot l (∑ s, tenR l_si r_si Vsh x s * r * (tenR l_si r_si Vsh x' s)ᴴ) = adot x' x := by
  have e : ∀ s, tenR l_si r_si Vsh x s * r * (tenR l_si r_si Vsh x' s)ᴴ
      = l_si * x * ((Vsh s)ᴴ * Vsh s) * (x'ᴴ * l_si) := by
    intro s
    simp only [tenR, conjTranspose_mul, conjTranspose_conjTranspose, hsi, hlsi]
    calc _ = l_si * x * (Vsh s)ᴴ * ((r_si * r) * r_si) * (Vsh s * (x'ᴴ * l_si)) := by
          simp only [Matrix.mul_assoc]
      _ = _ := by rw [hr, hri]; simp only [Matrix.mul_assoc, Matrix.one_mul]
  simp only [e]
  rw [← Matrix.sum_mul, ← Matrix.mul_sum, vsh_iso h, Matrix.mul_one, adot_eq_trace, adot_eq_trace, hl]
  calc (l * (l_si * x * (x'ᴴ * l_si))).trace = ((l * l_si) * x * x'ᴴ * l_si).trace := by
        simp only [Matrix.mul_assoc]
    _ = (l_si * l_s * x * x'ᴴ).trace := by
        rw [hls, Matrix.trace_mul_comm]; simp only [Matrix.mul_assoc]
    _ = (x'ᴴ * x).trace := by rw [hx, Matrix.trace_mul_comm]

/-- Every gauge-fixed tensor is built from a parameter matrix. -/
theorem tenR_surj {Vsh} (h : calcVsh qr A r_s = some Vsh) {r r_si : Matrix (Fin b) (Fin b) R}
    {l_si : Matrix (Fin a) (Fin a) R} (hs : r_sᴴ = r_s)
    (hsi : r_siᴴ = r_si) (hri : r_s * r_si = 1) (hrr : r_s * r_s = r) (hr : rᴴ = r)
    (hli : l_si * l_s = 1) (hu : IsUnit (∑ s, A s * r * (A s)ᴴ).det)
    (b' : Ten R p a b) (hb : RightGauge A b' r) :
    tenR l_si r_si Vsh (∑ t, l_s * b' t * r_s * Vsh t) = b' := by
  have hc := vsh_complete h (by rw [hs, hrr]; exact hu) (fun s => r_s * (b' s)ᴴ) (by
    rw [← rightGauge_conj hr hb]
    refine Finset.sum_congr rfl fun s _ => ?_
    rw [hs, Matrix.mul_assoc, ← Matrix.mul_assoc r_s, hrr, Matrix.mul_assoc])
  funext s
  have hcs := congrArg conjTranspose (hc s)
  simp only [conjTranspose_mul, conjTranspose_sum, conjTranspose_conjTranspose, hs] at hcs
  calc tenR l_si r_si Vsh (∑ t, l_s * b' t * r_s * Vsh t) s
      = (l_si * l_s) * ((∑ t, b' t * r_s * Vsh t) * (Vsh s)ᴴ) * r_si := by
        simp only [tenR, conjTranspose_mul, hsi, Matrix.mul_sum, Matrix.sum_mul, Matrix.mul_assoc]
    _ = b' s := by rw [hcs, hli, Matrix.one_mul, Matrix.mul_assoc, hri, Matrix.mul_one]

theorem pair_tenR (g : Ten R p a b) {l_si : Matrix (Fin a) (Fin a) R} (hl : l_siᴴ = l_si)
    (r_si : Matrix (Fin b) (Fin b) R) {v : ℕ} (Vsh : Fin p → Matrix (Fin b) (Fin v) R) (x) :
    pair g (tenR l_si r_si Vsh x) = adot x (l_si * ∑ s, g s * (r_si * Vsh s)) := by
  simp only [pair, adot_eq_trace, Matrix.mul_sum, Matrix.trace_sum]
  refine Finset.sum_congr rfl fun s _ => ?_
  simp only [tenR, conjTranspose_mul, conjTranspose_conjTranspose, hl]
  rw [← Matrix.mul_assoc, Matrix.trace_mul_comm]
  simp only [Matrix.mul_assoc]

end

end EvoMPS
