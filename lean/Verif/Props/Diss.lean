import Verif.DissLemmas
import Verif.Props.Step
import Verif.Props.LineSearch
import Verif.Props.Measure

/-!
# C53: stochastic steps of an open system
-/

namespace EvoMPS

open Matrix

variable {q D : ℕ → ℕ} {N : ℕ}

/-- The products of neighbouring tensors stored in the object, if there are any, are those of its tensors. -/
structure Products (N : ℕ) (X : Diss q D) : Prop where
  two : X.haveAA = true → ∀ k, k + 1 < N → X.S.AA k = fun u v => X.S.A k u * X.S.A (k + 1) v
  three : X.haveAAA = true → ∀ k, k + 2 < N → X.S.AAA k = fun u v w => X.S.A k u * X.S.A (k + 1) v * X.S.A (k + 2) w

/-- With current products the mean values are right. -/
theorem meanOf_eq {X : Diss q D} (hX : Products N X) (h : UpToDate N X.S.A X.S.l X.S.r) (h0 : D 0 = 1) (hN : D N = 1)
    {j : Jump q} {m : ℂ} (hm : meanOf N X j = some m) :
    m = matElem (psi X.S.A h0 hN) (j.onChain (N := N)) (psi X.S.A h0 hN) := by
  cases j with
  | two k op =>
    by_cases hk : k + 1 < N
    · rw [meanOf, Diss.expect2, C03_expect_2s X.S.toMPS h h0 hN k hk op] at hm
      · rw [Jump.onChain, dif_pos hk]
        exact (Option.some.inj hm).symm
      · intro Y hY
        split at hY
        · next hf => rw [← Option.some.inj hY, hX.two hf k hk]
        · cases hY
    · rw [meanOf, Diss.expect2, expect2s, if_neg hk] at hm
      cases hm
  | three k op =>
    by_cases hk : k + 2 < N
    · rw [meanOf, Diss.expect3] at hm
      rw [Jump.onChain, dif_pos hk]
      split at hm
      · next hf =>
        rw [C04_expect_3s X.S.toMPS h h0 hN k hk op _ (fun Y hY => by
          rw [← Option.some.inj hY, hX.three hf k hk])] at hm
        exact (Option.some.inj hm).symm
      · split at hm
        · next hf =>
          rw [C04_expect_3s X.S.toMPS h h0 hN k hk op _ (fun Y hY => by
            rw [← Option.some.inj hY, hX.two hf k (by omega)]
            rfl)] at hm
          exact (Option.some.inj hm).symm
        · cases hm
    · have : ∀ A, expect3s N X.S.toMPS k op A = none := fun A => by rw [expect3s, if_neg hk]
      simp only [meanOf, Diss.expect3, this, ite_self] at hm
      cases hm

theorem sum_map_sub_mul {α : Type*} (L : List α) (f c : α → ℂ) (x : ℂ) :
    (L.map fun j => f j - c j * x).sum = (L.map f).sum - (L.map c).sum * x := by
  induction L with
  | nil => simp
  | cons j L ih =>
    simp only [List.map_cons, List.sum_cons, ih]
    ring

/-- **C53**, one step, partial.  Whenever `take_step_dissipative(dt)` returns, every tensor has been replaced by
`A[n] + dt * B[n]` where the tangent vector of `B` is orthogonal to the state and is the projection of
`(-i (H - ⟨H⟩) + ∑_j ⟨L_j⟩* (L_j - ⟨L_j⟩) - (L_j† L_j - ⟨L_j† L_j⟩) / 2 + W_j/dt (L_j - ⟨L_j⟩)) |ψ⟩` onto the tangent
vectors orthogonal to it, with the mean values of the current state.  This needs the hypothesis that the stored
products of neighbouring tensors are current (`Products`); it does not hold after a step, see `C53_stale_violated`. -/
theorem C53_step_partial (P : Num) (hP : P.Ok) (ham : Ham ℂ q) (X : Diss q D) (hX : Products N X)
    (h : UpToDate N X.S.A X.S.l X.S.r) (h0 : D 0 = 1) (hN : D N = 1) (hpos : 0 < N) (lm rm)
    (hst : Stored N lm rm X.S.l X.S.r) (hl : Above N P.tol X.S.l) (hr : Above N P.tol X.S.r)
    (jumps : List (Jump q × ℂ)) (dt : ℝ) (saveMemory : Bool) (X' : Diss q D)
    (hstep : dissStep P N ham h0 lm rm X jumps dt saveMemory = some X') :
    ∃ B : BList q D, X'.S.A = moved X.S.A (-dt) B ∧ X'.S.l = X.S.l ∧ X'.S.r = X.S.r ∧ X'.nan = true
      ∧ (∀ k < N, ∀ b, B k = some b → RightGauge (X.S.A k) b (X.S.r (k + 1)))
      ∧ braket (psi X.S.A h0 hN) (tangent (N := N) X.S.A h0 hN B) = 0
      ∧ ∀ B' : BList q D, braket (psi X.S.A h0 hN) (tangent (N := N) X.S.A h0 hN B') = 0 →
          braket (tangent X.S.A h0 hN B') (tangent (N := N) X.S.A h0 hN B)
            = matElem (tangent X.S.A h0 hN B') (trajectory (psi X.S.A h0 hN) (ham.total (N := N))
                (jumps.map fun j => (j.1.onChain, j.2)) dt) (psi X.S.A h0 hN) := by
  obtain ⟨HL, hHL, hstep⟩ := Option.bind_eq_some_iff.mp hstep
  obtain ⟨Y, hY, rfl⟩ := Option.map_eq_some_iff.mp hstep
  obtain ⟨hdt, _, hmean, htot⟩ := dissHam_total hHL
  have hM' : (calcKs N HL h0 (calcCs N HL X.S)).toMPS = X.S.toMPS :=
    (calcKs_spec (N := N) HL h0 (calcCs N HL X.S)).1.trans (calcCs_spec (N := N) HL X.S).1
  have hE := C32_euler (N := N) P .right HL (calcKs N HL h0 (calcCs N HL X.S)) lm rm (-dt : ℂ) saveMemory
  rw [hY, Option.map_some] at hE
  obtain ⟨out, hout, hY1⟩ := Option.map_eq_some_iff.mp hE.symm
  obtain ⟨g1, _, g3, _⟩ := C29_gauge P hP HL (calcKs N HL h0 (calcCs N HL X.S)) (by rw [hM']; exact h) h0 hN lm rm
    (by rw [hM']; exact hst) out hout
  rw [hM'] at g1 g3
  refine ⟨out.B, ?_, ?_, ?_, rfl, g1, g3, ?_⟩
  · change Y.1.A = _
    rw [← hY1]
    change moved (calcKs N HL h0 (calcCs N HL X.S)).A (-dt : ℂ) out.B = _
    rw [hM']
  · change Y.1.l = _
    rw [← hY1]
    change (calcKs N HL h0 (calcCs N HL X.S)).l = _
    rw [hM']
  · change Y.1.r = _
    rw [← hY1]
    change (calcKs N HL h0 (calcCs N HL X.S)).r = _
    rw [hM']
  · intro B' hB'
    rw [C30_optimal P hP HL X.S h h0 hN hpos lm rm hst hl hr out hout B' hB']
    set ψ := psi (N := N) X.S.A h0 hN with hψ
    let m : Jump q × ℂ → ℂ := fun j => matElem ψ (j.1.onChain (N := N)) ψ
    have hm : ∀ j ∈ jumps, (meanOf N X j.1).getD 0 = m j := by
      intro j hj
      obtain ⟨x, hx⟩ := hmean j hj
      rw [hx, Option.getD_some]
      exact meanOf_eq hX h h0 hN hx
    let c : Jump q × ℂ → ℂ := fun j => star (m j) * m j - 1 / 2 * matElem ψ (adjMul (j.1.onChain (N := N))) ψ
      + j.2 / dt * m j
    have htr : ∀ s t : Cfg q N, HL.total s t = trajectory ψ (ham.total (N := N))
        (jumps.map fun j => (j.1.onChain, j.2)) dt s t
          + (-Complex.I * matElem ψ (ham.total (N := N)) ψ + (jumps.map c).sum) * idChain s t := by
      intro s t
      rw [htot, trajectory, List.map_map]
      have e1 : (jumps.map fun j => effTerm ((meanOf N X j.1).getD 0) (j.2 / dt) (j.1.onChain (N := N)) s t)
          = jumps.map fun j => effTerm (m j) (j.2 / dt) (j.1.onChain (N := N)) s t :=
        List.map_congr_left fun j hj => by rw [hm j hj]
      have e2 : (jumps.map ((fun j => jumpTerm ψ j.1 (j.2 / dt) s t) ∘ fun j => (j.1.onChain (N := N), j.2)))
          = jumps.map fun j => effTerm (m j) (j.2 / dt) (j.1.onChain (N := N)) s t - c j * idChain s t :=
        List.map_congr_left fun j _ => by
          simp only [Function.comp_apply, jumpTerm, effTerm, centred, c, m]
          ring
      rw [e1, e2, sum_map_sub_mul, centred]
      ring
    have hz : braket (tangent (N := N) X.S.A h0 hN B') ψ = 0 := by rw [← braket_swap, hB', star_zero]
    have key : ∀ (φ : Cfg q N → ℂ) (O : Cfg q N → Cfg q N → ℂ) (a : ℂ),
        matElem φ (fun s t => O s t + a * idChain s t) ψ = matElem φ O ψ + a * braket φ ψ := by
      intro φ O a
      simp only [matElem, braket, mul_add, add_mul, Finset.sum_add_distrib, Finset.mul_sum]
      congr 1
      refine Finset.sum_congr rfl fun s _ => ?_
      rw [Finset.sum_eq_single s]
      · simp only [idChain, if_true]
        ring
      · intro t _ ht
        simp [idChain, Ne.symm ht]
      · simp
    have : (HL.total (N := N)) = fun s t => trajectory ψ (ham.total (N := N))
        (jumps.map fun j => (j.1.onChain, j.2)) dt s t
          + (-Complex.I * matElem ψ (ham.total (N := N)) ψ + (jumps.map c).sum) * idChain s t := by
      funext s t
      exact htr s t
    rw [this, key, hz, mul_zero, add_zero]

/-- **C53** for the first step with a new object, and for every step before which the user calls `calc_C()`: the
hypothesis on the products holds. -/
theorem C53_products (ham : Ham ℂ q) (X : Diss q D) :
    (X.haveAA = false → X.haveAAA = false → Products N X) ∧ Products N (X.calcC N ham) := by
  refine ⟨fun h1 h2 => ⟨fun h => ?_, fun h => ?_⟩, ⟨fun _ k hk => ?_, fun h k hk => ?_⟩⟩
  · rw [h1] at h; cases h
  · rw [h2] at h; cases h
  · exact (calcCs_spec (N := N) ham X.S).2.AA k hk
  · exact (calcCs_spec (N := N) ham X.S).2.AAA (by simpa [Diss.calcC] using h) k hk

/-- **C53**: with two-site terms a step of positive size returns whenever every jump operator acts on two neighbouring
sites of the chain. -/
theorem C53_returns (P : Num) (hP : P.Ok) (hm) (X : Diss q D) (h : UpToDate N X.S.A X.S.l X.S.r) (h0 : D 0 = 1) (lm rm)
    (hst : Stored N lm rm X.S.l X.S.r) (jumps : List (Jump q × ℂ))
    (hj : ∀ j ∈ jumps, ∃ k op, j.1 = .two k op ∧ k + 1 < N) (dt : ℝ) (hdt : 0 < dt) (saveMemory : Bool) :
    ∃ X', dissStep P N (.two hm) h0 lm rm X jumps dt saveMemory = some X' := by
  have key : ∀ L : List (Jump q × ℂ), (∀ j ∈ L, ∃ k op, j.1 = .two k op ∧ k + 1 < N) → ∀ h1, ∃ h2,
      L.foldl (fun (HL : Option (Ham ℂ q)) j => HL.bind fun HL => addJump N X dt HL j) (some (.two h1))
        = some (.two h2) := by
    intro L
    induction L with
    | nil => exact fun _ h1 => ⟨h1, rfl⟩
    | cons j L ih =>
      intro hL h1
      obtain ⟨k, op, e, hk⟩ := hL j List.mem_cons_self
      obtain ⟨j, w⟩ := j
      obtain rfl : j = .two k op := e
      rw [List.foldl_cons, Option.bind_some]
      simp only [addJump, Diss.expect2, expect2s, if_pos hk, Option.map_some]
      exact ih (fun i hi => hL i (List.mem_cons_of_mem _ hi)) _
  obtain ⟨h2, e⟩ := key jumps hj fun k => (hm k).map fun op s t u v => -Complex.I * op s t u v
  have e' : dissHam N (.two hm) X jumps dt = some (.two h2) := by
    rw [dissHam, if_pos hdt]
    exact e
  obtain ⟨out, hout⟩ := C30_returns (N := N) P hP (.two h2) (fun _ h => by cases h) X.S h h0 lm rm hst
  have hE := C32_euler (N := N) P .right (.two h2) (calcKs N (.two h2) h0 (calcCs N (.two h2) X.S)) lm rm (-dt : ℂ)
    saveMemory
  rw [hout, Option.map_some] at hE
  obtain ⟨Y, hY, _⟩ := Option.map_eq_some_iff.mp hE
  rw [dissStep, e', Option.bind_some]
  dsimp only
  rw [hY]
  exact ⟨_, rfl⟩

/-- **C53**, what the code does from the second step on: whatever `update` does to the tensors and environments, the
mean value of a jump operator is computed from the product of the tensors before the previous step. -/
theorem C53_second_step (P : Num) (ham : Ham ℂ q) (X : Diss q D) (h0 : D 0 = 1) (lm rm) (jumps : List (Jump q × ℂ))
    (dt : ℝ) (saveMemory : Bool) (X' : Diss q D)
    (hstep : dissStep P N ham h0 lm rm X jumps dt saveMemory = some X') (f : MPS ℂ q D → MPS ℂ q D) (k : ℕ)
    (hk : k + 1 < N) (op : Fin (q k) → Fin (q (k + 1)) → Fin (q k) → Fin (q (k + 1)) → ℂ) :
    (X'.update f).expect2 N k op
      = expect2s N (f X'.S.toMPS) k op (some fun u v => X.S.A k u * X.S.A (k + 1) v) := by
  obtain ⟨HL, hHL, hstep⟩ := Option.bind_eq_some_iff.mp hstep
  obtain ⟨Y, hY, rfl⟩ := Option.map_eq_some_iff.mp hstep
  have hE := C32_euler (N := N) P .right HL (calcKs N HL h0 (calcCs N HL X.S)) lm rm (-dt : ℂ) saveMemory
  rw [hY, Option.map_some] at hE
  obtain ⟨out, _, hY1⟩ := Option.map_eq_some_iff.mp hE.symm
  obtain ⟨cM, cC⟩ := calcCs_spec (N := N) HL X.S
  have hC := calcKs_current (N := N) HL h0 _ cC
  have hM' : (calcKs N HL h0 (calcCs N HL X.S)).toMPS = X.S.toMPS :=
    (calcKs_spec (N := N) HL h0 (calcCs N HL X.S)).1.trans cM
  have hAA : Y.1.AA k = fun u v => X.S.A k u * X.S.A (k + 1) v := by
    rw [← hY1]
    change (calcKs N HL h0 (calcCs N HL X.S)).AA k = _
    rw [hC.AA k hk, hM']
    rfl
  rw [Diss.expect2]
  change expect2s N (f Y.1.toMPS) k op (some (Y.1.AA k)) = _
  rw [hAA]

/-! ### Violations -/

/-- `σ_x` of the first of two spins. -/
def flipHam : ℕ → Option (Fin 2 → Fin 2 → Fin 2 → Fin 2 → ℂ) :=
  fun _ => some fun s t u v => if t = v ∧ s ≠ u then 1 else 0

/-- The projection of the first of two spins on the state 1. -/
def upOp : Fin 2 → Fin 2 → Fin 2 → Fin 2 → ℂ := fun s t u v => if s = u ∧ t = v ∧ s = 1 then 1 else 0

/-- Two spins in the state `|00⟩`, a new object. -/
def dissX : Diss (fun _ => 2) (fun _ => 1) :=
  ⟨⟨⟨lsA, fun _ => 1, fun _ => 1⟩, fun _ _ _ => 0, fun _ _ _ _ => 0, fun _ => none, fun _ => none, fun _ => 0,
    fun _ => 0, fun _ => 0, none⟩, false, false, false⟩

theorem dissX_upToDate : UpToDate 2 dissX.S.A dissX.S.l dissX.S.r := by
  refine ⟨rfl, fun n _ => ?_, rfl, fun n _ => ?_⟩ <;> simp [dissX, lsA]

theorem dissX_stored : Stored (D := fun _ => 1) 2 (fun _ => .dense 1) (fun _ => .dense 1) dissX.S.l dissX.S.r :=
  fun _ _ => ⟨toArray_dense _, toArray_dense _⟩

theorem dissX_above : Above 2 Ex29.P.tol (D := fun _ => 1) fun _ => 1 := by
  intro n _
  rw [show ((Ex29.P.tol : ℝ) : ℂ) = 1 / 2 by simp [Ex29.P]]
  exact Ex29.one_above 1

/-- The hypotheses of `C53_step_partial` can be met: the first step of two driven spins with decay and noise `w`. -/
theorem diss_example (w : ℂ) (dt : ℝ) (hdt : 0 < dt) :
    ∃ X' B, dissStep Ex29.P 2 (.two flipHam) rfl (fun _ => .dense 1) (fun _ => .dense 1) dissX [(.two 0 upOp, w)] dt
        false = some X'
      ∧ X'.S.A = moved lsA (-dt) B ∧ X'.S.l = (fun _ => 1) ∧ X'.S.r = (fun _ => 1)
      ∧ (∀ k < 2, ∀ b, B k = some b → RightGauge (lsA k) b 1)
      ∧ ∀ B' : BList (fun _ => 2) (fun _ => 1), braket (psi lsA rfl rfl) (tangent (N := 2) lsA rfl rfl B') = 0 →
          braket (tangent lsA rfl rfl B') (tangent (N := 2) lsA rfl rfl B)
            = matElem (tangent lsA rfl rfl B') (trajectory (psi lsA rfl rfl) ((Ham.two flipHam).total (N := 2))
                [((Jump.two 0 upOp).onChain, w)] dt) (psi lsA rfl rfl) := by
  obtain ⟨X', hX'⟩ := C53_returns (N := 2) Ex29.P Ex29.ok flipHam dissX dissX_upToDate rfl (fun _ => .dense 1)
    (fun _ => .dense 1) dissX_stored [(.two 0 upOp, w)] (by simp) dt hdt false
  obtain ⟨B, h1, hl, hr, _, h2, _, h3⟩ := C53_step_partial (N := 2) Ex29.P Ex29.ok (.two flipHam) dissX
    ((C53_products (.two flipHam) dissX).1 rfl rfl) dissX_upToDate rfl rfl (by omega) _ _ dissX_stored dissX_above
    dissX_above _ dt false X' hX'
  exact ⟨X', B, hX', h1, hl, hr, h2, h3⟩

/-- The tangent vector with a single parameter tensor. -/
def oneB (k : ℕ) (b : Fin 2 → Matrix (Fin 1) (Fin 1) ℂ) : BList (fun _ => 2) (fun _ => 1) :=
  fun j => if j = k then some b else none

theorem lsA_zero : lsA 0 = fun s => (if s = 0 then 1 else 0 : ℂ) • (1 : Matrix (Fin 1) (Fin 1) ℂ) := by
  funext t; fin_cases t <;> simp [lsA]

/-- The amplitudes of a product state of two spins. -/
theorem psi_two (A : Tensors ℂ (fun _ => 2) fun _ => 1) (s : Cfg (fun _ => 2) 2) :
    psi (N := 2) A rfl rfl s = A 0 (s 0) 0 0 * A 1 (s 1) 0 0 := by
  rw [psi, amp, amp, amp, Matrix.one_mul, Matrix.mul_apply]
  simp [Fin.last]

theorem tangent_two (B : BList (fun _ => 2) fun _ => 1) (s : Cfg (fun _ => 2) 2) :
    tangent (N := 2) lsA rfl rfl B s = ((B 0).getD 0) (s 0) 0 0 * (if s 1 = 0 then 1 else 0)
      + (if s 0 = 0 then 1 else 0) * ((B 1).getD 0) (s 1) 0 0 := by
  have h0 : ∀ t : Fin 2, lsA 0 t 0 0 = if t = 0 then 1 else 0 := by intro t; fin_cases t <;> simp [lsA]
  have h1 : ∀ t : Fin 2, lsA 1 t 0 0 = if t = 0 then 1 else 0 := by intro t; fin_cases t <;> simp [lsA]
  rw [tangent, Finset.sum_range_succ, Finset.sum_range_succ, Finset.sum_range_zero, zero_add]
  congr 1
  · cases B 0 with
    | none => simp
    | some b =>
      rw [Option.elim_some, oneSite, psi_two, Function.update_self, Function.update_of_ne (by decide), h1,
        Option.getD_some]
  · cases B 1 with
    | none => simp
    | some b =>
      rw [Option.elim_some, oneSite, psi_two, Function.update_self, Function.update_of_ne (by decide), h0,
        Option.getD_some]

/-- The tensors after the first step: the first spin has left the state 0. -/
theorem diss_example_moved : ∃ X', dissStep Ex29.P 2 (.two flipHam) rfl (fun _ => .dense 1) (fun _ => .dense 1) dissX
      [(.two 0 upOp, 0)] 1 false = some X' ∧ X'.S.l = (fun _ => 1) ∧ X'.S.r = (fun _ => 1)
      ∧ X'.S.A 0 1 0 0 = -Complex.I ∧ X'.S.A 1 0 0 0 = 1 := by
  obtain ⟨X', B, h1, h2, hl, hr, h3, h4⟩ := diss_example 0 1 one_pos
  refine ⟨X', h1, hl, hr, ?_, ?_⟩
  · have h := h4 (oneB 0 fun s => if s = 1 then 1 else 0) ?_
    · have e : ∀ s, tangent (N := 2) lsA rfl rfl (oneB 0 fun s => if s = 1 then 1 else 0) s
          = if s 0 = 1 ∧ s 1 = 0 then 1 else 0 := by
        intro s
        rw [tangent_two]
        by_cases c1 : s 0 = 1 <;> by_cases c2 : s 1 = 0 <;> simp [oneB, c1, c2]
      simp only [braket, matElem, sum_cfg_two, e, lsA_psi, tangent_two] at h
      simp at h
      have hL : ∀ u : Cfg (fun _ => 2) 2, (Jump.two (q := fun _ => 2) 0 upOp).onChain u ![0, 0] = 0 := by
        intro u
        rw [Jump.onChain, dif_pos (by omega)]
        unfold siteOp2 upOp
        by_cases c : u 0 = 1 <;> simp [c]
      have hH : (Ham.two (q := fun _ => 2) flipHam).total (N := 2) ![1, 0] ![0, 0] = 1 := by
        simp [Ham.total, Ham.term, Finset.sum_range_succ, flipHam, siteOp2]
      have ht : trajectory (N := 2) (psi (D := fun _ => 1) lsA rfl rfl) (Ham.two flipHam).total
          [((Jump.two 0 upOp).onChain, 0)] 1 ![1, 0] ![0, 0] = -Complex.I := by
        simp [trajectory, centred, jumpTerm, adjMul, idChain, hL, hH]
      rw [ht] at h
      rw [h2, moved]
      cases hB : B 0 with
      | none => simp [hB] at h
      | some b =>
        rw [hB] at h
        simp only [Option.elim_some, Pi.sub_apply, Pi.smul_apply, Matrix.sub_apply, Matrix.smul_apply]
        simp only [Option.getD_some] at h
        rw [h]
        simp [lsA]
    · simp only [braket, sum_cfg_two, lsA_psi, tangent_two]
      simp [oneB]
  · rw [h2, moved]
    cases hB : B 1 with
    | none => simp [lsA]
    | some b =>
      have h := h3 1 (by omega) b hB
      have h' := congrFun (congrFun h 0) 0
      simp only [Option.elim_some, Pi.sub_apply, Pi.smul_apply, Matrix.sub_apply, Matrix.smul_apply]
      have e : b 0 0 0 = 0 := by
        rw [Fin.sum_univ_two] at h'
        simpa [lsA] using h'
      rw [e]
      simp [lsA]

/-- **C53** is violated from the second step on: the mean value of the jump operator used in the second step is that of
the state before the first one. -/
theorem C53_stale_violated : ∃ X' : Diss (fun _ => 2) (fun _ => 1),
    dissStep Ex29.P 2 (.two flipHam) rfl (fun _ => .dense 1) (fun _ => .dense 1) dissX [(.two 0 upOp, 0)] 1 false
      = some X'
    ∧ let X2 := X'.update (updateNoCF 2)
      UpToDate 2 X2.S.A X2.S.l X2.S.r
      ∧ X2.expect2 2 0 upOp = some 0
      ∧ matElem (psi X2.S.A rfl rfl) (siteOp2 (N := 2) 0 (by omega) upOp) (psi X2.S.A rfl rfl) ≠ 0 := by
  obtain ⟨X', h1, hl, hr, h2, h3⟩ := diss_example_moved
  obtain ⟨hA, hU⟩ := updateNoCF_upToDate 2 X'.S.toMPS (by rw [hl]) (by rw [hr])
  refine ⟨X', h1, hU, ?_, ?_⟩
  · rw [C53_second_step _ _ _ _ _ _ _ _ _ _ h1 _ 0 (by omega), expect2s, if_pos (by omega)]
    have e : calcC upOp (fun u v => dissX.S.A 0 u * dissX.S.A (0 + 1) v) = 0 := by
      funext u v
      rw [calcC_eq]
      refine Finset.sum_eq_zero fun s _ => Finset.sum_eq_zero fun t _ => ?_
      by_cases c : u = s ∧ v = t ∧ u = 1
      · obtain ⟨rfl, rfl, rfl⟩ := c
        simp [dissX, lsA]
      · rw [upOp, if_neg c, zero_smul]
    dsimp only
    rw [Option.getD_some, e, epsR2_eq]
    simp [adot_zero_right]
  · change matElem (psi (updateNoCF 2 X'.S.toMPS).A rfl rfl) _ (psi (updateNoCF 2 X'.S.toMPS).A rfl rfl) ≠ 0
    rw [hA]
    generalize hψ : psi (N := 2) X'.S.A rfl rfl = ψ
    have h10 : ψ ![1, 0] = -Complex.I := by
      rw [← hψ, psi_two]
      simp [h2, h3]
    have e : matElem ψ (siteOp2 (N := 2) 0 (by omega) upOp) ψ
        = star (ψ ![1, 0]) * ψ ![1, 0] + star (ψ ![1, 1]) * ψ ![1, 1] := by
      unfold matElem siteOp2 upOp
      simp only [sum_cfg_two]
      simp
    rw [e, h10]
    intro h
    have := congrArg Complex.re h
    simp [Complex.mul_re] at this
    nlinarith [mul_self_nonneg (ψ ![1, 1]).re, mul_self_nonneg (ψ ![1, 1]).im]

/-- **C53** is violated with three-site terms: the first step of a new object with a jump operator raises. -/
theorem C53_three_site_violated (P : Num) (hm) (X : Diss q D) (hX : X.haveAA = false) (hX' : X.haveAAA = false)
    (h0 : D 0 = 1) (lm rm) (j : Jump q × ℂ) (jumps : List (Jump q × ℂ)) (dt : ℝ) (saveMemory : Bool) :
    dissStep P N (.three hm) h0 lm rm X (j :: jumps) dt saveMemory = none := by
  have h : dissHam N (.three hm) X (j :: jumps) dt = none := by
    rw [dissHam]
    split
    · have e : addJump N X dt (hamStart (.three hm)) j = none := by
        obtain ⟨j, w⟩ := j
        cases j with
        | two k op => rfl
        | three k op =>
          simp only [hamStart, addJump, Diss.expect3, hX, hX']
          rfl
      rw [List.foldl_cons, Option.bind_some, e, foldl_bind_none']
    · rfl
  rw [dissStep, h]
  rfl

/-! ### `calc_B_1s_diss` -/

/-- **C53**, what `calc_B_1s_diss` computes: the operator applied to the tensor minus `⟨op† op⟩` times the tensor, for an
operator `op† op` given by its matrix elements. -/
theorem C53_one_site {R : Type*} [CommRing R] [StarRing R] (S : MPS R q D) (h : UpToDate N S.A S.l S.r) (h0 : D 0 = 1)
    (hN : D N = 1) (k : ℕ) (hk : k < N) (op : Fin (q k) → Fin (q k) → R) :
    calcB1sDiss S k op = fun s => ∑ t, op s t • S.A k t
      - matElem (psi S.A h0 hN) (siteOp k hk fun s t => ∑ u, star (op u s) * op u t) (psi S.A h0 hN) • S.A k s := by
  rw [expval_1 h h0 hN k hk]
  unfold calcB1sDiss
  simp only [forSum_eq]
  have e : epsR (S.r (k + 1)) (fun s => ∑ t, op s t • S.A k t) (fun s => ∑ t, op s t • S.A k t)
      = epsR (S.r (k + 1)) (opSite (fun s t => ∑ u, star (op u s) * op u t) (S.A k)) (S.A k) := by
    rw [epsR_eq, epsR_eq]
    simp only [opSite, Matrix.conjTranspose_sum, Matrix.conjTranspose_smul, Matrix.mul_sum, Matrix.sum_mul,
      Finset.sum_smul, Matrix.smul_mul, Matrix.mul_smul]
    rw [Finset.sum_comm]
    refine Finset.sum_congr rfl fun s _ => ?_
    rw [Finset.sum_comm]
    simp only [Finset.smul_sum, smul_smul]
  rw [e]

/-- **C53**, partial: the result is orthogonal to the state, as documented, if `⟨op† op⟩ = ⟨op⟩` and the state has
norm 1. -/
theorem C53_one_site_partial {R : Type*} [CommRing R] [StarRing R] (S : MPS R q D) (h : UpToDate N S.A S.l S.r)
    (h0 : D 0 = 1) (hN : D N = 1) (k : ℕ) (hk : k < N) (op : Fin (q k) → Fin (q k) → R)
    (hop : matElem (psi S.A h0 hN) (siteOp k hk fun s t => ∑ u, star (op u s) * op u t) (psi S.A h0 hN)
      = matElem (psi S.A h0 hN) (siteOp k hk op) (psi S.A h0 hN))
    (hnorm : braket (psi S.A h0 hN) (psi (N := N) S.A h0 hN) = 1) :
    braket (psi S.A h0 hN) (oneSite (N := N) S.A h0 hN k (calcB1sDiss S k op)) = 0 := by
  have hpsi : psi (N := N) S.A h0 hN = oneSite S.A h0 hN k (S.A k) := funext fun s => (oneSite_self _ _ _ _ s).symm
  rw [C53_one_site S h h0 hN k hk, hop, expval_1 h h0 hN k hk, hpsi, overlap_same h h0 hN k hk]
  rw [hpsi, overlap_same h h0 hN k hk] at hnorm
  have e : ∑ s, (∑ t, op s t • S.A k t
      - adot (S.l k) (epsR (S.r (k + 1)) (opSite op (S.A k)) (S.A k)) • S.A k s) * S.r (k + 1) * (S.A k s)ᴴ
      = epsR (S.r (k + 1)) (opSite op (S.A k)) (S.A k)
        + (-adot (S.l k) (epsR (S.r (k + 1)) (opSite op (S.A k)) (S.A k)))
          • ∑ s, S.A k s * S.r (k + 1) * (S.A k s)ᴴ := by
    rw [epsR_eq, Finset.smul_sum, ← Finset.sum_add_distrib]
    refine Finset.sum_congr rfl fun s _ => ?_
    rw [opSite, Matrix.sub_mul, Matrix.sub_mul, Matrix.smul_mul, Matrix.smul_mul, neg_smul, sub_eq_add_neg]
  rw [e, adot_add_right, adot_smul_right, hnorm, mul_one, add_neg_cancel]

/-- **C53** is violated by `calc_B_1s_diss`: for an operator that is twice a reflection the result is not orthogonal to the
state. -/
theorem C53_one_site_violated : ∃ (S : MPS ℂ (fun _ => 2) (fun _ => 1)) (op : Fin 2 → Fin 2 → ℂ),
    UpToDate 2 S.A S.l S.r ∧ braket (psi S.A rfl rfl) (psi (N := 2) S.A rfl rfl) = 1
      ∧ braket (psi S.A rfl rfl) (oneSite (N := 2) S.A rfl rfl 0 (calcB1sDiss S 0 op)) ≠ 0 := by
  refine ⟨dissX.S.toMPS, fun s t => if s = t then 2 else 0, dissX_upToDate, ?_, ?_⟩
  · change braket (psi lsA rfl rfl) (psi (N := 2) lsA rfl rfl) = 1
    simp [braket, sum_cfg_two, lsA_psi]
  · change braket (psi lsA rfl rfl) (psi (N := 2) (Function.update lsA 0 _) rfl rfl) ≠ 0
    simp only [braket, sum_cfg_two, psi_two]
    simp [calcB1sDiss, dissX, forSum_eq, epsR_eq, adot_eq_trace, lsA]
    norm_num

/-- The hypotheses of `C53_one_site_partial` can be met: a projector. -/
example : braket (psi lsA rfl rfl) (oneSite (N := 2) lsA rfl rfl 0
    (calcB1sDiss dissX.S.toMPS 0 fun s t => if s = 0 ∧ t = 0 then 1 else 0)) = 0 := by
  refine C53_one_site_partial (N := 2) dissX.S.toMPS dissX_upToDate rfl rfl 0 (by omega) _ ?_ ?_
  · congr 2
    funext s t
    rw [Fin.sum_univ_two]
    fin_cases s <;> fin_cases t <;> simp
  · change braket (psi lsA rfl rfl) (psi (N := 2) lsA rfl rfl) = 1
    simp [braket, sum_cfg_two, lsA_psi]

/-- The hypotheses of `C53_three_site_violated` can be met: a new object. -/
example (hm) (op : Fin 2 → Fin 2 → Fin 2 → Fin 2 → Fin 2 → Fin 2 → ℂ) :
    dissStep Ex29.P 3 (.three hm) rfl (fun _ => .dense 1) (fun _ => .dense 1) dissX [(.three 0 op, 0)] 1 false = none :=
  C53_three_site_violated _ _ _ rfl rfl _ _ _ _ _ _ _

end EvoMPS
