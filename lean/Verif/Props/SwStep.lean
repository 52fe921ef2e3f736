import Verif.SwStepRet
import Verif.SwStepNorm
import Verif.Props.SwGrad

/-!
# C73: the time steps of sandwich states

`take_step` (tdvp_sandwich.py:801-837) without expansion of bonds and `take_step_RK4` (839-902).
-/

namespace EvoMPS

open Matrix Uni
open scoped ComplexOrder

variable {q D : ℕ}

/-- `B` is what `calc_B` gives for the window `A` in the surroundings of `S`: the tensors are set, `update` brings environments and
matrices `C`, `K` up to date, `calc_B` is called. -/
def SlopeW (S : SwT q D) (P : Num) (sL sR : Solver D) (jL jR : Matrix (Fin D) (Fin D) ℂ) (lU rU : MM ℂ D D) (A : ℕ → Ten ℂ q D D)
    (B : WList q D) : Prop :=
  ∃ T T' out, SameFrame S T ∧ T.A = A ∧ T.update sL sR jL jR = some T' ∧ SameFrame S T' ∧ T'.A = A ∧ WindowEnv T' ∧
    T'.calcB P (T'.lObjs lU) (T'.rObjs rU) = some out ∧ out.B = B

/-! ## Helpers -/

theorem movedW_off {A : ℕ → Ten ℂ q D D} {c : ℂ} {B : WList q D} {n : ℕ} (h : B n = none) : movedW A c B n = A n := by
  rw [movedW, h]; rfl

theorem swCalcB_isSome {S : SwT q D} {P : Num} {lm rm : ℕ → MM ℂ D D} {out : SwTanOut q D} (h : S.calcB P lm rm = some out) (n : ℕ) :
    (out.B n).isSome ↔ S.free n :=
  slopes_isSome (by rw [slopes_eq, h]; rfl) n

theorem off_window {S : SwT q D} {B : WList q D} (hB : ∀ n, (B n).isSome → S.free n) {n : ℕ} (hn : ¬ (1 ≤ n ∧ n ≤ S.N)) : B n = none := by
  have := hB n
  cases h : B n with
  | none => rfl
  | some b =>
    rw [h] at this
    exact absurd ⟨(this rfl).1, (this rfl).2.1⟩ hn

theorem euler_tensors {S : SwT q D} {B : WList q D} (hB : ∀ n, (B n).isSome → S.free n) (c : ℂ) :
    (fun n => if 1 ≤ n ∧ n ≤ S.N then movedW S.A c B n else S.A n) = movedW S.A c B := by
  funext n
  split
  · rfl
  · rename_i hn
    exact (movedW_off (off_window hB hn)).symm

theorem slope_of {S : SwT q D} {P : Num} {sL sR : Solver D} {jL jR : Matrix (Fin D) (Fin D) ℂ} {lU rU : MM ℂ D D} {A : ℕ → Ten ℂ q D D}
    {T T' : SwT q D} {B : WList q D} (f : SameFrame S T) (hA : T.A = A) (hu : T.update sL sR jL jR = some T')
    (hB : T'.slopes P (T'.lObjs lU) (T'.rObjs rU) = some B) :
    SlopeW S P sL sR jL jR lU rU A B ∧ SameFrame S T' ∧ T'.A = A ∧ ∀ n, (B n).isSome ↔ S.free n := by
  obtain ⟨f', hA', we⟩ := update_frame hu
  have hs := slopes_isSome hB
  rw [slopes_eq] at hB
  obtain ⟨out, ho, rfl⟩ := Option.map_eq_some_iff.1 hB
  exact ⟨⟨T, T', out, f, hA, hu, f.trans f', hA'.trans hA, we, ho, rfl⟩, f.trans f', hA'.trans hA, fun n => (hs n).trans ((f.trans f').free n)⟩

/-- The tensors after one of the loops of `take_step_RK4`. -/
theorem loop_tensors {S : SwT q D} {A : ℕ → Ten ℂ q D D} {B C : WList q D} {c d : ℂ} (hB : ∀ n, (B n).isSome ↔ S.free n)
    (hC : ∀ n, (C n).isSome ↔ S.free n) :
    (fun n => if 1 ≤ n ∧ n ≤ S.N then (B n).elim (movedW A d C n) fun b => A n - c • b else movedW A d C n) = movedW A c B := by
  funext n
  cases hb : B n with
  | none =>
    have : ¬ S.free n := by rw [← hB, hb]; simp
    have hc : C n = none := by
      cases h : C n with
      | none => rfl
      | some x => exact absurd ((hC n).1 (by rw [h]; rfl)) this
    rw [movedW_off hb, movedW_off hc]
    simp
  | some b =>
    have := (hB n).1 (by rw [hb]; rfl)
    rw [if_pos ⟨this.1, this.2.1⟩]
    unfold movedW
    rw [hb]
    rfl

/-- The sums after one of the loops of `take_step_RK4`. -/
theorem loop_sums {S : SwT q D} {B F : WList q D} (z : ℂ) (hB : ∀ n, (B n).isSome ↔ S.free n) (hF : ∀ n, (F n).isSome ↔ S.free n) :
    (fun n => if 1 ≤ n ∧ n ≤ S.N then (B n).elim (F n) fun b => (F n).map fun f => f + z • b else F n)
      = fun n => (B n).bind fun b => (F n).map fun f => f + z • b := by
  funext n
  cases hb : B n with
  | none =>
    have : ¬ S.free n := by rw [← hB, hb]; simp
    have hc : F n = none := by
      cases h : F n with
      | none => rfl
      | some x => exact absurd ((hF n).1 (by rw [h]; rfl)) this
    simp [hc]
  | some b =>
    have := (hB n).1 (by rw [hb]; rfl)
    rw [if_pos ⟨this.1, this.2.1⟩]
    rfl

theorem sums_isSome {S : SwT q D} {B F : WList q D} (z : ℂ) (hB : ∀ n, (B n).isSome ↔ S.free n) (hF : ∀ n, (F n).isSome ↔ S.free n) (n : ℕ) :
    ((B n).bind fun b => (F n).map fun f => f + z • b).isSome ↔ S.free n := by
  have h1 := hB n
  have h2 := hF n
  cases hb : B n with
  | none => rw [hb] at h1; simpa using h1
  | some b => rw [Option.bind_some, Option.isSome_map]; exact h2

theorem rk4_sum (k1 k2 k3 k4 : WList q D) (n : ℕ) :
    ((k4 n).bind fun b4 => ((k3 n).bind fun b3 => ((k2 n).bind fun b2 => (k1 n).map fun b1 => b1 + (2 : ℂ) • b2).map fun f => f + (2 : ℂ) • b3).map
      fun f => f + (1 : ℂ) • b4) = (rkSumW k1 k2 k3 k4 n).map fun b => (6 : ℂ) • b := by
  unfold rkSumW
  cases k1 n <;> cases k2 n <;> cases k3 n <;> cases k4 n <;> simp [smul_smul]

theorem movedW_six (A : ℕ → Ten ℂ q D D) (c : ℂ) (f : WList q D) :
    movedW A (c / 6) (fun n => (f n).map fun b => (6 : ℂ) • b) = movedW A c f := by
  funext n
  unfold movedW
  beta_reduce
  cases f n with
  | none => rfl
  | some b =>
    simp only [Option.map_some, Option.elim_some, smul_smul]
    rw [show c / 6 * 6 = c by ring]

theorem tanInner_flip {l r : ℤ → Matrix (Fin D) (Fin D) ℂ} {n : ℤ} (hl : (l (n - 1))ᴴ = l (n - 1)) (hr : (r n)ᴴ = r n) (B B' : Ten ℂ q D D) :
    tanInner l r n B' B = star (tanInner l r n B B') :=
  commonInner_conj hl hr B' B

theorem pushL_same {site : ℤ → Ten ℂ q D D} {l : ℤ → Matrix (Fin D) (Fin D) ℂ} (h : ∀ n, l n = ∑ s, (site n s)ᴴ * l (n - 1) * site n s)
    (n : ℤ) (i : ℕ) : pushL site site (l (n - 1)) n i = l (n + i - 1) := by
  induction i with
  | zero => simp [pushL]
  | succ i ih =>
    rw [pushL, ih, show n + ((i + 1 : ℕ) : ℤ) - 1 = n + i by push_cast; ring, h (n + i)]

theorem pushR_same {site : ℤ → Ten ℂ q D D} {r : ℤ → Matrix (Fin D) (Fin D) ℂ} (h : ∀ n, r (n - 1) = ∑ s, site n s * r n * (site n s)ᴴ)
    (n : ℤ) (i : ℕ) : pushR site site (r n) n i = r (n - i) := by
  induction i with
  | zero => simp [pushR]
  | succ i ih =>
    rw [pushR, ih, show n - ((i + 1 : ℕ) : ℤ) = n - i - 1 by push_cast; ring, h (n - i)]

/-- Replacing a tensor by itself changes nothing. -/
theorem gradTerm_self {site : ℤ → Ten ℂ q D D} {l r : ℤ → Matrix (Fin D) (Fin D) ℂ} (hl : ∀ n, l n = ∑ s, (site n s)ᴴ * l (n - 1) * site n s)
    (hr : ∀ n, r (n - 1) = ∑ s, site n s * r n * (site n s)ᴴ) (n j : ℤ) (k : ℕ) (O : (Fin k → Fin q) → (Fin k → Fin q) → ℂ) :
    gradTerm site l r n (site n) j k O = termEnergy site l r j k O := by
  have e1 : ∀ m, gradEnvL site l n (site n) m = l m := by
    intro m
    unfold gradEnvL
    split
    · rfl
    · rw [Function.update_eq_self, pushL_same hl, show n + ((m + 1 - n).toNat : ℤ) - 1 = m by omega]
  have e2 : ∀ m, gradEnvR site r n (site n) m = r m := by
    intro m
    unfold gradEnvR
    split
    · rfl
    · rw [Function.update_eq_self, pushR_same hr, show n - ((n - m).toNat : ℤ) = m by omega]
  unfold gradTerm termEnergy
  rw [Function.update_eq_self, e1, e2]

/-- The state is orthogonal to the tangent vector, site by site. -/
theorem tangent_orth {S : SwT q D} {H : ℤ → UHam q} {site : ℤ → Ten ℂ q D D} {l r : ℤ → Matrix (Fin D) (Fin D) ℂ}
    (h : SwReady S H site l r) {P : Num} (hP : P.Ok) {lm rm : ℕ → MM ℂ D D} (F : SwFull S l r P.tol lm rm) {n : ℕ}
    (h2 : n ≤ S.N) {b : Ten ℂ q D D} (hg : InGauge S site l r n b)
    (hc : ∀ B, InGauge S site l r n B → ResidualIs S H site l r n B (tanInner l r n B b)) :
    tanInner l r n b (site n) = 0 := by
  have hlh := h.chain.herm h.posL h.hermL
  have hrh : ∀ m : ℕ, m ≤ S.N → (r m)ᴴ = r m := fun m hm => (posDef_of_above hP.tol (F.rabove m hm)).1
  have key : tanInner l r n (site n) b = 0 := by
    rcases lt_trichotomy n S.nc with hn | hn | hn
    · have := hg.1 hn
      rw [tanInner, ← trace_sum]
      have e : ∀ s, (l ((n : ℤ) - 1) * b s * r n * (site n s)ᴴ).trace = ((site n s)ᴴ * l ((n : ℤ) - 1) * b s * r n).trace := by
        intro s
        rw [trace_mul_comm]
        simp only [Matrix.mul_assoc]
      rw [trace_sum, Finset.sum_congr rfl fun s _ => e s, ← trace_sum, ← Matrix.sum_mul, this, Matrix.zero_mul, trace_zero]
    · have h0 := hc (site n) ⟨fun x => by omega, fun x => by omega⟩
      have one : tanInner l r n (site n) (site n) = 1 := by
        have hn1 : (l n * r n).trace = 1 := by
          have : ∀ m : ℕ, (l m * r m).trace = 1 := by
            intro m
            induction m with
            | zero => exact h.chain.norm
            | succ m ih =>
              rw [← ih, h.chain.stepL, show ((m + 1 : ℕ) : ℤ) - 1 = m by push_cast; ring, show r (m : ℤ) = r (((m + 1 : ℕ) : ℤ) - 1) by
                congr 1; push_cast; ring, h.chain.stepR, Matrix.sum_mul, Matrix.mul_sum, trace_sum, trace_sum]
              refine Finset.sum_congr rfl fun s _ => ?_
              rw [Matrix.mul_assoc, Matrix.mul_assoc, trace_mul_comm]
              simp only [Matrix.mul_assoc]
          exact this n
        rw [← hn1, h.chain.stepL n, Matrix.sum_mul, trace_sum, tanInner]
        refine Finset.sum_congr rfl fun s _ => ?_
        rw [trace_mul_comm]
        simp only [Matrix.mul_assoc]
      refine tendsto_nhds_unique h0 ?_
      refine Filter.Tendsto.congr (f₁ := fun _ => 0) (fun p => ?_) tendsto_const_nhds
      refine (Finset.sum_eq_zero fun i _ => ?_).symm
      rw [gradTerm_self h.chain.stepL h.chain.stepR, one, mul_one, sub_self]
    · have := hg.2 hn
      rw [tanInner]
      have e : ∀ s, (l ((n : ℤ) - 1) * b s * r n * (site n s)ᴴ).trace = (l ((n : ℤ) - 1) * (b s * r n * (site n s)ᴴ)).trace := by
        intro s
        simp only [Matrix.mul_assoc]
      rw [Finset.sum_congr rfl fun s _ => e s, ← trace_sum, ← Matrix.mul_sum, this, Matrix.mul_zero, trace_zero]
  rw [tanInner_flip (hlh _) (hrh n h2), key, star_zero]

/-! ## The properties -/

/-- **C73**, `take_step(dtau)`: it returns exactly when `calc_B` does, and then the tensors of the window, and nothing else, are those
moved by `-dtau` along the tangent vector; the tensors of sites without a tangent vector stay. -/
theorem C73_euler (S : SwT q D) (P : Num) (lm rm : ℕ → MM ℂ D D) (dtau : ℂ) :
    S.takeStep P lm rm dtau none = (S.calcB P lm rm).map fun out => ({ S with A := movedW S.A dtau out.B }, none) := by
  unfold SwT.takeStep
  rw [Option.elim_none, Option.map_map]
  cases h : S.calcB P lm rm with
  | none => rfl
  | some out =>
    rw [Option.map_some, Option.map_some]
    simp only [Function.comp, eulerW_eq, Option.map_none]
    rw [euler_tensors fun n hn => (swCalcB_isSome h n).1 hn]

/-- **C73**, `take_step(dtau, B=B)`: the same with the given tensors, but the list of the caller is emptied. -/
theorem C73_given (S : SwT q D) (P : Num) (lm rm : ℕ → MM ℂ D D) (dtau : ℂ) (B : WList q D) :
    ∃ S', S.takeStep P lm rm dtau (some B) = some (S', some fun n => if 1 ≤ n ∧ n ≤ S.N then none else B n) ∧
      S' = { S with A := S'.A } ∧ ∀ n, S'.A n = if 1 ≤ n ∧ n ≤ S.N then movedW S.A dtau B n else S.A n := by
  unfold SwT.takeStep
  simp only [Option.elim_some, Option.map_some, eulerW_eq]
  exact ⟨_, rfl, rfl, fun n => rfl⟩

/-- **C73**, `take_step_RK4(dtau, B_i)`: whenever it returns, the tensors are those of the classical Runge-Kutta step with the four
tangent vectors at the right places.  The list of the caller is not that given but six times the weighted sum. -/
theorem C73_rk4 (S S' : SwT q D) (P : Num) (sL sR : Solver D) (jL jR : Matrix (Fin D) (Fin D) ℂ) (lU rU : MM ℂ D D) (lm rm : ℕ → MM ℂ D D)
    (dtau : ℂ) (Bi : Option (WList q D)) (B' : Option (WList q D)) (hBi : ∀ B, Bi = some B → ∀ n, (B n).isSome ↔ S.free n)
    (h : S.takeStepRK4 P sL sR jL jR lU rU lm rm dtau Bi = some (S', B')) :
    ∃ k1 k2 k3 k4, (Bi = some k1 ∨ Bi = none ∧ ∃ out, S.calcB P lm rm = some out ∧ out.B = k1) ∧
      SlopeW S P sL sR jL jR lU rU (movedW S.A (dtau / 2) k1) k2 ∧ SlopeW S P sL sR jL jR lU rU (movedW S.A (dtau / 2) k2) k3 ∧
      SlopeW S P sL sR jL jR lU rU (movedW S.A dtau k3) k4 ∧ SameFrame S S' ∧ S'.A = movedW S.A dtau (rkSumW k1 k2 k3 k4) ∧
      B' = Bi.map fun _ => fun n => (rkSumW k1 k2 k3 k4 n).map fun b => (6 : ℂ) • b := by
  unfold SwT.takeStepRK4 at h
  simp only [] at h
  obtain ⟨k1, hk1, h⟩ := Option.bind_eq_some_iff.1 h
  obtain ⟨T1, u1, h⟩ := Option.bind_eq_some_iff.1 h
  obtain ⟨k2, hk2, h⟩ := Option.bind_eq_some_iff.1 h
  obtain ⟨X, hX, h⟩ := Option.bind_eq_some_iff.1 h
  obtain ⟨T2, u2, h⟩ := Option.bind_eq_some_iff.1 h
  obtain ⟨k3, hk3, h⟩ := Option.bind_eq_some_iff.1 h
  obtain ⟨Y, hY, h⟩ := Option.bind_eq_some_iff.1 h
  obtain ⟨T3, u3, h⟩ := Option.bind_eq_some_iff.1 h
  obtain ⟨F, hF, h⟩ := Option.map_eq_some_iff.1 h
  have first : (Bi = some k1 ∨ Bi = none ∧ ∃ out, S.calcB P lm rm = some out ∧ out.B = k1) ∧ ∀ n, (k1 n).isSome ↔ S.free n := by
    cases Bi with
    | none =>
      rw [Option.elim_none] at hk1
      obtain ⟨out, ho, rfl⟩ := Option.map_eq_some_iff.1 hk1
      exact ⟨Or.inr ⟨rfl, out, ho, rfl⟩, swCalcB_isSome ho⟩
    | some B =>
      cases hk1
      exact ⟨Or.inl rfl, hBi k1 rfl⟩
  obtain ⟨first, s1⟩ := first
  have e1 : rkFirstW S.N (dtau / 2) S.A k1 S.A = movedW S.A (dtau / 2) k1 := by
    rw [rkFirstW_eq]
    have := loop_tensors (A := S.A) (c := dtau / 2) (d := 0) s1 s1
    rw [show movedW S.A 0 k1 = S.A by funext n; unfold movedW; cases k1 n <;> simp] at this
    exact this
  obtain ⟨sl2, f1, a1, s2⟩ := slope_of (S := S) (T := { S with A := rkFirstW S.N (dtau / 2) S.A k1 S.A })
    (A := movedW S.A (dtau / 2) k1) ⟨rfl, rfl, rfl, rfl, ⟨rfl, rfl, rfl, rfl, rfl⟩, rfl, rfl, rfl, rfl, rfl⟩ e1 u1 hk2
  rw [rkLoopW_eq _ _ _ _ _ _ (fun n _ _ hn => (s1 n).2 ((s2 n).1 hn)), f1.N, a1, loop_tensors s2 s1, loop_sums 2 s2 s1] at hX
  cases hX
  obtain ⟨sl3, f2, a2, s3⟩ := slope_of (S := S) (T := { T1 with A := movedW S.A (dtau / 2) k2 }) (A := movedW S.A (dtau / 2) k2)
    ⟨f1.N, f1.nc, f1.hamSites, f1.ham, f1.left, f1.right⟩ rfl u2 hk3
  have t2 := sums_isSome 2 s2 s1
  rw [rkLoopW_eq _ _ _ _ _ _ (fun n _ _ hn => (t2 n).2 ((s3 n).1 hn)), f2.N, a2, loop_tensors s3 s2, loop_sums 2 s3 t2] at hY
  cases hY
  have t3 := sums_isSome 2 s3 t2
  have f3 : SameFrame S T3 := SameFrame.trans (T := { T2 with A := movedW S.A dtau k3 })
    ⟨f2.N, f2.nc, f2.hamSites, f2.ham, f2.left, f2.right⟩ (update_frame u3).1
  rw [Uni.rkLast_eq P T3 _ _ _ fun n => (t3 n).trans (f3.free n).symm] at hF
  obtain ⟨k4, hk4, rfl⟩ := Option.map_eq_some_iff.1 hF
  obtain ⟨sl4, -, a3, s4⟩ := slope_of (S := S) (T := { T2 with A := movedW S.A dtau k3 })
    (A := movedW S.A dtau k3) ⟨f2.N, f2.nc, f2.hamSites, f2.ham, f2.left, f2.right⟩ rfl u3 hk4
  have e4 : (fun n => if 1 ≤ n ∧ n ≤ T3.N then (k4 n).elim ((k3 n).bind fun b => ((k2 n).bind fun b => (k1 n).map fun f => f + (2 : ℂ) • b).map
        fun f => f + (2 : ℂ) • b) fun b => ((k3 n).bind fun b => ((k2 n).bind fun b => (k1 n).map fun f => f + (2 : ℂ) • b).map
        fun f => f + (2 : ℂ) • b).map fun f => f + b
      else (k3 n).bind fun b => ((k2 n).bind fun b => (k1 n).map fun f => f + (2 : ℂ) • b).map fun f => f + (2 : ℂ) • b)
      = fun n => (rkSumW k1 k2 k3 k4 n).map fun b => (6 : ℂ) • b := by
    have := loop_sums 1 s4 t3
    simp only [one_smul] at this
    rw [f3.N, this]
    funext n
    have := rk4_sum k1 k2 k3 k4 n
    simp only [one_smul] at this
    rw [← this]
  have s5 : ∀ n, (rkSumW k1 k2 k3 k4 n).isSome ↔ S.free n := by
    intro n
    have := sums_isSome 1 s4 t3 n
    rw [← this]
    have e := rk4_sum k1 k2 k3 k4 n
    have e' := congrArg Option.isSome e
    rw [Option.isSome_map] at e'
    rw [← e']
  rw [e4] at h
  cases h
  refine ⟨k1, k2, k3, k4, first, sl2, sl3, sl4, ?_, ?_, rfl⟩
  · exact ⟨f3.N, f3.nc, f3.hamSites, f3.ham, f3.left, f3.right⟩
  · have s6 : ∀ n, ((rkSumW k1 k2 k3 k4 n).map fun b => (6 : ℂ) • b).isSome ↔ S.free n := fun n => by rw [Option.isSome_map]; exact s5 n
    show rkFirstW T3.N (dtau / 6) S.A (fun n => (rkSumW k1 k2 k3 k4 n).map fun b => (6 : ℂ) • b) T3.A = _
    rw [rkFirstW_eq, f3.N, a3, loop_tensors s6 s3]
    exact movedW_six _ _ _

/-- **C73**, both steps return for Hamiltonians on two sites, whatever the tensors of the window are. -/
theorem C73_returns (S : SwT q D) (h : StepReady S) (sL sR : Solver D) (jL jR : Matrix (Fin D) (Fin D) ℂ)
    (hsL : ExactSolver S.uniL sL jL true) (hsR : ExactSolver S.uniR sR jR false) :
    ∃ T, S.update sL sR jL jR = some T ∧ SameFrame S T ∧ T.A = S.A ∧ WindowEnv T ∧
      ∀ (P : Num) (lm rm : ℕ → MM ℂ D D) (lU rU : MM ℂ D D) (dtau : ℂ),
        (∃ S', T.takeStep P lm rm dtau none = some (S', none)) ∧
        ∃ S', T.takeStepRK4 P sL sR jL jR lU rU lm rm dtau none = some (S', none) := by
  obtain ⟨T, hT, hc⟩ := update_returns h hsL hsR
  obtain ⟨f, hA, we⟩ := update_frame hT
  have good : ∀ U, SameFrame S U → ∃ V, U.update sL sR jL jR = some V ∧ ∀ (P : Num) (lm rm : ℕ → MM ℂ D D), ∃ B, V.slopes P lm rm = some B := by
    intro U fU
    obtain ⟨V, hV, hcV⟩ := update_returns (h.congr fU) (ExactSolver.congr hsL fU.left.1 fU.left.2.1 fU.left.2.2.1 fU.left.2.2.2.1)
      (ExactSolver.congr hsR fU.right.1 fU.right.2.1 fU.right.2.2.1 fU.right.2.2.2.1)
    have fV := (update_frame hV).1
    refine ⟨V, hV, fun P lm rm => slopes_returns fun n h1 h2 => calcBn_returns (by rw [fV.hamSites, fU.hamSites, h.two]) (by
      rw [fV.N]; exact hcV) P lm rm n h1 h2⟩
  refine ⟨T, hT, f, hA, we, fun P lm rm lU rU dtau => ?_⟩
  obtain ⟨k1, hk1⟩ := slopes_returns (S := T) (P := P) (lm := lm) (rm := rm) fun n h1 h2 =>
    calcBn_returns (by rw [f.hamSites, h.two]) (by rw [f.N]; exact hc) P lm rm n h1 h2
  have s1 := slopes_isSome hk1
  rw [slopes_eq] at hk1
  obtain ⟨out, ho, rfl⟩ := Option.map_eq_some_iff.1 hk1
  refine ⟨⟨_, by rw [C73_euler, ho]; rfl⟩, ?_⟩
  unfold SwT.takeStepRK4
  simp only [Option.elim_none, ho, Option.map_some, Option.bind_some, Option.map_none]
  obtain ⟨T1, u1, b1⟩ := good { T with A := rkFirstW T.N (dtau / 2) T.A out.B T.A } ⟨f.N, f.nc, f.hamSites, f.ham, f.left, f.right⟩
  have f1 : SameFrame S T1 := SameFrame.trans (T := { T with A := rkFirstW T.N (dtau / 2) T.A out.B T.A })
    ⟨f.N, f.nc, f.hamSites, f.ham, f.left, f.right⟩ (update_frame u1).1
  obtain ⟨k2, hk2⟩ := b1 P (T1.lObjs lU) (T1.rObjs rU)
  have g1 : ∀ n, T.free n ↔ T1.free n := fun n => (f.free n).trans (f1.free n).symm
  have s2 : ∀ n, (k2 n).isSome ↔ T.free n := fun n => (slopes_isSome hk2 n).trans ((f1.free n).trans (f.free n).symm)
  rw [u1, Option.bind_some, hk2, Option.bind_some, rkLoopW_eq _ _ _ _ _ _ (fun n _ _ hn => (s1 n).2 ((s2 n).1 hn)), Option.bind_some,
    loop_sums (S := T1) 2 (fun n => (s2 n).trans (g1 n)) (fun n => (s1 n).trans (g1 n))]
  have t2 := sums_isSome 2 s2 s1
  generalize (fun n => if 1 ≤ n ∧ n ≤ T1.N then (k2 n).elim (T1.A n) fun b => T.A n - (dtau / 2) • b else T1.A n) = A2
  obtain ⟨T2, u2, b2⟩ := good { T1 with A := A2 } ⟨f1.N, f1.nc, f1.hamSites, f1.ham, f1.left, f1.right⟩
  have f2 : SameFrame S T2 := SameFrame.trans (T := { T1 with A := A2 })
    ⟨f1.N, f1.nc, f1.hamSites, f1.ham, f1.left, f1.right⟩ (update_frame u2).1
  obtain ⟨k3, hk3⟩ := b2 P (T2.lObjs lU) (T2.rObjs rU)
  have g2 : ∀ n, T.free n ↔ T2.free n := fun n => (f.free n).trans (f2.free n).symm
  have s3 : ∀ n, (k3 n).isSome ↔ T.free n := fun n => (slopes_isSome hk3 n).trans ((f2.free n).trans (f.free n).symm)
  rw [u2, Option.bind_some, hk3, Option.bind_some, rkLoopW_eq _ _ _ _ _ _ (fun n _ _ hn => (t2 n).2 ((s3 n).1 hn)), Option.bind_some,
    loop_sums (S := T2) 2 (fun n => (s3 n).trans (g2 n)) (fun n => (t2 n).trans (g2 n))]
  have t3 := sums_isSome 2 s3 t2
  generalize (fun n => if 1 ≤ n ∧ n ≤ T2.N then (k3 n).elim (T2.A n) fun b => T.A n - dtau • b else T2.A n) = A3
  obtain ⟨T3, u3, b3⟩ := good { T2 with A := A3 } ⟨f2.N, f2.nc, f2.hamSites, f2.ham, f2.left, f2.right⟩
  have f3 : SameFrame S T3 := SameFrame.trans (T := { T2 with A := A3 })
    ⟨f2.N, f2.nc, f2.hamSites, f2.ham, f2.left, f2.right⟩ (update_frame u3).1
  obtain ⟨k4, hk4⟩ := b3 P (T3.lObjs lU) (T3.rObjs rU)
  rw [u3, Option.bind_some, Uni.rkLast_eq P T3 _ _ _ fun n => (t3 n).trans ((f.free n).trans (f3.free n).symm), hk4]
  exact ⟨_, rfl⟩

/-- **C73**, the norm of the state is conserved to first order by `take_step(dtau)`, for real `dtau` (imaginary time) and imaginary `dtau`
(real time) alike: `dtau = t z`. -/
theorem C73_norm (S : SwT q D) (H : ℤ → UHam q) (site : ℤ → Ten ℂ q D D) (l r : ℤ → Matrix (Fin D) (Fin D) ℂ)
    (h : SwReady S H site l r) (h2 : S.hamSites = 2) (sL sR : Solver D) (jL jR : Matrix (Fin D) (Fin D) ℂ)
    (hsL : ExactSolver S.uniL sL jL true) (hsR : ExactSolver S.uniR sR jR false)
    (P : Num) (hP : P.Ok) (lm rm : ℕ → MM ℂ D D) (F : SwFull S l r P.tol lm rm)
    (mixL : BlockMixing S.uniL.L S.uniL.A (S.uniL.l (S.uniL.L - 1)) (S.uniL.r (S.uniL.L - 1)))
    (mixR : BlockMixing S.uniR.L S.uniR.A (S.uniR.l (S.uniR.L - 1)) (S.uniR.r (S.uniR.L - 1))) (z : ℂ) :
    ∃ T : SwT q D, (S.calcC.bind fun S => S.calcK sL sR jL jR) = some T ∧ ∃ X : ℝ → SwT q D,
      (∀ t : ℝ, T.takeStep P lm rm (t * z) none = some (X t, none)) ∧
      HasDerivAt (fun t : ℝ => commonInner (l 0) (r S.N)
        (amp (q := fun _ => q) (D := fun _ => D) (fun k => (X t).A (k + 1)) S.N)
        (amp (q := fun _ => q) (D := fun _ => D) (fun k => (X t).A (k + 1)) S.N)) 0 0 := by
  obtain ⟨T, out, hT, ho, hB, -⟩ := C66_tangent S H site l r h h2 sL sR jL jR hsL hsR P hP lm rm F mixL mixR
  have hTA : T.A = S.A := by
    obtain ⟨U, h1, h3⟩ := Option.bind_eq_some_iff.1 hT
    have e := calcC_frame h1
    unfold SameBut at e
    rw [(calcK_frame h3).2.1, ← e]
  refine ⟨T, hT, fun t => { T with A := movedW T.A (t * z) out.B }, fun t => by rw [C73_euler, ho]; rfl, ?_⟩
  have hlh := h.chain.herm h.posL h.hermL
  have hrh : ∀ m : ℕ, m ≤ S.N → (r m)ᴴ = r m := fun m hm => (posDef_of_above hP.tol (F.rabove m hm)).1
  set b : ∀ k : ℕ, Ten ℂ q D D := fun k => (out.B (k + 1)).getD 0 with hb
  set A : Tensors ℂ (fun _ => q) (fun _ => D) := fun k => S.A (k + 1) with hA
  have eA : ∀ t : ℝ, (fun k => movedW T.A (t * z) out.B (k + 1)) = fun k => A k - ((t : ℂ) * z) • b k := by
    intro t
    funext k
    rw [hTA, movedW]
    simp only [hA, hb]
    generalize out.B (k + 1) = o
    cases o <;> simp
  simp only [eA]
  have hd : ∀ (s : Cfg (fun _ => q) S.N) (i j : Fin D), HasDerivAt (fun t : ℝ => amp (q := fun _ => q) (D := fun _ => D)
      (fun k => A k - ((t : ℂ) * z) • b k) S.N s i j)
      ((-z • ∑ k ∈ Finset.range S.N, amp (q := fun _ => q) (D := fun _ => D) (Function.update A k (b k)) S.N s) i j) 0 := by
    intro s i j
    have h0 := amp_hasDerivAt (q := fun _ => q) (D := fun _ => D) A b S.N s i j
    have hz : HasDerivAt (fun t : ℝ => (t : ℂ) * z) z 0 := by
      have := (Complex.ofRealCLM.hasDerivAt (x := (0 : ℝ))).mul_const z
      simpa using this
    have h1 := HasDerivAt.comp (h₂ := fun t : ℂ => amp (q := fun _ => q) (D := fun _ => D) (fun k => A k - t • b k) S.N s i j) (0 : ℝ)
      (by simpa using h0) hz
    refine h1.congr_deriv ?_
    simp only [Matrix.smul_apply, Matrix.sum_apply, smul_eq_mul]
    ring
  have hdd := commonInner_hasDerivAt (l 0) (r S.N) (fun t : ℝ => amp (q := fun _ => q) (D := fun _ => D)
      (fun k => A k - ((t : ℂ) * z) • b k) S.N) _ hd
  have e0 : (fun k => A k - (((0 : ℝ) : ℂ) * z) • b k) = A := by funext k; simp
  have zero : commonInner (l 0) (r S.N) (amp (q := fun _ => q) (D := fun _ => D) A S.N)
      (fun s => -z • ∑ k ∈ Finset.range S.N, amp (q := fun _ => q) (D := fun _ => D) (Function.update A k (b k)) S.N s) = 0 := by
    have each : ∀ k ∈ Finset.range S.N, commonInner (l 0) (r S.N) (amp (q := fun _ => q) (D := fun _ => D) A S.N)
        (amp (q := fun _ => q) (D := fun _ => D) (Function.update A k (b k)) S.N) = 0 := by
      intro k hk
      have hk := Finset.mem_range.1 hk
      have hsite : ∀ n < S.N, site (n + 1 : ℕ) = A n := fun n hn => h.chain.siteW (n + 1) (by omega) (by omega)
      refine (commonInner_single (q := fun _ => q) (D := fun _ => D) A (fun n => l n) (fun n => r n) S.N (fun n hn => ?_) (fun n hn => ?_) k hk
        (b k)).trans ?_
      · rw [h.chain.stepL, hsite n hn, show ((n + 1 : ℕ) : ℤ) - 1 = n by push_cast; ring]
      · have := h.chain.stepR ((n + 1 : ℕ) : ℤ)
        rw [hsite n hn, show ((n + 1 : ℕ) : ℤ) - 1 = n by push_cast; ring] at this
        exact this
      · obtain ⟨g1, -, g3⟩ := hB (k + 1) (by omega) (by omega)
        have := tangent_orth h hP F (by omega) g1 g3
        rw [tanInner, hsite k hk, show ((k + 1 : ℕ) : ℤ) - 1 = k by push_cast; ring] at this
        exact this
    unfold commonInner at each ⊢
    simp only [conjTranspose_smul, conjTranspose_sum, Matrix.mul_smul, trace_smul, Matrix.mul_sum, trace_sum]
    rw [← Finset.smul_sum, Finset.sum_comm, Finset.sum_congr rfl each, Finset.sum_const_zero, smul_zero]
  rw [e0, zero, commonInner_conj (hlh 0) (hrh S.N le_rfl), zero, star_zero, add_zero] at hdd
  exact hdd

/-- The hypotheses of the theorems hold for a window in an entangled chain, and its tensors do not matter for `C73_returns`. -/
example (o0 o1 o2 o3 oB : Fin 4 → Fin 4 → Fin 4 → Fin 4 → ℂ) (S : SwT 4 2) (A : ℕ → Ten ℂ 4 2 2)
    (hS : S = demoSwP 2 [.two o0, .two o1, .two o2, .two o3] (.two oB)) (dtau : ℂ) :
    ∃ T S1 S2, (SwT.update { S with A := A } (fun _ b _ => (b, 0)) (fun _ b _ => (b, 0)) 0 0) = some T ∧ T.A = A ∧
      T.takeStep demoNum (T.lObjs (.eye 2)) (T.rObjs (.eye 2)) dtau none = some (S1, none) ∧
      T.takeStepRK4 demoNum (fun _ b _ => (b, 0)) (fun _ b _ => (b, 0)) 0 0 (.eye 2) (.eye 2) (T.lObjs (.eye 2)) (T.rObjs (.eye 2)) dtau none
        = some (S2, none) := by
  subst hS
  have hr := demoSwP_ready 2 [.two o0, .two o1, .two o2, .two o3] (.two oB) (Or.inl rfl) rfl rfl (by simp [UHam.sites])
  obtain ⟨T, h1, -, h3, -, h4⟩ := C73_returns { demoSwP 2 [.two o0, .two o1, .two o2, .two o3] (.two oB) with A := A }
    ⟨hr.posL, hr.posR, hr.envL, hr.envR, hr.hermL, hr.hermR, hr.centre, rfl, _, rfl, rfl, by simp [UHam.sites]⟩
    (fun _ b _ => (b, 0)) (fun _ b _ => (b, 0)) 0 0 (demoPauli4_exactL _) (demoPauli4_exact _)
  obtain ⟨⟨S1, h5⟩, S2, h6⟩ := h4 demoNum (T.lObjs (.eye 2)) (T.rObjs (.eye 2)) (.eye 2) (.eye 2) dtau
  exact ⟨T, S1, S2, h1, h3, h5, h6⟩

/-- All hypotheses of `C73_norm` hold for the same chain. -/
example (o0 o1 o2 o3 oB : Fin 4 → Fin 4 → Fin 4 → Fin 4 → ℂ) (S : SwT 4 2)
    (hS : S = demoSwP 2 [.two o0, .two o1, .two o2, .two o3] (.two oB)) :
    ∃ T : SwT 4 2, (S.calcC.bind fun S => S.calcK (fun _ b _ => (b, 0)) (fun _ b _ => (b, 0)) 0 0) = some T := by
  subst hS
  obtain ⟨T, h1, -⟩ := C73_norm _ _ _ _ _
    (demoSwP_ready 2 [.two o0, .two o1, .two o2, .two o3] (.two oB) (Or.inl rfl) rfl rfl (by simp [UHam.sites])) rfl
    (fun _ b _ => (b, 0)) (fun _ b _ => (b, 0)) 0 0 (demoPauli4_exactL _) (demoPauli4_exact _) demoNum demoNum_ok _ _
    (demoSwP_full _ _ _) (demoPauli4_mixing _) (demoPauli4_mixing _) 1
  exact ⟨T, h1⟩

end EvoMPS
