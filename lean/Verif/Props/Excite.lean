import Verif.ExciteReady

/-!
# C60: excitations of the uniform chain
-/

namespace EvoMPS

open Matrix Filter Topology Uni ComplexOrder

variable {q D : ℕ}

/-- The solver's answer solves every linear system with momentum `p` that `calc_BHB` hands to it. -/
def ExactMomentum (A1 A2 : Ten ℂ q D D) (l r : Option (Matrix (Fin D) (Fin D) ℂ)) (p : ℝ) (left pseudo : Bool) (solver : Solver D)
    (junk : Matrix (Fin D) (Fin D) ℂ) : Prop :=
  ∀ op x x0, PinvOp.new p [A1] [A2] l r left pseudo = some op →
    op.matvec junk (solver (op.matvec junk) (ravel x) x0).1 = some (ravel x)

/-- The hypotheses on a uniform state: one tensor per block, its environments, a Hermitian Hamiltonian, a
transfer map that forgets, and linear systems that are solved. -/
structure Vacuum (S : UTDVP q D) (Ks : Solver D) (junk : Matrix (Fin D) (Fin D) ℂ) : Prop where
  one : S.L = 1
  env : ChainEnv S.L S.A S.l S.r
  l_herm : (S.l 0)ᴴ = S.l 0
  r_herm : (S.r 0)ᴴ = S.r 0
  ham : ∀ s t, star (S.ham.op s t) = S.ham.op t s
  mixing : Mixing (S.A 0) (S.l 0) (S.r 0)
  solveR : ExactSolver S Ks junk false
  solveL : ExactSolver S Ks junk true

/-- The energy per site. -/
noncomputable def energyOf (S : UTDVP q D) : ℂ := chainExpect 1 S.A S.l S.r 0 S.ham.sites S.ham.op

theorem energyOf_real {S : UTDVP q D} {Ks junk} (h : Vacuum S Ks junk) : star (energyOf S) = energyOf S :=
  Exc.chainExpect_real (by simpa using h.l_herm) (by simpa [Nat.mod_one] using h.r_herm) h.ham

theorem triv_ready (P : Num) (hP : P.Ok) (S : UTDVP q D) (lm rm : MM ℂ D D) (Ks Ms : Solver D) (junk : Matrix (Fin D) (Fin D) ℂ)
    (hS : Vacuum S Ks junk) (hlm : lm.toArray = S.l 0) (hrm : rm.toArray = S.r 0) (hq : D < q * D) (p : ℝ)
    (hl : ExactMomentum (S.A 0) (S.A 0) (some (S.l 0)) (some (S.r 0)) (-p) true true Ms junk)
    (hr : ExactMomentum (S.A 0) (S.A 0) (some (S.l 0)) (some (S.r 0)) p false true Ms junk) :
    ∃ S1 E, S.calcC.calcK Ks junk = some S1 ∧ S1.prepareTriv P lm rm Ks junk p = some E ∧
      Exc.Ready P (S.A 0) (S.A 0) (S.l 0) (S.r 0) lm rm S.ham (energyOf S) p Ms junk E := by
  obtain ⟨S1, K1, h, h1, fr, h2, h3, h4, h5⟩ := Exc.after_K S hS.one hS.env hS.l_herm hS.r_herm hS.ham hS.mixing Ks junk hS.solveR
    hS.solveL
  obtain ⟨fL, fA, fl, frr, fham, -⟩ := calcC_fields S
  have eL : S1.L = 1 := by rw [fr]; exact fL.trans hS.one
  have eA : S1.A = S.A := by rw [fr]; exact fA
  have el : S1.l = S.l := by rw [fr]; exact fl
  have er : S1.r = S.r := by rw [fr]; exact frr
  have eham : S1.ham = S.ham := by rw [fr]; exact fham
  have eAA : S1.AA 0 = calcAA (S.A 0) (S.A 0) := by
    rw [fr]
    have := (calcC_current S).AA 0 (by rw [fL, hS.one]; omega)
    rw [fL, hS.one, fA] at this
    exact this
  have eAAA : ∀ h, S.ham = .three h → S1.AAA 0 = calcAAA (S.A 0) (S.A 0) (S.A 0) := by
    intro h hh
    rw [fr]
    exact Exc.calcC_AAA S hS.one hh
  obtain ⟨Vsh, hV⟩ := calcVsh_isSome (qr := P.qr) (A := S.A 0) (r_s := (P.roots rm).1) hq
  have Env := hS.env
  rw [hS.one] at Env
  refine ⟨S1, ⟨{ S1 with Kl := Function.update S.calcC.Kl 0 (some K1) }, { S1 with Kl := Function.update S.calcC.Kl 0 (some K1) },
    true, p, (P.roots lm).1, (P.roots lm).2, (P.roots rm).1, (P.roots rm).2, Vsh⟩, h1, ?_, ?_⟩
  · unfold UTDVP.prepareTriv
    rw [h2, Option.bind_some]
    dsimp only
    rw [if_pos eL, eA, hV, Option.map_some]
  · set S2 : UTDVP q D := { S1 with Kl := Function.update S.calcC.Kl 0 (some K1) } with hS2
    set E : ExcOp q D (D * q - D) := ⟨S2, S2, true, p, (P.roots lm).1, (P.roots lm).2, (P.roots rm).1, (P.roots rm).2, Vsh⟩ with hE
    have a1 : E.S.A = S.A := eA
    have a2 : E.S2.A = S.A := eA
    have a3 : E.S.l = S.l := el
    have a4 : E.S2.r = S.r := er
    have a4' : E.S.r = S.r := er
    have a5 : E.S.ham = S.ham := eham
    have hA : Exc.ArrOk E := by
      refine Exc.arr_mk hP (lm := lm) (rm := rm) ?_ ?_ ?_ ?_ rfl rfl rfl rfl rfl ?_ ?_ ?_ ?_ ?_ ?_
      · rw [a3, hlm]
      · rw [a4, hrm]
      · rw [a3, hS.l_herm]
      · rw [a4, hS.r_herm]
      · rw [a2, hV]; rfl
      · rw [a1, a3]; exact Exc.env_left Env
      · rw [a2, a4]; exact Exc.env_right Env
      · rw [a1]; exact eAA
      · rw [a2]; exact eAA
      · intro h hh
        rw [a2]
        exact eAAA h (by rw [← a5, hh])
    have hM : Exc.SolvesM E Ms junk := by
      refine Exc.solves_same hA rfl rfl ?_ ?_ ?_ ?_
      · rw [a1, a3, a4']; exact Env
      · rw [a1, a3, a4']; exact hS.mixing
      · rw [a1, a3, a4']; exact hl
      · rw [a1, a3, a4']; exact hr
    have hKl : E.S.Kl 0 = some K1 := by
      simp [hE, hS2]
    have core := Exc.bhb_core hA hM hKl (by rw [a2, a4, a5]; exact h4) (by rw [a1, a3, a5]; exact h5)
    rw [a1, a3, a4, a5] at core
    refine ⟨hA, hV, rfl, rfl, by rw [a1], by rw [a2], by rw [a3], by rw [a4], ?_⟩
    intro x mem
    obtain ⟨out, c1, c2⟩ := core x mem
    refine ⟨out, c1, fun x' => ?_⟩
    have := c2 x'
    rw [show (E.S.hExpect.re : ℂ) = energyOf S from h3] at this
    exact this

theorem kink_ready (P : Num) (hP : P.Ok) (S R : UTDVP q D) (lm rm : MM ℂ D D) (Ks Kr Ms : Solver D)
    (junk junk' : Matrix (Fin D) (Fin D) ℂ) (hS : Vacuum S Ks junk) (hR : Vacuum R Kr junk') (hham : R.ham = S.ham)
    (he : energyOf R = energyOf S) (hdec : Decays (S.A 0) (R.A 0))
    (hlm : lm.toArray = S.l 0) (hrm : rm.toArray = R.r 0) (hq : D < q * D) (p : ℝ)
    (hl : ExactMomentum (R.A 0) (S.A 0) none none (-p) true false Ms junk)
    (hr : ExactMomentum (S.A 0) (R.A 0) none none p false false Ms junk) :
    ∃ S1 R1 E, S.calcC.calcK Ks junk = some S1 ∧ R.calcC.calcK Kr junk' = some R1 ∧
      S1.prepareNontriv P R1 lm rm Ks junk p = some E ∧
      Exc.Ready P (S.A 0) (R.A 0) (S.l 0) (R.r 0) lm rm S.ham (energyOf S) p Ms junk E := by
  obtain ⟨S1, K1, h, h1, fr, h2, h3, h4, h5⟩ := Exc.after_K S hS.one hS.env hS.l_herm hS.r_herm hS.ham hS.mixing Ks junk hS.solveR
    hS.solveL
  obtain ⟨R1, K1', h', g1, gr, -, g3, g4, -⟩ := Exc.after_K R hR.one hR.env hR.l_herm hR.r_herm hR.ham hR.mixing Kr junk' hR.solveR
    hR.solveL
  obtain ⟨fL, fA, fl, frr, fham, -⟩ := calcC_fields S
  obtain ⟨kL, kA, kl, krr, kham, -⟩ := calcC_fields R
  have eL : S1.L = 1 := by rw [fr]; exact fL.trans hS.one
  have eA : S1.A = S.A := by rw [fr]; exact fA
  have el : S1.l = S.l := by rw [fr]; exact fl
  have eham : S1.ham = S.ham := by rw [fr]; exact fham
  have dL : R1.L = 1 := by rw [gr]; exact kL.trans hR.one
  have dA : R1.A = R.A := by rw [gr]; exact kA
  have dr : R1.r = R.r := by rw [gr]; exact krr
  have eAA : S1.AA 0 = calcAA (S.A 0) (S.A 0) := by
    rw [fr]
    have := (calcC_current S).AA 0 (by rw [fL, hS.one]; omega)
    rw [fL, hS.one, fA] at this
    exact this
  have dAA : R1.AA 0 = calcAA (R.A 0) (R.A 0) := by
    rw [gr]
    have := (calcC_current R).AA 0 (by rw [kL, hR.one]; omega)
    rw [kL, hR.one, kA] at this
    exact this
  have dAAA : ∀ h, S.ham = .three h → R1.AAA 0 = calcAAA (R.A 0) (R.A 0) (R.A 0) := by
    intro h hh
    rw [gr]
    exact Exc.calcC_AAA R hR.one (hham.trans hh)
  obtain ⟨Vsh, hV⟩ := calcVsh_isSome (qr := P.qr) (A := R.A 0) (r_s := (P.roots rm).1) hq
  have EnvS := hS.env
  have EnvR := hR.env
  rw [hS.one] at EnvS
  rw [hR.one] at EnvR
  have hKr : Tendsto (Exc.Ksum (R.A 0) (R.r 0) (shiftOp S.ham.op (energyOf S))) atTop (𝓝 (R1.K 0)) := by
    have e : (R1.hExpect.re : ℂ) = energyOf S := g3.trans he
    rw [e] at g4
    rw [← hham]
    exact g4
  refine ⟨S1, R1, ⟨{ S1 with Kl := Function.update S.calcC.Kl 0 (some K1) }, R1,
    false, p, (P.roots lm).1, (P.roots lm).2, (P.roots rm).1, (P.roots rm).2, Vsh⟩, h1, g1, ?_, ?_⟩
  · unfold UTDVP.prepareNontriv
    rw [h2, Option.bind_some]
    dsimp only
    rw [if_pos ⟨eL, eL.trans dL.symm⟩, dA, hV, Option.map_some]
  · set S2 : UTDVP q D := { S1 with Kl := Function.update S.calcC.Kl 0 (some K1) } with hS2
    set E : ExcOp q D (D * q - D) := ⟨S2, R1, false, p, (P.roots lm).1, (P.roots lm).2, (P.roots rm).1, (P.roots rm).2, Vsh⟩ with hE
    have a1 : E.S.A = S.A := eA
    have a2 : E.S2.A = R.A := dA
    have a3 : E.S.l = S.l := el
    have a4 : E.S2.r = R.r := dr
    have a5 : E.S.ham = S.ham := eham
    have a6 : (E.S.hExpect.re : ℂ) = energyOf S := h3
    have hA : Exc.ArrOk E := by
      refine Exc.arr_mk hP (lm := lm) (rm := rm) ?_ ?_ ?_ ?_ rfl rfl rfl rfl rfl ?_ ?_ ?_ ?_ ?_ ?_
      · rw [a3, hlm]
      · rw [a4, hrm]
      · rw [a3, hS.l_herm]
      · rw [a4, hR.r_herm]
      · rw [a2, hV]; rfl
      · rw [a1, a3]; exact Exc.env_left EnvS
      · rw [a2, a4]; exact Exc.env_right EnvR
      · rw [a1]; exact eAA
      · rw [a2]; exact dAA
      · intro h hh
        rw [a2]
        exact dAAA h (by rw [← a5, hh])
    have hM : Exc.SolvesM E Ms junk := by
      refine Exc.solves_mixed hA rfl ?_ ?_ ?_
      · rw [a1, a2]; exact hdec
      · rw [a1, a2]; exact hl
      · rw [a1, a2]; exact hr
    have hKl : E.S.Kl 0 = some K1 := by
      simp [hE, hS2]
    have core := Exc.bhb_core hA hM hKl (by rw [a2, a4, a6, a5]; exact hKr)
      (by rw [a1, a3, a5]; exact h5)
    rw [a6, a1, a2, a3, a4, a5] at core
    refine ⟨hA, hV, rfl, rfl, by rw [a1], by rw [a2], by rw [a3], by rw [a4], ?_⟩
    intro x mem
    exact core x mem

/-- What is proved about an operator `E` with the tensors `B x` for the parameters `x`: the matrix that is built column by column
exists, is Hermitian and has the matrix elements of `H - e` between the states with momentum `p` as entries, and every product
with a vector is the product with this matrix, whatever the starting vectors of the linear solvers are. -/
def ExciteOk (A A' : Ten ℂ q D D) (l r : Matrix (Fin D) (Fin D) ℂ) (ham : UHam q) (e : ℂ) (p : ℝ) (Ms : Solver D)
    (junk : Matrix (Fin D) (Fin D) ℂ) {v : ℕ} (E : ExcOp q D v) (B : Matrix (Fin D) (Fin v) ℂ → Ten ℂ q D D) : Prop :=
  ∃ H, E.bruteH Ms junk = some H ∧ Hᴴ = H ∧
    (∀ i j, IsExciteElem A A' l r (shiftOp ham.op e) p (B (reshape (Pi.single i 1))) (B (reshape (Pi.single j 1))) (H i j)) ∧
    (∀ mem w, ∃ mem', E.matvec Ms junk mem w = some (H *ᵥ w, mem')) ∧
    ∀ x x', IsExciteElem A A' l r (shiftOp ham.op e) p (B x') (B x) (star (ravel x') ⬝ᵥ H *ᵥ ravel x)

/-- What is proved about the tensors `B x`: they satisfy the gauge condition and, if the environments have full rank, the states
built from them have the scalar products of the parameters and every gauge-fixed tensor is one of them. -/
def ParamOk (P : Num) (A A' : Ten ℂ q D D) (l r : Matrix (Fin D) (Fin D) ℂ) {v : ℕ} (B : Matrix (Fin D) (Fin v) ℂ → Ten ℂ q D D) :
    Prop :=
  (∀ x, RightGauge A' (B x) r) ∧
  ((l - (P.tol : ℂ) • 1).PosDef → (r - (P.tol : ℂ) • 1).PosDef →
    (∀ x x' (k : ℤ) (a b : ℕ), -(a : ℤ) ≤ k → k ≤ b →
      wallBraket A A' l r (B x') (B x) k a b = if k = 0 then star (ravel x') ⬝ᵥ ravel x else 0) ∧
    ∀ b, RightGauge A' b r → ∃ x, B x = b)

theorem adot_flat {a b : ℕ} (x y : Matrix (Fin a) (Fin b) ℂ) : adot x y = star (ravel x) ⬝ᵥ ravel y := by
  simp only [dotProduct, Pi.star_apply, sum_flat, adot, forSum_eq, ravel, flat_divNat, flat_modNat]

theorem Exc.Ready.ok {P : Num} (hP : P.Ok) {A A' : Ten ℂ q D D} {l r : Matrix (Fin D) (Fin D) ℂ} {lm rm : MM ℂ D D} {ham : UHam q}
    {e : ℂ} {p : ℝ} {Ms : Solver D} {junk} {E : ExcOp q D (D * q - D)} (h : Exc.Ready P A A' l r lm rm ham e p Ms junk E)
    (hlm : lm.toArray = l) (hrm : rm.toArray = r) (hO : ∀ s t, star (ham.op s t) = ham.op t s) (he : star e = e) :
    ExciteOk A A' l r ham e p Ms junk E (fun x => getBFromX x E.Vsh E.l_si E.r_si) ∧
    ParamOk P A A' l r (fun x => getBFromX x E.Vsh E.l_si E.r_si) := by
  have hlh : lᴴ = l := by have := h.arr.l_herm; rwa [h.el] at this
  have hrh : rᴴ = r := by have := h.arr.roots.r_herm; rwa [h.er] at this
  have g4 := h.arr.right
  rw [h.eA', h.er] at g4
  constructor
  · obtain ⟨H, h1, h2, h3, h4⟩ := Exc.brute hlh hrh (Exc.shiftOp_star hO he) h.elem
    refine ⟨H, h1, h2, h3, h4, fun x x' => ?_⟩
    obtain ⟨out, k1, k2⟩ := h.elem x (none, none)
    obtain ⟨mem', k3⟩ := h4 (none, none) (ravel x)
    rw [ExcOp.matvec, reshape_ravel_pinv, k1, Option.map_some] at k3
    have := (Prod.mk.inj (Option.some.inj k3)).1
    rw [← this, ← adot_flat]
    exact k2 x'
  · refine ⟨fun x => ?_, fun ha hr => ⟨fun x x' k a b hka hkb => ?_, fun b hb => ?_⟩⟩
    · have := h.arr.gauge x
      rw [h.eA', h.er] at this
      exact this
    · rw [← adot_flat]
      exact Exc.inner hP h hlm hrm ha hr x x' k hka hkb
    · have Rl := roots_spec hP lm (by rw [hlm]; exact hlh)
      have Rr := roots_spec hP rm (by rw [hrm]; exact hrh)
      rw [hlm] at Rl
      rw [hrm] at Rr
      have fl := Rl.full ha
      have fr := Rr.full hr
      have hu : IsUnit (∑ s, A' s * r * (A' s)ᴴ).det := by
        have e1 : ∑ s, A' s * r * (A' s)ᴴ = r := g4
        rw [e1, ← fr.2, det_mul]
        have : IsUnit (P.roots rm).1.det := by
          have := congrArg det fr.1
          rw [det_mul, det_one] at this
          exact IsUnit.of_mul_eq_one _ this
        exact this.mul this
      refine ⟨∑ t, (P.roots lm).1 * b t * (P.roots rm).1 * E.Vsh t, ?_⟩
      · have := tenR_surj h.vsh (l_si := (P.roots lm).2) (l_s := (P.roots lm).1) Rr.s_herm Rr.si_herm fr.1 fr.2 hrh
          (mul_eq_one_comm.1 fl.1) hu b hb
        rw [h.lsi, h.rsi]
        exact this

/-- **C60** (topologically trivial).  For a uniform state with one tensor per block the operator of
`excite_top_triv` is the Hamiltonian, minus the energy of the state, on the superpositions with momentum `p` of the states
with one tensor replaced. -/
theorem C60_trivial (P : Num) (hP : P.Ok) (S : UTDVP q D) (lm rm : MM ℂ D D) (Ks Ms : Solver D) (junk : Matrix (Fin D) (Fin D) ℂ)
    (hS : Vacuum S Ks junk) (hlm : lm.toArray = S.l 0) (hrm : rm.toArray = S.r 0) (hq : D < q * D) (p : ℝ)
    (hl : ExactMomentum (S.A 0) (S.A 0) (some (S.l 0)) (some (S.r 0)) (-p) true true Ms junk)
    (hr : ExactMomentum (S.A 0) (S.A 0) (some (S.l 0)) (some (S.r 0)) p false true Ms junk) :
    ∃ S1 E, S.calcC.calcK Ks junk = some S1 ∧ S1.prepareTriv P lm rm Ks junk p = some E ∧
      ExciteOk (S.A 0) (S.A 0) (S.l 0) (S.r 0) S.ham (energyOf S) p Ms junk E (fun x => getBFromX x E.Vsh E.l_si E.r_si) ∧
      ParamOk P (S.A 0) (S.A 0) (S.l 0) (S.r 0) (fun x => getBFromX x E.Vsh E.l_si E.r_si) := by
  obtain ⟨S1, E, h1, h2, h3⟩ := triv_ready P hP S lm rm Ks Ms junk hS hlm hrm hq p hl hr
  exact ⟨S1, E, h1, h2, h3.ok hP hlm hrm hS.ham (energyOf_real hS)⟩

/-- **C60** (topologically non-trivial).  The same for the states that agree with one uniform state in front of
the replaced tensor and with another one, with the same Hamiltonian and the same energy, behind it. -/
theorem C60_kink (P : Num) (hP : P.Ok) (S R : UTDVP q D) (lm rm : MM ℂ D D) (Ks Kr Ms : Solver D)
    (junk junk' : Matrix (Fin D) (Fin D) ℂ) (hS : Vacuum S Ks junk) (hR : Vacuum R Kr junk') (hham : R.ham = S.ham)
    (he : energyOf R = energyOf S) (hdec : Decays (S.A 0) (R.A 0))
    (hlm : lm.toArray = S.l 0) (hrm : rm.toArray = R.r 0) (hq : D < q * D) (p : ℝ)
    (hl : ExactMomentum (R.A 0) (S.A 0) none none (-p) true false Ms junk)
    (hr : ExactMomentum (S.A 0) (R.A 0) none none p false false Ms junk) :
    ∃ S1 R1 E, S.calcC.calcK Ks junk = some S1 ∧ R.calcC.calcK Kr junk' = some R1 ∧
      S1.prepareNontriv P R1 lm rm Ks junk p = some E ∧
      ExciteOk (S.A 0) (R.A 0) (S.l 0) (R.r 0) S.ham (energyOf S) p Ms junk E (fun x => getBFromX x E.Vsh E.l_si E.r_si) ∧
      ParamOk P (S.A 0) (R.A 0) (S.l 0) (R.r 0) (fun x => getBFromX x E.Vsh E.l_si E.r_si) := by
  obtain ⟨S1, R1, E, h1, h2, h3, h4⟩ := kink_ready P hP S R lm rm Ks Kr Ms junk junk' hS hR hham he hdec hlm hrm hq p hl hr
  exact ⟨S1, R1, E, h1, h2, h3, h4.ok hP hlm hrm hS.ham (energyOf_real hS)⟩

/-- The value of the matrix elements is determined. -/
theorem C60_determined {A A' B B' : Ten ℂ q D D} {l r : Matrix (Fin D) (Fin D) ℂ} {n : ℕ}
    {O : (Fin n → Fin q) → (Fin n → Fin q) → ℂ} {p : ℝ} {a b : ℂ}
    (ha : IsExciteElem A A' l r O p B' B a) (hb : IsExciteElem A A' l r O p B' B b) : a = b := Exc.elem_unique ha hb

theorem calcKl_L {S S' : UTDVP q D} {Ks : Solver D} {junk h} (hk : S.calcKl Ks junk = some (S', h)) : S'.L = S.L := by
  unfold UTDVP.calcKl at hk
  dsimp only at hk
  split_ifs at hk
  obtain ⟨K, -, h2⟩ := Option.map_eq_some_iff.1 hk
  rw [← (Prod.mk.inj h2).1]

/-- **C60.**  Blocks of several tensors are rejected. -/
theorem C60_block (P : Num) (S R : UTDVP q D) (lm rm : MM ℂ D D) (Ks : Solver D) (junk : Matrix (Fin D) (Fin D) ℂ) (p : ℝ)
    (hL : S.L ≠ 1) : S.prepareTriv P lm rm Ks junk p = none ∧ S.prepareNontriv P R lm rm Ks junk p = none := by
  unfold UTDVP.prepareTriv UTDVP.prepareNontriv
  cases hk : S.calcKl Ks junk with
  | none => exact ⟨rfl, rfl⟩
  | some S1 =>
    have := calcKl_L (S' := S1.1) (h := S1.2) hk
    simp only [Option.bind_some]
    rw [if_neg (by rw [this]; exact hL), if_neg (by rw [this]; exact fun h => hL h.1)]
    exact ⟨rfl, rfl⟩

/-! ### Cases that meet the hypotheses -/

section
variable {A A' : Ten ℂ q D D} {l r junk : Matrix (Fin D) (Fin D) ℂ}

theorem exact_right (h : ∀ x, ∑ s, A s * x * (A s)ᴴ = (lᴴ * x).trace • r) (p : ℝ) :
    ExactMomentum A A (some l) (some r) p false true (fun _ b _ => (b, 0)) junk := by
  intro op x x0 hop
  dsimp only
  rw [C44_operator_right p _ _ rfl (by simp) _ _ true op hop, if_pos rfl, Exc.blockMap_one, Exc.mapR, h, sub_self, smul_zero,
    sub_zero]

theorem exact_left (h : ∀ x, ∑ s, (A s)ᴴ * x * A s = (rᴴ * x).trace • l) (p : ℝ) :
    ExactMomentum A A (some l) (some r) p true true (fun _ b _ => (b, 0)) junk := by
  intro op x x0 hop
  dsimp only
  rw [C44_operator_left p _ _ rfl (by simp) _ _ true op hop, if_pos rfl, Exc.blockMapL_one, Exc.mapL, h, sub_self, smul_zero,
    sub_zero]

theorem exact_mixed (h : ∀ x, ∑ s, A s * x * (A' s)ᴴ = 0) (p : ℝ) :
    ExactMomentum A A' none none p false false (fun _ b _ => (b, 0)) junk := by
  intro op x x0 hop
  obtain rfl : PinvOp.mk p [A] [A'] none none false false = op := by simpa [PinvOp.new] using hop
  have e : (PinvOp.mk p [A] [A'] none none false false).matvec junk
      = (PinvOp.mk p [A] [A'] (some 0) (some 0) false false).matvec junk := by
    funext u
    simp [PinvOp.matvec]
  dsimp only
  rw [e, pinv_matvec_right p [A] [A'] rfl (by simp), opR, Exc.blockMap_one, Exc.mapR, h, reshape_ravel_pinv]
  simp

theorem exact_mixedL (h : ∀ x, ∑ s, (A' s)ᴴ * x * A s = 0) (p : ℝ) :
    ExactMomentum A' A none none p true false (fun _ b _ => (b, 0)) junk := by
  intro op x x0 hop
  obtain rfl : PinvOp.mk p [A'] [A] none none true false = op := by simpa [PinvOp.new] using hop
  have e : (PinvOp.mk p [A'] [A] none none true false).matvec junk
      = (PinvOp.mk p [A'] [A] (some 0) (some 0) true false).matvec junk := by
    funext u
    simp [PinvOp.matvec]
  dsimp only
  rw [e, pinv_matvec_left p [A'] [A] rfl (by simp), opL, Exc.blockMapL_one, Exc.mapL, h, reshape_ravel_pinv]
  simp

end

theorem demoPauli4_mapL' (ham : UHam 4) (x : Matrix (Fin 2) (Fin 2) ℂ) :
    ∑ s, ((demoPauli4 ham).A 0 s)ᴴ * x * (demoPauli4 ham).A 0 s = (((demoPauli4 ham).r 0)ᴴ * x).trace • (demoPauli4 ham).l 0 := by
  ext i j
  fin_cases i <;> fin_cases j <;>
    simp [demoPauli4, Fin.sum_univ_four, Matrix.mul_apply, Fin.sum_univ_two, Matrix.trace_fin_two,
      Complex.conj_ofNat] <;> ring_nf <;> simp [Complex.I_sq] <;> ring

theorem demoPauli4_mapR' (ham : UHam 4) (x : Matrix (Fin 2) (Fin 2) ℂ) :
    ∑ s, (demoPauli4 ham).A 0 s * x * ((demoPauli4 ham).A 0 s)ᴴ = (((demoPauli4 ham).l 0)ᴴ * x).trace • (demoPauli4 ham).r 0 := by
  rw [demoPauli4_map]
  have e2 : (((demoPauli4 ham).l 0)ᴴ * x).trace = x.trace / 2 := by
    simp [demoPauli4, Matrix.trace_fin_two, Complex.conj_ofNat, Matrix.mul_apply, Fin.sum_univ_two]
    ring
  rw [e2]
  rfl

theorem demoPauli4_vacuum (ham : UHam 4) (hO : ∀ s t, star (ham.op s t) = ham.op t s) :
    Vacuum (demoPauli4 ham) (fun _ b _ => (b, 0)) 0 where
  one := rfl
  env := demoPauli4_env ham
  l_herm := (demoPauli4_stored ham).left_herm 0 (demoPauli4_pos ham)
  r_herm := (demoPauli4_stored ham).right_herm 0 (demoPauli4_pos ham)
  ham := hO
  mixing := fun x => by
    have := demoPauli4_limit ham x
    simp only [Nat.mul_one, adot_eq_trace] at this
    exact this
  solveR := demoPauli4_exact ham
  solveL := by
    intro op x x0 hop
    rw [demoPauli4_list] at hop
    exact exact_left (demoPauli4_mapL' ham) 0 op x x0 hop

/-- All hypotheses of `C60_trivial` hold for this state and every Hermitian Hamiltonian, also those on the rank. -/
example (ham : UHam 4) (hO : ∀ s t, star (ham.op s t) = ham.op t s) (p : ℝ) (S : UTDVP 4 2) (hS : S = demoPauli4 ham) :
    ∃ S1 E, S.calcC.calcK (fun _ b _ => (b, 0)) 0 = some S1 ∧
      S1.prepareTriv demoNum (.dense (S.l 0)) (.eye 2) (fun _ b _ => (b, 0)) 0 p = some E ∧
      ExciteOk (S.A 0) (S.A 0) (S.l 0) (S.r 0) S.ham (energyOf S) p (fun _ b _ => (b, 0)) 0 E
        (fun x => getBFromX x E.Vsh E.l_si E.r_si) ∧
      ∀ b, RightGauge (S.A 0) b (S.r 0) → ∃ x, getBFromX x E.Vsh E.l_si E.r_si = b := by
  subst hS
  obtain ⟨S1, E, h1, h2, h3, h4⟩ := C60_trivial demoNum demoNum_ok (demoPauli4 ham) (.dense ((demoPauli4 ham).l 0)) (.eye 2)
    (fun _ b _ => (b, 0)) (fun _ b _ => (b, 0)) 0 (demoPauli4_vacuum ham hO) (toArray_dense _) (toArray_eye _) (by omega) p
    (exact_left (demoPauli4_mapL' ham) _) (exact_right (demoPauli4_mapR' ham) _)
  exact ⟨S1, E, h1, h2, h3, (h4.2 ((demoPauli4_above ham).1 0 (demoPauli4_pos ham)) ((demoPauli4_above ham).2 0 (demoPauli4_pos ham))).2⟩

/-- The Hamiltonian of the Ising chain without field: an energy of one for every pair of different neighbours. -/
noncomputable def demoIsing : UHam 2 := .two fun s t u w => if s = u ∧ t = w ∧ s ≠ t then 1 else 0

theorem demoIsing_herm (s t : Fin 2 → Fin 2) : star (demoIsing.op s t) = demoIsing.op t s := by
  simp only [demoIsing, UHam.op]
  by_cases h : s 0 = t 0 ∧ s 1 = t 1 ∧ s 0 ≠ s 1
  · rw [if_pos h, if_pos ⟨h.1.symm, h.2.1.symm, by rw [← h.1, ← h.2.1]; exact h.2.2⟩, star_one]
  · rw [if_neg h, if_neg (fun h' => h ⟨h'.1.symm, h'.2.1.symm, by rw [← h'.1, ← h'.2.1]; exact h'.2.2⟩), star_zero]

/-- All spins in the state `c`. -/
noncomputable def demoSpins (c : Fin 2) : UTDVP 2 1 where
  L := 1
  A := fun _ s => if s = c then 1 else 0
  AA := 0
  l := fun _ => 1
  r := fun _ => 1
  lL := 0
  rL := 0
  ham := demoIsing
  AAA := 0
  C2 := 0
  C3 := 0
  K := 0
  K0init := none
  Kl := fun _ => none
  hExpect := 0

theorem one_by_one (x : Matrix (Fin 1) (Fin 1) ℂ) : x.trace • (1 : Matrix (Fin 1) (Fin 1) ℂ) = x := by
  ext i j
  obtain rfl := Subsingleton.elim i 0
  obtain rfl := Subsingleton.elim j 0
  simp [Matrix.trace]

theorem demoSpins_map (c : Fin 2) (x : Matrix (Fin 1) (Fin 1) ℂ) :
    ∑ s, (demoSpins c).A 0 s * x * ((demoSpins c).A 0 s)ᴴ = (((demoSpins c).l 0)ᴴ * x).trace • (demoSpins c).r 0 := by
  simp only [demoSpins, conjTranspose_one, Matrix.one_mul, one_by_one]
  rw [Finset.sum_eq_single c (fun s _ hs => by simp [hs]) (by simp)]
  simp

theorem demoSpins_mapL (c : Fin 2) (x : Matrix (Fin 1) (Fin 1) ℂ) :
    ∑ s, ((demoSpins c).A 0 s)ᴴ * x * (demoSpins c).A 0 s = (((demoSpins c).r 0)ᴴ * x).trace • (demoSpins c).l 0 := by
  simp only [demoSpins, conjTranspose_one, Matrix.one_mul, one_by_one]
  rw [Finset.sum_eq_single c (fun s _ hs => by simp [hs]) (by simp)]
  simp

theorem demoSpins_list (c : Fin 2) : (demoSpins c).list = [(demoSpins c).A 0] := by
  simp [UMPS.list, demoSpins]

theorem demoSpins_vacuum (c : Fin 2) : Vacuum (demoSpins c) (fun _ b _ => (b, 0)) 0 where
  one := rfl
  env := by
    refine ⟨fun k hk => ?_, fun k hk => ?_, fun k hk => ?_⟩
    · have := demoSpins_mapL c 1
      simp only [demoSpins, conjTranspose_one, Matrix.one_mul, one_by_one] at this ⊢
      exact this.symm
    · have := demoSpins_map c 1
      simp only [demoSpins, conjTranspose_one, Matrix.one_mul, one_by_one] at this ⊢
      exact this.symm
    · simp [demoSpins, Matrix.trace]
  l_herm := by simp [demoSpins]
  r_herm := by simp [demoSpins]
  ham := by
    exact demoIsing_herm
  mixing := by
    intro x
    refine tendsto_const_nhds.congr fun n => ?_
    rw [Exc.chainTransfer_one]
    have h1 : Exc.mapR ((demoSpins c).A 0) ((demoSpins c).A 0) x = x := by
      rw [Exc.mapR, demoSpins_map]
      simp only [demoSpins, conjTranspose_one, Matrix.one_mul, one_by_one]
    rw [Function.iterate_fixed h1, ← demoSpins_map, ← Exc.mapR, h1]
  solveR := by
    intro op x x0 hop
    rw [demoSpins_list] at hop
    exact exact_right (demoSpins_map c) 0 op x x0 hop
  solveL := by
    intro op x x0 hop
    rw [demoSpins_list] at hop
    exact exact_left (demoSpins_mapL c) 0 op x x0 hop

theorem demoSpins_energy (c : Fin 2) : energyOf (demoSpins c) = 0 := by
  rw [energyOf, chainExpect]
  refine Finset.sum_eq_zero fun s _ => Finset.sum_eq_zero fun t _ => ?_
  change Fin 2 → Fin 2 at s t
  simp only [demoSpins, demoIsing, UHam.op, UHam.sites]
  by_cases h : s 0 = t 0 ∧ s 1 = t 1 ∧ s 0 ≠ s 1
  · have hz : chainProd 1 (fun _ s => if s = c then (1 : Matrix (Fin 1) (Fin 1) ℂ) else 0) 0 2 s = 0 := by
      simp only [chainProd, List.ofFn_succ, List.ofFn_zero, List.prod_cons, List.prod_nil]
      by_cases h0 : s 0 = c
      · have h1 : s 1 ≠ c := fun h1 => h.2.2 (h0.trans h1.symm)
        simp [h1]
      · simp [h0]
    rw [hz]
    simp
  · rw [if_neg h, zero_mul]

/-- All hypotheses of `C60_kink` hold for the two ordered states of the Ising chain. -/
example (p : ℝ) : ∃ S1 R1 E, (demoSpins 0).calcC.calcK (fun _ b _ => (b, 0)) 0 = some S1 ∧
    (demoSpins 1).calcC.calcK (fun _ b _ => (b, 0)) 0 = some R1 ∧
    S1.prepareNontriv demoNum R1 (.eye 1) (.eye 1) (fun _ b _ => (b, 0)) 0 p = some E ∧
    ExciteOk ((demoSpins 0).A 0) ((demoSpins 1).A 0) 1 1 demoIsing 0 p (fun _ b _ => (b, 0)) 0 E
      (fun x => getBFromX x E.Vsh E.l_si E.r_si) := by
  have hz : ∀ x : Matrix (Fin 1) (Fin 1) ℂ, ∑ s, (demoSpins 0).A 0 s * x * ((demoSpins 1).A 0 s)ᴴ = 0 := fun x => by
    simp [demoSpins]
  have hz' : ∀ x : Matrix (Fin 1) (Fin 1) ℂ, ∑ s, ((demoSpins 1).A 0 s)ᴴ * x * (demoSpins 0).A 0 s = 0 := fun x => by
    simp [demoSpins]
  obtain ⟨S1, R1, E, h1, h2, h3, h4, -⟩ := C60_kink demoNum demoNum_ok (demoSpins 0) (demoSpins 1) (.eye 1) (.eye 1)
    (fun _ b _ => (b, 0)) (fun _ b _ => (b, 0)) (fun _ b _ => (b, 0)) 0 0 (demoSpins_vacuum 0) (demoSpins_vacuum 1) rfl
    (by rw [demoSpins_energy, demoSpins_energy])
    (fun x => by
      refine (tendsto_add_atTop_iff_nat 1).1 (tendsto_const_nhds.congr fun n => ?_)
      rw [Exc.chainTransfer_one, Function.iterate_succ_apply, Exc.mapR, hz, Function.iterate_fixed (Exc.mapR_zero _ _)])
    (toArray_eye _) (toArray_eye _) (by omega) p (exact_mixedL hz' _) (exact_mixed hz _)
  rw [demoSpins_energy] at h4
  exact ⟨S1, R1, E, h1, h2, h3, h4⟩

end EvoMPS
