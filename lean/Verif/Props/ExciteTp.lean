import Verif.ExciteTpLemmas
import Verif.Props.Excite
import Verif.Props.TensorProd

/-!
# C77: excitations with a Hamiltonian in tensor-product form
-/

namespace EvoMPS

open Matrix Filter Topology Uni ComplexOrder

variable {q D : ℕ}

/-- Two operators that do the same: equal products with every vector, whatever the solver and its starting vectors, equal matrices, and
the same tensors for the same parameters. -/
def SameOp {v : ℕ} (Et : ExcTp q D v) (E : ExcOp q D v) : Prop :=
  (∀ Ms junk mem w, Et.matvec Ms junk mem w = E.matvec Ms junk mem w) ∧ (∀ Ms junk, Et.bruteH Ms junk = E.bruteH Ms junk) ∧
    ∀ x, getBFromX x Et.Vsh Et.l_si Et.r_si = getBFromX x E.Vsh E.l_si E.r_si

theorem sameOp_of {v : ℕ} {Et : ExcTp q D v} {E : ExcOp q D v} (m : Exc.TpSame Et E) : SameOp Et E :=
  ⟨Exc.matvec_tp m, Exc.bruteH_tp m, fun x => by rw [m.V, m.lsi, m.rsi]⟩

theorem rel_mono {α β : Type*} {R R' : α → β → Prop} (h : ∀ a b, R a b → R' a b) {x y} (hr : Option.Rel R x y) : Option.Rel R' x y := by
  cases hr with
  | none => exact .none
  | some h' => exact .some (h _ _ h')

/-- **C77** (both forms give the same).  For every uniform state and every solver, exact or not: after `update`, the operators of
`excite_top_triv` and `excite_top_nontriv` with the terms of `∑ o₁ ⊗ o₂` in `ham_tp` can be built exactly when those with the array
can, and they do the same. -/
theorem C77_same (T R : UTP q D) (ht : T.ham.sites = 2) (hr : R.ham.sites = 2) (Ks Kr : Solver D) (junk junk' : Matrix (Fin D) (Fin D) ℂ)
    (T' R' : UTP q D) (S' Q' : UTDVP q D) (hT : T.calcC.calcK Ks junk = some T') (hS : T.dense.calcC.calcK Ks junk = some S')
    (hR : R.calcC.calcK Kr junk' = some R') (hQ : R.dense.calcC.calcK Kr junk' = some Q') (P : Num) (hP : P.Ok) (lm rm : MM ℂ D D)
    (hrm : rm.toArrayᴴ = rm.toArray) (p : ℝ) :
    Option.Rel SameOp (T'.prepareTriv P lm rm Ks junk p) (S'.prepareTriv P lm rm Ks junk p) ∧
    Option.Rel SameOp (T'.prepareNontriv P R' lm rm Ks junk p) (S'.prepareNontriv P Q' lm rm Ks junk p) := by
  have m := tpMatch_calcC T (ham_two ht)
  have n := tpMatch_calcC R (ham_two hr)
  rw [m.calcK, hS] at hT
  rw [n.calcK, hQ] at hR
  obtain rfl := Option.some.inj hT
  obtain rfl := Option.some.inj hR
  exact ⟨rel_mono (fun _ _ => sameOp_of) (Exc.prep_triv (m.after_calcK hS) rfl hP lm rm hrm Ks junk p),
    rel_mono (fun _ _ => sameOp_of) (Exc.prep_nontriv (m.after_calcK hS) rfl (n.after_calcK hQ) hP lm rm hrm Ks junk p)⟩

/-- What is proved about an operator `E`, see `ExciteOk`. -/
def ExciteOkTp (A A' : Ten ℂ q D D) (l r : Matrix (Fin D) (Fin D) ℂ)
    (tp : List (Matrix (Fin q) (Fin q) ℂ × Matrix (Fin q) (Fin q) ℂ)) (e : ℂ) (p : ℝ) (Ms : Solver D)
    (junk : Matrix (Fin D) (Fin D) ℂ) {v : ℕ} (E : ExcTp q D v) (B : Matrix (Fin D) (Fin v) ℂ → Ten ℂ q D D) : Prop :=
  ∃ H, E.bruteH Ms junk = some H ∧ Hᴴ = H ∧
    (∀ i j, IsExciteElem A A' l r (shiftOp (fun s t : Fin 2 → Fin q => tpDense tp (s 0) (s 1) (t 0) (t 1)) e) p
      (B (reshape (Pi.single i 1))) (B (reshape (Pi.single j 1))) (H i j)) ∧
    (∀ mem w, ∃ mem', E.matvec Ms junk mem w = some (H *ᵥ w, mem')) ∧
    ∀ x x', IsExciteElem A A' l r (shiftOp (fun s t : Fin 2 → Fin q => tpDense tp (s 0) (s 1) (t 0) (t 1)) e) p (B x') (B x)
      (star (ravel x') ⬝ᵥ H *ᵥ ravel x)

theorem exciteOkTp_of {A A' : Ten ℂ q D D} {l r : Matrix (Fin D) (Fin D) ℂ} {tp e} {p : ℝ} {Ms : Solver D} {junk} {v : ℕ}
    {Et : ExcTp q D v} {E : ExcOp q D v} (h : SameOp Et E)
    (ok : ExciteOk A A' l r (.two (tpDense tp)) e p Ms junk E (fun x => getBFromX x E.Vsh E.l_si E.r_si)) :
    ExciteOkTp A A' l r tp e p Ms junk Et (fun x => getBFromX x Et.Vsh Et.l_si Et.r_si) := by
  obtain ⟨H, h1, h2, h3, h4, h5⟩ := ok
  have eB : (fun x => getBFromX x Et.Vsh Et.l_si Et.r_si) = fun x => getBFromX x E.Vsh E.l_si E.r_si := funext h.2.2
  rw [eB]
  refine ⟨H, by rw [h.2.1, h1], h2, h3, fun mem w => ?_, h5⟩
  obtain ⟨mem', h6⟩ := h4 mem w
  exact ⟨mem', by rw [h.1, h6]⟩

/-- **C77** (topologically trivial).  With the Hamiltonian `∑ o₁ ⊗ o₂` given as the list `ham_tp` the operator of `excite_top_triv` is
this Hamiltonian, minus the energy of the state, on the superpositions with momentum `p` of the states with one tensor replaced. -/
theorem C77_trivial (P : Num) (hP : P.Ok) (T : UTP q D) (ht : T.ham.sites = 2) (lm rm : MM ℂ D D) (Ks Ms : Solver D)
    (junk : Matrix (Fin D) (Fin D) ℂ) (hT : Vacuum T.dense Ks junk) (hlm : lm.toArray = T.l 0) (hrm : rm.toArray = T.r 0)
    (hq : D < q * D) (p : ℝ)
    (hl : ExactMomentum (T.A 0) (T.A 0) (some (T.l 0)) (some (T.r 0)) (-p) true true Ms junk)
    (hr : ExactMomentum (T.A 0) (T.A 0) (some (T.l 0)) (some (T.r 0)) p false true Ms junk) :
    ∃ T1 E, T.calcC.calcK Ks junk = some T1 ∧ T1.prepareTriv P lm rm Ks junk p = some E ∧
      ExciteOkTp (T.A 0) (T.A 0) (T.l 0) (T.r 0) T.hamTp (energyOf T.dense) p Ms junk E (fun x => getBFromX x E.Vsh E.l_si E.r_si) ∧
      ParamOk P (T.A 0) (T.A 0) (T.l 0) (T.r 0) (fun x => getBFromX x E.Vsh E.l_si E.r_si) := by
  obtain ⟨S1, E, h1, h2, h3, h4⟩ := C60_trivial P hP T.dense lm rm Ks Ms junk hT hlm hrm hq p hl hr
  have m := tpMatch_calcC T (ham_two ht)
  have hT1 : T.calcC.calcK Ks junk = some { T.calcC with hExpect := S1.hExpect, K0init := S1.K0init, K := S1.K } := by
    rw [m.calcK, h1]; rfl
  have hrel := (C77_same T T ht ht Ks Ks junk junk _ _ S1 S1 hT1 h1 hT1 h1 P hP lm rm (by rw [hrm]; exact hT.r_herm) p).1
  rw [h2] at hrel
  cases hE : UTP.prepareTriv P { T.calcC with hExpect := S1.hExpect, K0init := S1.K0init, K := S1.K } lm rm Ks junk p with
  | none => rw [hE] at hrel; cases hrel
  | some Et =>
    rw [hE] at hrel
    cases hrel with
    | some hs =>
      refine ⟨_, Et, hT1, hE, exciteOkTp_of hs h3, ?_⟩
      have eB : (fun x => getBFromX x Et.Vsh Et.l_si Et.r_si) = fun x => getBFromX x E.Vsh E.l_si E.r_si := funext hs.2.2
      rw [eB]
      exact h4

/-- **C77** (topologically non-trivial).  The same for the states between two uniform states with the same Hamiltonian and energy. -/
theorem C77_kink (P : Num) (hP : P.Ok) (T R : UTP q D) (ht : T.ham.sites = 2) (hr2 : R.ham.sites = 2) (lm rm : MM ℂ D D)
    (Ks Kr Ms : Solver D) (junk junk' : Matrix (Fin D) (Fin D) ℂ) (hT : Vacuum T.dense Ks junk) (hR : Vacuum R.dense Kr junk')
    (hham : tpDense R.hamTp = tpDense T.hamTp) (he : energyOf R.dense = energyOf T.dense) (hdec : Decays (T.A 0) (R.A 0))
    (hlm : lm.toArray = T.l 0) (hrm : rm.toArray = R.r 0) (hq : D < q * D) (p : ℝ)
    (hl : ExactMomentum (R.A 0) (T.A 0) none none (-p) true false Ms junk)
    (hr : ExactMomentum (T.A 0) (R.A 0) none none p false false Ms junk) :
    ∃ T1 R1 E, T.calcC.calcK Ks junk = some T1 ∧ R.calcC.calcK Kr junk' = some R1 ∧
      T1.prepareNontriv P R1 lm rm Ks junk p = some E ∧
      ExciteOkTp (T.A 0) (R.A 0) (T.l 0) (R.r 0) T.hamTp (energyOf T.dense) p Ms junk E (fun x => getBFromX x E.Vsh E.l_si E.r_si) ∧
      ParamOk P (T.A 0) (R.A 0) (T.l 0) (R.r 0) (fun x => getBFromX x E.Vsh E.l_si E.r_si) := by
  obtain ⟨S1, R1, E, h1, h1', h2, h3, h4⟩ := C60_kink P hP T.dense R.dense lm rm Ks Kr Ms junk junk' hT hR
    (congrArg UHam.two hham) he hdec hlm hrm hq p hl hr
  have m := tpMatch_calcC T (ham_two ht)
  have n := tpMatch_calcC R (ham_two hr2)
  have hT1 : T.calcC.calcK Ks junk = some { T.calcC with hExpect := S1.hExpect, K0init := S1.K0init, K := S1.K } := by
    rw [m.calcK, h1]; rfl
  have hR1 : R.calcC.calcK Kr junk' = some { R.calcC with hExpect := R1.hExpect, K0init := R1.K0init, K := R1.K } := by
    rw [n.calcK, h1']; rfl
  have hrel := (C77_same T R ht hr2 Ks Kr junk junk' _ _ S1 R1 hT1 h1 hR1 h1' P hP lm rm (by rw [hrm]; exact hR.r_herm) p).2
  rw [h2] at hrel
  cases hE : UTP.prepareNontriv P { T.calcC with hExpect := S1.hExpect, K0init := S1.K0init, K := S1.K }
      { R.calcC with hExpect := R1.hExpect, K0init := R1.K0init, K := R1.K } lm rm Ks junk p with
  | none => rw [hE] at hrel; cases hrel
  | some Et =>
    rw [hE] at hrel
    cases hrel with
    | some hs =>
      refine ⟨_, _, Et, hT1, hR1, hE, exciteOkTp_of hs h3, ?_⟩
      have eB : (fun x => getBFromX x Et.Vsh Et.l_si Et.r_si) = fun x => getBFromX x E.Vsh E.l_si E.r_si := funext hs.2.2
      rw [eB]
      exact h4

/-- **C77**, violated for three sites.  With `ham_tp` set and `ham_sites = 3` the operator of `excite_top_triv` is built without an
exception for every state with one tensor per block, and every product with a vector raises: the class has no code for this case. -/
theorem C77_three_violated (P : Num) (T : UTP q D) (hT : T.L = 1) (h3 : T.ham.sites = 3) (hq : D < q * D) (lm rm : MM ℂ D D)
    (Ks : Solver D) (junk : Matrix (Fin D) (Fin D) ℂ) (p : ℝ) :
    ∃ E, T.prepareTriv P lm rm Ks junk p = some E ∧ ∀ Ms junk' mem w, E.matvec Ms junk' mem w = none := by
  have hh : ∃ h, T.ham = .three h := by
    cases h : T.ham with
    | two h0 => rw [h] at h3; simp [UHam.sites] at h3
    | three h0 => exact ⟨h0, rfl⟩
  obtain ⟨h, hh⟩ := hh
  obtain ⟨Vsh, hV⟩ := calcVsh_isSome (qr := P.qr) (A := T.A 0) (r_s := (P.roots rm).1) hq
  have hk : ∃ T1, T.calcKl Ks junk = some T1 ∧ T1.1.L = 1 ∧ T1.1.A = T.A ∧ T1.1.ham = T.ham := by
    unfold UTP.calcKl
    dsimp only
    rw [if_neg (by omega)]
    unfold UTDVP.calcPPinv pinv1mE
    have hl : T.list ≠ [] := by simp [UMPS.list, hT]
    simp [PinvOp.new, hT, hl]
  obtain ⟨T1, hk, e1, e2, e3⟩ := hk
  unfold UTP.prepareTriv
  rw [hk, Option.bind_some]
  dsimp only
  rw [if_pos e1, e2, hV]
  refine ⟨_, rfl, fun Ms junk' mem w => ?_⟩
  unfold ExcTp.matvec ExcTp.calcBHB
  simp only [e3, hh, Option.map_none]

/-! ### Cases that meet the hypotheses -/

/-- Products of Hermitian operators give a Hermitian Hamiltonian. -/
theorem tp_herm {tp : List (Matrix (Fin q) (Fin q) ℂ × Matrix (Fin q) (Fin q) ℂ)} (h : ∀ o ∈ tp, (o.1)ᴴ = o.1 ∧ (o.2)ᴴ = o.2)
    (s t : Fin 2 → Fin q) : star (UHam.op (.two (tpDense tp)) s t) = UHam.op (.two (tpDense tp)) t s := by
  simp only [UHam.op, tpDense]
  induction tp with
  | nil => simp
  | cons o L ih =>
    simp only [List.map_cons, List.sum_cons, star_add, star_mul']
    have h0 := h o (by simp)
    have h1 := congrFun (congrFun h0.1 (t 0)) (s 0)
    have h2 := congrFun (congrFun h0.2 (t 1)) (s 1)
    rw [conjTranspose_apply] at h1 h2
    rw [h1, h2, ih fun o ho => h o (by simp [ho])]

theorem demoTP_vacuum : Vacuum demoTP.dense (fun _ b _ => (b, 0)) 0 := by
  refine demoPauli4_vacuum (.two (tpDense demoTP.hamTp)) (tp_herm fun o ho => ?_)
  simp only [demoTP, List.mem_cons, List.not_mem_nil, or_false] at ho
  rcases ho with rfl | rfl
  · constructor
    · ext i j; fin_cases i <;> fin_cases j <;> simp
    · ext i j; fin_cases i <;> fin_cases j <;> simp
  · constructor
    · simp
    · ext i j; fin_cases i <;> fin_cases j <;> simp

/-- All hypotheses of `C77_trivial` hold for this state with two terms that do not commute. -/
example (p : ℝ) : ∃ T1 E, demoTP.calcC.calcK (fun _ b _ => (b, 0)) 0 = some T1 ∧
    T1.prepareTriv demoNum (.dense (demoTP.l 0)) (.eye 2) (fun _ b _ => (b, 0)) 0 p = some E ∧
    ExciteOkTp (demoTP.A 0) (demoTP.A 0) (demoTP.l 0) (demoTP.r 0) demoTP.hamTp (energyOf demoTP.dense) p (fun _ b _ => (b, 0)) 0 E
      (fun x => getBFromX x E.Vsh E.l_si E.r_si) := by
  obtain ⟨T1, E, h1, h2, h3, -⟩ := C77_trivial demoNum demoNum_ok demoTP rfl (.dense (demoTP.l 0)) (.eye 2) (fun _ b _ => (b, 0))
    (fun _ b _ => (b, 0)) 0 demoTP_vacuum (toArray_dense _) (toArray_eye _) (by omega) p
    (exact_left (demoPauli4_mapL' (.two 0)) _) (exact_right (demoPauli4_mapR' (.two 0)) _)
  exact ⟨T1, E, h1, h2, h3⟩

/-- The hypotheses of `C77_three_violated` hold for a state with a Hermitian Hamiltonian on three sites, for which `C60_trivial`
applies to the operator with the array. -/
example : ∃ T : UTP 4 2, T.L = 1 ∧ T.ham.sites = 3 ∧ Vacuum T.toUTDVP (fun _ b _ => (b, 0)) 0 :=
  ⟨{ demoPauli4 (.three fun s t u s' t' u' => if s = s' ∧ t = t' ∧ u = u' ∧ s = 0 then 1 else 0) with hamTp := [(1, 1)], Ctp := fun _ => [] },
    rfl, rfl, demoPauli4_vacuum _ fun s t => by
      change Fin 3 → Fin 4 at s t
      simp only [UHam.op]
      by_cases h : s 0 = t 0 ∧ s 1 = t 1 ∧ s 2 = t 2 ∧ s 0 = 0
      · rw [if_pos h, if_pos ⟨h.1.symm, h.2.1.symm, h.2.2.1.symm, h.1 ▸ h.2.2.2⟩, star_one]
      · rw [if_neg h, if_neg fun h' : t 0 = s 0 ∧ t 1 = s 1 ∧ t 2 = s 2 ∧ t 0 = 0 => h ⟨h'.1.symm, h'.2.1.symm, h'.2.2.1.symm, h'.1 ▸ h'.2.2.2⟩, star_zero]⟩

end EvoMPS
