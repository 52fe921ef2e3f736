import Verif.TensorProdLemmas
import Verif.Props.UniformTangent

/-!
# C70: Hamiltonians in tensor-product form
-/

namespace EvoMPS

open Matrix Uni

variable {q D : ℕ}

theorem ham_two {H : UHam q} (h : H.sites = 2) : ∃ h, H = .two h := by
  cases H with
  | two h0 => exact ⟨h0, rfl⟩
  | three h0 => simp [UHam.sites] at h

/-- **C70** (energy and `K`).  `calc_C` and `calc_K` with `ham_tp` set to the terms of `∑ o₁ ⊗ o₂`, with current environments and
an exact solver: the energy density is the expectation value of `∑ o₁ ⊗ o₂` per site and the matrices `K` obey the equations of
the infinite right half of the chain with this operator. -/
theorem C70_K (T : UTP q D) (ht : T.ham.sites = 2) (hL : 0 < T.L) (E : ChainEnv T.L T.A T.l T.r) (solver : Solver D)
    (junk : Matrix (Fin D) (Fin D) ℂ) (hs : ExactSolver T.toUTDVP solver junk false) :
    ∃ T', T.calcC.calcK solver junk = some T' ∧ T'.L = T.L ∧ T'.A = T.A ∧ T'.l = T.l ∧ T'.r = T.r ∧
      T'.hExpect = (∑ k ∈ Finset.range T.L, chainExpect T.L T.A T.l T.r k 2
        fun s t => tpDense T.hamTp (s 0) (s 1) (t 0) (t 1)) / T.L ∧
      KRight T.L T.A T.l T.r 2 (fun s t => tpDense T.hamTp (s 0) (s 1) (t 0) (t 1)) T'.K := by
  have ht := ham_two ht
  obtain ⟨S', h1, -, -, -, -, -, -, h2, h3⟩ := C48_K T.dense hL E solver junk hs
  refine ⟨_, by rw [(tpMatch_calcC T ht).calcK, h1]; rfl, ?_⟩
  obtain ⟨h, hh⟩ := ht
  refine ⟨?_, ?_, ?_, ?_, h2, h3⟩ <;> (unfold UTP.calcC; rw [hh])

/-- **C70** (both forms give the same).  For every state and every solver, exact or not: after `calc_C`, `calc_K` and `calc_K_l` with
`ham_tp` raise exactly when those with the array do, and otherwise give the same energies and the same matrices; the tangent vector of
`calc_B` after `calc_K` is then the same, as are its norms. -/
theorem C70_same (T : UTP q D) (ht : T.ham.sites = 2) (solver : Solver D) (junk : Matrix (Fin D) (Fin D) ℂ) :
    ((T.calcC.calcK solver junk).map fun T' => (T'.hExpect, T'.K))
      = ((T.dense.calcC.calcK solver junk).map fun S' => (S'.hExpect, S'.K)) ∧
    ((T.calcC.calcKl solver junk).map fun p => (p.1.Kl, p.2))
      = ((T.dense.calcC.calcKl solver junk).map fun p => (p.1.Kl, p.2)) ∧
    ∀ T' S', T.calcC.calcK solver junk = some T' → T.dense.calcC.calcK solver junk = some S' →
      ((T'.calcKl solver junk).map fun p => (p.1.Kl, p.2)) = ((S'.calcKl solver junk).map fun p => (p.1.Kl, p.2)) ∧
      ∀ (P : Num), P.Ok → ∀ (lm rm : ℕ → MM ℂ D D), (∀ k < T.L, (rm k).toArray.IsHermitian) → ∀ setEta etaSq,
        T'.calcB P lm rm setEta etaSq = S'.calcB P lm rm setEta etaSq := by
  have ht := ham_two ht
  have m := tpMatch_calcC T ht
  refine ⟨?_, ?_, fun T' S' h1 h2 => ?_⟩
  · rw [m.calcK, Option.map_map]; rfl
  · rw [m.calcKl, Option.map_map]; rfl
  · rw [m.calcK, h2] at h1
    obtain rfl := Option.some.inj h1
    have m' := m.after_calcK h2
    refine ⟨by rw [m'.calcKl, Option.map_map]; rfl, fun P hP lm rm hrm setEta etaSq => ?_⟩
    refine m'.calcB P hP lm rm (fun k hk => hrm k ?_) setEta etaSq
    obtain ⟨h, hh⟩ := ht
    have : T.calcC.L = T.L := by unfold UTP.calcC; rw [hh]
    exact this ▸ hk

/-- **C70** (the energy gradient).  The tangent vector computed with `ham_tp` is the gradient of the energy of `∑ o₁ ⊗ o₂`. -/
theorem C70_gradient (P : Num) (hP : P.Ok) (T T' : UTP q D) (ht : T.ham.sites = 2) (hL : 0 < T.L) (E : ChainEnv T.L T.A T.l T.r)
    (solver : Solver D) (junk : Matrix (Fin D) (Fin D) ℂ) (hs : ExactSolver T.toUTDVP solver junk false)
    (hT' : T.calcC.calcK solver junk = some T') (lm rm : ℕ → MM ℂ D D) (hst : UStored T.L lm rm T.l T.r)
    (hl : UAbove T.L P.tol T.l) (hr : UAbove T.L P.tol T.r)
    (hlim : ∀ x, Filter.Tendsto (fun m : ℕ => chainTransfer T.L T.L T.A T.A 0 (m * T.L) x) Filter.atTop
      (nhds (adot (T.l (T.L - 1)) x • T.r (T.L - 1))))
    (setEta : Bool) (etaSq : ℕ → ℂ) (out : UTangent q D)
    (hout : T'.calcB P lm rm setEta etaSq = some out) (c p : ℕ) (hcp : c + 2 ≤ p + 1) (b : Ten ℂ q D D)
    (hb : RightGauge (T.A (p % T.L)) b (T.r (p % T.L))) (c' w' : ℕ) (h1 : c' ≤ p) (h2 : p < c' + w') :
    Filter.Tendsto (fun w => windowHam T.L T.l T.r c w 2 (fun s t => tpDense T.hamTp (s 0) (s 1) (t 0) (t 1))
        (replaced T.L T.A p b) (fun j => T.A (j % T.L))) Filter.atTop
      (nhds (windowBraket T.L T.l T.r c' w' (replaced T.L T.A p b) (replaced T.L T.A p (out.B (p % T.L))))) := by
  obtain ⟨S', h3, -⟩ := C48_K T.dense hL E solver junk hs
  have h4 := ((C70_same T ht solver junk).2.2 T' S' hT' h3).2 P hP lm rm
    (fun k hk => by rw [hst.right k hk]; exact hst.right_herm k hk) setEta etaSq
  rw [h4] at hout
  exact C56_limit P hP T.dense S' hL E solver junk hs h3 lm rm hst hl hr hlim setEta etaSq out hout c p hcp b hb c' w' h1 h2

/-- **C70** (two-site tangent vectors).  `calc_BB_Y_2s_tp` and `calc_BB_Y_2s` agree. -/
theorem C70_two_site {a b c v w q' : ℕ} (tp : List (Matrix (Fin q) (Fin q) ℂ × Matrix (Fin q') (Fin q') ℂ)) (A : Ten ℂ q a b)
    (B : Ten ℂ q' b c) (Vlh : Fin q → Matrix (Fin v) (Fin a) ℂ) (Vrh : Fin q' → Matrix (Fin c) (Fin w) ℂ)
    (l_s : Matrix (Fin a) (Fin a) ℂ) (r_s : Matrix (Fin c) (Fin c) ℂ) :
    calcBBYtp (calcCtp tp A B) Vlh Vrh l_s r_s = calcBBY (calcC (tpDense tp) (calcAA A B)) Vlh Vrh l_s r_s :=
  calcBBYtp_dense tp A B Vlh Vrh l_s r_s

/-! ## Expectation values -/

/-- The Pauli state with an Ising term given by its factors. -/
noncomputable def demoTP : UTP 4 2 :=
  { demoPauli4 (.two 0) with
    hamTp := [(Matrix.diagonal ![1, -1, 2, 0], Matrix.diagonal ![0, 1, 1, 3]), (1, Matrix.of fun s t => if s = t then 0 else 1)]
    Ctp := fun _ => [] }

/-- **C70**, violated for expectation values of two sites: with `ham_tp` set, `update` does not bring the products `AA` up to date, and
`expect_2s` reads them, so a new object gives 0 for the identity; and `expect_2s` of the Hamiltonian itself raises. -/
theorem C70_expect_violated :
    ∃ (T T' : UTP 4 2), T.ham.sites = 2 ∧ 0 < T.L ∧ ChainEnv T.L T.A T.l T.r ∧
      ExactSolver T.toUTDVP (fun _ b _ => (b, 0)) 0 false ∧ T.calcC.calcK (fun _ b _ => (b, 0)) 0 = some T' ∧
      T'.expect2s (fun s t u v => if s = u ∧ t = v then 1 else 0) false 0 = some 0 ∧
      chainExpect T.L T.A T.l T.r 0 2 (fun s t => if s 0 = t 0 ∧ s 1 = t 1 then 1 else 0) = 1 ∧
      ∀ op k, T'.expect2s op true k = none := by
  obtain ⟨T', h1, eL, -⟩ := C70_K demoTP rfl Nat.one_pos (demoPauli4_env _) (fun _ b _ => (b, 0)) 0 (demoPauli4_exact _)
  have hAA : T'.AA = 0 := by
    obtain ⟨S', h2, -⟩ := C48_K demoTP.dense Nat.one_pos (demoPauli4_env _) (fun _ b _ => (b, 0)) 0 (demoPauli4_exact _)
    have h3 := h1
    rw [(tpMatch_calcC demoTP ⟨_, rfl⟩).calcK, h2] at h3
    rw [← Option.some.inj h3]
    rfl
  have hham : T'.ham.sites = 2 := by
    obtain ⟨S', h2, -⟩ := C48_K demoTP.dense Nat.one_pos (demoPauli4_env _) (fun _ b _ => (b, 0)) 0 (demoPauli4_exact _)
    have h3 := h1
    rw [(tpMatch_calcC demoTP ⟨_, rfl⟩).calcK, h2] at h3
    rw [← Option.some.inj h3]
    rfl
  refine ⟨demoTP, T', rfl, Nat.one_pos, demoPauli4_env _, demoPauli4_exact _, h1, ?_, ?_, fun op k => ?_⟩
  · have e : ¬ T'.L ≤ 0 := by rw [eL]; exact Nat.not_le.2 Nat.one_pos
    unfold UTP.expect2s
    rw [if_neg (by simp), UMPS.expect2s, if_neg e, hAA]
    simp [epsR2_eq, adot_zero_right]
  · have h := chainExpect_one (l := demoTP.l) (r := demoTP.r) (L := demoTP.L) (A := demoTP.A) Nat.one_pos (demoPauli4_env _) 0 2
    refine Eq.trans ?_ h
    congr 1
    funext s t
    have : (s 0 = t 0 ∧ s 1 = t 1) ↔ s = t := by
      rw [funext_iff, Fin.forall_fin_two]
    simp only [this]
  · unfold UTP.expect2s
    rw [if_pos ⟨rfl, hham⟩]

/-- The hypotheses of `C70_K` and `C70_gradient` hold for the Pauli state, with two terms that do not commute. -/
example : ∃ T' out, demoTP.calcC.calcK (fun _ b _ => (b, 0)) 0 = some T' ∧
    T'.calcB demoNum (fun k => .dense (demoTP.l k)) (fun _ => .eye 2) true 0 = some out ∧
    KRight demoTP.L demoTP.A demoTP.l demoTP.r 2 (fun s t => tpDense demoTP.hamTp (s 0) (s 1) (t 0) (t 1)) T'.K ∧
    ∀ c p b, c + 2 ≤ p + 1 → RightGauge (demoTP.A (p % demoTP.L)) b (demoTP.r (p % demoTP.L)) →
      Filter.Tendsto (fun w => windowHam demoTP.L demoTP.l demoTP.r c w 2
        (fun s t => tpDense demoTP.hamTp (s 0) (s 1) (t 0) (t 1)) (replaced demoTP.L demoTP.A p b)
        (fun j => demoTP.A (j % demoTP.L))) Filter.atTop
        (nhds (windowBraket demoTP.L demoTP.l demoTP.r p 1 (replaced demoTP.L demoTP.A p b)
          (replaced demoTP.L demoTP.A p (out.B (p % demoTP.L))))) := by
  obtain ⟨T', h1, -, -, -, -, -, hK⟩ := C70_K demoTP rfl Nat.one_pos (demoPauli4_env _) (fun _ b _ => (b, 0)) 0 (demoPauli4_exact _)
  obtain ⟨S', h2, -⟩ := C48_K demoTP.dense Nat.one_pos (demoPauli4_env _) (fun _ b _ => (b, 0)) 0 (demoPauli4_exact _)
  have hst : UStored demoTP.L (fun k => .dense (demoTP.l k)) (fun _ => .eye 2) demoTP.l demoTP.r := demoPauli4_stored (.two 0)
  obtain ⟨out, hout⟩ := (C55_returns demoNum S' (fun k => .dense (demoTP.l k)) (fun _ => .eye 2) true 0).2 (Or.inr (by omega))
  rw [← ((C70_same demoTP rfl _ _).2.2 T' S' h1 h2).2 demoNum demoNum_ok _ _
    (fun k hk => by rw [hst.right k hk]; exact hst.right_herm k hk)] at hout
  exact ⟨T', out, h1, hout, hK, fun c p b hc hb => C70_gradient demoNum demoNum_ok demoTP T' rfl Nat.one_pos (demoPauli4_env _)
    _ _ (demoPauli4_exact _) h1 _ _ hst (demoPauli4_above (.two 0)).1 (demoPauli4_above (.two 0)).2 (demoPauli4_limit (.two 0)) _ _ out
    hout c p hc b hb p 1 (by omega) (by omega)⟩

end EvoMPS
