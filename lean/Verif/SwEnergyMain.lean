import Verif.SwEnergyLemmas
import Verif.Props.UniformK

/-!
# The matrices and energies computed by `calc_C` and `calc_K` of the sandwich
-/

namespace EvoMPS

open Matrix Uni

variable {q D : ℕ}

/-- The state is up to date: its lists hold the tensors and environments of the chain `site`, `l`, `r`, and the Hamiltonian on
this chain is `H`.  With terms on three sites the window has to hold whole blocks of the right bulk, as
`get_r(N + 2)` returns the environment of another cut otherwise (C49). -/
structure SwReady (S : SwT q D) (H : ℤ → UHam q) (site : ℤ → Ten ℂ q D D) (l r : ℤ → Matrix (Fin D) (Fin D) ℂ) : Prop where
  posL : 0 < S.uniL.L
  posR : 0 < S.uniR.L
  envL : ChainEnv S.uniL.L S.uniL.A S.uniL.l S.uniL.r
  envR : ChainEnv S.uniR.L S.uniR.A S.uniR.l S.uniR.r
  hermL : ∀ k < S.uniL.L, (S.uniL.l k)ᴴ = S.uniL.l k
  hermR : ∀ k < S.uniL.L, (S.uniL.r k)ᴴ = S.uniL.r k
  chain : SandwichChain S.uniL.L S.N S.uniR.L S.uniL.A S.A S.uniR.A S.uniL.l S.uniR.r site l r
  curL : ∀ n : ℕ, 1 ≤ n → n ≤ S.N → S.l n = l n
  curR : ∀ n : ℕ, n ≤ S.N + 1 → S.r n = r n
  blocks : S.hamSites = 3 → S.uniR.L ∣ S.N
  sites : ∀ n, (H n).sites = S.hamSites
  hamL : ∀ n : ℤ, n < 2 - S.hamSites → H n = S.uniL.ham
  hamW : ∀ n : ℤ, 2 - S.hamSites ≤ n → n ≤ S.N → S.hamAt n = some (H n)
  hamR : ∀ n : ℤ, S.N < n → H n = S.uniR.ham
  centre : 1 ≤ S.nc ∧ S.nc ≤ S.N

theorem UHam.sites_le (h : UHam q) : 2 ≤ h.sites ∧ h.sites ≤ 3 := by
  cases h <;> simp [UHam.sites]

theorem SwReady.reads {S : SwT q D} {H : ℤ → UHam q} {site : ℤ → Ten ℂ q D D} {l r : ℤ → Matrix (Fin D) (Fin D) ℂ}
    (h : SwReady S H site l r) : Reads S site l r where
  ga n := by
    unfold SwT.getA
    split
    · rw [h.chain.siteL n (by omega)]; rfl
    · split
      · rw [h.chain.siteR n (by omega)]; rfl
      · have := h.chain.siteW n.toNat (by omega) (by omega)
        rw [show ((n.toNat : ℕ) : ℤ) = n by omega] at this
        exact this.symm
  gl n hn := by
    unfold SwT.getL
    split
    · rw [h.curL n.toNat (by omega) (by omega), show ((n.toNat : ℕ) : ℤ) = n by omega]
    · rw [if_pos (by omega), h.chain.envL n (by omega)]; rfl
  gr := h.curR
  gr2 h3 n h0 hn := by
    unfold SwT.getR
    split
    · rw [h.curR n.toNat (by omega), show ((n.toNat : ℕ) : ℤ) = n by omega]
    · rw [if_pos (by omega), h.chain.envR n (by omega)]
      obtain ⟨c, hc⟩ := h.blocks h3
      refine congrArg S.uniR.r ?_
      unfold pmod
      rw [hc, show n - 1 = (n - (S.uniR.L * c : ℕ) - 1) + S.uniR.L * c by push_cast; ring, Int.add_mul_emod_self_left]

/-- What `calc_C` and `calc_K` compute: the matrices `K` and `K_l` of the cuts of the window, and the energies. -/
structure SwEnergyOut (S T : SwT q D) (H : ℤ → UHam q) (site : ℤ → Ten ℂ q D D) (l r : ℤ → Matrix (Fin D) (Fin D) ℂ) : Prop where
  frame : T.N = S.N ∧ T.nc = S.nc ∧ T.A = S.A ∧ T.l = S.l ∧ T.r = S.r ∧ T.hamSites = S.hamSites
  reads : Reads T site l r
  cur : ∀ n : ℤ, 2 - S.hamSites ≤ n → n ≤ S.N → CurTerm T n (H n)
  K0 : KRight S.uniR.L S.uniR.A S.uniR.l S.uniR.r S.uniR.ham.sites S.uniR.ham.op T.uniR.K ∧ T.K (S.N + 1) = T.uniR.K 0
  K : ∀ n : ℕ, S.nc + 2 ≤ n + S.hamSites → n ≤ S.N → T.K n
    = (∑ s, site n s * T.K (n + 1) * (site n s)ᴴ) + siteTermR site r n (H n).sites (H n).op
  Kl0 : T.Kl 0 = chainTransferL S.uniL.L S.uniL.L S.uniL.A S.uniL.A 0 S.uniL.L (T.Kl 0)
        + (∑ i ∈ Finset.range S.uniL.L, chainTransferL S.uniL.L S.uniL.L S.uniL.A S.uniL.A (i + 1) (S.uniL.L - 1 - i)
            (termLeft S.uniL.L S.uniL.A S.uniL.l (i + 1 + S.uniL.ham.sites * S.uniL.L - S.uniL.ham.sites) S.uniL.ham.sites
              S.uniL.ham.op))
        - (∑ k ∈ Finset.range S.uniL.L, chainExpect S.uniL.L S.uniL.A S.uniL.l S.uniL.r k S.uniL.ham.sites S.uniL.ham.op)
          • S.uniL.l (S.uniL.L - 1)
  Kl0orth : (T.Kl 0 * S.uniL.r (S.uniL.L - 1)).trace = 0
  Kl : ∀ n : ℕ, n < S.nc → T.Kl (n + 1)
        = (∑ s, (site (n + 1) s)ᴴ * T.Kl n * site (n + 1) s)
          + siteTermL site l (n + 2 - S.hamSites) (H (n + 2 - S.hamSites)).sites (H (n + 2 - S.hamSites)).op
  low : ∀ n : ℕ, n < S.nc → T.hExpect n = termEnergy site l r (n + 2 - S.hamSites) (H (n + 2 - S.hamSites)).sites
        (H (n + 2 - S.hamSites)).op
  high : ∀ n : ℕ, S.nc ≤ n → n ≤ S.N → T.hExpect n = termEnergy site l r n (H n).sites (H n).op
  dH : T.dH = (T.Kl S.nc * r S.nc).trace + (l (S.nc - S.hamSites + 1) * T.K (S.nc + 2 - S.hamSites)).trace
    - ((S.N + S.hamSites - 1 : ℕ) : ℂ)
      * ((∑ k ∈ Finset.range S.uniL.L, chainExpect S.uniL.L S.uniL.A S.uniL.l S.uniL.r k S.uniL.ham.sites S.uniL.ham.op) / S.uniL.L)
  uniR : T.uniR.L = S.uniR.L ∧ T.uniR.AA 0 = calcAA (S.uniR.A 0) (S.uniR.A (1 % S.uniR.L))

/-- The products of neighbouring tensors after `calc_C` and `calc_K` of a uniform state. -/
theorem calcK_AA (S : UTDVP q D) (hL : 0 < S.L) {S' : UTDVP q D} {s : Solver D} {j : Matrix (Fin D) (Fin D) ℂ}
    (h : S.calcC.calcK s j = some S') : S'.AA 0 = calcAA (S.A 0) (S.A (1 % S.L)) := by
  have e : S'.AA = S.calcC.AA := by
    unfold UTDVP.calcK at h
    simp only [] at h
    split at h
    · exact absurd h (by simp)
    · obtain ⟨_, -, rfl⟩ := Option.map_eq_some_iff.1 h
      rfl
  have e2 : S.calcC.AA = S.toUMPS.calcAAs.AA := by
    unfold UTDVP.calcC
    cases S.ham <;> rfl
  rw [e, e2]
  exact calcAAs_AA S.toUMPS 0 hL

/-- `calc_C` and `calc_K` of a state whose tensors and environments are read as `site`, `l`, `r`; these need not be those of a chain. -/
theorem sw_calcK_of {S : SwT q D} {H : ℤ → UHam q} {site : ℤ → Ten ℂ q D D} {l r : ℤ → Matrix (Fin D) (Fin D) ℂ}
    (posL : 0 < S.uniL.L) (posR : 0 < S.uniR.L) (envL : ChainEnv S.uniL.L S.uniL.A S.uniL.l S.uniL.r)
    (envR : ChainEnv S.uniR.L S.uniR.A S.uniR.l S.uniR.r) (hermL : ∀ k < S.uniL.L, (S.uniL.l k)ᴴ = S.uniL.l k)
    (hermR : ∀ k < S.uniL.L, (S.uniL.r k)ᴴ = S.uniL.r k) (hr : Reads S site l r) (hherm : ∀ n, (l n)ᴴ = l n)
    (siteW : ∀ n : ℕ, 1 ≤ n → n ≤ S.N → site n = S.A n) (sites : ∀ n, (H n).sites = S.hamSites)
    (hamW : ∀ n : ℤ, 2 - S.hamSites ≤ n → n ≤ S.N → S.hamAt n = some (H n)) (hnc : 1 ≤ S.nc ∧ S.nc ≤ S.N)
    (sL sR : Solver D) (jL jR : Matrix (Fin D) (Fin D) ℂ) (hsL : ExactSolver S.uniL sL jL true)
    (hsR : ExactSolver S.uniR sR jR false) :
    ∃ T, (S.calcC.bind fun S => S.calcK sL sR jL jR) = some T ∧ SwEnergyOut S T H site l r := by
  have hs23 : 2 ≤ S.hamSites ∧ S.hamSites ≤ 3 := by rw [← sites 0]; exact UHam.sites_le _
  obtain ⟨T, c1, c2, c3⟩ := calcC_spec S H hs23.2 (fun n h1 h2 => ⟨hamW n h1 h2, sites n⟩)
  rw [c1, Option.bind_some]
  obtain ⟨uR, r1, rL, rA, rl, rr, rham, -, -, rK⟩ := C48_K S.uniR posR envR sR jR hsR
  obtain ⟨uL, hl, K1, l1, lL, lA, ll, lr, lham, -, lh, lK1, lK, lorth, -⟩ :=
    C48_left_end S.uniL posL envL hermL hermR sL jL hsL
  have hTN : T.N = S.N := by rw [← c2]
  have hTnc : T.nc = S.nc := by rw [← c2]
  have hTA : T.A = S.A := by rw [← c2]
  have hTl : T.l = S.l := by rw [← c2]
  have hTr : T.r = S.r := by rw [← c2]
  have hTs : T.hamSites = S.hamSites := by rw [← c2]
  have hTL : T.uniL = S.uniL := by rw [← c2]
  have hTR : T.uniR = S.uniR := by rw [← c2]
  set U : SwT q D := { T with uniL := uL, uniR := uR } with hU
  have gA : ∀ n, U.getA n = S.getA n := fun n => by
    simp only [SwT.getA, hU, lA, rA, lL, rL, hTN, hTA]
  have gL : ∀ n, U.getL n = S.getL n := fun n => by
    simp only [SwT.getL, hU, rA, lL, rL, ll, hTN, hTl]
  have gR : ∀ n, U.getR n = S.getR n := fun n => by
    simp only [SwT.getR, hU, lA, rr, lL, rL, hTN, hTr]
  have hUs : U.hamSites = S.hamSites := hTs
  have hUN : U.N = S.N := hTN
  have hRd : Reads U site l r := by
    refine ⟨fun n => by rw [gA]; exact hr.ga n, fun n hn => by rw [gL]; exact hr.gl n (by omega), fun n hn => ?_,
      fun h3 n h0 hn => by rw [gR]; exact hr.gr2 (by omega) n h0 (by omega)⟩
    show T.r n = _
    rw [hTr]; exact hr.gr n (by omega)
  have hcur : ∀ n : ℤ, 2 - S.hamSites ≤ n → n ≤ S.N → CurTerm U n (H n) := fun n h1 h2 => by
    have hc := c3 n h1 h2
    have gA' : ∀ n, U.getA n = T.getA n := fun n => by rw [gA, c2.getA]
    exact ⟨fun o e => by rw [gA', gA']; exact hc.two o e, fun o e => by rw [gA', gA', gA']; exact hc.three o e⟩
  have hcur' : ∀ n : ℤ, 2 - U.hamSites ≤ n → n ≤ U.N → CurTerm U n (H n) := by rw [hUs, hUN]; exact hcur
  have hsites : ∀ n, (H n).sites = U.hamSites := fun n => by rw [hUs]; exact sites n
  obtain ⟨p, p1, p2, p3, p4, -⟩ := rightLoop hRd hherm hcur' hsites (Function.update T.K (T.N + 1) (uR.K 0)) (fun _ => 0)
    (S.N + S.hamSites - 1 - S.nc) (by omega)
  obtain ⟨pl, q1, q2, q3, q4, q5⟩ := leftLoop hRd hherm hcur' hsites (fun n h1 h2 => by
    rw [siteW n h1 (by omega)]; show T.A n = _; rw [hTA]) (Function.update T.Kl 0 K1) p.2 S.nc (by omega)
  unfold SwT.calcK
  rw [hTR, r1, Option.bind_some, hTL, l1, Option.bind_some]
  simp only []
  rw [lL, lK1, Option.bind_some]
  have e0 : (T.N - (T.nc - T.hamSites + 1 : ℤ)).toNat = S.N + S.hamSites - 1 - S.nc := by
    rw [hTN, hTnc, hTs]; omega
  rw [e0, ← hU]
  have p1' : List.foldlM U.rightIter (Function.update T.K (T.N + 1) (uR.K 0), fun _ => 0)
    (List.map (fun i : ℕ => (T.N : ℤ) - i) (List.range (S.N + S.hamSites - 1 - S.nc))) = some p := p1
  rw [p1', Option.bind_some, hTnc, q1, Option.map_some]
  refine ⟨_, rfl, ?_⟩
  have eidx : pmod ((S.nc : ℤ) - S.hamSites + 2) (S.N + 3) = S.nc + 2 - S.hamSites := by
    rw [show (S.nc : ℤ) - S.hamSites + 2 = ((S.nc + 2 - S.hamSites : ℕ) : ℤ) by omega, pmod_nat, Nat.mod_eq_of_lt (by omega)]
  have hpN : p.1 (S.N + 1) = uR.K 0 := by
    rw [hUN] at p2
    rw [p2, Function.update_self]
  have hq0 : pl.1 0 = K1 := by rw [q2, Function.update_self]
  constructor
  · exact ⟨hTN, rfl, hTA, hTl, hTr, hTs⟩
  · exact ⟨hRd.ga, hRd.gl, hRd.gr, hRd.gr2⟩
  · intro n h1 h2
    exact ⟨(hcur n h1 h2).two, (hcur n h1 h2).three⟩
  · exact ⟨rK, hpN⟩
  · intro n h1 h2
    exact p3 n (by rw [hUN]; omega) (by rw [hUN]; omega)
  · simp only []
    rw [hq0]; exact lK
  · simp only []
    rw [hq0]; exact lorth
  · intro n hn
    have := q3 n hn
    rw [hUs] at this
    exact this
  · intro n hn
    have := q4 n hn
    rw [hUs] at this
    exact this
  · intro n h1 h2
    simp only []
    rw [q5 n h1]
    exact p4 n (by rw [hUN]; omega) (by rw [hUN]; omega)
  · simp only []
    rw [hTN, hTs, eidx, adotNoconj_eq_trace, adot_eq_trace, hRd.gl _ (by rw [hUN]; omega), hherm]
    have : U.getR S.nc = r S.nc := by
      rw [SwT.getR, if_pos ⟨by omega, by rw [hUN]; omega⟩, Int.toNat_natCast, hRd.gr _ (by rw [hUN]; omega)]
    rw [this, lh]
  · exact ⟨rL, calcK_AA S.uniR posR r1⟩

theorem sw_calcK {S : SwT q D} {H : ℤ → UHam q} {site : ℤ → Ten ℂ q D D} {l r : ℤ → Matrix (Fin D) (Fin D) ℂ}
    (h : SwReady S H site l r) (sL sR : Solver D) (jL jR : Matrix (Fin D) (Fin D) ℂ) (hsL : ExactSolver S.uniL sL jL true)
    (hsR : ExactSolver S.uniR sR jR false) :
    ∃ T, (S.calcC.bind fun S => S.calcK sL sR jL jR) = some T ∧ SwEnergyOut S T H site l r :=
  sw_calcK_of h.posL h.posR h.envL h.envR h.hermL h.hermR h.reads (h.chain.herm h.posL h.hermL) h.chain.siteW h.sites h.hamW h.centre
    sL sR jL jR hsL hsR

/-- The energy difference as the sum of the energies of the window and those of the two bulks. -/
theorem SwEnergyOut.dH_eq {S T : SwT q D} {H : ℤ → UHam q} {site : ℤ → Ten ℂ q D D} {l r : ℤ → Matrix (Fin D) (Fin D) ℂ}
    (h : SwReady S H site l r) (o : SwEnergyOut S T H site l r) :
    T.dH = (T.Kl 0 * r 0).trace + sumZ (fun n => termEnergy site l r n (H n).sites (H n).op) (2 - S.hamSites) (S.N + S.hamSites - 1)
      + (l S.N * T.uniR.K 0).trace - ((S.N + S.hamSites - 1 : ℕ) : ℂ)
      * ((∑ k ∈ Finset.range S.uniL.L, chainExpect S.uniL.L S.uniL.A S.uniL.l S.uniL.r k S.uniL.ham.sites S.uniL.ham.op) / S.uniL.L) := by
  have hs23 : 2 ≤ S.hamSites ∧ S.hamSites ≤ 3 := by rw [← h.sites 0]; exact UHam.sites_le _
  have hnc := h.centre
  have e1 : ∀ n ≤ S.nc, (T.Kl n * r n).trace = (T.Kl 0 * r 0).trace
      + sumZ (fun n => termEnergy site l r n (H n).sites (H n).op) (2 - S.hamSites) n := by
    intro n hn
    induction n with
    | zero => rw [sumZ_zero, add_zero]; rfl
    | succ n ih =>
      rw [o.Kl n (by omega), Matrix.add_mul, Matrix.trace_add, sumZ_succ, ← add_assoc, ← ih (by omega)]
      congr 1
      · rw [show ((n + 1 : ℕ) : ℤ) = (n : ℤ) + 1 by push_cast; ring, trace_r_step h.chain.stepR]
        rw [show (n : ℤ) + 1 - 1 = n by ring]
      · rw [show (2 : ℤ) - S.hamSites + n = n + 2 - S.hamSites by ring, ← trace_siteTermL]
        have e : r ((n + 1 : ℕ) : ℤ) = r ((n : ℤ) + 2 - S.hamSites + (H (n + 2 - S.hamSites)).sites - 1) :=
          congrArg r (by rw [h.sites]; push_cast; ring)
        rw [e]
  have e2 : ∀ m n : ℕ, n + m = S.N + 1 → S.nc + 2 ≤ n + S.hamSites → (l ((n : ℤ) - 1) * T.K n).trace
      = sumZ (fun n => termEnergy site l r n (H n).sites (H n).op) n m + (l S.N * T.uniR.K 0).trace := by
    intro m
    induction m with
    | zero =>
      intro n hn _
      rw [sumZ_zero, zero_add, show n = S.N + 1 by omega, o.K0.2]
      rw [show ((S.N + 1 : ℕ) : ℤ) - 1 = S.N by push_cast; ring]
    | succ m ih =>
      intro n hn hc
      rw [o.K n hc (by omega), Matrix.mul_add, Matrix.trace_add, trace_l_step h.chain.stepL, trace_siteTermR, sumZ_succ']
      have := ih (n + 1) (by omega) (by omega)
      rw [show ((n + 1 : ℕ) : ℤ) - 1 = n by push_cast; ring] at this
      rw [this, show ((n + 1 : ℕ) : ℤ) = (n : ℤ) + 1 by push_cast; ring]
      ring
  have e3 := e2 (S.N + S.hamSites - 1 - S.nc) (S.nc + 2 - S.hamSites) (by omega) (by omega)
  rw [show ((S.nc + 2 - S.hamSites : ℕ) : ℤ) - 1 = S.nc - S.hamSites + 1 by omega] at e3
  rw [o.dH, e1 S.nc le_rfl, e3, show S.N + S.hamSites - 1 = S.nc + (S.N + S.hamSites - 1 - S.nc) by omega, sumZ_add,
    show (2 : ℤ) - S.hamSites + S.nc = ((S.nc + 2 - S.hamSites : ℕ) : ℤ) by omega,
    show S.nc + (S.N + S.hamSites - 1 - S.nc) - S.nc = S.N + S.hamSites - 1 - S.nc by omega]
  ring

end EvoMPS
