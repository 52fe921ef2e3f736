import Verif.SwEnergyMain

/-!
# C65: the energy of sandwich states

`calc_C` and `calc_K` (tdvp_sandwich.py:405-488) of an up-to-date state (`SwReady`): `dH_uni` is the energy of the whole
infinite chain above that of the uniform bulks, and `h_expect` lists the energies of the terms of the window.
-/

namespace EvoMPS

open Matrix Uni

variable {q D : ℕ}

/-- **C65.**  `calc_C` and `calc_K` succeed, and `dH_uni` is the limit of the energy of longer and longer pieces of the
chain, with `p.1` blocks of the left and `p.2` blocks of the right bulk around the window, from which the energy per site of the bulks is subtracted once for every term
(that of the left bulk for the terms in the window). -/
theorem C65_energy (S : SwT q D) (H : ℤ → UHam q) (site : ℤ → Ten ℂ q D D) (l r : ℤ → Matrix (Fin D) (Fin D) ℂ)
    (h : SwReady S H site l r) (sL sR : Solver D) (jL jR : Matrix (Fin D) (Fin D) ℂ) (hsL : ExactSolver S.uniL sL jL true)
    (hsR : ExactSolver S.uniR sR jR false)
    (mixL : BlockMixing S.uniL.L S.uniL.A (S.uniL.l (S.uniL.L - 1)) (S.uniL.r (S.uniL.L - 1)))
    (mixR : BlockMixing S.uniR.L S.uniR.A (S.uniR.l (S.uniR.L - 1)) (S.uniR.r (S.uniR.L - 1))) :
    ∃ T, (S.calcC.bind fun S => S.calcK sL sR jL jR) = some T ∧
      Filter.Tendsto (fun p : ℕ × ℕ =>
        (∑ i ∈ Finset.range (p.1 * S.uniL.L + (S.N + S.hamSites - 1) + p.2 * S.uniR.L),
          termEnergy site l r (2 - S.hamSites - p.1 * S.uniL.L + i) (H (2 - S.hamSites - p.1 * S.uniL.L + i)).sites
            (H (2 - S.hamSites - p.1 * S.uniL.L + i)).op)
        - ((p.1 * S.uniL.L + (S.N + S.hamSites - 1) : ℕ) : ℂ) * ((∑ k ∈ Finset.range S.uniL.L,
            chainExpect S.uniL.L S.uniL.A S.uniL.l S.uniL.r k S.uniL.ham.sites S.uniL.ham.op) / S.uniL.L)
        - ((p.2 * S.uniR.L : ℕ) : ℂ) * ((∑ k ∈ Finset.range S.uniR.L,
            chainExpect S.uniR.L S.uniR.A S.uniR.l S.uniR.r k S.uniR.ham.sites S.uniR.ham.op) / S.uniR.L))
        (Filter.atTop ×ˢ Filter.atTop) (nhds T.dH) := by
  obtain ⟨T, hT, o⟩ := sw_calcK h sL sR jL jR hsL hsR
  refine ⟨T, hT, ?_⟩
  have hs23 : 2 ≤ S.hamSites ∧ S.hamSites ≤ 3 := by rw [← h.sites 0]; exact UHam.sites_le _
  rw [o.dH_eq h]
  have hsL' : S.uniL.ham.sites = S.hamSites := by rw [← h.hamL (-5) (by omega), h.sites]
  have hL0 : (S.uniL.L : ℂ) ≠ 0 := Nat.cast_ne_zero.2 h.posL.ne'
  have hR0 : (S.uniR.L : ℂ) ≠ 0 := Nat.cast_ne_zero.2 h.posR.ne'
  have bR := bulkR_limit h.chain h.posR _ _ _ _ o.K0.1 mixR
  have bL := bulkL_limit h.chain h.posL S.uniL.r _ _ _ _ o.Kl0 o.Kl0orth (h.hermL _ (by have := h.posL; omega)) mixL
  generalize ∑ k ∈ Finset.range S.uniL.L, chainExpect S.uniL.L S.uniL.A S.uniL.l S.uniL.r k S.uniL.ham.sites S.uniL.ham.op = eL
    at bL ⊢
  generalize ∑ k ∈ Finset.range S.uniR.L, chainExpect S.uniR.L S.uniR.A S.uniR.l S.uniR.r k S.uniR.ham.sites S.uniR.ham.op = eR
    at bR ⊢
  have lim := (((bL.comp (Filter.tendsto_fst (g := Filter.atTop (α := ℕ)))).add (tendsto_const_nhds (x := sumZ (fun n => termEnergy site l r n (H n).sites (H n).op) (2 - S.hamSites)
    (S.N + S.hamSites - 1)))).add (bR.comp (Filter.tendsto_snd (f := Filter.atTop (α := ℕ))))).sub (tendsto_const_nhds (x := ((S.N + S.hamSites - 1 : ℕ) : ℂ) * (eL / S.uniL.L)))
  refine lim.congr fun p => ?_
  have s0 : (∑ i ∈ Finset.range (p.1 * S.uniL.L + (S.N + S.hamSites - 1) + p.2 * S.uniR.L),
          termEnergy site l r (2 - S.hamSites - p.1 * S.uniL.L + i) (H (2 - S.hamSites - p.1 * S.uniL.L + i)).sites
            (H (2 - S.hamSites - p.1 * S.uniL.L + i)).op)
      = sumZ (fun n => termEnergy site l r n (H n).sites (H n).op) (2 - S.hamSites - p.1 * S.uniL.L)
        (p.1 * S.uniL.L + (S.N + S.hamSites - 1) + p.2 * S.uniR.L) := rfl
  have w1 : sumZ (fun n => termEnergy site l r n S.uniL.ham.sites S.uniL.ham.op) (2 - S.uniL.ham.sites - p.1 * S.uniL.L) (p.1 * S.uniL.L)
    = sumZ (fun n => termEnergy site l r n (H n).sites (H n).op) (2 - S.hamSites - p.1 * S.uniL.L) (p.1 * S.uniL.L) := by
    have e : (2 : ℤ) - S.uniL.ham.sites - p.1 * S.uniL.L = 2 - S.hamSites - p.1 * S.uniL.L := by rw [hsL']
    rw [e]
    refine Finset.sum_congr rfl fun i hi => ?_
    have hi := Finset.mem_range.1 hi
    simp only []
    rw [h.hamL _ (by zify at hi; linarith)]
  have w2 : sumZ (fun n => termEnergy site l r n S.uniR.ham.sites S.uniR.ham.op) (S.N + 1) (p.2 * S.uniR.L)
    = sumZ (fun n => termEnergy site l r n (H n).sites (H n).op)
      (2 - S.hamSites - p.1 * S.uniL.L + (p.1 * S.uniL.L + (S.N + S.hamSites - 1) : ℕ)) (p.2 * S.uniR.L) := by
    have e : (2 : ℤ) - S.hamSites - p.1 * S.uniL.L + (p.1 * S.uniL.L + (S.N + S.hamSites - 1) : ℕ) = S.N + 1 := by
      rw [Nat.cast_add, Nat.cast_sub (by omega)]; push_cast; ring
    rw [e]
    refine Finset.sum_congr rfl fun i hi => ?_
    simp only []
    rw [h.hamR _ (by omega)]
  simp only [Function.comp]
  rw [s0, sumZ_add, sumZ_add, w1, w2, show (2 : ℤ) - S.hamSites - p.1 * S.uniL.L + (p.1 * S.uniL.L : ℕ) = 2 - S.hamSites by
    push_cast; ring]
  push_cast
  field_simp
  ring

/-- **C65**, the list of energies, for terms on two sites: `h_expect[n]` is the energy of the term on the sites `n`, `n+1`. -/
theorem C65_local (S : SwT q D) (H : ℤ → UHam q) (site : ℤ → Ten ℂ q D D) (l r : ℤ → Matrix (Fin D) (Fin D) ℂ)
    (h : SwReady S H site l r) (h2 : S.hamSites = 2) (sL sR : Solver D) (jL jR : Matrix (Fin D) (Fin D) ℂ)
    (hsL : ExactSolver S.uniL sL jL true) (hsR : ExactSolver S.uniR sR jR false) :
    ∃ T, (S.calcC.bind fun S => S.calcK sL sR jL jR) = some T ∧
      ∀ n : ℕ, n ≤ S.N → T.hExpect n = termEnergy site l r n (H n).sites (H n).op := by
  obtain ⟨T, hT, o⟩ := sw_calcK h sL sR jL jR hsL hsR
  refine ⟨T, hT, fun n hn => ?_⟩
  rcases lt_or_ge n S.nc with hc | hc
  · rw [o.low n hc, h2, show (n : ℤ) + 2 - (2 : ℕ) = n by push_cast; ring]
  · exact o.high n hc hn

/-- **C65**, the list of energies, in general.  The full statement is that of `C65_local` for terms on any number of sites; for
terms on three sites the entries in front of `N_centre` belong to the term that starts one site earlier
(`C65_local_violated`). -/
theorem C65_local_partial (S : SwT q D) (H : ℤ → UHam q) (site : ℤ → Ten ℂ q D D) (l r : ℤ → Matrix (Fin D) (Fin D) ℂ)
    (h : SwReady S H site l r) (sL sR : Solver D) (jL jR : Matrix (Fin D) (Fin D) ℂ)
    (hsL : ExactSolver S.uniL sL jL true) (hsR : ExactSolver S.uniR sR jR false) :
    ∃ T, (S.calcC.bind fun S => S.calcK sL sR jL jR) = some T ∧
      (∀ n : ℕ, S.nc ≤ n → n ≤ S.N → T.hExpect n = termEnergy site l r n (H n).sites (H n).op) ∧
      (∀ n : ℕ, n < S.nc → T.hExpect n
        = termEnergy site l r (n + 2 - S.hamSites) (H (n + 2 - S.hamSites)).sites (H (n + 2 - S.hamSites)).op) := by
  obtain ⟨T, hT, o⟩ := sw_calcK h sL sR jL jR hsL hsR
  exact ⟨T, hT, o.high, o.low⟩

/-- **C65**, violated for a Hamiltonian given by a function: the arrays `_C` have no entry `N + 1` before the first
`calc_C`, from whose shape the array of the term is made, and `calc_C` raises an exception. -/
theorem C65_callable_raises (S : SwT q D) (f : ℤ → UHam q) (hham : S.ham = .fn f) (hN : 1 ≤ S.N) (hs : 2 ≤ S.hamSites)
    (h2 : S.hamSites = 2 → S.C2 (S.N + 1) = none) (h3 : S.hamSites ≠ 2 → S.C3 (S.N + 1) = none) : S.calcC = none := by
  have e : ∀ (m : ℕ) (T : SwT q D), m ≤ S.N + S.hamSites - 2 → T.hamSites = S.hamSites → T.ham = S.ham → T.C2 (S.N + 1) = S.C2 (S.N + 1) →
      T.C3 (S.N + 1) = S.C3 (S.N + 1) →
      ((List.range' (S.N + S.hamSites - 2 - m) (m + 1)).map fun i : ℕ => (i : ℤ) + 2 - S.hamSites).foldlM SwT.calcCStep T = none := by
    intro m
    induction m with
    | zero =>
      intro T _ t1 t2 t3 t4
      have : (((S.N + S.hamSites - 2 - 0 : ℕ) : ℤ) + 2 - S.hamSites) = S.N := by omega
      rw [List.range'_succ, List.map_cons, List.foldlM_cons, this]
      have hnone : T.calcCStep S.N = none := by
        unfold SwT.calcCStep SwT.hamAt
        rw [t2, hham]
        simp only []
        rw [show ((S.N : ℤ) + 1).toNat = S.N + 1 by omega, t3, t4, t1]
        by_cases h : S.hamSites = 2
        · rw [if_pos h, h2 h]; rfl
        · rw [if_neg h, h3 h]; rfl
      rw [hnone]
      rfl
    | succ m ih =>
      intro T hm t1 t2 t3 t4
      rw [List.range'_succ, List.map_cons, List.foldlM_cons]
      cases hc : T.calcCStep (((S.N + S.hamSites - 2 - (m + 1) : ℕ) : ℤ) + 2 - S.hamSites) with
      | none => rfl
      | some U =>
        rw [Option.bind_eq_bind, Option.bind_some, show S.N + S.hamSites - 2 - (m + 1) + 1 = S.N + S.hamSites - 2 - m by omega]
        set n : ℤ := ((S.N + S.hamSites - 2 - (m + 1) : ℕ) : ℤ) + 2 - S.hamSites with hn
        have hne : S.N + 1 ≠ (n + 1).toNat := by omega
        unfold SwT.calcCStep at hc
        obtain ⟨o, -, ho⟩ := Option.bind_eq_some_iff.1 hc
        simp only [] at ho
        split at ho
        · cases o with
          | two o =>
            obtain rfl := Option.some.inj ho
            refine ih _ (by omega) t1 t2 ?_ t4
            simp only []
            rw [Function.update_of_ne hne, t3]
          | three o => exact absurd ho (by simp)
        · cases o with
          | two o => exact absurd ho (by simp)
          | three o =>
            obtain rfl := Option.some.inj ho
            refine ih _ (by omega) t1 t2 t3 ?_
            simp only []
            rw [Function.update_of_ne hne, t4]
  have := e (S.N + S.hamSites - 2) S le_rfl rfl rfl rfl rfl
  rw [Nat.sub_self, ← List.range_eq_range'] at this
  unfold SwT.calcC
  rw [show S.N + S.hamSites - 1 = S.N + S.hamSites - 2 + 1 by omega]
  exact this

/-! ## Cases -/

/-- `demoDimer` with the Hamiltonian `h`. -/
noncomputable def demoDimerH (h : UHam 2) : UTDVP 2 2 := { demoDimerK with ham := h }

/-- The chain of entangled pairs with the local basis of site `1` swapped. -/
noncomputable def demoSwSite (n : ℤ) : Ten ℂ 2 2 2 :=
  if n = 1 then fun s => demoDimer.A 0 (1 - s) else demoDimer.A (pmod (n - 1) 2)

/-- The window holds the sites `1`, `2` of this chain. -/
noncomputable def demoSwE (hs : ℕ) (ham : List (UHam 2)) (h : UHam 2) : SwT 2 2 where
  N := 2
  nc := 2
  A n := demoSwSite n
  l n := demoDimer.l (pmod ((n : ℤ) - 1) 2)
  r n := demoDimer.r (pmod ((n : ℤ) - 1) 2)
  uniL := demoDimerH h
  uniR := demoDimerH h
  hamSites := hs
  ham := .list ham
  AA _ := none
  AAA _ := none
  C2 _ := none
  C3 _ := none
  K := 0
  Kl := 0
  hExpect := 0
  dH := 0

/-- The terms of the Hamiltonian on this chain. -/
noncomputable def demoSwHam (hs : ℕ) (ham : List (UHam 2)) (h : UHam 2) (n : ℤ) : UHam 2 :=
  if 2 - hs ≤ n ∧ n ≤ 2 then (pyGet ham n).getD h else h

theorem demoSwE_ready (hs : ℕ) (ham : List (UHam 2)) (h : UHam 2) (h23 : hs = 2 ∨ hs = 3) (hlen : ham.length = hs + 1)
    (hsite : h.sites = hs) (hall : ∀ x ∈ ham, x.sites = hs) :
    SwReady (demoSwE hs ham h) (demoSwHam hs ham h) demoSwSite (fun n => demoDimer.l (pmod (n - 1) 2))
      (fun n => demoDimer.r (pmod (n - 1) 2)) := by
  have swap : ∀ f : Fin 2 → Matrix (Fin 2) (Fin 2) ℂ, ∑ s : Fin 2, f (1 - s) = ∑ s, f s := fun f => by
    rw [Fin.sum_univ_two, Fin.sum_univ_two, add_comm]; rfl
  have hget : ∀ n : ℤ, 2 - hs ≤ n → n ≤ 2 → ∃ x ∈ ham, pyGet ham n = some x := by
    intro n h1 h2
    unfold pyGet
    split
    · rw [if_neg (by omega)]
      exact ⟨_, List.getElem_mem (by omega), List.getElem?_eq_getElem (by omega)⟩
    · exact ⟨_, List.getElem_mem (by omega), List.getElem?_eq_getElem (by omega)⟩
  have E := demoDimer_env
  have hp : ∀ n : ℤ, (pmod n 2 + 2 - 1) % 2 = pmod (n - 1) 2 := fun n => by unfold pmod; omega
  have hlt : ∀ n : ℤ, pmod n 2 < 2 := fun n => by unfold pmod; omega
  constructor
  · exact two_pos
  · exact two_pos
  · exact E
  · exact E
  · exact fun k _ => (demoDimer_herm k).1
  · exact fun k _ => (demoDimer_herm k).2
  · constructor
    · intro n hn
      rw [demoSwSite, if_neg (by omega)]; rfl
    · intro n _ _; rfl
    · intro n hn
      have hn : (2 : ℤ) < n := hn
      rw [demoSwSite, if_neg (by omega)]
      refine congrArg demoDimer.A ?_
      show pmod _ _ = ((n - (2 : ℕ) - 1) % (2 : ℕ)).toNat
      unfold pmod; omega
    · intro n hn; rfl
    · intro n hn
      refine congrArg demoDimer.r ?_
      show pmod _ _ = ((n - (2 : ℕ) - 1) % (2 : ℕ)).toNat
      unfold pmod; omega
    · intro n
      have h1 := E.left (pmod (n - 1) 2) (hlt _)
      rw [show demoDimer.L = 2 from rfl, hp] at h1
      by_cases hn : n = 1
      · subst hn
        simp only [demoSwSite, if_true]
        rw [swap fun s => (demoDimer.A 0 s)ᴴ * demoDimer.l (pmod (1 - 1 - 1) 2) * demoDimer.A 0 s]
        exact h1
      · rw [demoSwSite, if_neg hn]; exact h1
    · intro n
      have h1 := E.right (pmod (n - 1) 2) (hlt _)
      rw [show demoDimer.L = 2 from rfl, hp] at h1
      by_cases hn : n = 1
      · subst hn
        simp only [demoSwSite, if_true]
        rw [swap fun s => demoDimer.A 0 s * demoDimer.r (pmod (1 - 1) 2) * (demoDimer.A 0 s)ᴴ]
        exact h1
      · rw [demoSwSite, if_neg hn]; exact h1
    · have := E.norm 1 (by rw [show demoDimer.L = 2 from rfl]; omega)
      rw [(demoDimer_herm 1).1] at this
      exact this
  · intro n _ _; rfl
  · intro n _; rfl
  · intro _; exact dvd_rfl
  · intro n
    unfold demoSwHam
    split
    · rename_i hn
      obtain ⟨x, hx, e⟩ := hget n hn.1 hn.2
      rw [e]; exact hall x hx
    · exact hsite
  · intro n hn
    have hn : n < 2 - (hs : ℤ) := hn
    rw [demoSwHam, if_neg (by omega)]; rfl
  · intro n h1 h2
    have h1 : 2 - (hs : ℤ) ≤ n := h1
    have h2 : n ≤ 2 := h2
    obtain ⟨x, hx, e⟩ := hget n h1 h2
    rw [demoSwHam, if_pos ⟨h1, h2⟩, e]
    exact e
  · intro n hn
    have hn : 2 < n := hn
    rw [demoSwHam, if_neg (by omega)]; rfl
  · exact ⟨one_le_two, le_rfl⟩

theorem demoDimer_mixing : BlockMixing 2 demoDimer.A (demoDimer.l 1) (demoDimer.r 1) := by
  intro x
  have hb : ∀ x, epsR (epsR x (demoDimer.A 1) (demoDimer.A 1)) (demoDimer.A 0) (demoDimer.A 0) = !![x 0 0, 0; 0, 0] := fun x => by
    have := demoDimer_block x
    rwa [blockMap_list demoDimer (by simp [demoDimer]), show demoDimer.L = 2 from rfl, chainTransfer_succ, chainTransfer_succ,
      chainTransfer_zero] at this
  have hm : ∀ (m : ℕ) (x), chainTransfer 2 2 demoDimer.A demoDimer.A 0 ((m + 1) * 2) x = !![x 0 0, 0; 0, 0] := by
    intro m
    induction m with
    | zero =>
      intro x
      rw [show (0 + 1) * 2 = 2 from rfl, chainTransfer_succ, chainTransfer_succ, chainTransfer_zero]
      exact hb x
    | succ m ih =>
      intro x
      rw [show (m + 1 + 1) * 2 = (m + 1) * 2 + 1 + 1 by ring, chainTransfer_succ, chainTransfer_succ]
      rw [show (0 + ((m + 1) * 2 + 1)) % 2 = 1 by omega, show (0 + (m + 1) * 2) % 2 = 0 by omega, hb, ih]
      simp
  have e : ((demoDimer.l 1)ᴴ * x).trace • demoDimer.r 1 = !![x 0 0, 0; 0, 0] := by
    ext i j
    fin_cases i <;> fin_cases j <;>
      simp [demoDimer, Matrix.trace_fin_two, Matrix.mul_apply, Fin.sum_univ_two]
  rw [e]
  refine (Filter.tendsto_add_atTop_iff_nat 1).1 ?_
  simp only [hm]
  exact tendsto_const_nhds

/-- The hypotheses of `C65_energy` and `C65_local` hold for a window in a chain of entangled pairs, for terms on
two sites and other terms in the window than in the bulks. -/
example (o0 o1 o2 oB : Fin 2 → Fin 2 → Fin 2 → Fin 2 → ℂ) :
    let S := demoSwE 2 [.two o0, .two o1, .two o2] (.two oB)
    ∃ T, (S.calcC.bind fun S => S.calcK (fun _ b _ => (b, 0)) (fun _ b _ => (b, 0)) 0 0) = some T ∧
      T.hExpect 1 = termEnergy demoSwSite (fun n => demoDimer.l (pmod (n - 1) 2)) (fun n => demoDimer.r (pmod (n - 1) 2)) 1 2
        (UHam.two o1).op := by
  intro S
  have hr : SwReady S _ _ _ _ := demoSwE_ready 2 _ _ (Or.inl rfl) rfl rfl (by simp [UHam.sites])
  obtain ⟨T, hT, hE⟩ := C65_local S _ _ _ _ hr rfl (fun _ b _ => (b, 0)) (fun _ b _ => (b, 0)) 0 0
    (demoDimer_exact _ rfl rfl rfl rfl _) (demoDimer_exact _ rfl rfl rfl rfl _)
  exact ⟨T, hT, hE 1 (by simp [S, demoSwE])⟩

example (o0 o1 o2 oB : Fin 2 → Fin 2 → Fin 2 → Fin 2 → ℂ) :
    let S := demoSwE 2 [.two o0, .two o1, .two o2] (.two oB)
    BlockMixing S.uniL.L S.uniL.A (S.uniL.l (S.uniL.L - 1)) (S.uniL.r (S.uniL.L - 1)) := demoDimer_mixing

/-- A state with a Hamiltonian given by a function, as it is after construction. -/
example (f : ℤ → UHam 2) : SwT.calcC { demoSwE 2 [] demoDimerK.ham with ham := .fn f, C2 := fun i => if i ≤ 2 then some 0 else none } = none :=
  C65_callable_raises _ f rfl one_le_two le_rfl (fun _ => by simp [demoSwE]) (fun h => absurd rfl h)

/-- **C65**, violated for terms on three sites: all hypotheses hold, and `h_expect[1]` is not the energy of the term on the sites
`1, 2, 3`, but that of the term on the sites `0, 1, 2`. -/
theorem C65_local_violated :
    ∃ (S : SwT 2 2) (H : ℤ → UHam 2) (site : ℤ → Ten ℂ 2 2 2) (l r : ℤ → Matrix (Fin 2) (Fin 2) ℂ) (s : Solver 2),
      SwReady S H site l r ∧ ExactSolver S.uniL s 0 true ∧ ExactSolver S.uniR s 0 false ∧
      ∀ T, (S.calcC.bind fun S => S.calcK s s 0 0) = some T →
        T.hExpect 1 = termEnergy site l r 0 (H 0).sites (H 0).op ∧
        T.hExpect 1 ≠ termEnergy site l r 1 (H 1).sites (H 1).op := by
  let z : UHam 2 := .three fun _ _ _ _ _ _ => 0
  let c : UHam 2 := .three fun s t u s' t' u' => if s = s' ∧ t = t' ∧ u = u' then 1 else 0
  have hr := demoSwE_ready 3 [z, c, z, z] z (Or.inr rfl) rfl rfl (by simp [UHam.sites, z, c])
  refine ⟨_, _, _, _, _, fun _ b _ => (b, 0), hr, demoDimer_exact _ rfl rfl rfl rfl _, demoDimer_exact _ rfl rfl rfl rfl _,
    fun T hT => ?_⟩
  obtain ⟨T', hT', -, hlow⟩ := C65_local_partial _ _ _ _ _ hr (fun _ b _ => (b, 0)) (fun _ b _ => (b, 0)) 0 0
    (demoDimer_exact _ rfl rfl rfl rfl _) (demoDimer_exact _ rfl rfl rfl rfl _)
  obtain rfl := Option.some.inj (hT'.symm.trans hT)
  have h1 := hlow 1 (by simp [demoSwE])
  have e0 : ((1 : ℕ) : ℤ) + 2 - (demoSwE 3 [z, c, z, z] z).hamSites = 0 := rfl
  rw [e0] at h1
  refine ⟨h1, ?_⟩
  rw [h1]
  have z0 : termEnergy demoSwSite (fun n => demoDimer.l (pmod (n - 1) 2)) (fun n => demoDimer.r (pmod (n - 1) 2)) 0
      (demoSwHam 3 [z, c, z, z] z 0).sites (demoSwHam 3 [z, c, z, z] z 0).op = 0 := by
    have : demoSwHam 3 [z, c, z, z] z 0 = z := rfl
    rw [this]
    simp [termEnergy, z, UHam.op]
  have c1 : termEnergy demoSwSite (fun n => demoDimer.l (pmod (n - 1) 2)) (fun n => demoDimer.r (pmod (n - 1) 2)) 1
      (demoSwHam 3 [z, c, z, z] z 1).sites (demoSwHam 3 [z, c, z, z] z 1).op = 1 := by
    have : demoSwHam 3 [z, c, z, z] z 1 = c := rfl
    rw [this]
    show termEnergy _ _ _ 1 3 _ = 1
    simp only [termEnergy, sum_fin3, siteProd_three]
    simp [c, UHam.op, demoSwSite, pmod, demoDimer, Fin.sum_univ_two, Matrix.trace_fin_two, Matrix.vecMul, dotProduct,
      Complex.conj_ofNat]
    norm_num
  rw [z0, c1]
  exact zero_ne_one

end EvoMPS
