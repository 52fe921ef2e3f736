import Verif.SwGradMain
import Verif.Props.SwEnergy
import Verif.Props.Excite

/-!
# C66: the tangent vector of sandwich states

`calc_B` (tdvp_sandwich.py:680-690) of an up-to-date state after `calc_C` and `calc_K`.  `Φ_n(B)` is the state of the infinite chain
with the tensor of site `n` replaced by `B` (`SwGradSpec.lean`).
-/

namespace EvoMPS

open Matrix Uni
open scoped ComplexOrder

variable {q D : ℕ}

/-- The matrix element of the Hamiltonian, minus the energy of the state, between `Φ_n(B)` and the state is `c`: the limit of
the sums over the terms on longer and longer pieces of the chain, with `p.1` blocks of the left and `p.2` blocks of the right bulk around the
window. -/
def ResidualIs (S : SwT q D) (H : ℤ → UHam q) (site : ℤ → Ten ℂ q D D) (l r : ℤ → Matrix (Fin D) (Fin D) ℂ) (n : ℕ)
    (B : Ten ℂ q D D) (c : ℂ) : Prop :=
  Filter.Tendsto (fun p : ℕ × ℕ => ∑ i ∈ Finset.range (p.1 * S.uniL.L + (S.N + S.hamSites - 1) + p.2 * S.uniR.L),
      (gradTerm site l r n B (2 - S.hamSites - p.1 * S.uniL.L + i) (H (2 - S.hamSites - p.1 * S.uniL.L + i)).sites
          (H (2 - S.hamSites - p.1 * S.uniL.L + i)).op
        - termEnergy site l r (2 - S.hamSites - p.1 * S.uniL.L + i) (H (2 - S.hamSites - p.1 * S.uniL.L + i)).sites
          (H (2 - S.hamSites - p.1 * S.uniL.L + i)).op * tanInner l r n B (site n)))
    (Filter.atTop ×ˢ Filter.atTop) (nhds c)

/-- The tensors that site `n` may have in a tangent vector: left gauge in front of `N_centre`, right gauge behind it, any tensor at
`N_centre`. -/
def InGauge (S : SwT q D) (site : ℤ → Ten ℂ q D D) (l r : ℤ → Matrix (Fin D) (Fin D) ℂ) (n : ℕ) (B : Ten ℂ q D D) : Prop :=
  (n < S.nc → ∑ s, (site n s)ᴴ * l ((n : ℤ) - 1) * B s = 0) ∧ (S.nc < n → ∑ s, B s * r n * (site n s)ᴴ = 0)

/-! ## Helpers -/

theorem sw_fold (f : ℕ → Option (Option (Ten ℂ q D D × ℂ))) (N : ℕ) (g : ℕ → Option (Ten ℂ q D D × ℂ))
    (hf : ∀ n, 1 ≤ n → n ≤ N → f n = some (g n)) :
    ∃ T : SwTanOut q D, (List.range' 1 N).foldlM (fun (T : SwTanOut q D) n => (f n).map fun Bn =>
        { T with B := Function.update T.B n (Bn.map Prod.fst)
                 etaSq := Bn.elim T.etaSq fun x => Function.update T.etaSq n x.2 })
        { B := fun _ => none, etaSq := fun _ => 0, eta := 0 } = some T ∧
      (∀ n, 1 ≤ n → n ≤ N → T.B n = (g n).map Prod.fst ∧ T.etaSq n = ((g n).map Prod.snd).getD 0) ∧
      (∀ n, n = 0 ∨ N < n → T.B n = none ∧ T.etaSq n = 0) := by
  induction N with
  | zero => exact ⟨_, rfl, fun n h1 h2 => by omega, fun n _ => ⟨rfl, rfl⟩⟩
  | succ N ih =>
    obtain ⟨T, h1, h2, h3⟩ := ih fun n a b => hf n a (by omega)
    rw [List.range'_concat, List.foldlM_append, h1]
    simp only [Option.bind_eq_bind, Option.bind_some, List.foldlM_cons, List.foldlM_nil, Option.pure_def]
    rw [show 1 + 1 * N = N + 1 by ring, hf (N + 1) (by omega) le_rfl]
    refine ⟨_, rfl, fun n a b => ?_, fun n a => ?_⟩
    · simp only []
      by_cases hn : n = N + 1
      · subst hn
        refine ⟨Function.update_self _ _ _, ?_⟩
        cases g (N + 1) with
        | none => exact (h3 (N + 1) (by omega)).2
        | some x => exact Function.update_self _ _ _
      · rw [Function.update_of_ne hn]
        refine ⟨(h2 n a (by omega)).1, ?_⟩
        rw [← (h2 n a (by omega)).2]
        cases g (N + 1) with
        | none => rfl
        | some x => exact Function.update_of_ne hn _ _
    · simp only []
      have hn : n ≠ N + 1 := by omega
      rw [Function.update_of_ne hn]
      refine ⟨(h3 n (by omega)).1, ?_⟩
      rw [← (h3 n (by omega)).2]
      cases g (N + 1) with
      | none => rfl
      | some x => exact Function.update_of_ne hn _ _

theorem sw_tangent {S T : SwT q D} {H : ℤ → UHam q} {site : ℤ → Ten ℂ q D D} {l r : ℤ → Matrix (Fin D) (Fin D) ℂ}
    (h : SwReady S H site l r) (o : SwEnergyOut S T H site l r) {P : Num} (hP : P.Ok) {lm rm : ℕ → MM ℂ D D}
    (F : SwFull S l r P.tol lm rm)
    (mixL : BlockMixing S.uniL.L S.uniL.A (S.uniL.l (S.uniL.L - 1)) (S.uniL.r (S.uniL.L - 1)))
    (mixR : BlockMixing S.uniR.L S.uniR.A (S.uniR.l (S.uniR.L - 1)) (S.uniR.r (S.uniR.L - 1))) :
    ∃ out, T.calcB P lm rm = some out ∧
      (∀ n : ℕ, 1 ≤ n → n ≤ S.N → InGauge S site l r n ((out.B n).getD 0) ∧
        out.etaSq n = tanInner l r n ((out.B n).getD 0) ((out.B n).getD 0) ∧
        ∀ B, InGauge S site l r n B → ResidualIs S H site l r n B (tanInner l r n B ((out.B n).getD 0)
          - (if S.hamSites = 2 ∨ n ≠ S.nc then 0 else
                termEnergy site l r ((n : ℤ) - 1) (H ((n : ℤ) - 1)).sites (H ((n : ℤ) - 1)).op
                + termEnergy site l r ((n : ℤ) - 2) (H ((n : ℤ) - 2)).sites (H ((n : ℤ) - 2)).op
                - T.hExpect (n - 1) - T.hExpect (pmod ((n : ℤ) - 2) (S.N + 1))) * tanInner l r n B (site n))) ∧
      0 ≤ out.eta ∧ out.eta ^ 2 = ∑ n ∈ Finset.Icc 1 S.N, tanInner l r n ((out.B n).getD 0) ((out.B n).getD 0) := by
  have key := fun n : ℕ => fun h1 hN => sw_site h o hP F mixL mixR n h1 hN
  have : ∀ n, ∃ Bn, 1 ≤ n → n ≤ S.N → ∃ b : Ten ℂ q D D, T.calcBn P lm rm n = some Bn ∧ (Bn.map Prod.fst).getD 0 = b ∧
      InGauge S site l r n b ∧ (Bn.map Prod.snd).getD 0 = tanInner l r n b b ∧
      ∀ B, InGauge S site l r n B → ResidualIs S H site l r n B (tanInner l r n B b
          - (if S.hamSites = 2 ∨ n ≠ S.nc then 0 else
                termEnergy site l r ((n : ℤ) - 1) (H ((n : ℤ) - 1)).sites (H ((n : ℤ) - 1)).op
                + termEnergy site l r ((n : ℤ) - 2) (H ((n : ℤ) - 2)).sites (H ((n : ℤ) - 2)).op
                - T.hExpect (n - 1) - T.hExpect (pmod ((n : ℤ) - 2) (S.N + 1))) * tanInner l r n B (site n)) := by
    intro n
    by_cases hn : 1 ≤ n ∧ n ≤ S.N
    · obtain ⟨Bn, b, k1, k2, k3, k4, k5, k6⟩ := key n hn.1 hn.2
      exact ⟨Bn, fun _ _ => ⟨b, k1, k2, ⟨k3, k4⟩, k5, fun B hB => k6 B hB.1 hB.2⟩⟩
    · exact ⟨none, fun a b => absurd ⟨a, b⟩ hn⟩
  choose g hg using this
  obtain ⟨U, u1, u2, u3⟩ := sw_fold (fun n => T.calcBn P lm rm n) S.N g fun n a b => (hg n a b).choose_spec.1
  have hTN := o.frame.1
  have eq1 : ∀ n, 1 ≤ n → n ≤ S.N → U.etaSq n = tanInner l r n ((U.B n).getD 0) ((U.B n).getD 0) := fun n a b => by
    obtain ⟨x, -, x2, -, x4, -⟩ := hg n a b
    rw [(u2 n a b).1, (u2 n a b).2, x2, x4]
  have esum : ∑ n ∈ Finset.range (S.N + 1), U.etaSq n
      = ∑ n ∈ Finset.Icc 1 S.N, tanInner l r n ((U.B n).getD 0) ((U.B n).getD 0) := by
    rw [Finset.sum_range_succ', (u3 0 (Or.inl rfl)).2, add_zero,
      show Finset.Icc 1 S.N = Finset.Ico 1 (S.N + 1) by ext; simp, Finset.sum_Ico_eq_sum_range]
    refine Finset.sum_congr (by simp) fun i hi => ?_
    have hi := Finset.mem_range.1 hi
    rw [eq1 (i + 1) (by omega) (by omega), add_comm 1 i]
  have hnn : 0 ≤ ∑ n ∈ Finset.Icc 1 S.N, tanInner l r n ((U.B n).getD 0) ((U.B n).getD 0) := by
    refine Finset.sum_nonneg fun n hn => Finset.sum_nonneg fun s _ => ?_
    obtain ⟨a, b⟩ := Finset.mem_Icc.1 hn
    have lP := posDef_of_above hP.tol (F.labove (n - 1) (by omega))
    rw [show ((n - 1 : ℕ) : ℤ) = (n : ℤ) - 1 by omega] at lP
    have := weighted_nonneg lP (posDef_of_above hP.tol (F.rabove n b)) ((U.B n).getD 0 s)
    simpa only [Matrix.mul_assoc] using this
  obtain ⟨c, hc0, hc⟩ : ∃ c : ℝ, 0 ≤ c ∧ ∑ n ∈ Finset.Icc 1 S.N, tanInner l r n ((U.B n).getD 0) ((U.B n).getD 0) = (c : ℂ) := by
    refine ⟨(∑ n ∈ Finset.Icc 1 S.N, tanInner l r n ((U.B n).getD 0) ((U.B n).getD 0)).re, (Complex.le_def.1 hnn).1, ?_⟩
    exact Complex.ext rfl (Complex.le_def.1 hnn).2.symm
  refine ⟨{ U with eta := P.sq (∑ n ∈ Finset.range (S.N + 1), U.etaSq n) }, ?_, fun n a b => ?_, ?_, ?_⟩
  · unfold SwT.calcB
    rw [hTN, u1]
    rfl
  · obtain ⟨x, -, x2, x3, x4, x5⟩ := hg n a b
    have : (U.B n).getD 0 = x := by rw [(u2 n a b).1, x2]
    simp only [this]
    exact ⟨x3, by rw [eq1 n a b, this], x5⟩
  · simp only [esum, hc, hP.sq c hc0]
    exact_mod_cast Real.sqrt_nonneg c
  · simp only [esum, hc, hP.sq c hc0]
    exact_mod_cast Real.sq_sqrt hc0

/-! ## The theorems -/

/-- **C66**, for terms on two sites: `calc_B` succeeds; the tensor of every site obeys the gauge condition, and is the projection
of `(H - E)|ψ⟩` on the tangent vectors of that site; `eta_sq[n]` is the squared norm of the tangent vector of site `n`, and `eta` the root of
their sum. -/
theorem C66_tangent (S : SwT q D) (H : ℤ → UHam q) (site : ℤ → Ten ℂ q D D) (l r : ℤ → Matrix (Fin D) (Fin D) ℂ)
    (h : SwReady S H site l r) (h2 : S.hamSites = 2) (sL sR : Solver D) (jL jR : Matrix (Fin D) (Fin D) ℂ)
    (hsL : ExactSolver S.uniL sL jL true) (hsR : ExactSolver S.uniR sR jR false)
    (P : Num) (hP : P.Ok) (lm rm : ℕ → MM ℂ D D) (F : SwFull S l r P.tol lm rm)
    (mixL : BlockMixing S.uniL.L S.uniL.A (S.uniL.l (S.uniL.L - 1)) (S.uniL.r (S.uniL.L - 1)))
    (mixR : BlockMixing S.uniR.L S.uniR.A (S.uniR.l (S.uniR.L - 1)) (S.uniR.r (S.uniR.L - 1))) :
    ∃ T out, (S.calcC.bind fun S => S.calcK sL sR jL jR) = some T ∧ T.calcB P lm rm = some out ∧
      (∀ n : ℕ, 1 ≤ n → n ≤ S.N → InGauge S site l r n ((out.B n).getD 0) ∧
        out.etaSq n = tanInner l r n ((out.B n).getD 0) ((out.B n).getD 0) ∧
        ∀ B, InGauge S site l r n B → ResidualIs S H site l r n B (tanInner l r n B ((out.B n).getD 0))) ∧
      0 ≤ out.eta ∧ out.eta ^ 2 = ∑ n ∈ Finset.Icc 1 S.N, tanInner l r n ((out.B n).getD 0) ((out.B n).getD 0) := by
  obtain ⟨T, hT, o⟩ := sw_calcK h sL sR jL jR hsL hsR
  obtain ⟨out, h1, h3, h4⟩ := sw_tangent h o hP F mixL mixR
  refine ⟨T, out, hT, h1, fun n a b => ?_, h4⟩
  obtain ⟨x1, x2, x3⟩ := h3 n a b
  refine ⟨x1, x2, fun B hB => ?_⟩
  have := x3 B hB
  rwa [if_pos (Or.inl h2), zero_mul, sub_zero] at this

/-- **C66**, for terms on two or three sites.  The full statement is that of `C66_tangent` for terms on any number of sites.  What
is missing is the tensor of `N_centre` for terms on three sites, which is not the projection: of the energies of the terms subtracted from
the matrices `C`, those in front of `N_centre` are taken from the list `h_expect` one place too early, and the tensor is off by
a multiple of that of the state (`C66_centre_violated`). -/
theorem C66_tangent_partial (S : SwT q D) (H : ℤ → UHam q) (site : ℤ → Ten ℂ q D D) (l r : ℤ → Matrix (Fin D) (Fin D) ℂ)
    (h : SwReady S H site l r) (sL sR : Solver D) (jL jR : Matrix (Fin D) (Fin D) ℂ)
    (hsL : ExactSolver S.uniL sL jL true) (hsR : ExactSolver S.uniR sR jR false)
    (P : Num) (hP : P.Ok) (lm rm : ℕ → MM ℂ D D) (F : SwFull S l r P.tol lm rm)
    (mixL : BlockMixing S.uniL.L S.uniL.A (S.uniL.l (S.uniL.L - 1)) (S.uniL.r (S.uniL.L - 1)))
    (mixR : BlockMixing S.uniR.L S.uniR.A (S.uniR.l (S.uniR.L - 1)) (S.uniR.r (S.uniR.L - 1))) :
    ∃ T out, (S.calcC.bind fun S => S.calcK sL sR jL jR) = some T ∧ T.calcB P lm rm = some out ∧
      (∀ n : ℕ, 1 ≤ n → n ≤ S.N → InGauge S site l r n ((out.B n).getD 0) ∧
        out.etaSq n = tanInner l r n ((out.B n).getD 0) ((out.B n).getD 0)) ∧
      (∀ n : ℕ, 1 ≤ n → n ≤ S.N → n ≠ S.nc → ∀ B, InGauge S site l r n B →
        ResidualIs S H site l r n B (tanInner l r n B ((out.B n).getD 0))) ∧
      0 ≤ out.eta ∧ out.eta ^ 2 = ∑ n ∈ Finset.Icc 1 S.N, tanInner l r n ((out.B n).getD 0) ((out.B n).getD 0) ∧
      (S.hamSites = 3 → 2 ≤ S.nc → ∀ B, ResidualIs S H site l r S.nc B (tanInner l r S.nc B ((out.B S.nc).getD 0)
        - (termEnergy site l r (S.nc - 1) (H (S.nc - 1)).sites (H (S.nc - 1)).op
          - termEnergy site l r (S.nc - 3) (H (S.nc - 3)).sites (H (S.nc - 3)).op) * tanInner l r S.nc B (site S.nc))) ∧
      (S.hamSites = 3 → S.nc = 1 → ∀ B, ResidualIs S H site l r S.nc B (tanInner l r S.nc B ((out.B S.nc).getD 0)
        - (termEnergy site l r 0 (H 0).sites (H 0).op
          - termEnergy site l r S.N (H S.N).sites (H S.N).op) * tanInner l r S.nc B (site S.nc))) := by
  obtain ⟨T, hT, o⟩ := sw_calcK h sL sR jL jR hsL hsR
  obtain ⟨out, h1, h3, h4, h5⟩ := sw_tangent h o hP F mixL mixR
  refine ⟨T, out, hT, h1, fun n a b => ⟨(h3 n a b).1, (h3 n a b).2.1⟩, fun n a b hn B hB => ?_, h4, h5, fun hs hc B => ?_,
    fun hs hc B => ?_⟩
  · have := (h3 n a b).2.2 B hB
    rwa [if_pos (Or.inr hn), zero_mul, sub_zero] at this
  · have := (h3 S.nc (by omega) h.centre.2).2.2 B ⟨fun x => by omega, fun x => by omega⟩
    rw [if_neg (by simp [hs]), show pmod ((S.nc : ℤ) - 2) (S.N + 1) = S.nc - 2 by
        have := h.centre; unfold pmod; rw [Int.emod_eq_of_lt (by omega) (by push_cast; omega)]; omega,
      o.low (S.nc - 1) (by omega), o.low (S.nc - 2) (by omega), hs,
      show ((S.nc - 1 : ℕ) : ℤ) + 2 - (3 : ℕ) = S.nc - 2 by omega, show ((S.nc - 2 : ℕ) : ℤ) + 2 - (3 : ℕ) = S.nc - 3 by omega] at this
    convert this using 3
    ring
  · have := (h3 S.nc (by omega) h.centre.2).2.2 B ⟨fun x => by omega, fun x => by omega⟩
    have hN := h.centre.2
    rw [if_neg (by simp [hs]), show pmod ((S.nc : ℤ) - 2) (S.N + 1) = S.N by
        rw [hc]; unfold pmod; rw [show ((1 : ℕ) : ℤ) - 2 = -1 by norm_num, Int.emod_eq_add_self_emod,
          Int.emod_eq_of_lt (by push_cast; omega) (by push_cast; omega)]; push_cast; omega,
      o.low (S.nc - 1) (by omega), o.high S.N hN le_rfl, hs, hc,
      show ((1 - 1 : ℕ) : ℤ) + 2 - (3 : ℕ) = -1 by norm_num, show ((1 : ℕ) : ℤ) - 1 = 0 by norm_num,
      show ((1 : ℕ) : ℤ) - 2 = -1 by norm_num] at this
    rw [hc]
    convert this using 3
    ring

/-! ## Cases -/

/-- `demoPauli4` with two basis states of site `1` swapped. -/
noncomputable def demoSwPauli (n : ℤ) : Ten ℂ 4 2 2 :=
  if n = 1 then fun s => (demoPauli4 (.two 0)).A 0 (Equiv.swap 0 1 s) else (demoPauli4 (.two 0)).A 0

/-- The window holds the sites `1`, `2`, `3` of this chain. -/
noncomputable def demoSwP (hs : ℕ) (ham : List (UHam 4)) (h : UHam 4) : SwT 4 2 where
  N := 3
  nc := 2
  A n := demoSwPauli n
  l _ := (demoPauli4 h).l 0
  r _ := (demoPauli4 h).r 0
  uniL := demoPauli4 h
  uniR := demoPauli4 h
  hamSites := hs
  ham := .list ham
  AA _ := none
  AAA _ := none
  C2 _ := none
  C3 _ := none
  K := 0
  Kl := 0
  hExpect := 0
  dH := 0

/-- The terms of the Hamiltonian on this chain. -/
noncomputable def demoSwPHam (hs : ℕ) (ham : List (UHam 4)) (h : UHam 4) (n : ℤ) : UHam 4 :=
  if 2 - hs ≤ n ∧ n ≤ 3 then (pyGet ham n).getD h else h

theorem demoSwP_ready (hs : ℕ) (ham : List (UHam 4)) (h : UHam 4) (h23 : hs = 2 ∨ hs = 3) (hlen : ham.length = hs + 2)
    (hsite : h.sites = hs) (hall : ∀ x ∈ ham, x.sites = hs) :
    SwReady (demoSwP hs ham h) (demoSwPHam hs ham h) demoSwPauli (fun _ => (demoPauli4 h).l 0) (fun _ => (demoPauli4 h).r 0) := by
  have swap : ∀ f : Fin 4 → Matrix (Fin 2) (Fin 2) ℂ, ∑ s : Fin 4, f (Equiv.swap 0 1 s) = ∑ s, f s := fun f =>
    Equiv.sum_comp (Equiv.swap 0 1) f
  have hget : ∀ n : ℤ, 2 - hs ≤ n → n ≤ 3 → ∃ x ∈ ham, pyGet ham n = some x := by
    intro n h1 h2
    unfold pyGet
    split
    · rw [if_neg (by omega)]
      exact ⟨_, List.getElem_mem (by omega), List.getElem?_eq_getElem (by omega)⟩
    · exact ⟨_, List.getElem_mem (by omega), List.getElem?_eq_getElem (by omega)⟩
  have E := demoPauli4_env h
  constructor
  · exact one_pos
  · exact one_pos
  · exact E
  · exact E
  · exact fun k hk => (demoPauli4_stored h).left_herm k hk
  · exact fun k hk => (demoPauli4_stored h).right_herm k hk
  · constructor
    · intro n hn
      rw [demoSwPauli, if_neg (by omega)]; rfl
    · intro n _ _; rfl
    · intro n hn
      have hn : (3 : ℤ) < n := hn
      rw [demoSwPauli, if_neg (by omega)]; rfl
    · intro n hn; rfl
    · intro n hn; rfl
    · intro n
      have h1 := (demoPauli4_mapL h 0).symm
      by_cases hn : n = 1
      · subst hn
        simp only [demoSwPauli, if_true]
        rw [swap fun s => ((demoPauli4 (.two 0)).A 0 s)ᴴ * (demoPauli4 h).l 0 * (demoPauli4 (.two 0)).A 0 s]
        exact h1
      · rw [demoSwPauli, if_neg hn]; exact h1
    · intro n
      have h1 := E.right 0 one_pos
      by_cases hn : n = 1
      · subst hn
        simp only [demoSwPauli, if_true]
        rw [swap fun s => (demoPauli4 (.two 0)).A 0 s * (demoPauli4 h).r 0 * ((demoPauli4 (.two 0)).A 0 s)ᴴ]
        exact h1
      · rw [demoSwPauli, if_neg hn]; exact h1
    · have := E.norm 0 one_pos
      rw [(demoPauli4_stored h).left_herm 0 one_pos] at this
      exact this
  · intro n _ _; rfl
  · intro n _; rfl
  · intro _; exact one_dvd _
  · intro n
    unfold demoSwPHam
    split
    · rename_i hn
      obtain ⟨x, hx, e⟩ := hget n hn.1 hn.2
      rw [e]; exact hall x hx
    · exact hsite
  · intro n hn
    have hn : n < 2 - (hs : ℤ) := hn
    rw [demoSwPHam, if_neg (by omega)]; rfl
  · intro n h1 h2
    have h1 : 2 - (hs : ℤ) ≤ n := h1
    have h2 : n ≤ 3 := h2
    obtain ⟨x, hx, e⟩ := hget n h1 h2
    rw [demoSwPHam, if_pos ⟨h1, h2⟩, e]
    exact e
  · intro n hn
    have hn : 3 < n := hn
    rw [demoSwPHam, if_neg (by omega)]; rfl
  · exact ⟨one_le_two, Nat.le_succ 2⟩

theorem demoSwP_full (hs : ℕ) (ham : List (UHam 4)) (h : UHam 4) :
    SwFull (demoSwP hs ham h) (fun _ => (demoPauli4 h).l 0) (fun _ => (demoPauli4 h).r 0) demoNum.tol
      (fun _ => .dense ((demoPauli4 h).l 0)) (fun _ => .eye 2) where
  lobj _ _ := (demoPauli4_stored h).left 0 one_pos
  robj _ _ := (demoPauli4_stored h).right 0 one_pos
  labove _ _ := (demoPauli4_above h).1 0 one_pos
  rabove _ _ := (demoPauli4_above h).2 0 one_pos

theorem demoPauli4_mixing (h : UHam 4) : BlockMixing 1 (demoPauli4 h).A ((demoPauli4 h).l 0) ((demoPauli4 h).r 0) := fun x => by
  have := demoPauli4_limit h x
  rwa [adot_eq_trace] at this

theorem demoPauli4_exactL (ham : UHam 4) : ExactSolver (demoPauli4 ham) (fun _ b _ => (b, 0)) 0 true := by
  intro op x x0 hop
  rw [demoPauli4_list] at hop
  exact exact_left (demoPauli4_mapL' ham) 0 op x x0 hop

/-- All hypotheses of `C66_tangent` hold for a window in an entangled chain with any Hamiltonian with terms on two sites. -/
example (o0 o1 o2 o3 oB : Fin 4 → Fin 4 → Fin 4 → Fin 4 → ℂ) (S : SwT 4 2)
    (hS : S = demoSwP 2 [.two o0, .two o1, .two o2, .two o3] (.two oB)) :
    ∃ T out, (S.calcC.bind fun S => S.calcK (fun _ b _ => (b, 0)) (fun _ b _ => (b, 0)) 0 0) = some T ∧
      T.calcB demoNum (fun _ => .dense ((demoPauli4 (.two oB)).l 0)) (fun _ => .eye 2) = some out ∧ 0 ≤ out.eta := by
  subst hS
  obtain ⟨T, out, h1, h2, -, h3, -⟩ := C66_tangent _ _ _ _ _
    (demoSwP_ready 2 [.two o0, .two o1, .two o2, .two o3] (.two oB) (Or.inl rfl) rfl rfl (by simp [UHam.sites])) rfl
    (fun _ b _ => (b, 0)) (fun _ b _ => (b, 0)) 0 0 (demoPauli4_exactL _) (demoPauli4_exact _) demoNum demoNum_ok _ _
    (demoSwP_full _ _ _) (demoPauli4_mixing _) (demoPauli4_mixing _)
  exact ⟨T, out, h1, h2, h3⟩

/-- **C66**, violated for terms on three sites: all hypotheses hold, `calc_B` succeeds, and the tensor of the site `N_centre` is
not the projection of `(H - E)|ψ⟩`. -/
theorem C66_centre_violated :
    ∃ (S : SwT 4 2) (H : ℤ → UHam 4) (site : ℤ → Ten ℂ 4 2 2) (l r : ℤ → Matrix (Fin 2) (Fin 2) ℂ) (s : Solver 2) (P : Num)
      (lm rm : ℕ → MM ℂ 2 2) (T : SwT 4 2) (out : SwTanOut 4 2) (B : Ten ℂ 4 2 2),
      SwReady S H site l r ∧ ExactSolver S.uniL s 0 true ∧ ExactSolver S.uniR s 0 false ∧ P.Ok ∧ SwFull S l r P.tol lm rm ∧
      BlockMixing S.uniL.L S.uniL.A (S.uniL.l (S.uniL.L - 1)) (S.uniL.r (S.uniL.L - 1)) ∧
      BlockMixing S.uniR.L S.uniR.A (S.uniR.l (S.uniR.L - 1)) (S.uniR.r (S.uniR.L - 1)) ∧
      (S.calcC.bind fun S => S.calcK s s 0 0) = some T ∧ T.calcB P lm rm = some out ∧
      ¬ ResidualIs S H site l r S.nc B (tanInner l r S.nc B ((out.B S.nc).getD 0)) := by
  let z : UHam 4 := .three fun _ _ _ _ _ _ => 0
  let c : UHam 4 := .three fun s t u s' t' u' => if s = s' ∧ t = t' ∧ u = u' then 1 else 0
  have hr := demoSwP_ready 3 [z, c, z, z, z] z (Or.inr rfl) rfl rfl (by simp [UHam.sites, z, c])
  obtain ⟨T, out, h1, h2, -, -, -, -, h3, -⟩ := C66_tangent_partial _ _ _ _ _ hr
    (fun _ b _ => (b, 0)) (fun _ b _ => (b, 0)) 0 0 (demoPauli4_exactL _) (demoPauli4_exact _) demoNum demoNum_ok _ _
    (demoSwP_full _ _ _) (demoPauli4_mixing _) (demoPauli4_mixing _)
  refine ⟨_, _, _, _, _, _, _, _, _, T, out, demoSwPauli 2, hr, demoPauli4_exactL _, demoPauli4_exact _, demoNum_ok, demoSwP_full _ _ _,
    demoPauli4_mixing _, demoPauli4_mixing _, h1, h2, fun hcon => ?_⟩
  have e := tendsto_nhds_unique hcon (h3 rfl le_rfl (demoSwPauli 2))
  have e0 : ((demoSwP 3 [z, c, z, z, z] z).nc : ℤ) = 2 := rfl
  rw [e0] at e
  rw [eq_sub_iff_add_eq, add_eq_left] at e
  have hn : tanInner (fun _ => (demoPauli4 z).l 0) (fun _ => (demoPauli4 z).r 0) 2 (demoSwPauli 2) (demoSwPauli 2) = 1 := by
    have h2 := hr.chain.stepR 2
    have := (demoPauli4_env z).norm 0 one_pos
    rw [(demoPauli4_stored z).left_herm 0 one_pos] at this
    rw [← this]
    conv_rhs => rw [show (demoPauli4 z).r 0 = ∑ s, demoSwPauli 2 s * (demoPauli4 z).r 0 * (demoSwPauli 2 s)ᴴ from h2]
    rw [tanInner, Matrix.mul_sum, Matrix.trace_sum]
    simp only [Matrix.mul_assoc]
  have z0 : termEnergy demoSwPauli (fun _ => (demoPauli4 z).l 0) (fun _ => (demoPauli4 z).r 0) (2 - 3)
      (demoSwPHam 3 [z, c, z, z, z] z (2 - 3)).sites (demoSwPHam 3 [z, c, z, z, z] z (2 - 3)).op = 0 := by
    have : demoSwPHam 3 [z, c, z, z, z] z (2 - 3) = z := rfl
    rw [this]
    simp [termEnergy, z, UHam.op]
  have c1 : termEnergy demoSwPauli (fun _ => (demoPauli4 z).l 0) (fun _ => (demoPauli4 z).r 0) (2 - 1)
      (demoSwPHam 3 [z, c, z, z, z] z (2 - 1)).sites (demoSwPHam 3 [z, c, z, z, z] z (2 - 1)).op ≠ 0 := by
    have : demoSwPHam 3 [z, c, z, z, z] z (2 - 1) = c := rfl
    rw [this]
    show termEnergy _ _ _ _ 3 _ ≠ 0
    have hstep := fun n => hr.chain.stepR n
    have h1 : ∀ f : Fin 4 → Fin 4 → Fin 4 → Fin 4 → Fin 4 → Fin 4 → ℂ,
        ∑ s, ∑ t, ∑ u, ∑ s', ∑ t', ∑ u', (if s = s' ∧ t = t' ∧ u = u' then (1 : ℂ) else 0) * f s t u s' t' u'
          = ∑ s, ∑ t, ∑ u, f s t u s t u := fun f => by
      refine Finset.sum_congr rfl fun s _ => Finset.sum_congr rfl fun t _ => Finset.sum_congr rfl fun u _ => ?_
      rw [Finset.sum_eq_single s (fun b _ hb => by simp [Ne.symm hb]) (by simp),
        Finset.sum_eq_single t (fun b _ hb => by simp [Ne.symm hb]) (by simp),
        Finset.sum_eq_single u (fun b _ hb => by simp [Ne.symm hb]) (by simp)]
      simp
    simp only [termEnergy, sum_fin3, siteProd_three]
    refine ne_of_eq_of_ne ((h1 fun s t u s' t' u' => ((demoPauli4 z).l 0 * (demoSwPauli 1 s' * demoSwPauli 2 t' * demoSwPauli 3 u')
      * (demoPauli4 z).r 0 * (demoSwPauli 1 s * demoSwPauli 2 t * demoSwPauli 3 u)ᴴ).trace).trans ?_) one_ne_zero
    have s3 : ∑ u, demoSwPauli 3 u * ((demoPauli4 z).r 0 * (demoSwPauli 3 u)ᴴ) = (demoPauli4 z).r 0 := by
      simpa only [Matrix.mul_assoc] using (hstep 3).symm
    have s2 : ∑ u, demoSwPauli 2 u * ((demoPauli4 z).r 0 * (demoSwPauli 2 u)ᴴ) = (demoPauli4 z).r 0 := by
      simpa only [Matrix.mul_assoc] using (hstep 2).symm
    have s1 : ∑ u, demoSwPauli 1 u * ((demoPauli4 z).r 0 * (demoSwPauli 1 u)ᴴ) = (demoPauli4 z).r 0 := by
      simpa only [Matrix.mul_assoc] using (hstep 1).symm
    have f3 : ∀ s t, ∑ u, ((demoPauli4 z).l 0 * (demoSwPauli 1 s * demoSwPauli 2 t * demoSwPauli 3 u)
      * (demoPauli4 z).r 0 * (demoSwPauli 1 s * demoSwPauli 2 t * demoSwPauli 3 u)ᴴ).trace
      = ((demoPauli4 z).l 0 * (demoSwPauli 1 s * (demoSwPauli 2 t * ((demoPauli4 z).r 0 * (demoSwPauli 2 t)ᴴ)
        * (demoSwPauli 1 s)ᴴ))).trace := fun s t => by
      conv_rhs => rw [← s3]
      simp only [Matrix.mul_sum, Matrix.sum_mul, Matrix.trace_sum, conjTranspose_mul, Matrix.mul_assoc]
    have f2 : ∀ s, ∑ t, ((demoPauli4 z).l 0 * (demoSwPauli 1 s * (demoSwPauli 2 t * ((demoPauli4 z).r 0 * (demoSwPauli 2 t)ᴴ)
        * (demoSwPauli 1 s)ᴴ))).trace = ((demoPauli4 z).l 0 * (demoSwPauli 1 s * ((demoPauli4 z).r 0 * (demoSwPauli 1 s)ᴴ))).trace :=
      fun s => by rw [← Matrix.trace_sum, ← Matrix.mul_sum, ← Matrix.mul_sum, ← Matrix.sum_mul, s2]
    simp only [f3, f2]
    rw [← Matrix.trace_sum, ← Matrix.mul_sum, s1]
    have := (demoPauli4_env z).norm 0 one_pos
    rwa [(demoPauli4_stored z).left_herm 0 one_pos] at this
  rw [z0, hn, sub_zero, mul_one] at e
  exact c1 e

end EvoMPS
