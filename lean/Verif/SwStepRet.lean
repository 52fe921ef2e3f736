import Verif.SwStepMain
import Verif.SwGradMain

/-!
# Time steps of sandwich states: when they return
-/

namespace EvoMPS.Uni

open Matrix

variable {q D : ℕ}

/-- The Hamiltonian of the window is a list of operators on two sites and the bulk states are consistent.  Nothing is required of
the window. -/
structure StepReady (S : SwT q D) : Prop where
  posL : 0 < S.uniL.L
  posR : 0 < S.uniR.L
  envL : ChainEnv S.uniL.L S.uniL.A S.uniL.l S.uniL.r
  envR : ChainEnv S.uniR.L S.uniR.A S.uniR.l S.uniR.r
  hermL : ∀ k < S.uniL.L, (S.uniL.l k)ᴴ = S.uniL.l k
  hermR : ∀ k < S.uniL.L, (S.uniL.r k)ᴴ = S.uniL.r k
  centre : 1 ≤ S.nc ∧ S.nc ≤ S.N
  two : S.hamSites = 2
  ham : ∃ h : List (UHam q), S.ham = .list h ∧ h.length = S.N + 1 ∧ ∀ x ∈ h, x.sites = 2

theorem StepReady.congr {S T : SwT q D} (h : StepReady S) (f : SameFrame S T) : StepReady T := by
  obtain ⟨h1, h2, h3, h4, h5, h6, h7, h8, h9⟩ := h
  obtain ⟨a1, a2, a3, a4, -⟩ := f.left
  obtain ⟨b1, b2, b3, b4, -⟩ := f.right
  constructor
  · rw [a1]; exact h1
  · rw [b1]; exact h2
  · rw [a1, a2, a3, a4]; exact h3
  · rw [b1, b2, b3, b4]; exact h4
  · rw [a1, a3]; exact h5
  · rw [a1, a4]; exact h6
  · rw [f.nc, f.N]; exact h7
  · rw [f.hamSites]; exact h8
  · rw [f.ham, f.N]; exact h9

theorem ExactSolver.congr {S T : UTDVP q D} {s : Solver D} {j} {b : Bool} (h : ExactSolver S s j b)
    (hL : T.L = S.L) (hA : T.A = S.A) (hl : T.l = S.l) (hr : T.r = S.r) : ExactSolver T s j b := by
  have e : T.list = S.list := by simp only [UMPS.list, hL, hA]
  unfold ExactSolver at h ⊢
  rw [e, hL, hl, hr]
  exact h

theorem ctranspose_epsL {x : Matrix (Fin D) (Fin D) ℂ} (hx : xᴴ = x) (A : Ten ℂ q D D) :
    (∑ s, (A s)ᴴ * x * A s)ᴴ = ∑ s, (A s)ᴴ * x * A s := by
  rw [conjTranspose_sum]
  refine Finset.sum_congr rfl fun s _ => ?_
  rw [conjTranspose_mul, conjTranspose_mul, conjTranspose_conjTranspose, hx, Matrix.mul_assoc]

theorem WindowEnv.l_herm {S : SwT q D} (h : WindowEnv S) (h0 : (S.uniL.l (S.uniL.L - 1))ᴴ = S.uniL.l (S.uniL.L - 1)) (n : ℕ)
    (hn : n ≤ S.N) : (S.l n)ᴴ = S.l n := by
  induction n with
  | zero => rw [h.l_zero, h0]
  | succ n ih => rw [h.l_succ n (by omega)]; exact ctranspose_epsL (ih (by omega)) _

theorem update_returns {S : SwT q D} (h : StepReady S) {sL sR : Solver D} {jL jR : Matrix (Fin D) (Fin D) ℂ}
    (hsL : ExactSolver S.uniL sL jL true) (hsR : ExactSolver S.uniR sR jR false) :
    ∃ T, S.update sL sR jL jR = some T ∧ ∀ n : ℤ, 0 ≤ n → n ≤ S.N → (T.getC2 n).isSome ∧ (T.getAA n).isSome := by
  obtain ⟨hm, e1, e2, e3⟩ := h.ham
  have hget : ∀ n : ℤ, 0 ≤ n → n ≤ S.N → ∃ o, pyGet hm n = some (.two o) := by
    intro n h1 h2
    have : ∃ x ∈ hm, pyGet hm n = some x := by
      unfold pyGet
      rw [if_neg (by omega)]
      exact ⟨_, List.getElem_mem (by omega), List.getElem?_eq_getElem (by omega)⟩
    obtain ⟨x, hx, hx'⟩ := this
    have := e3 x hx
    cases x with
    | two o => exact ⟨o, hx'⟩
    | three o => simp [UHam.sites] at this
  have we := calcLRs_env S
  have hL := h.posL
  have l0 := h.hermL (S.uniL.L - 1) (by omega)
  set U := S.calcLs.calcRs with hU
  have hUN : U.N = S.N := rfl
  have hUs : U.hamSites = 2 := h.two
  obtain ⟨T, hT, o⟩ := sw_calcK_of (S := U) (H := fun n => if 0 ≤ n ∧ n ≤ S.N then (pyGet hm n).getD (.two 0) else .two 0)
    (site := U.getA) (l := fun n => if n ≤ S.N then U.getL n else 0) (r := fun n => U.r n.toNat)
    h.posL h.posR h.envL h.envR h.hermL h.hermR
    ⟨fun _ => rfl, fun n hn => by rw [if_pos (by omega)], fun n _ => rfl, fun h3 => by omega⟩
    (fun n => by
      split
      · rename_i hn
        unfold SwT.getL
        split
        · exact we.l_herm l0 _ (by omega)
        · rw [if_pos (by omega)]
          refine h.hermL _ ?_
          have := Int.emod_nonneg (n - 1) (b := (S.uniL.L : ℤ)) (by omega)
          have := Int.emod_lt_of_pos (n - 1) (b := (S.uniL.L : ℤ)) (by omega)
          unfold pmod
          change ((n - 1) % (S.uniL.L : ℤ)).toNat < S.uniL.L
          omega
      · exact conjTranspose_zero)
    (fun n h1 h2 => by
      unfold SwT.getA
      rw [if_neg (by omega), if_neg (by omega)]
      rfl)
    (fun n => by
      split
      · rename_i hn
        obtain ⟨o, ho⟩ := hget n hn.1 hn.2
        rw [ho]; exact h.two.symm
      · exact h.two.symm)
    (fun n h1 h2 => by
      have h1 : 0 ≤ n := by rw [hUs] at h1; simpa using h1
      have h2 : n ≤ S.N := h2
      obtain ⟨o, ho⟩ := hget n h1 h2
      rw [if_pos ⟨h1, h2⟩, ho]
      unfold SwT.hamAt
      rw [show U.ham = .list hm from e1]
      exact ho)
    h.centre sL sR jL jR hsL hsR
  refine ⟨T, hT, fun n h1 h2 => ?_⟩
  obtain ⟨c, hc⟩ := hget n h1 h2
  have hN : T.N = S.N := o.frame.1
  have := (o.cur n (by rw [hUs]; simpa using h1) h2).two c (by rw [if_pos ⟨h1, h2⟩, hc]; rfl)
  unfold SwT.getC2 SwT.getAA
  rw [if_neg (by omega), if_neg (by omega), if_neg (by omega), this.1, this.2]
  exact ⟨rfl, rfl⟩

theorem calcBn_returns {S : SwT q D} (hs : S.hamSites = 2) (hc : ∀ n : ℤ, 0 ≤ n → n ≤ S.N → (S.getC2 n).isSome ∧ (S.getAA n).isSome)
    (P : Num) (lm rm : ℕ → MM ℂ D D) (n : ℕ) (h1 : 1 ≤ n) (h2 : n ≤ S.N) : ∃ Bn, S.calcBn P lm rm n = some Bn := by
  unfold SwT.calcBn
  by_cases hn : n = S.nc
  · rw [if_pos hn]
    obtain ⟨C, hC⟩ := Option.isSome_iff_exists.1 (hc S.nc (by omega) (by omega)).1
    obtain ⟨AA, hAA⟩ := Option.isSome_iff_exists.1 (hc S.nc (by omega) (by omega)).2
    obtain ⟨C', hC'⟩ := Option.isSome_iff_exists.1 (hc ((S.nc : ℤ) - 1) (by omega) (by omega)).1
    obtain ⟨AA', hAA'⟩ := Option.isSome_iff_exists.1 (hc ((S.nc : ℤ) - 1) (by omega) (by omega)).2
    unfold SwT.calcBCentre
    simp only [if_pos hs, hC, hAA, hC', hAA', Option.bind_some, Option.map_some]
    exact ⟨_, rfl⟩
  · rw [if_neg hn]
    simp only []
    split
    · split
      · exact ⟨_, rfl⟩
      · unfold SwT.calcXr
        rw [if_pos hs, Option.map_some]
        exact ⟨_, rfl⟩
    · split
      · exact ⟨_, rfl⟩
      · obtain ⟨C', hC'⟩ := Option.isSome_iff_exists.1 (hc ((n : ℤ) - 1) (by omega) (by omega)).1
        unfold SwT.calcXleft
        rw [if_pos hs]
        simp only [hC']
        unfold calcXl
        simp
 
theorem slopes_returns {S : SwT q D} {P : Num} {lm rm : ℕ → MM ℂ D D} (h : ∀ n, 1 ≤ n → n ≤ S.N → ∃ Bn, S.calcBn P lm rm n = some Bn) :
    ∃ B, S.slopes P lm rm = some B := by
  unfold SwT.slopes
  generalize S.N = N at h
  induction N with
  | zero => exact ⟨_, rfl⟩
  | succ N ih =>
    obtain ⟨B, hB⟩ := ih fun n h1 h2 => h n h1 (by omega)
    obtain ⟨Bn, hBn⟩ := h (N + 1) (by omega) le_rfl
    rw [foldlM_last, hB, Option.bind_some, hBn]
    exact ⟨_, rfl⟩

end EvoMPS.Uni
