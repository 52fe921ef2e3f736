import Verif.LineSearchLemmas
import Mathlib.Logic.Equiv.Fin.Basic
import Mathlib.Tactic.FinCases
import Mathlib.Tactic.Linarith

/-!
# Property C52: the line search of the finite chain
-/

set_option linter.unusedSectionVars false

namespace EvoMPS

open Matrix LineSearch

variable {q D : ℕ → ℕ}

/-- C52.  Whatever `bracket` and `brent` ask for, and in whatever order, a search that ends with a step
size and an energy leaves the tensors, the environments, the `C` and `K` tensors and the energy of the
object as they were.  Missing for C52: the products `AA` (and `AAA`) are not restored, and the shortcut
of `skipIfLower` restores nothing, see the violations below. -/
theorem C52_restored_partial (W : Setup q D) (S S' : TDVP ℂ q D) (dtau : ℝ) (skip : Bool)
    (bracket : ℝ → ℝ → Client (ℝ × ℝ × ℝ)) (brent : ℝ × ℝ × ℝ → Client ℝ) (tau h : ℝ)
    (hf : findMin W S dtau skip bracket brent = some (S', .pair tau h)) :
    S'.A = S.A ∧ S'.l = S.l ∧ S'.r = S.r ∧ S'.C2 = S.C2 ∧ S'.C3 = S.C3 ∧ S'.K = S.K ∧ S'.Kl = S.Kl ∧
      S'.H = S.H := by
  have key : ∀ H0 X, searchMin W S H0 dtau bracket brent X = some (S', .pair tau h) →
      S'.A = S.A ∧ S'.l = S.l ∧ S'.r = S.r ∧ S'.C2 = S.C2 ∧ S'.C3 = S.C3 ∧ S'.K = S.K ∧ S'.Kl = S.Kl ∧
      S'.H = S.H := by
    intro H0 X hs
    unfold searchMin at hs
    obtain ⟨X1, -, h2⟩ := Option.bind_eq_some_iff.1 hs
    obtain ⟨Y, -, h4⟩ := Option.map_eq_some_iff.1 h2
    rw [Prod.mk.injEq] at h4
    rw [← h4.1]
    exact ⟨rfl, rfl, rfl, rfl, rfl, rfl, rfl, rfl⟩
  unfold findMin at hf
  obtain ⟨H0, -, h1⟩ := Option.bind_eq_some_iff.1 hf
  cases skip with
  | false => exact key H0 _ h1
  | true =>
    simp only [if_true] at h1
    obtain ⟨Y, -, h2⟩ := Option.bind_eq_some_iff.1 h1
    obtain ⟨H, -, h3⟩ := Option.bind_eq_some_iff.1 h2
    by_cases hlt : Y.2 < H.re
    · rw [if_pos hlt] at h3
      simp at h3
    · rw [if_neg hlt] at h3
      exact key H0 _ h3

/-- C52.  After any number of questions in any order, the value of the function at a positive step size
is the energy of the state with the tensors `A - tau B`, where `A` are the tensors before the search. -/
theorem C52_trials {α : Type} (W : Setup q D) (S : TDVP ℂ q D) (H0 : ℂ) (hpos : 0 < W.N)
    (hl : S.l 0 = 1) (hr : S.r W.N = 1) (hc : W.ham.Complete W.N) (hne : NonZero W S.A)
    (ho : W.overlap = false) (c : Client α) (X : Search q D) (a : Option α)
    (hrun : c.run (f W S.A H0) (start W S H0) = some (X, a)) (tau : ℝ) :
    ∃ Y v, f W S.A H0 tau X = some (Y, v) ∧ v = if 0 < tau then
      rayleigh W.ham (moved S.A (tau : ℂ) W.B) W.h0 W.hN else if tau < 0 then tau ^ 2 + H0.re else H0.re := by
  have hX := run_inv (I := Inv W S.A H0) (fun t X Y v hX hf => (f_spec W hpos hc S.A H0 hne t X hX Y v hf).1)
    c _ (start_inv W S H0 hl hr) X a hrun
  obtain ⟨Y, v, h⟩ := f_total W hpos hc S.A H0 hne ho tau X hX
  exact ⟨Y, v, h, (f_spec W hpos hc S.A H0 hne tau X hX Y v h).2.2 ho⟩

/-- C52.  If all terms of the Hamiltonian are given, the search with the energy as the function returns. -/
theorem C52_returns (W : Setup q D) (S : TDVP ℂ q D) (H0 : ℂ) (hH : S.H = some H0) (hpos : 0 < W.N)
    (hl : S.l 0 = 1) (hr : S.r W.N = 1) (hc : W.ham.Complete W.N) (hne : NonZero W S.A)
    (ho : W.overlap = false) (dtau : ℝ)
    (bracket : ℝ → ℝ → Client (ℝ × ℝ × ℝ)) (brent : ℝ × ℝ × ℝ → Client ℝ) :
    ∃ S' tau h, findMin W S dtau false bracket brent = some (S', .pair tau h) := by
  have hI : ∀ t X, Inv W S.A H0 X → ∃ Y v, f W S.A H0 t X = some (Y, v) ∧ Inv W S.A H0 Y := by
    intro t X hX
    obtain ⟨Y, v, h⟩ := f_total W hpos hc S.A H0 hne ho t X hX
    exact ⟨Y, v, h, (f_spec W hpos hc S.A H0 hne t X hX Y v h).1⟩
  unfold findMin
  rw [hH, Option.bind_some]
  simp only [Bool.false_eq_true, if_false]
  unfold searchMin
  obtain ⟨X, h1, h2⟩ := bracketLoop_total hI bracket 2 (dtau * (9 / 10)) (dtau * (3 / 2)) _
    (start_inv W S H0 hl hr)
  rw [h1, Option.bind_some]
  unfold minimise
  cases hb : X.2 with
  | none => exact ⟨_, _, _, rfl⟩
  | some br =>
    obtain ⟨Y, a, h3, h4⟩ := run_total hI (brent br) X.1 h2
    rw [Option.elim_some, h3, Option.map_some, Option.map_some]
    exact ⟨_, _, _, rfl⟩

/-- C52.  The energy that is returned is the energy at the returned step size, for both choices of the
function that is minimised; for a step size that is not positive it is the energy before the search. -/
theorem C52_result (W : Setup q D) (S S' : TDVP ℂ q D) (H0 : ℂ) (hH : S.H = some H0) (hpos : 0 < W.N)
    (hl : S.l 0 = 1) (hr : S.r W.N = 1) (hc : W.ham.Complete W.N) (hne : NonZero W S.A) (dtau : ℝ)
    (skip : Bool) (bracket : ℝ → ℝ → Client (ℝ × ℝ × ℝ)) (brent : ℝ × ℝ × ℝ → Client ℝ) (tau h : ℝ)
    (hf : findMin W S dtau skip bracket brent = some (S', .pair tau h)) :
    h = if 0 < tau then rayleigh W.ham (moved S.A (tau : ℂ) W.B) W.h0 W.hN else H0.re := by
  have hI : ∀ t X Y v, Inv W S.A H0 X → f W S.A H0 t X = some (Y, v) → Inv W S.A H0 Y :=
    fun t X Y v hX hf => (f_spec W hpos hc S.A H0 hne t X hX Y v hf).1
  have key : ∀ X, Inv W S.A H0 X → searchMin W S H0 dtau bracket brent X = some (S', .pair tau h) →
      h = if 0 < tau then rayleigh W.ham (moved S.A (tau : ℂ) W.B) W.h0 W.hN else H0.re := by
    intro X hX hs
    unfold searchMin at hs
    obtain ⟨X1, h1, h2⟩ := Option.bind_eq_some_iff.1 hs
    obtain ⟨Y, h3, h4⟩ := Option.map_eq_some_iff.1 h2
    rw [Prod.mk.injEq, Out.pair.injEq] at h4
    obtain ⟨-, rfl, rfl⟩ := h4
    have hX1 := bracketLoop_inv hI bracket _ _ _ X hX X1 h1
    unfold minimise at h3
    cases hb : X1.2 with
    | none =>
      rw [hb, Option.elim_none, Option.some.injEq] at h3
      rw [← h3]; simp
    | some br =>
      rw [hb, Option.elim_some] at h3
      obtain ⟨⟨Z, a⟩, h5, h6⟩ := Option.map_eq_some_iff.1 h3
      have hZ := run_inv hI _ X1.1 hX1 Z a h5
      cases a with
      | none => rw [← h6]; simp
      | some t =>
        rw [← h6]
        simp only [Option.elim_some]
        by_cases ht : t ∈ Z.taus
        · obtain ⟨res, e, l1, l2, l3⟩ := hZ.lookup ht
          rw [if_pos ht, l2]
          exact l3.1
        · rw [if_neg ht]; simp
  unfold findMin at hf
  rw [hH, Option.bind_some] at hf
  cases skip with
  | false => exact key _ (start_inv W S H0 hl hr) hf
  | true =>
    simp only [if_true] at hf
    obtain ⟨Y, h1, h2⟩ := Option.bind_eq_some_iff.1 hf
    obtain ⟨H, -, h3⟩ := Option.bind_eq_some_iff.1 h2
    by_cases hlt : Y.2 < H.re
    · rw [if_pos hlt] at h3
      simp at h3
    · rw [if_neg hlt] at h3
      exact key _ (hI _ _ _ _ (start_inv W S H0 hl hr) h1) h3

/-- C52.  A missing term of the Hamiltonian, which `update()` accepts, makes the first new trial point
raise. -/
theorem C52_missing_raises (W : Setup q D) (S : TDVP ℂ q D) (H0 : ℂ) (hc : ¬ W.ham.Complete W.N)
    (ho : W.overlap = false) (tau : ℝ) (ht : 0 < tau) : f W S.A H0 tau (start W S H0) = none := by
  unfold f
  rw [if_neg (not_lt.2 ht.le)]
  rw [if_neg (show tau ∉ (start W S H0).taus by simp [start, ht.ne'])]
  dsimp only
  rw [ho]
  simp only [Bool.false_eq_true, if_false]
  rw [trialEnergy_missing W hc]
  rfl

/-! ## Two sites, the direction turns the first spin over -/

/-- Two spins in the state `|00⟩`. -/
def lsA : Tensors ℂ (fun _ => 2) (fun _ => 1) := fun _ s => if s = 0 then 1 else 0

/-- The direction from `|0⟩` to `|1⟩` at the first site. -/
def lsB : BList (fun _ => 2) (fun _ => 1) := fun k =>
  if k = 0 then some fun s => if s = 0 then 1 else -1 else none

/-- `σ_z` of the first of two spins. -/
def lsHam : Ham ℂ (fun _ => 2) := .two fun _ => some fun s t u v =>
  if s = u ∧ t = v then (if s = 0 then 1 else -1) else 0

/-- The settings of the example. -/
noncomputable def lsW (P : Num) : Setup (fun _ => 2) (fun _ => 1) :=
  ⟨P, .right, 2, lsHam, rfl, rfl, fun _ => .dense 1, fun _ => .dense 1, 0, lsB, false⟩

/-- The object of the example, fully updated. -/
noncomputable def lsS : TDVP ℂ (fun _ => 2) (fun _ => 1) :=
  calcKs 2 lsHam rfl (calcCs 2 lsHam ⟨⟨lsA, fun _ => 1, fun _ => 1⟩, fun _ _ _ => 0, fun _ _ _ _ => 0,
    fun _ => none, fun _ => none, fun _ => 0, fun _ => 0, fun _ => 0, none⟩)

theorem sum_cfg_two (F : Cfg (fun _ => 2) 2 → ℂ) :
    ∑ s, F s = F ![0, 0] + F ![0, 1] + (F ![1, 0] + F ![1, 1]) := by
  rw [← (piFinTwoEquiv (fun _ : Fin 2 => Fin 2)).symm.sum_comp, Fintype.sum_prod_type]
  simp only [Fin.sum_univ_two]
  have e : ∀ a b : Fin 2, (piFinTwoEquiv (fun _ : Fin 2 => Fin 2)).symm (a, b) = ![a, b] := by
    intro a b
    funext i
    fin_cases i <;> rfl
  simp only [e]

theorem lsA_psi (s : Cfg (fun _ => 2) 2) : psi (N := 2) (D := fun _ => 1) lsA rfl rfl s
    = if s 0 = 0 ∧ s 1 = 0 then 1 else 0 := by
  have h : ∀ t : Fin 2, lsA 0 t = (if t = 0 then 1 else 0 : ℂ) • (1 : Matrix (Fin 1) (Fin 1) ℂ) := by
    intro t; fin_cases t <;> simp [lsA]
  have h' : ∀ t : Fin 2, lsA 1 t = (if t = 0 then 1 else 0 : ℂ) • (1 : Matrix (Fin 1) (Fin 1) ℂ) := h
  rw [psi, amp, amp, amp, h, h']
  by_cases h0 : s 0 = 0 <;> by_cases h1 : s 1 = 0 <;> simp [h0, h1, Fin.last]

theorem ls_energy :
    matElem (psi (N := 2) lsA rfl rfl) lsHam.total (psi (D := fun _ => 1) lsA rfl rfl) = 1 := by
  simp only [matElem, sum_cfg_two, lsA_psi, Ham.total, Ham.term, lsHam]
  simp [Finset.sum_range_succ]
  rw [siteOp2]
  simp

theorem ls_moved (x : ℝ) (s : Cfg (fun _ => 2) 2) :
    psi (N := 2) (D := fun _ => 1) (moved lsA (x : ℂ) lsB) rfl rfl s
      = (if s 0 = 0 then 1 - (x : ℂ) else x) * if s 1 = 0 then 1 else 0 := by
  have h : ∀ t : Fin 2, moved lsA (x : ℂ) lsB 0 t
      = (if t = 0 then 1 - (x : ℂ) else x) • (1 : Matrix (Fin 1) (Fin 1) ℂ) := by
    intro t
    fin_cases t <;> simp [moved, lsA, lsB, sub_smul]
  have h' : ∀ t : Fin 2, moved lsA (x : ℂ) lsB 1 t
      = (if t = 0 then 1 else 0 : ℂ) • (1 : Matrix (Fin 1) (Fin 1) ℂ) := by
    intro t; fin_cases t <;> simp [moved, lsA, lsB]
  rw [psi, amp, amp, amp, h, h']
  by_cases h0 : s 0 = 0 <;> by_cases h1 : s 1 = 0 <;> simp [h0, h1, Fin.last]

theorem ls_norm (x : ℝ) : braket (psi (N := 2) (D := fun _ => 1) (moved lsA (x : ℂ) lsB) rfl rfl)
    (psi (moved lsA (x : ℂ) lsB) rfl rfl) = (((1 - x) ^ 2 + x ^ 2 : ℝ) : ℂ) := by
  simp only [braket, sum_cfg_two, ls_moved]
  simp
  ring

theorem ls_nonZero (P : Num) : NonZero (lsW P) lsA := by
  intro x _
  have e := ls_norm x
  intro h
  have h1 := e.symm.trans h
  rw [Complex.ofReal_eq_zero] at h1
  nlinarith [sq_nonneg (1 - x), sq_nonneg x]

theorem ls_energy_moved :
    rayleigh (N := 2) (D := fun _ => 1) lsHam (moved lsA ((1 : ℝ) : ℂ) lsB) rfl rfl = -1 := by
  simp only [rayleigh, matElem, braket, sum_cfg_two, ls_moved, Ham.total, Ham.term, lsHam]
  simp [Finset.sum_range_succ]
  rw [siteOp2]
  simp

theorem ls_complete (P : Num) : (lsW P).ham.Complete (lsW P).N := by
  intro k _
  simp

/-- The object of the example is up to date, with the products of its tensors, and its energy is 1. -/
theorem ls_current : lsS.toMPS = ⟨lsA, fun _ => 1, fun _ => 1⟩ ∧ UpToDate 2 lsS.A lsS.l lsS.r ∧
    CurrentC 2 lsHam lsS ∧ lsS.H = some 1 := by
  set S0 : TDVP ℂ (fun _ => 2) (fun _ => 1) := ⟨⟨lsA, fun _ => 1, fun _ => 1⟩, fun _ _ _ => 0,
    fun _ _ _ _ => 0, fun _ => none, fun _ => none, fun _ => 0, fun _ => 0, fun _ => 0, none⟩ with hS0
  have hU : UpToDate 2 S0.A S0.l S0.r := by
    refine ⟨rfl, fun n _ => ?_, rfl, fun n _ => ?_⟩ <;> simp [S0, lsA]
  obtain ⟨k1, -, -, k4⟩ := C27_energy (N := 2) lsHam S0 hU rfl rfl (by omega)
  obtain ⟨c1, c2⟩ := calcCs_spec (N := 2) lsHam S0
  have hk : (lsS.AA = (calcCs 2 lsHam S0).AA ∧ lsS.AAA = (calcCs 2 lsHam S0).AAA) ∧
      lsS.C2 = (calcCs 2 lsHam S0).C2 ∧ lsS.C3 = (calcCs 2 lsHam S0).C3 := by
    refine List.foldlRecOn (motive := fun X : TDVP ℂ (fun _ => 2) (fun _ => 1) =>
      (X.AA = (calcCs 2 lsHam S0).AA ∧ X.AAA = (calcCs 2 lsHam S0).AAA) ∧
      X.C2 = (calcCs 2 lsHam S0).C2 ∧ X.C3 = (calcCs 2 lsHam S0).C3) _ _ ⟨⟨rfl, rfl⟩, rfl, rfl⟩
      (fun b hb k _ => ?_)
    rw [calcKIter_eq]
    exact hb
  have hA : lsS.toMPS = (calcCs 2 lsHam S0).toMPS := k4.trans c1.symm
  refine ⟨k4, ?_, ?_, ?_⟩
  · rw [show lsS.toMPS = S0.toMPS from k4]; exact hU
  · obtain ⟨d1, d2, d3, d4⟩ := c2
    refine ⟨?_, ?_, ?_, ?_⟩
    · rw [hk.1.1, hA]; exact d1
    · rw [hk.1.2, hA]; exact d2
    · rw [hk.2.1, hA]; exact d3
    · rw [hk.2.2, hA]; exact d4
  · rw [← ls_energy]; exact k1

/-- One evaluation at step size 1. -/
theorem ls_trial (P : Num) : ∃ S' : TDVP ℂ (fun _ => 2) (fun _ => 1),
    f (lsW P) lsS.A 1 1 (start (lsW P) lsS 1)
      = some ({ start (lsW P) lsS 1 with S := S' }.push 1 (-1) (-1), -1) ∧ S'.H = some 1 ∧
      CurrentC 2 lsHam S' ∧ ∃ G : ℝ, 0 < G ∧ S'.A 0 = (fun s => if s = 0 then 0 else 1) ∧
        S'.A 1 = fun s => if s = 0 then (G : ℂ) • 1 else 0 := by
  obtain ⟨e1, e2, e3, e4⟩ := ls_current
  have hA : lsS.A = lsA := by rw [e1]
  have hI := start_inv (lsW P) lsS 1 e2.l_zero e2.r_last
  obtain ⟨S', t1, t2, t3, t4, G, hG, t5⟩ := trialEnergy_spec (lsW P) (show 0 < 2 by omega) (ls_complete P) lsS.A 1 lsS
    hI.good (by rw [hA]; exact ls_nonZero P 1 one_pos)
  refine ⟨S', ?_, t4.trans e4, t3, G, hG, ?_, ?_⟩
  · unfold f
    rw [if_neg (by norm_num), if_neg (by simp [start])]
    dsimp only
    have : (start (lsW P) lsS 1).S = lsS := rfl
    rw [show (lsW P).overlap = false from rfl, this]
    simp only [Bool.false_eq_true, if_false]
    rw [t1]
    simp only [Option.map_some]
    have hv : rayleigh (N := (lsW P).N) (lsW P).ham (moved lsA ((1 : ℝ) : ℂ) (lsW P).B) (lsW P).h0 (lsW P).hN
        = -1 := ls_energy_moved
    rw [hA, hv]
  · rw [t5, hA]
    funext s
    change scaleLast 1 (G : ℂ) (trialTensors 2 lsA lsB 1 lsA) 0 s = _
    rw [scaleLast, Function.update_of_ne (by omega), trialTensors_spec]
    fin_cases s <;> simp [lsA, lsB]
  · rw [t5, hA]
    funext s
    change scaleLast 1 (G : ℂ) (trialTensors 2 lsA lsB 1 lsA) 1 s = _
    rw [scaleLast, Function.update_self, trialTensors_spec]
    fin_cases s <;> simp [lsA, lsB]

/-- C52 is false for the cached products.  Two spins `|00⟩`, up to date with energy 1: a search with a
single trial point leaves products that do not belong to the tensors, and the expectation value of the
Hamiltonian term measured afterwards is 0 instead of 1. -/
theorem C52_products_violated (P : Num) :
    ∃ (bracket : ℝ → ℝ → Client (ℝ × ℝ × ℝ)) (brent : ℝ × ℝ × ℝ → Client ℝ)
      (S' : TDVP ℂ (fun _ => 2) (fun _ => 1)) (tau h : ℝ),
      UpToDate 2 lsS.A lsS.l lsS.r ∧ CurrentC 2 lsHam lsS ∧
      findMin (lsW P) lsS 1 false bracket brent = some (S', .pair tau h) ∧
      S'.AA 0 ≠ calcAA (S'.A 0) (S'.A 1) ∧
      expectTerm lsHam lsS 0 = some 1 ∧ expectTerm lsHam S' 0 = some 0 := by
  obtain ⟨e1, e2, e3, e4⟩ := ls_current
  have hA : lsS.A = lsA := by rw [e1]
  obtain ⟨S1, t1, t2, t3, G, hG, a0, a1⟩ := ls_trial P
  have hC : lsS.C2 0 = some (calcC (fun s t u v =>
      if s = u ∧ t = v then (if s = 0 then 1 else -1) else 0) (calcAA (lsA 0) (lsA 1))) := by
    have := e3.C2 _ rfl 0 (by omega)
    rwa [hA] at this
  refine ⟨fun _ _ => .ret (0, 1, 2), fun _ => .ask 1 fun _ => .ret 1, restore lsS S1, 1, -1, e2, e3, ?_, ?_,
    ?_, ?_⟩
  · unfold findMin
    rw [e4, Option.bind_some]
    simp only [Bool.false_eq_true, if_false]
    unfold searchMin
    simp only [bracketLoop, Client.run, Option.bind_some, Option.elim_some, minimise, t1, Option.map_some]
    simp [start, Search.push]
  · have h1 : (restore lsS S1).AA 0 = calcAA (S1.A 0) (S1.A 1) := t3.AA 0 (by omega)
    have h2 : (restore lsS S1).A = lsA := hA
    rw [h1, h2, a0, a1]
    intro h
    have := congrFun (congrFun (congrFun (congrFun h 1) 0) 0) 0
    simp [calcAA, lsA] at this
    exact hG.ne' this
  · have hl : lsS.l = fun _ => 1 := by rw [e1]
    have hr : lsS.r = fun _ => 1 := by rw [e1]
    simp only [expectTerm, lsHam, Option.bind_some, hC, Option.map_some, hl, hr]
    rw [e3.AA 0 (by omega), hA, adot_eq_trace, epsR2_eq]
    simp [calcC_eq, calcAA, lsA, Fin.sum_univ_two]
  · have hl : (restore lsS S1).l = fun _ => 1 := by change lsS.l = _; rw [e1]
    have hr : (restore lsS S1).r = fun _ => 1 := by change lsS.r = _; rw [e1]
    have hC' : (restore lsS S1).C2 0 = lsS.C2 0 := rfl
    simp only [expectTerm, lsHam, Option.bind_some, hC', hC, Option.map_some, hl, hr]
    rw [show (restore lsS S1).AA 0 = calcAA (S1.A 0) (S1.A 1) from t3.AA 0 (by omega), adot_eq_trace, epsR2_eq,
      a0, a1]
    simp [calcC_eq, calcAA, lsA, Fin.sum_univ_two]

/-- C52 is false with `skipIfLower=True`: if the first trial point has a lower energy, a single number is
returned and the tensors are those of the trial point. -/
theorem C52_skip_violated (P : Num) (bracket : ℝ → ℝ → Client (ℝ × ℝ × ℝ)) (brent : ℝ × ℝ × ℝ → Client ℝ) :
    ∃ S', findMin (lsW P) lsS 1 true bracket brent = some (S', .scalar 1) ∧ S'.A ≠ lsS.A := by
  obtain ⟨e1, e2, e3, e4⟩ := ls_current
  have hA : lsS.A = lsA := by rw [e1]
  obtain ⟨S1, t1, t2, t3, G, hG, a0, a1⟩ := ls_trial P
  refine ⟨S1, ?_, ?_⟩
  · unfold findMin
    rw [e4, Option.bind_some]
    simp only [if_true]
    rw [t1, Option.bind_some]
    simp only [Search.push, t2, Option.bind_some]
    rw [if_pos (by norm_num)]
  · intro h
    have h1 := congrFun (congrFun (congrFun (congrFun h 0) 0) 0) 0
    rw [a0, hA] at h1
    simp [lsA] at h1

/-- The hypotheses of the C52 theorems hold for the example, for every client. -/
example (P : Num) (bracket : ℝ → ℝ → Client (ℝ × ℝ × ℝ)) (brent : ℝ × ℝ × ℝ → Client ℝ) :=
  C52_returns (lsW P) lsS 1 ls_current.2.2.2 (show 0 < 2 by omega) ls_current.2.1.l_zero ls_current.2.1.r_last
    (ls_complete P) (by rw [show lsS.A = lsA by rw [ls_current.1]]; exact ls_nonZero P) rfl 1 bracket brent

end EvoMPS
