import Verif.SweepInv
import Verif.Props.SplitStep

/-!
# The whole sweep (helper lemmas)
-/

set_option linter.unusedSectionVars false

namespace EvoMPS

open Matrix Split Eff

namespace Sweep

/-! ## The operations in order -/

section
variable {σ : Type}

/-- The operations of a one-site run. -/
def sweepOps (N : ℕ) (a : Args) (cb : Bool) (k : ℕ) : List Op :=
  ((upTo N).reverse.flatMap fun n => [.heffR n]) ++ (List.range k).flatMap fun i =>
    (upTo N).flatMap (rightOps N a false) ++ ((upTo N).reverse.flatMap (leftOps a false) ++ if cb then [.cb i] else [])

theorem forEach_runs {α : Type} {O : Obj σ} {f : α → World σ → Option (World σ)} {g : α → List Op}
    (h : ∀ x w, f x w = runs O (g x) w) : ∀ (xs : List α) (w : World σ), forEach f xs w = runs O (xs.flatMap g) w
  | [], w => rfl
  | x :: xs, w => by
    rw [forEach, List.flatMap_cons, runs_append, h]
    congr 1
    funext w
    exact forEach_runs h xs w

theorem evolveSplit_runs (O : Obj σ) (dtau : ℂ) (k : ℕ) (dmrg sw : Bool) (Dmax : Option ℕ) (cb : Bool) (w : World σ) :
    evolveSplit O dtau k dmrg false sw Dmax cb w
      = runs O (sweepOps O.N ⟨(splitTime dtau).2 / 2, dmrg, false, sw, Dmax⟩ cb k) w := by
  set a : Args := ⟨(splitTime dtau).2 / 2, dmrg, false, sw, Dmax⟩ with ha
  have h1 : ∀ n w, run O (.heffR n) w = runs O [.heffR n] w := fun n w => by simp [runs]
  have h2 : ∀ n w, rightIter O a n w = runs O (rightOps O.N a false n) w := fun n w => by
    rw [rightIter_eq, useTwo]
    rfl
  have h3 : ∀ n w, leftIter O a n w = runs O (leftOps a false n) w := fun n w => by
    rw [leftIter_eq, useTwo]
    rfl
  have h4 : ∀ i w, step O a cb i w = runs O ((upTo O.N).flatMap (rightOps O.N a false) ++
      ((upTo O.N).reverse.flatMap (leftOps a false) ++ if cb then [.cb i] else [])) w := fun i w => by
    rw [step, forEach_runs h2, runs_append]
    congr 1
    funext w
    rw [forEach_runs h3, runs_append]
    congr 1
    funext w
    cases cb <;> simp [runs]
  rw [evolveSplit, sweepOps, runs_append, forEach_runs h1]
  congr 1
  funext w
  exact forEach_runs h4 _ _

theorem sweep_checks (N : ℕ) (hN : 1 ≤ N) (dtau : ℂ) (k : ℕ) (dmrg sw : Bool) (Dmax : Option ℕ) (cb : Bool) :
    ∃ e, checks N ⟨.site 1, 0, N + 1⟩ (sweepOps N ⟨(splitTime dtau).2 / 2, dmrg, false, sw, Dmax⟩ cb k) = some e ∧
      e.centre = .site 1 ∧ e.right ≤ 2 := by
  let O : Obj Unit := ⟨N, N + 1, fun _ => 1, fun _ _ => 1, fun _ s => some s⟩
  obtain ⟨w', hw'⟩ := runs_returns (O := O) (fun _ _ => by simp [O])
    (sweepOps N ⟨(splitTime dtau).2 / 2, dmrg, false, sw, Dmax⟩ cb k) ⟨(), []⟩
  have h : evolveSplit O dtau k dmrg false sw Dmax cb ⟨(), []⟩ = some w' := by
    rw [evolveSplit_runs]
    exact hw'
  obtain ⟨ops, e, ho, hc, h1, h2⟩ := C35_environments O hN dtau k dmrg false sw Dmax cb _ _ h
  rw [runs_log hw'] at ho
  simp only [List.nil_append] at ho
  rw [← ho] at hc
  exact ⟨e, hc, h1, h2⟩

/-- The sites that are optimised. -/
def opt : Op → Option ℕ
  | .optSite n => some n
  | _ => none

theorem flatMap_nil {α β : Type} {l : List α} {g : α → List β} (h : ∀ x ∈ l, g x = []) : l.flatMap g = [] :=
  List.flatMap_eq_nil_iff.2 h

theorem flatMap_range {β : Type} (l : List β) (k : ℕ) : ((List.range k).flatMap fun _ => l) = (List.replicate k l).flatten := by
  induction k with
  | zero => rfl
  | succ k ih => rw [List.range_succ, List.flatMap_append, ih, List.replicate_succ']; simp [List.flatten_append]

theorem filterMap_sweep {β : Type} (f : Op → Option β) (h1 : ∀ n, f (.heffR n) = none) (h2 : ∀ i, f (.cb i) = none)
    (N : ℕ) (a : Args) (cb : Bool) (k : ℕ) : (sweepOps N a cb k).filterMap f
      = (List.replicate k (((upTo N).flatMap (rightOps N a false)).filterMap f
        ++ ((upTo N).reverse.flatMap (leftOps a false)).filterMap f)).flatten := by
  rw [sweepOps, List.filterMap_append, List.filterMap_flatMap, flatMap_nil, List.nil_append, List.filterMap_flatMap,
    ← flatMap_range]
  · congr 1
    funext i
    rw [List.filterMap_append, List.filterMap_append]
    cases cb <;> simp [h2]
  · intro n _
    simp [h1]

theorem opt_evolve (N : ℕ) (a : Args) (hd : a.dmrg = false) (cb : Bool) (k : ℕ) :
    (sweepOps N a cb k).filterMap opt = [] := by
  rw [filterMap_sweep opt (fun _ => rfl) fun _ => rfl, List.filterMap_flatMap, List.filterMap_flatMap, flatMap_nil,
    flatMap_nil]
  · simp
  · intro n _
    by_cases h : 1 < n <;> simp [leftOps, left1Ops, hd, opt, h]
  · intro n _
    by_cases h : n < N <;> simp [rightOps, right1Ops, hd, opt, h]

theorem evolution_dmrg (N : ℕ) (a : Args) (hd : a.dmrg = true) (cb : Bool) (k : ℕ) :
    (sweepOps N a cb k).filterMap evolution = [] := by
  rw [filterMap_sweep evolution (fun _ => rfl) fun _ => rfl, List.filterMap_flatMap, List.filterMap_flatMap, flatMap_nil,
    flatMap_nil]
  · simp
  · intro n _
    by_cases h : 1 < n <;> simp [leftOps, left1Ops, hd, evolution, h]
  · intro n _
    by_cases h : n < N <;> simp [rightOps, right1Ops, hd, evolution, h]

theorem flatMap_single {α : Type} (l : List α) : (l.flatMap fun x => [x]) = l := by
  induction l with
  | nil => rfl
  | cons x l ih => rw [List.flatMap_cons, ih]; rfl

theorem opt_dmrg (N : ℕ) (a : Args) (hd : a.dmrg = true) (cb : Bool) (k : ℕ) :
    (sweepOps N a cb k).filterMap opt
      = (List.replicate k (List.range' 1 N ++ (List.range' 1 N).reverse)).flatten := by
  rw [filterMap_sweep opt (fun _ => rfl) fun _ => rfl, List.filterMap_flatMap, List.filterMap_flatMap]
  congr 2
  · congr 1
    · rw [← flatMap_single (List.range' 1 N), upTo]
      refine flatMap_congr' fun n _ => ?_
      by_cases h : n < N <;> simp [rightOps, right1Ops, hd, opt, h]
    · rw [← flatMap_single (List.range' 1 N).reverse, upTo]
      refine flatMap_congr' fun n _ => ?_
      by_cases h : 1 < n <;> simp [leftOps, left1Ops, hd, opt, h]

theorem evolution_evolve (N : ℕ) (hN : 1 ≤ N) (a : Args) (hd : a.dmrg = false) (cb : Bool) (k : ℕ) :
    (sweepOps N a cb k).filterMap evolution = (List.replicate k (half1 N a.h ++ (half1 N a.h).reverse)).flatten := by
  rw [filterMap_sweep evolution (fun _ => rfl) fun _ => rfl]
  have h1 := right_half1 N a hN hd
  have h2 := left_half1 N a hN hd
  rw [evolutions] at h1 h2
  rw [h1, h2]

end

/-! ## The state vectors -/

theorem Steps.filterMap {α β V : Type*} {R : α → V → V → Prop} {R' : β → V → V → Prop} (f : α → Option β)
    {l : List α} {u v : V} (h : Steps R l u v)
    (h1 : ∀ a ∈ l, ∀ b, f a = some b → ∀ u v, R a u v → R' b u v)
    (h2 : ∀ a ∈ l, f a = none → ∀ u v, R a u v → v = u) : Steps R' (l.filterMap f) u v := by
  induction h with
  | nil v => exact .nil v
  | @cons a l u v w hs _ ih =>
    have ih := ih (fun a ha => h1 a (List.mem_cons_of_mem _ ha)) fun a ha => h2 a (List.mem_cons_of_mem _ ha)
    cases hf : f a with
    | none =>
      rw [List.filterMap_cons_none hf]
      rwa [h2 a List.mem_cons_self hf _ _ hs] at ih
    | some b =>
      rw [List.filterMap_cons_some hf]
      exact .cons (h1 a List.mem_cons_self b hf _ _ hs) ih

section
variable {q D : ℕ → ℕ} {N : ℕ}

theorem inv_start (ham : Ham ℂ q) (A : Tensors ℂ q D) (hA : ∀ n, 1 ≤ n → n < N → ROrth (A n)) :
    Inv N ham (start A) ⟨.site 1, 0, N + 1⟩ := by
  have hs := sites_pos ham
  refine ⟨fun m hm => ?_, hA, ⟨fun n _ => rfl, fun j hj => ?_⟩, fun n h1 h2 => ?_, by simp, fun _ _ => rfl⟩
  · simp [lo] at hm
  · simp only at hj
    omega
  · simp only [Nat.add_sub_cancel] at h1
    rw [if_neg (by omega)]
    rfl

theorem path_spec (h0 : D 0 = 1) (hN : D N = 1) {qr : QR ℂ} {L : Solvers} (hL : L.Ok) {ham : Ham ℂ q} {fac : ℂ} :
    ∀ {ops : List Op} {w w' : World (St q D)} {e e' : Env},
    ((∃ n, .optSite n ∈ ops) → (Matrix.of (ham.total (N := N))).IsHermitian) → Inv N ham w.s e →
    checks N e ops = some e' → runs (obj qr L N ham fac) ops w = some w' →
    Inv N ham w'.s e' ∧ Steps (Rel D (Matrix.of (ham.total (N := N))) h0 hN fac) ops (vec w.s h0 hN e.centre)
      (vec w'.s h0 hN e'.centre)
  | [], w, w', e, e', _, hi, hc, hr => by
    obtain rfl := Option.some.inj hc
    obtain rfl := Option.some.inj hr
    exact ⟨hi, .nil _⟩
  | o :: ops, w, w', e, e', hh, hi, hc, hr => by
    rw [checks_cons, Option.bind_eq_some_iff] at hc
    obtain ⟨e1, c1, c2⟩ := hc
    rw [runs, Option.bind_eq_some_iff] at hr
    obtain ⟨w1, r1, r2⟩ := hr
    obtain ⟨i1, s1⟩ := step_spec h0 hN hL (fun ⟨n, hn⟩ => hh ⟨n, by rw [hn]; exact List.mem_cons_self⟩) hi c1
      (run_some.1 r1).1
    obtain ⟨i2, s2⟩ := path_spec h0 hN hL (fun ⟨n, hn⟩ => hh ⟨n, List.mem_cons_of_mem _ hn⟩) i1 c2 r2
    exact ⟨i2, .cons s1 s2⟩

/-! ## Energy -/

section
variable {H P : Matrix (Cfg q N) (Cfg q N) ℂ} {V : Set (Cfg q N → ℂ)}

theorem unitVec_braket {φ : Cfg q N → ℂ} (h : φ ≠ 0) : braket (unitVec φ) (unitVec φ) = 1 := normed_dot h

theorem meanE_unitVec (φ : Cfg q N → ℂ) (h : φ ≠ 0) : meanE H (unitVec φ) = meanE H φ := by
  have hp : 0 < (braket φ φ).re := dot_self_pos h
  have hs : Real.sqrt (braket φ φ).re ≠ 0 := (Real.sqrt_pos.2 hp).ne'
  rw [meanE, unitVec_braket h, meanE, unitVec]
  set c := Real.sqrt (braket φ φ).re with hc
  have h1 : (braket φ φ).re = c * c := (Real.mul_self_sqrt hp.le).symm
  rw [matElem_dot, matElem_dot, Matrix.mulVec_smul, star_smul, smul_dotProduct, dotProduct_smul, smul_smul, h1,
    star_inv₀, Complex.star_def, Complex.conj_ofReal, ← Complex.ofReal_inv, ← Complex.ofReal_mul, smul_eq_mul,
    Complex.re_ofReal_mul, Complex.one_re]
  field_simp

theorem exp_unitary (M : Matrix (Cfg q N) (Cfg q N) ℂ) (hM : M.IsHermitian) (t : ℝ) :
    (NormedSpace.exp (((t : ℂ) * Complex.I) • M))ᴴ * NormedSpace.exp (((t : ℂ) * Complex.I) • M) = 1 := by
  rw [← Matrix.exp_conjTranspose]
  have : (((t : ℂ) * Complex.I) • M)ᴴ = -(((t : ℂ) * Complex.I) • M) := by
    rw [Matrix.conjTranspose_smul, hM.eq, ← neg_smul]
    congr 1
    simp
  have hc : Commute (-(((t : ℂ) * Complex.I) • M)) (((t : ℂ) * Complex.I) • M) := by
    rw [Commute, SemiconjBy, Matrix.neg_mul, Matrix.mul_neg]
  rw [this, ← Matrix.exp_add_of_commute _ _ hc, neg_add_cancel, NormedSpace.exp_zero]

theorem exp_comm (M : Matrix (Cfg q N) (Cfg q N) ℂ) (c : ℂ) :
    M * NormedSpace.exp (c • M) = NormedSpace.exp (c • M) * M :=
  (exp_intertwine (A := c • M) (W := M) (B := c • M) (by simp)).symm

/-- Evolution in real time in a subspace keeps the energy. -/
theorem Evolved.energy (hH : H.IsHermitian) {t : ℝ} {ψ ψ' : Cfg q N → ℂ} (h : Evolved H V (t * Complex.I) ψ ψ')
    (h0 : ψ ≠ 0) : braket ψ' ψ' = 1 ∧ meanE H ψ' = meanE H ψ := by
  obtain ⟨hψ, P, hP, rfl⟩ := h
  have hM : (P * H * P).IsHermitian := by
    rw [Matrix.IsHermitian, Matrix.conjTranspose_mul, Matrix.conjTranspose_mul, hP.herm.eq, hH.eq, Matrix.mul_assoc]
  set M := P * H * P with hMdef
  set U := NormedSpace.exp (((t : ℂ) * Complex.I) • M) with hU
  have hUU : Uᴴ * U = 1 := exp_unitary M hM t
  have hψP : P *ᵥ ψ = ψ := (hP.range ψ).1 hψ
  have hbk : braket (U *ᵥ ψ) (U *ᵥ ψ) = braket ψ ψ := by
    rw [braket_dot, braket_dot, star_mulVec, ← Matrix.dotProduct_mulVec, Matrix.mulVec_mulVec, hUU, Matrix.one_mulVec]
  have hPU : P * U = U * P := by
    refine (exp_intertwine (W := P) ?_).symm
    rw [hMdef, Matrix.smul_mul, Matrix.mul_smul, Matrix.mul_assoc _ P P, hP.idem, ← Matrix.mul_assoc,
      ← Matrix.mul_assoc, hP.idem]
  have hPUψ : P *ᵥ (U *ᵥ ψ) = U *ᵥ ψ := by
    rw [Matrix.mulVec_mulVec, hPU, ← Matrix.mulVec_mulVec, hψP]
  have hproj : ∀ φ : Cfg q N → ℂ, P *ᵥ φ = φ → matElem φ H φ = matElem φ M φ := fun φ hφ => by
    have e : star φ ⬝ᵥ (M *ᵥ φ) = star (P *ᵥ φ) ⬝ᵥ (H *ᵥ (P *ᵥ φ)) := by
      rw [star_mulVec, ← Matrix.dotProduct_mulVec, Matrix.mulVec_mulVec, Matrix.mulVec_mulVec, hP.herm.eq]
    rw [matElem_dot, matElem_dot, e, hφ]
  have hMU : M * U = U * M := exp_comm M _
  clear_value M U
  have hme : matElem (U *ᵥ ψ) H (U *ᵥ ψ) = matElem ψ H ψ := by
    rw [hproj _ hPUψ, hproj _ hψP, matElem_dot, matElem_dot, star_mulVec, ← Matrix.dotProduct_mulVec,
      Matrix.mulVec_mulVec, Matrix.mulVec_mulVec, Matrix.mul_assoc, hMU, ← Matrix.mul_assoc, hUU, Matrix.one_mul]
  have hne : U *ᵥ ψ ≠ 0 := by
    intro hz
    rw [hz] at hbk
    have := dot_self_pos h0
    rw [← braket_dot, ← hbk] at this
    simp [braket] at this
  exact ⟨unitVec_braket hne, by rw [meanE_unitVec _ hne, meanE, meanE, hme, hbk]⟩

theorem Evolved.ne_zero {c : ℂ} {ψ ψ' : Cfg q N → ℂ} (h : Evolved H V c ψ ψ') (h0 : ψ ≠ 0) : braket ψ' ψ' = 1 := by
  obtain ⟨-, P, -, rfl⟩ := h
  refine unitVec_braket fun hz => h0 ?_
  have hc : Commute (-(c • (P * H * P))) (c • (P * H * P)) := by
    rw [Commute, SemiconjBy, Matrix.neg_mul, Matrix.mul_neg]
  have e : NormedSpace.exp (-(c • (P * H * P))) * NormedSpace.exp (c • (P * H * P)) = 1 := by
    rw [← Matrix.exp_add_of_commute _ _ hc, neg_add_cancel, NormedSpace.exp_zero]
  rw [← Matrix.one_mulVec ψ, ← e, ← Matrix.mulVec_mulVec, hz, Matrix.mulVec_zero]

theorem Optimal.energy {ψ ψ' : Cfg q N → ℂ} (h : Optimal H V ψ') (hψ : ψ ∈ V) (h0 : ψ ≠ 0) :
    meanE H ψ' ≤ meanE H ψ := by
  have hp : 0 < (braket ψ ψ).re := dot_self_pos h0
  rw [meanE, meanE, h.2.1, Complex.one_re, div_one, le_div_iff₀ hp]
  exact h.2.2 ψ hψ

theorem ne_zero_of {ψ : Cfg q N → ℂ} (h : braket ψ ψ = 1) : ψ ≠ 0 := by
  rintro rfl
  simp [braket] at h

theorem EvoStep.norm {fac : ℂ} {h0 : D 0 = 1} {hN : D N = 1} {x : Loc × ℝ} {ψ ψ' : Cfg q N → ℂ}
    (h : EvoStep D H h0 hN fac x ψ ψ') (hψ : ψ ≠ 0) : braket ψ' ψ' = 1 := by
  obtain ⟨x, t⟩ := x
  match x, h with
  | .site (k + 1), h =>
    obtain ⟨-, A, -, h⟩ := h
    exact Evolved.ne_zero h hψ
  | .bond (k + 1), h =>
    obtain ⟨-, A, -, -, h⟩ := h
    exact Evolved.ne_zero h hψ
  | .site 0, h => exact h.elim
  | .bond 0, h => exact h.elim
  | .pair _, h => exact h.elim

theorem EvoStep.energy (hH : H.IsHermitian) {h0 : D 0 = 1} {hN : D N = 1} {x : Loc × ℝ} {ψ ψ' : Cfg q N → ℂ}
    (h : EvoStep D H h0 hN Complex.I x ψ ψ') (hψ : ψ ≠ 0) : meanE H ψ' = meanE H ψ := by
  obtain ⟨x, t⟩ := x
  match x, h with
  | .site (k + 1), h =>
    obtain ⟨-, A, -, h⟩ := h
    exact (Evolved.energy hH h hψ).2
  | .bond (k + 1), h =>
    obtain ⟨-, A, -, -, h⟩ := h
    exact (Evolved.energy hH h hψ).2
  | .site 0, h => exact h.elim
  | .bond 0, h => exact h.elim
  | .pair _, h => exact h.elim

theorem OptStep.energy {h0 : D 0 = 1} {hN : D N = 1} {n : ℕ} {ψ ψ' : Cfg q N → ℂ}
    (h : OptStep D H h0 hN n ψ ψ') (hψ : ψ ≠ 0) : braket ψ' ψ' = 1 ∧ meanE H ψ' ≤ meanE H ψ := by
  match n, h with
  | k + 1, h =>
    obtain ⟨-, A, -, h1, h⟩ := h
    exact ⟨h.2.1, Optimal.energy h h1 hψ⟩
  | 0, h => exact h.elim

theorem Rel.ne_zero {fac : ℂ} {h0 : D 0 = 1} {hN : D N = 1} {o : Op} {ψ ψ' : Cfg q N → ℂ}
    (h : Rel D H h0 hN fac o ψ ψ') (hψ : ψ ≠ 0) : ψ' ≠ 0 := by
  cases o with
  | site n t => exact ne_zero_of (EvoStep.norm h hψ)
  | bond n t => exact ne_zero_of (EvoStep.norm h hψ)
  | optSite n => exact ne_zero_of (OptStep.energy h hψ).1
  | _ =>
    have : ψ' = ψ := h
    rwa [this]

end

/-! ## Progress -/

/-- Operations on single sites and bonds. -/
def OneSite : Op → Prop
  | .pair .. => False
  | .optPair .. => False
  | _ => True

theorem oneSite_sweep (N : ℕ) (dtau : ℝ) (dmrg sw : Bool) (Dmax : Option ℕ) (cb : Bool) (k : ℕ) :
    ∀ o ∈ sweepOps N ⟨dtau, dmrg, false, sw, Dmax⟩ cb k, OneSite o := by
  intro o ho
  simp only [sweepOps, List.mem_append, List.mem_flatMap] at ho
  rcases ho with ⟨n, -, ho⟩ | ⟨i, -, ⟨n, -, ho⟩ | ⟨n, -, ho⟩ | ho⟩
  · simp only [List.mem_singleton] at ho
    subst ho
    trivial
  · refine (?_ : ∀ o ∈ rightOps N _ false n, OneSite o) o ho
    by_cases h : n < N <;> cases dmrg <;> simp [rightOps, right1Ops, h, OneSite]
  · refine (?_ : ∀ o ∈ leftOps _ false n, OneSite o) o ho
    by_cases h : 1 < n <;> cases dmrg <;> simp [leftOps, left1Ops, h, OneSite]
  · cases cb
    · simp at ho
    · simp only [if_true, List.mem_singleton] at ho
      subst ho
      trivial

theorem heffLeft_isSome {ham : Ham ℂ q} (hham : ∀ j, j + ham.sites ≤ N → Has ham j) {A : Tensors ℂ q D}
    {KL : OptEnvs ℂ D} {k : ℕ} (hk : k < N) : (heffLeft ham A KL k).isSome := by
  cases ham with
  | two h =>
    cases k with
    | zero => rfl
    | succ k =>
      rw [heffLeft, Option.isSome_map]
      exact hham k (by simp only [Ham.sites]; omega)
  | three h =>
    match k with
    | 0 => rfl
    | 1 => rfl
    | k + 2 =>
      rw [heffLeft, Option.isSome_map]
      exact hham k (by simp only [Ham.sites]; omega)

theorem heffRight_isSome {ham : Ham ℂ q} (hham : ∀ j, j + ham.sites ≤ N → Has ham j) {A : Tensors ℂ q D}
    {KR : OptEnvs ℂ D} {k : ℕ} : (heffRight N ham A KR k).isSome := by
  cases ham with
  | two h =>
    rw [heffRight]
    split
    · rw [Option.isSome_map]
      exact hham k (by simp only [Ham.sites]; omega)
    · rfl
  | three h =>
    rw [heffRight]
    split
    · rw [Option.isSome_map]
      exact hham k (by simp only [Ham.sites]; omega)
    · rfl

theorem Dims.pos (h0 : D 0 = 1) (hN : D N = 1) (h : Dims q D N) {k : ℕ} (hk : k ≤ N) : 1 ≤ D k := by
  rcases Nat.eq_zero_or_pos k with rfl | hp
  · omega
  · rcases Nat.eq_or_lt_of_le hk with rfl | hl
    · omega
    · have := h.bond k hp hl
      omega

theorem vec_site {S : St q D} (h0 : D 0 = 1) (hN : D N = 1) {k : ℕ} (hk : k < N) (h : psi (N := N) S.A h0 hN ≠ 0) :
    flatT (S.A k) ≠ 0 := by
  intro hz
  apply h
  have e : (siteT S.A h0 hN k hk) (flatT (S.A k)) = psi S.A h0 hN := oneSite_same h0 hN k
  rw [← e, hz, map_zero]

theorem vec_bond {S : St q D} (h0 : D 0 = 1) (hN : D N = 1) {k : ℕ} (hk : k < N)
    (h : oneSite (N := N) S.A h0 hN k (fun s => S.A k s * S.G (k + 1)) ≠ 0) : flatM (S.G (k + 1)) ≠ 0 := by
  intro hz
  apply h
  have e : (bondT S.A h0 hN k hk) (flatM (S.G (k + 1))) = oneSite S.A h0 hN k (fun s => S.A k s * S.G (k + 1)) := rfl
  rw [← e, hz, map_zero]

theorem step_returns (h0 : D 0 = 1) (hN : D N = 1) {qr : QR ℂ} {L : Solvers} (hL : L.Returns) {ham : Ham ℂ q} {fac : ℂ}
    (hD : Dims q D N) (hham : ∀ j, j + ham.sites ≤ N → Has ham j) {o : Op} {S : St q D} {e e' : Env}
    (hherm : (∃ n, o = .optSite n) → (Matrix.of (ham.total (N := N))).IsHermitian) (ho : OneSite o)
    (h : Inv N ham S e) (hc : check N e o = some e') (hv : vec (N := N) S h0 hN e.centre ≠ 0) :
    (act qr L N ham fac o S).isSome := by
  have cardS : ∀ {k}, k < N → 2 ≤ Fintype.card (Fin (q k) × Fin (D k) × Fin (D (k + 1))) := fun {k} hk => by
    rw [Fintype.card_prod, Fintype.card_prod, Fintype.card_fin, Fintype.card_fin, Fintype.card_fin]
    have h1 := hD.site k hk
    have h2 := hD.pos h0 hN (k := k) (by omega)
    have h3 := hD.pos h0 hN (k := k + 1) (by omega)
    calc 2 ≤ q k * (1 * 1) := by omega
      _ ≤ _ := Nat.mul_le_mul_left _ (Nat.mul_le_mul h2 h3)
  cases o with
  | site n t =>
    match n with
    | 0 => simp [check] at hc
    | k + 1 =>
      simp only [check] at hc
      split at hc
      · next hcond =>
        obtain ⟨c1, c2, c3, c4, c5⟩ := hcond
        have hk : k < N := by omega
        rw [act, Option.isSome_map]
        rw [c1] at hv
        have hop := site_op h0 hN hk (central_of h c1) (IsLeft.congr h.left (by omega) fun _ _ => rfl)
          (IsRight.congr h.right (by omega) fun _ _ _ => rfl) fac
        rcases hop with hop | hop
        · have h1 := hop (flatT (S.A k))
          have h2 := (site_isSome ham S.A k hk (S.KL k) (S.KR (k + 1)) fac (tens (flatT (S.A k)))).2
            fun j _ _ hj => hham j hj
          rw [Option.map_eq_none_iff] at h1
          rw [h1] at h2
          exact absurd h2 (by simp)
        · exact hL.expmv _ _ _ _ (cardS hk) (vec_site h0 hN hk hv) hop
      · exact absurd hc (by simp)
  | bond n t =>
    match n with
    | 0 => simp [check] at hc
    | k + 1 =>
      simp only [check] at hc
      split at hc
      · next hcond =>
        obtain ⟨c1, c2, c3, c4, c5⟩ := hcond
        have hk : k + 1 < N := by omega
        rw [act, Option.isSome_map]
        rw [c1] at hv
        have gl := h.gaugeL
        have gr := h.gaugeR
        rw [c1] at gl gr
        simp only [lo, hi] at gl gr
        have hcen : Central N S.A k := ⟨fun n hn => gl n (by omega), fun n a b => gr n a b⟩
        have hop := bond_op h0 hN hk hcen (gl k (by omega)) (IsLeft.congr h.left (by omega) fun _ _ => rfl)
          (IsRight.congr h.right (by omega) fun _ _ _ => rfl) fac
        rcases hop with hop | hop
        · have h1 := hop (flatM (S.G (k + 1)))
          have h2 := (bond_isSome ham S.A k hk (S.KL (k + 1)) (S.KR (k + 1)) fac (mat (flatM (S.G (k + 1))))).2
            fun j _ _ hj => hham j hj
          rw [Option.map_eq_none_iff] at h1
          rw [h1] at h2
          exact absurd h2 (by simp)
        · refine hL.expmv _ _ _ _ ?_ (vec_bond h0 hN (by omega) hv) hop
          rw [Fintype.card_prod, Fintype.card_fin]
          have := hD.bond (k + 1) (by omega) hk
          nlinarith
      · exact absurd hc (by simp)
  | optSite n =>
    match n with
    | 0 => simp [check] at hc
    | k + 1 =>
      simp only [check] at hc
      split at hc
      · next hcond =>
        obtain ⟨c1, c2, c3, c4, c5⟩ := hcond
        have hk : k < N := by omega
        rw [act, Option.isSome_map]
        rw [c1] at hv
        have hop := site_op h0 hN hk (central_of h c1) (IsLeft.congr h.left (by omega) fun _ _ => rfl)
          (IsRight.congr h.right (by omega) fun _ _ _ => rfl) 1
        rcases hop with hop | hop
        · have h1 := hop (flatT (S.A k))
          have h2 := (site_isSome ham S.A k hk (S.KL k) (S.KR (k + 1)) 1 (tens (flatT (S.A k)))).2
            fun j _ _ hj => hham j hj
          rw [Option.map_eq_none_iff] at h1
          rw [h1] at h2
          exact absurd h2 (by simp)
        · simp only [one_smul] at hop
          exact hL.eigsh _ _ _ (cardS hk) (vec_site h0 hN hk hv) (effM_herm _ (hherm ⟨_, rfl⟩)) hop
      · exact absurd hc (by simp)
  | orthL n =>
    match n with
    | 0 => simp [check] at hc
    | k + 1 =>
      simp only [check] at hc
      split at hc
      · rw [act, Option.isSome_map, orthLeft, dif_pos (hD.left k (by omega))]
        rfl
      · exact absurd hc (by simp)
  | orthR n =>
    match n with
    | 0 => simp [check] at hc
    | k + 1 =>
      simp only [check] at hc
      split at hc
      · rw [act, Option.isSome_map, orthRight, dif_pos (hD.right k (by omega))]
        rfl
      · exact absurd hc (by simp)
  | mulL n =>
    match n with
    | 0 => simp [check] at hc
    | k + 1 => rfl
  | mulR n =>
    match n with
    | 0 => simp [check] at hc
    | k + 1 => rfl
  | heffL n =>
    match n with
    | 0 => simp [check] at hc
    | k + 1 =>
      simp only [check] at hc
      split at hc
      · rw [act, Option.isSome_map]
        exact heffLeft_isSome hham (by omega)
      · exact absurd hc (by simp)
  | heffR n =>
    match n with
    | 0 => simp [check] at hc
    | k + 1 =>
      rw [act, Option.isSome_map]
      exact heffRight_isSome hham
  | cb i => rfl
  | pair n t r => exact ho.elim
  | optPair n r => exact ho.elim

theorem path_returns (h0 : D 0 = 1) (hN : D N = 1) {qr : QR ℂ} {L : Solvers} (hLok : L.Ok) (hL : L.Returns)
    {ham : Ham ℂ q} {fac : ℂ} (hD : Dims q D N) (hham : ∀ j, j + ham.sites ≤ N → Has ham j) :
    ∀ {ops : List Op} {w : World (St q D)} {e e' : Env},
    ((∃ n, .optSite n ∈ ops) → (Matrix.of (ham.total (N := N))).IsHermitian) → (∀ o ∈ ops, OneSite o) →
    Inv N ham w.s e → checks N e ops = some e' → vec (N := N) w.s h0 hN e.centre ≠ 0 →
    ∃ w', runs (obj qr L N ham fac) ops w = some w'
  | [], w, e, e', _, _, _, _, _ => ⟨w, rfl⟩
  | o :: ops, w, e, e', hh, ho, hi, hc, hv => by
    rw [checks_cons, Option.bind_eq_some_iff] at hc
    obtain ⟨e1, c1, c2⟩ := hc
    have hh1 : (∃ n, o = .optSite n) → (Matrix.of (ham.total (N := N))).IsHermitian :=
      fun ⟨n, hn⟩ => hh ⟨n, by rw [hn]; exact List.mem_cons_self⟩
    obtain ⟨S, hS⟩ := Option.isSome_iff_exists.1
      (step_returns (qr := qr) (fac := fac) h0 hN hL hD hham hh1 (ho o List.mem_cons_self) hi c1 hv)
    obtain ⟨i1, s1⟩ := step_spec h0 hN hLok hh1 hi c1 hS
    obtain ⟨w', hw'⟩ := path_returns h0 hN hLok hL hD hham (w := ⟨S, w.log ++ [o]⟩)
      (fun ⟨n, hn⟩ => hh ⟨n, List.mem_cons_of_mem _ hn⟩) (fun o h => ho o (List.mem_cons_of_mem _ h)) i1 c2
      (Rel.ne_zero s1 hv)
    refine ⟨w', ?_⟩
    rw [runs, show run (obj qr L N ham fac) o w = some ⟨S, w.log ++ [o]⟩ from run_some.2 ⟨hS, rfl⟩, Option.bind_some, hw']

/-! ## Lists of steps -/

theorem Steps.of_map {α β V : Type*} {R : α → V → V → Prop} {R' : β → V → V → Prop} (f : β → α)
    (h : ∀ b u v, R (f b) u v → R' b u v) : ∀ {l : List β} {u v : V}, Steps R (l.map f) u v → Steps R' l u v
  | [], _, _, hs => by
    cases hs
    exact .nil _
  | b :: l, u, v, hs => by
    cases hs with
    | cons h1 h2 => exact .cons (h _ _ _ h1) (Steps.of_map f h h2)

theorem EvoStep.congr {H : Matrix (Cfg q N) (Cfg q N) ℂ} {fac fac' : ℂ} {h0 : D 0 = 1} {hN : D N = 1} {x : Loc}
    {t t' : ℝ} {ψ ψ' : Cfg q N → ℂ} (he : (t : ℂ) * fac = t' * fac') (h : EvoStep D H h0 hN fac (x, t) ψ ψ') :
    EvoStep D H h0 hN fac' (x, t') ψ ψ' := by
  match x, h with
  | .site (k + 1), h => simp only [EvoStep, ← he] at h ⊢; exact h
  | .bond (k + 1), h => simp only [EvoStep, ← he] at h ⊢; exact h
  | .site 0, h => exact h.elim
  | .bond 0, h => exact h.elim
  | .pair _, h => exact h.elim

theorem half1_scale (N : ℕ) (a b : ℝ) : (half1 N a).map (fun x => (x.1, b * x.2)) = half1 N (b * a) := by
  simp only [half1, List.map_append, List.map_flatMap, List.map_cons, List.map_nil, mul_neg]

/-- A property of nonzero vectors that each step keeps. -/
theorem Steps.induct {α V : Type*} {R : α → V → V → Prop} (p : V → V → Prop) (good : V → Prop) (refl : ∀ v, p v v)
    (trans : ∀ u v w, p u v → p v w → p u w) (h : ∀ a u v, R a u v → good u → good v ∧ p u v)
    {l : List α} {u v : V} (hs : Steps R l u v) (hu : good u) : good v ∧ p u v := by
  induction hs with
  | nil v => exact ⟨hu, refl v⟩
  | cons h1 _ ih =>
    obtain ⟨g, p1⟩ := h _ _ _ h1 hu
    obtain ⟨g', p2⟩ := ih g
    exact ⟨g', trans _ _ _ p1 p2⟩

/-- A property that each step brings about, after at least one step. -/
theorem Steps.last {α V : Type*} {R : α → V → V → Prop} (good fin : V → Prop) (hg : ∀ v, fin v → good v)
    (h : ∀ a u v, R a u v → good u → fin v)
    {l : List α} {u v : V} (hs : Steps R l u v) (hl : l ≠ []) (hu : good u) : fin v := by
  induction hs with
  | nil v => exact absurd rfl hl
  | @cons a l u v w h1 h2 ih =>
    have hv := h _ _ _ h1 hu
    cases h2 with
    | nil => exact hv
    | cons a b => exact ih (by simp) (hg _ hv)

/-! ## Full bond dimension -/

section
variable {ι : Type} [Fintype ι] [DecidableEq ι] {H : Matrix (Cfg q N) (Cfg q N) ℂ}

theorem Iso.univ {T : (ι → ℂ) →ₗ[ℂ] (Cfg q N → ℂ)} (hT : Iso T) (hc : Fintype.card ι = Fintype.card (Cfg q N)) :
    Set.range T = Set.univ := by
  have hinj : Function.Injective T := by
    rw [← LinearMap.ker_eq_bot, LinearMap.ker_eq_bot']
    intro v hv
    by_contra hne
    have h1 := dot_self_pos hne
    have h2 := hT.iso v v
    rw [hv] at h2
    rw [← h2] at h1
    simp [braket] at h1
  have hsurj := (LinearMap.injective_iff_surjective_of_finrank_eq_finrank (f := T) (by simp [hc])).1 hinj
  exact hsurj.range_eq

theorem Evolved.univ {c : ℂ} {ψ ψ' : Cfg q N → ℂ} (h : Evolved H Set.univ c ψ ψ') :
    ψ' = unitVec (NormedSpace.exp (c • H) *ᵥ ψ) := by
  obtain ⟨-, P, hP, rfl⟩ := h
  have : P = 1 := Matrix.ext_of_mulVec_single fun i => by
    rw [(hP.range _).1 (Set.mem_univ _), Matrix.one_mulVec]
  rw [this, Matrix.one_mul, Matrix.mul_one]

theorem unitVec_smul (c : ℝ) (hc : 0 < c) (φ : Cfg q N → ℂ) : unitVec ((c : ℂ) • φ) = unitVec φ := by
  have h1 : (braket ((c : ℂ) • φ) ((c : ℂ) • φ)).re = c ^ 2 * (braket φ φ).re := by
    rw [braket_dot, braket_dot, star_smul, smul_dotProduct, dotProduct_smul, smul_smul, Complex.star_def,
      Complex.conj_ofReal, ← Complex.ofReal_mul, smul_eq_mul, Complex.re_ofReal_mul, sq]
  rw [unitVec, h1, Real.sqrt_mul (sq_nonneg c), Real.sqrt_sq hc.le, smul_smul, unitVec]
  congr 1
  have : (c : ℂ) ≠ 0 := by exact_mod_cast hc.ne'
  rw [Complex.ofReal_mul, mul_inv]
  field_simp

theorem unitVec_mul (M : Matrix (Cfg q N) (Cfg q N) ℂ) (φ : Cfg q N → ℂ) (h : φ ≠ 0) :
    unitVec (M *ᵥ unitVec φ) = unitVec (M *ᵥ φ) := by
  have hp : 0 < Real.sqrt (braket φ φ).re := Real.sqrt_pos.2 (dot_self_pos h)
  have : M *ᵥ unitVec φ = (((Real.sqrt (braket φ φ).re)⁻¹ : ℝ) : ℂ) • (M *ᵥ φ) := by
    rw [unitVec, Matrix.mulVec_smul, Complex.ofReal_inv]
  rw [this, unitVec_smul _ (inv_pos.2 hp)]

theorem exp_smul_add (a b : ℂ) : NormedSpace.exp (a • H) * NormedSpace.exp (b • H) = NormedSpace.exp ((a + b) • H) := by
  have hc : Commute (a • H) (b • H) := by
    rw [Commute, SemiconjBy, Matrix.smul_mul, Matrix.mul_smul, Matrix.smul_mul, Matrix.mul_smul, smul_comm]
  rw [← Matrix.exp_add_of_commute _ _ hc, add_smul]

theorem exp_ne_zero {a : ℂ} {ψ : Cfg q N → ℂ} (h : ψ ≠ 0) : NormedSpace.exp (a • H) *ᵥ ψ ≠ 0 := by
  intro hz
  apply h
  have e := exp_smul_add (H := H) (-a) a
  rw [neg_add_cancel, zero_smul, NormedSpace.exp_zero] at e
  rw [← Matrix.one_mulVec ψ, ← e, ← Matrix.mulVec_mulVec, hz, Matrix.mulVec_zero]

/-- Dimensions for which the chain represents every vector whichever tensor or bond matrix varies. -/
theorem EvoStep.exact {fac : ℂ} {h0 : D 0 = 1} {hN : D N = 1} {x : Loc × ℝ} {ψ ψ' : Cfg q N → ℂ}
    (hs : ∀ k < N, q k * (D k * D (k + 1)) = Fintype.card (Cfg q N))
    (hb : ∀ k, k + 1 < N → D (k + 1) * D (k + 1) = Fintype.card (Cfg q N)) (h : EvoStep D H h0 hN fac x ψ ψ') :
    ψ' = unitVec (NormedSpace.exp ((x.2 * fac) • H) *ᵥ ψ) := by
  obtain ⟨x, t⟩ := x
  match x, h with
  | .site (k + 1), h =>
    obtain ⟨hk, A, hA, h⟩ := h
    have := (siteT_iso h0 hN k hk hA).univ (by simpa using hs k hk)
    rw [siteT_range] at this
    rw [this] at h
    exact Evolved.univ h
  | .bond (k + 1), h =>
    obtain ⟨hk, A, hA, hA', h⟩ := h
    have := (bondT_iso h0 hN k hk hA hA').univ (by simpa using hb k hk)
    rw [bondT_range] at this
    rw [this] at h
    exact Evolved.univ h
  | .site 0, h => exact h.elim
  | .bond 0, h => exact h.elim
  | .pair _, h => exact h.elim

theorem Steps.exact {fac : ℂ} {R : Loc × ℝ → (Cfg q N → ℂ) → (Cfg q N → ℂ) → Prop}
    (h : ∀ x ψ ψ', R x ψ ψ' → ψ' = unitVec (NormedSpace.exp ((x.2 * fac) • H) *ᵥ ψ))
    {l : List (Loc × ℝ)} {ψ ψ' : Cfg q N → ℂ} (hs : Steps R l ψ ψ') (hl : l ≠ []) (hψ : ψ ≠ 0) :
    ψ' = unitVec (NormedSpace.exp ((((l.map Prod.snd).sum : ℝ) * fac) • H) *ᵥ ψ) := by
  induction hs with
  | nil v => exact absurd rfl hl
  | @cons a l u v w h1 h2 ih =>
    have hv := h _ _ _ h1
    have hne : v ≠ 0 := by
      rw [hv]
      exact ne_zero_of (unitVec_braket (exp_ne_zero hψ))
    cases h2 with
    | nil => rw [hv]; simp
    | cons b c =>
      rw [ih (by simp) hne, hv, unitVec_mul _ _ (exp_ne_zero hψ), Matrix.mulVec_mulVec, exp_smul_add]
      congr 3
      simp only [List.map_cons, List.sum_cons]
      push_cast
      ring_nf

end

end

end Sweep

end EvoMPS
