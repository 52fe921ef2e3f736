import Verif.Drivers

/-!
# What the properties of the drivers say about lists of calls
-/

namespace EvoMPS.Dyn

variable {σ β : Type}

/-- What a call does to the object. -/
def effect (S : Sys σ β) : Call σ β → σ → σ
  | .update r n a, s => S.update r n a s
  | .calcB, s => (S.calcB s).2
  | .calcBCG b g d h t r, s => (S.calcBCG b g d h t r s).2
  | .cb _ _ _, s => s
  | .euler dtau B d Dm dD sv, s => S.takeStep dtau B d Dm dD sv s
  | .rk4 dtau B, s => S.takeStepRK4 dtau B s

/-- What a list of calls does to the object. -/
def replay (S : Sys σ β) (log : List (Call σ β)) (s : σ) : σ := log.foldl (fun s c => effect S c s) s

/-- The direction (and step size, if it comes from a line search) computed last, if the object has not changed
since. -/
def direction (S : Sys σ β) (log : List (Call σ β)) (s : σ) : Option (β × Option ℝ) :=
  (log.foldl (fun (p : σ × Option (β × Option ℝ)) c =>
    (effect S c p.1,
      match c with
      | .calcB => some ((S.calcB p.1).1, none)
      | .calcBCG b g d h t r => some ((S.calcBCG b g d h t r p.1).1.1, some (S.calcBCG b g d h t r p.1).1.2.2.2)
      | .cb _ _ _ => p.2
      | _ => none)) (s, none)).2

/-- The step sizes, in order. -/
def stepTimes (log : List (Call σ β)) : List ℂ :=
  log.filterMap fun
    | .euler dtau _ _ _ _ _ => some dtau
    | .rk4 dtau _ => some dtau
    | _ => none

/-- The indices passed to the callback, in order. -/
def cbIdx (log : List (Call σ β)) : List ℤ :=
  log.filterMap fun
    | .cb i _ _ => some i
    | _ => none

/-- For every Euler step, whether it enlarged the bonds. -/
def expansions (log : List (Call σ β)) : List Bool :=
  log.filterMap fun
    | .euler _ _ d _ _ _ => some d
    | _ => none

/-- The number of Runge-Kutta steps. -/
def rk4Count (log : List (Call σ β)) : ℕ :=
  (log.filterMap fun
    | .rk4 _ _ => some ()
    | _ => none).length

/-- `Q` holds for every call and the calls before it. -/
def AllCalls (Q : List (Call σ β) → Call σ β → Prop) (log : List (Call σ β)) : Prop :=
  ∀ pre c post, log = pre ++ c :: post → Q pre c

/-- What `evolve` may call, given the calls before. -/
def EvolveCall (S : Sys σ β) (dt : ℝ) (integ : Integ) (dynexp : Bool) (Dmax dDmax : ℤ) (s0 : σ)
    (pre : List (Call σ β)) : Call σ β → Prop
  | .cb i _ s =>
    s = replay S pre s0 ∧ (stepTimes pre).sum = i * (dt * Complex.I) ∧ ∃ B, direction S pre s0 = some (B, none)
  | .euler dtau B d Dm dD _ =>
    direction S pre s0 = some (B, none) ∧ d = (dynexp && S.maxDLess Dmax (replay S pre s0)) ∧ Dm = Dmax ∧ dD = dDmax ∧
      (integ = .euler → dtau = dt * Complex.I) ∧ (integ = .rk4 → d = true)
  | .rk4 _ B => integ = .rk4 ∧ ∀ B', B = some B' → direction S pre s0 = some (B', none)
  | .calcBCG _ _ _ _ _ _ => False
  | _ => True

/-- The stopping condition of `opt_im_time`: the error measure is below the tolerance, the bond dimension is the
requested one, and none of the last `expand_wait_steps` steps was an expansion. -/
def Stop (S : Sys σ β) (a : ImArgs) (ex : List Bool) (s : σ) : Prop :=
  S.eta s < a.tol ∧ S.D s = a.expandTo ∧ ∀ k : ℕ, (k : ℤ) < a.expandWait → ex.reverse[k]? ≠ some true

/-- What `opt_im_time` may call, given the calls before. -/
def ImCall (S : Sys σ β) (a : ImArgs) (s0 : σ) (pre : List (Call σ β)) : Call σ β → Prop
  | .cb i kw s =>
    s = replay S pre s0 ∧ i = a.j + (stepTimes pre).length ∧ (kw : ℂ) = (stepTimes pre).sum ∧
      ∃ B, direction S pre s0 = some (B, none)
  | .euler _ B d Dm dD _ =>
    direction S pre s0 = some (B, none) ∧ Dm = a.expandTo ∧ dD = a.expandStep ∧
      ¬ Stop S a (expansions pre) (replay S pre s0) ∧
      (d = true ↔ S.D (replay S pre s0) < a.expandTo ∧ S.eta (replay S pre s0) < a.expandTol ∧
        ∀ k : ℕ, (k : ℤ) < a.expandWait → (expansions pre).reverse[k]? ≠ some true)
  | .update r n t => r = true ∧ n = true ∧ t = a.autoTrunc
  | .calcB => True
  | _ => False

/-- A complete run of `opt_im_time`: `new` are the calls, `s'` the final object, `cnt` and `tau` the returned
numbers. -/
structure ImRun (S : Sys σ β) (a : ImArgs) (maxItr : ℤ) (s0 : σ) (new : List (Call σ β)) (s' : σ) (cnt : ℤ)
    (tau : ℝ) : Prop where
  state : s' = replay S new s0
  calls : AllCalls (ImCall S a s0) new
  callbacks : cbIdx new = if a.hasCb = true then (List.range cnt.toNat).map fun i : ℕ => a.j + (i : ℤ) else []
  steps : (stepTimes new).length = cnt.toNat - 1
  total : (stepTimes new).sum = (tau : ℂ)
  count : cnt ≤ max (maxItr + 1) 0
  count_pos : if 0 ≤ maxItr then 1 ≤ cnt else cnt = 0
  early : 0 ≤ maxItr → cnt < maxItr + 1 → Stop S a (expansions new) s'

/-- What `opt_conj_grad` may call, given the calls before. -/
def CgCall (S : Sys σ β) (a : CgArgs) (maxItr : ℤ) (s0 : σ) (pre : List (Call σ β)) : Call σ β → Prop
  | .cb i kw s =>
    s = replay S pre s0 ∧ i = a.j + (stepTimes pre).length ∧
      ∃ B, direction S pre s0 = some (B, if (stepTimes pre).length = maxItr then none else some kw)
  | .euler dtau B d _ _ _ =>
    (∃ h : ℝ, direction S pre s0 = some (B, some h) ∧ dtau = h) ∧ d = false ∧ ¬ S.eta (replay S pre s0) < a.tol
  | .update r n t =>
    (r = true ↔ a.resetEvery ∣ (stepTimes pre).length ∨ (stepTimes pre).length = maxItr) ∧ n = true ∧ t = false
  | .calcB => (stepTimes pre).length = maxItr
  | .calcBCG _ _ _ _ t r => (stepTimes pre).length < maxItr ∧ t = a.hInit ∧ (r = true ↔ a.resetEvery ∣ (stepTimes pre).length)
  | .rk4 _ _ => False

/-- A complete run of `opt_conj_grad`. -/
structure CgRun (S : Sys σ β) (a : CgArgs) (maxItr : ℤ) (s0 : σ) (new : List (Call σ β)) (s' : σ) (cnt : ℤ) :
    Prop where
  state : s' = replay S new s0
  calls : AllCalls (CgCall S a maxItr s0) new
  callbacks : cbIdx new = if a.hasCb = true then (List.range cnt.toNat).map fun i : ℕ => a.j + (i : ℤ) else []
  steps : (stepTimes new).length = cnt.toNat - 1
  count : cnt ≤ max (maxItr + 1) 0
  count_pos : if 0 ≤ maxItr then 1 ≤ cnt else cnt = 0
  early : 0 ≤ maxItr → cnt < maxItr + 1 → S.eta s' < a.tol

end EvoMPS.Dyn
