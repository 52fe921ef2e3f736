import Mathlib.Data.Complex.Basic
import Mathlib.Data.Real.Basic
import Verif.Basic

/-!
# The line search and the conjugate gradients of the uniform chain (`tdvp_uniform.py:1392-1482, 1748-1985`)

The evaluation of a trial point (set the tensors, `update(restore_CF=False)`, `calc_B`, `_B_overlap`) is a parameter, as are the root
finder of `scipy.optimize` (a tree of questions and answers) and the roots of the fitted polynomials.  The seven lists of the object
have one entry per point each and are changed together: here they are one list of records.  The lines 1830-1831 of `f` set attributes of the
search that nothing reads; they are left out.
-/

namespace EvoMPS.USearch

/-- How a call ends that does not return: with one of the two exceptions that `calc_B_CG` catches, or with another one. -/
inductive Raised where
  | caught
  | other

/-- The entries of `taus`, `hs`, `gs`, `lLs`, `rLs`, `K0s`, `Ws` for one point; `M` is the type of matrices. -/
structure Rec (M : Type) where
  tau : ℝ
  h : ℝ
  g : ℂ
  lL : M
  rL : M
  K0 : M
  w : Bool

/-- The object; `S` is `self.tdvp`. -/
structure Search (σ M : Type) where
  S : σ
  hist : List (Rec M)
  inSearch : Bool

variable {σ M α β : Type}

/-- What the evaluation of a trial point at `tau` returns: the object afterwards, energy, slope, environments and `K[0]`. -/
structure Trial (σ M : Type) where
  S : σ
  h : ℝ
  g : ℂ
  lL : M
  rL : M
  K0 : M

/-- `tdvp_uniform.py:1825-1841` as a function of `self.tdvp`, `tau` and the starting value for `K[0]`. -/
abbrev Eval (σ M : Type) := σ → ℝ → M → Except Raised (Trial σ M)

/-- A function of the object: it raises, returns a value, or is left by `EvoMPS_line_search_wolfe_sat` (`Sum.inr tau`). -/
abbrev Prog (σ M α : Type) := Search σ M → Except Raised (Search σ M × (α ⊕ ℝ))

/-- One statement after the other. -/
def Prog.bind (p : Prog σ M α) (k : α → Prog σ M β) : Prog σ M β := fun X =>
  match p X with
  | .error e => .error e
  | .ok (Y, .inr t) => .ok (Y, .inr t)
  | .ok (Y, .inl a) => k a Y

/-- `return`. -/
def Prog.ret (a : α) : Prog σ M α := fun X => .ok (X, .inl a)

/-- `tdvp_uniform.py:1854-1862` `wolfe(g, h, tau, strong)` with the default constants; `r0` is the first entry of the lists. -/
noncomputable def wolfe (r0 : Rec M) (g : ℂ) (h tau : ℝ) (strong : Bool) : Bool :=
  open Classical in
  let c1 : ℝ := 1 / 10000
  let c2 : ℝ := 1 / 10
  let w1 := decide (h ≤ r0.h + c1 * tau * r0.g.re)
  let w2 := if strong then decide (|g.re| ≤ c2 * |r0.g.re|) else decide (c2 * r0.g.re ≤ g.re)
  w1 && w2

/-- `abs(sp.array(self.taus) - tau).argmin()`, `tdvp_uniform.py:1829`: the first of the nearest entries. -/
noncomputable def nearest (r0 : Rec M) (rest : List (Rec M)) (tau : ℝ) : Rec M :=
  open Classical in
  rest.foldl (fun b r => if |r.tau - tau| < |b.tau - tau| then r else b) r0

/-- `self.taus.index(tau)`. -/
noncomputable def index (hist : List (Rec M)) (tau : ℝ) : Option ℕ :=
  open Classical in
  hist.findIdx? fun r => decide (r.tau = tau)

/-- `tdvp_uniform.py:1813-1852` `f(tau)` with `penalise_neg = True`, the value set by the constructor.  Without a first entry the accesses
`gs[0]`, `hs[0]` raise. -/
noncomputable def f (ev : Eval σ M) (tau : ℝ) : Prog σ M ℝ := fun X =>
  open Classical in
  match X.hist with
  | [] => .error .other
  | r0 :: rest =>
    if tau < 0 then
      .ok ({ X with hist := r0 :: rest ++ [{ r0 with tau := tau, w := false }] }, .inl (tau ^ 2 + r0.g.re))
    else
      match index (r0 :: rest) tau with
      | some i => .ok (X, .inl (((r0 :: rest)[i]?.getD r0).g.re))
      | none =>
        match ev X.S tau (nearest r0 rest tau).K0 with
        | .error e => .error e
        | .ok T =>
          let wol := wolfe r0 T.g T.h tau false
          let Y : Search σ M := { X with S := T.S, hist := r0 :: rest ++
            [{ tau := tau, h := T.h, g := T.g, lL := T.lL, rL := T.rL, K0 := T.K0, w := wol }] }
          if wol && X.inSearch then .ok (Y, .inr tau) else .ok (Y, .inl T.g.re)

/-- `tdvp_uniform.py:1786-1793` `clear_hist()`. -/
def clearHist (X : Search σ M) : Search σ M := { X with hist := X.hist.take 1 }

/-- `g < 0` for a complex number of numpy: real parts first, then imaginary parts. -/
noncomputable def negC (g : ℂ) : Bool := open Classical in decide (g.re < 0 ∨ (g.re = 0 ∧ g.im < 0))

/-- `g > 0` for a complex number of numpy. -/
noncomputable def posC (g : ℂ) : Bool := open Classical in decide (0 < g.re ∨ (g.re = 0 ∧ 0 < g.im))

/-- The loop of `sane_first_step` (`tdvp_uniform.py:1864-1880`) with `n` iterations left; `h0` is `self.hs[0]`, `ind` the last index. -/
noncomputable def saneLoop (ev : Eval σ M) (h0 : ℝ) : ℕ → ℝ → ℝ → ℂ → Option ℕ → Prog σ M (Option ℕ)
  | 0, _, _, _, ind => Prog.ret ind
  | n + 1, tau, h, g, ind => fun X =>
    open Classical in
    if negC g = true ∧ h - h0 > 1 / 10 ^ 13 then
      (Prog.bind (f ev tau) fun _ Y =>
        match index Y.hist tau with
        | none => .error .other
        | some i =>
          match Y.hist[i]? with
          | none => .error .other
          | some r => saneLoop ev h0 n (tau * (1 / 2)) r.h r.g (some i) Y) (clearHist X)
    else .ok (X, .inl ind)

/-- `tdvp_uniform.py:1864-1880` `sane_first_step(dtau_init)`: the index of the last point tried. -/
noncomputable def saneFirstStep (ev : Eval σ M) (dtau : ℝ) : Prog σ M ℕ := fun X =>
  match X.hist with
  | [] => .error .other
  | r0 :: _ =>
    (Prog.bind (saneLoop ev r0.h 10 dtau (1 + r0.h) (-1) none) fun ind Y =>
      match ind with
      | none => .error .other
      | some i => .ok (Y, .inl i)) X

/-- The largest root (in the order of numpy) of the polynomial fitted to some points, its real part; `none` if `polyfit` or `max` raises. -/
abbrev Extrap := List (ℝ × ℂ) → Option ℝ

/-- `tdvp_uniform.py:1939-1954`: the next point of `bracket_extrap`. -/
noncomputable def nextTau (ex : Extrap) (dtau tau1 g1 : ℝ) (hist : List (Rec M)) : Option ℝ :=
  open Classical in
  let tauPrev := tau1
  let fitted : Option ℝ :=
    if 1 < hist.length then
      (ex ((hist.drop (hist.length - min 5 hist.length)).map fun r => (r.tau, r.g))).map fun z =>
        let tau1 := if 0 < z then z else tau1
        if dtau * 10 < tau1 then min (tauPrev * 2) tau1 else tau1
    else some tau1
  fitted.map fun tau1 => if g1 < 0 then tau1 * (11 / 10) else tau1 * (9 / 10)

/-- The loop of `bracket_extrap` with `n` iterations left: `none` if they are used up, else the last two points. -/
noncomputable def extrapLoop (ev : Eval σ M) (ex : Extrap) (dtau g0 : ℝ) : ℕ → ℝ → ℝ → ℝ → Prog σ M (Option (ℝ × ℝ))
  | 0, _, _, _ => Prog.ret none
  | n + 1, tauPrev, tau1, g1 => fun X =>
    open Classical in
    if 0 < g1 * g0 then
      match nextTau ex dtau tau1 g1 X.hist with
      | none => .error .other
      | some tau2 => (Prog.bind (f ev tau2) fun g2 => extrapLoop ev ex dtau g0 n tau1 tau2 g2) X
    else .ok (X, .inl (some (min tauPrev tau1, max tauPrev tau1)))

/-- `tdvp_uniform.py:1927-1965` `bracket_extrap(dtau_init)`.  The test `i == max_itr` after the loop is that of an iteration left. -/
noncomputable def bracketExtrap (ev : Eval σ M) (ex : Extrap) (dtau : ℝ) : Prog σ M (Option (ℝ × ℝ)) :=
  Prog.bind (f ev dtau) fun g0 => extrapLoop ev ex dtau g0 20 dtau dtau g0

/-- A client of the function `f`: `scipy.optimize.brentq` returns a point, gives up with `ValueError` (no bracket) or `RuntimeError` (not
converged), or asks for a value. -/
inductive Finder where
  | ret (tau : ℝ)
  | valueError
  | runtimeError
  | ask (tau : ℝ) (next : ℝ → Finder)

/-- Run a root finder: `some tau`, or `none` for `ValueError`. -/
noncomputable def Finder.run (ev : Eval σ M) : Finder → Prog σ M (Option ℝ)
  | .ret tau => Prog.ret (some tau)
  | .valueError => Prog.ret none
  | .runtimeError => fun _ => .error .other
  | .ask tau next => Prog.bind (f ev tau) fun g => (next g).run ev

/-- The loop `tdvp_uniform.py:1900-1906` from `i` on with `n` iterations left. -/
noncomputable def bracketLoop (ev : Eval σ M) (ex : Extrap) (tau : ℝ) : ℕ → ℕ → Prog σ M (Option (ℝ × ℝ))
  | 0, _ => Prog.ret none
  | n + 1, i => Prog.bind (bracketExtrap ev ex (tau / (i + 1))) fun b =>
    match b with
    | some b => Prog.ret (some b)
    | none => fun X => bracketLoop ev ex tau n (i + 1) (clearHist X)

/-- The answers of `brentq`: a point with the energy and the index in the lists. -/
structure Found where
  tau : ℝ
  h : ℝ
  ind : ℕ

/-- `tdvp_uniform.py:1921-1925`: the end of `brentq`. -/
noncomputable def finish (X : Search σ M) (tau : ℝ) : Except Raised (Search σ M × Found) :=
  match index X.hist tau with
  | none => .error .other
  | some i =>
    match X.hist[i]? with
    | none => .error .other
    | some r => .ok ({ X with inSearch := false }, ⟨tau, r.h, i⟩)

/-- `tdvp_uniform.py:1882-1925` `brentq(tau_init)`.  `finder a b` is `scipy.optimize.brentq` on the bracket `[a, b]`. -/
noncomputable def brentq (ev : Eval σ M) (ex : Extrap) (finder : ℝ → ℝ → Finder) (tauInit : ℝ) (X : Search σ M) :
    Except Raised (Search σ M × Found) :=
  match saneFirstStep ev tauInit { X with inSearch := false } with
  | .error e => .error e
  | .ok (_, .inr _) => .error .other
  | .ok (X, .inl i) =>
    match X.hist, X.hist[i]? with
    | r0 :: _, some r =>
      if wolfe r0 r.g r.h r.tau false then finish X r.tau
      else
        let X := { X with inSearch := true }
        let fail : Search σ M → Found := fun X => ⟨0, (X.hist.head?.map Rec.h).getD 0, 0⟩
        let bracket : Prog σ M (Option (ℝ × ℝ)) := if posC r.g then Prog.ret (some (0, r.tau)) else bracketLoop ev ex r.tau 3 0
        match bracket X with
        | .error e => .error e
        | .ok (X, .inr t) => finish X t
        | .ok (X, .inl none) => .ok (X, fail X)
        | .ok (X, .inl (some b)) =>
          match (finder b.1 b.2).run ev X with
          | .error e => .error e
          | .ok (X, .inr t) => finish X t
          | .ok (X, .inl none) => .ok (X, fail X)
          | .ok (X, .inl (some t)) => finish X t
    | _, _ => .error .other

/-- `tdvp_uniform.py:1967-1985` `bracket_step(dtau_init)`: `self.g` does not exist. -/
noncomputable def bracketStep (ev : Eval σ M) (dtau : ℝ) : Prog σ M (Option (ℝ × ℝ)) :=
  open Classical in
  Prog.bind (f ev dtau) fun g0 X => if 0 < g0 * g0 then .error .other else .ok (X, .inl (some (dtau, dtau)))

/-! ### Conjugate gradients -/

/-- The operations of the uniform object that `calc_B_CG` uses; `V` is the type of the tangent vectors, as lists of tensors. -/
structure Ops (σ M V : Type) where
  /-- `calc_B()`: the object, the vector and `eta.real` -/
  calcB : σ → Except Raised (σ × V × ℝ)
  /-- `_B_overlap(B1, B2, B1_is_GF=True)` -/
  overlap : σ → V → V → Except Raised ℂ
  /-- `_B_to_B_GF(B)[0]` -/
  toGF : σ → V → Except Raised V
  /-- `update()` -/
  update : σ → Except Raised σ
  /-- `EvoMPS_line_search(self, BCG, BG)`: the object, made dense, the new search, and how its points are evaluated -/
  search : σ → V → V → Except Raised (σ × Search σ M × Eval σ M)
  /-- `self.lL_before_CF`, `self.rL_before_CF`, `self.K0_init` are set -/
  setStart : σ → M → M → M → σ
  /-- `self.itr_rtol` -/
  rtol : ℝ

/-- What `calc_B_CG` returns. -/
structure CG (V : Type) where
  BCG : V
  BG : V
  norm : ℝ
  tau : ℝ

/-- `tdvp_uniform.py:1415-1438`: the search direction. -/
noncomputable def direction {V : Type} [AddCommGroup V] [Module ℝ V] (o : Ops σ M V) (S : σ) (BG : V) (BGdotBG : ℝ) (BCG0 BG0 : V)
    (BG0dotBG0 : ℝ) (reset usePR : Bool) : Except Raised V :=
  open Classical in
  if reset then .ok BG
  else
    let beta : Except Raised ℝ :=
      if usePR then
        match o.overlap S BG BG0 with
        | .error e => .error e
        | .ok z => .ok (((BGdotBG : ℂ) - z) / (BG0dotBG0 : ℂ)).re
      else .ok (BGdotBG / BG0dotBG0)
    match beta with
    | .error e => .error e
    | .ok b =>
      let beta := max 0 b
      if 100 < beta then .ok BG
      else
        match o.toGF S BCG0 with
        | .error e => .error e
        | .ok B0 => .ok (BG + beta • B0)

/-- `self.update(); BG = self.calc_B(); BCG = BG` and a new search (`tdvp_uniform.py:1444-1447, 1465-1468`). -/
def restart {V : Type} (o : Ops σ M V) (S : σ) : Except Raised (σ × V × Search σ M × Eval σ M) :=
  match o.update S with
  | .error e => .error e
  | .ok S =>
    match o.calcB S with
    | .error e => .error e
    | .ok (S, BG, _) =>
      match o.search S BG BG with
      | .error e => .error e
      | .ok (S, ls, ev) => .ok (S, BG, ls, ev)

/-- `try: tau, h_min, ind = ls.brentq(...)`: `some (ok none)` stands for `tau = 0` after one of the two exceptions. -/
noncomputable def trySearch (ev : Eval σ M) (ex : Extrap) (finder : ℝ → ℝ → Finder) (tau : ℝ) (ls : Search σ M) :
    Except Raised (Option (Search σ M × Found)) :=
  match brentq ev ex finder tau ls with
  | .error .caught => .ok none
  | .error .other => .error .other
  | .ok r => .ok (some r)

/-- `tdvp_uniform.py:1474-1482`: the end of `calc_B_CG`. -/
noncomputable def settle {V : Type} (o : Ops σ M V) (S : σ) (BCG BG : V) (norm tauInit : ℝ) (r : Option (Search σ M × Found)) :
    Except Raised (σ × CG V) :=
  open Classical in
  match r with
  | none => .ok (S, ⟨BCG, BG, norm, tauInit⟩)
  | some (ls, x) =>
    if 0 < x.tau then
      match ls.hist[x.ind]? with
      | none => .error .other
      | some e => .ok (o.setStart S e.lL e.rL e.K0, ⟨BCG, BG, norm, x.tau⟩)
    else .ok (S, ⟨BCG, BG, norm, tauInit⟩)

/-- `tdvp_uniform.py:1455-1462`: whether the first search has to be repeated. -/
noncomputable def retry (rtol : ℝ) : Option (Search σ M × Found) → Bool
  | none => true
  | some (ls, x) => open Classical in decide (x.tau = 0 ∨ x.h - (ls.hist.head?.map Rec.h).getD 0 > max (rtol * 10) (1 / 10 ^ 14))

/-- `tdvp_uniform.py:1392-1482` `calc_B_CG(BCG0, BG0, BG0dotBG0, tau0, tau_init, reset, use_PR)`.  `norm` is `BGdotBG`. -/
noncomputable def calcBCG {V : Type} [AddCommGroup V] [Module ℝ V] (o : Ops σ M V) (ex : Extrap) (finder : ℝ → ℝ → Finder) (S : σ)
    (BCG0 BG0 : V) (BG0dotBG0 tau0 tauInit : ℝ) (reset usePR : Bool) : Except Raised (σ × CG V) :=
  open Classical in
  match o.calcB S with
  | .error e => .error e
  | .ok (S, BG, eta) =>
    let norm := eta ^ 2
    match direction o S BG norm BCG0 BG0 BG0dotBG0 reset usePR with
    | .error e => .error e
    | .ok BCG =>
      match o.search S BCG BG with
      | .error e => .error e
      | .ok (S, ls, ev) =>
        let first : Except Raised (σ × V × V × Search σ M × Eval σ M) :=
          if 0 < ((ls.hist.head?.map Rec.g).getD 0).re then
            match restart o S with
            | .error e => .error e
            | .ok (S, BG, ls, ev) => .ok (S, BG, BG, ls, ev)
          else .ok (S, BCG, BG, ls, ev)
        match first with
        | .error e => .error e
        | .ok (S, BCG, BG, ls, ev) =>
          match trySearch ev ex finder (max tau0 (tauInit * (1 / 2))) ls with
          | .error e => .error e
          | .ok r =>
            if retry o.rtol r then
              match restart o S with
              | .error e => .error e
              | .ok (S, BG, ls, ev) =>
                match trySearch ev ex finder tauInit ls with
                | .error e => .error e
                | .ok r => settle o S BG BG norm tauInit r
            else settle o S BCG BG norm tauInit r

end EvoMPS.USearch
