import Verif.SplitStep

/-!
# What a symmetric split step should do
-/

namespace EvoMPS.Split

/-- A place in the chain: a site, a bond to the right of a site, or a pair of neighbouring sites. -/
inductive Loc
  | site (n : ℕ)
  | bond (n : ℕ)
  | pair (n : ℕ)
  deriving DecidableEq

/-- The place and duration of a local time evolution; other operations do not evolve anything. -/
def evolution : Op → Option (Loc × ℝ)
  | .site n h => some (.site n, h)
  | .pair n h _ => some (.pair n, h)
  | .bond n h => some (.bond n, h)
  | _ => none

/-- The local time evolutions, in order. -/
def evolutions (ops : List Op) : List (Loc × ℝ) := ops.filterMap evolution

/-- The total duration at a place. -/
noncomputable def total (ops : List Op) (x : Loc) : ℝ :=
  (((evolutions ops).filter fun e => e.1 = x).map Prod.snd).sum

/-- The total duration anywhere. -/
noncomputable def net (ops : List Op) : ℝ := ((evolutions ops).map Prod.snd).sum

/-- The first half of a one-site step of a chain of `N ≥ 1` sites: forward on site 1, back on bond 1, forward on
site 2 and so on until site `N`. -/
def half1 (N : ℕ) (h : ℝ) : List (Loc × ℝ) :=
  ((List.range' 1 (N - 1)).flatMap fun n => [(.site n, h), (.bond n, -h)]) ++ [(.site N, h)]

/-- The first half of a two-site step of a chain of `N ≥ 2` sites: forward on sites 1 and 2, back on site 2,
forward on sites 2 and 3 and so on until sites `N - 1` and `N`. -/
def half2 (N : ℕ) (h : ℝ) : List (Loc × ℝ) :=
  ((List.range' 1 (N - 2)).flatMap fun n => [(.pair n, h), (.site (n + 1), -h)]) ++ [(.pair (N - 1), h)]

/-- The operations in the log are the ones that were done: the state results from them. -/
def Faithful {σ : Type} (O : Obj σ) (w w' : World σ) : Prop :=
  ∃ ops, w'.log = w.log ++ ops ∧ ops.foldl (fun s o => s.bind (O.act o)) (some w.s) = some w'.s

/-! ## Validity of the environments

The effective operators assume that all tensors to the left of the centre are left orthonormal, all to the right are
right orthonormal (central gauge), and that the sums of Hamiltonian terms on both sides belong to the present
tensors. -/

/-- Where the centre is: on a site or, as a matrix, on a bond. -/
inductive Centre
  | site (n : ℕ)
  | bond (n : ℕ)
  deriving DecidableEq

/-- `left n`: the sums of Hamiltonian terms for the first `m` sites are up to date for all `m ≤ left`;
`right`: those for sites `m` to `N` are up to date for all `m ≥ right`. -/
structure Env where
  centre : Centre
  left : ℕ
  right : ℕ
  deriving DecidableEq

/-- Tensor `n` has changed. -/
def Env.touch (e : Env) (n : ℕ) : Env := ⟨e.centre, min e.left (n - 1), max e.right (n + 1)⟩

/-- The effect of an operation, `none` if it would use an environment that is out of date, if it would find the
centre elsewhere or if it concerns a place outside the chain of `N` sites. -/
def check (N : ℕ) (e : Env) : Op → Option Env
  | .site n _ =>
    if e.centre = .site n ∧ 1 ≤ n ∧ n ≤ N ∧ n - 1 ≤ e.left ∧ e.right ≤ n + 1 then some (e.touch n) else none
  | .optSite n =>
    if e.centre = .site n ∧ 1 ≤ n ∧ n ≤ N ∧ n - 1 ≤ e.left ∧ e.right ≤ n + 1 then some (e.touch n) else none
  | .pair n _ r =>
    if e.centre = .site (if r then n else n + 1) ∧ 1 ≤ n ∧ n + 1 ≤ N ∧ n - 1 ≤ e.left ∧ e.right ≤ n + 2 then
      some { (e.touch n).touch (n + 1) with centre := .site (if r then n + 1 else n) } else none
  | .optPair n r =>
    if e.centre = .site (if r then n else n + 1) ∧ 1 ≤ n ∧ n + 1 ≤ N ∧ n - 1 ≤ e.left ∧ e.right ≤ n + 2 then
      some { (e.touch n).touch (n + 1) with centre := .site (if r then n + 1 else n) } else none
  | .bond n _ =>
    if e.centre = .bond n ∧ 1 ≤ n ∧ n + 1 ≤ N ∧ n ≤ e.left ∧ e.right ≤ n + 1 then some e else none
  | .orthL n => if e.centre = .site n ∧ 1 ≤ n ∧ n ≤ N then some { e.touch n with centre := .bond n } else none
  | .orthR n => if e.centre = .site n ∧ 1 ≤ n ∧ n ≤ N then some { e.touch n with centre := .bond (n - 1) } else none
  | .mulL n =>
    if e.centre = .bond (n - 1) ∧ 1 ≤ n ∧ n ≤ N then some { e.touch n with centre := .site n } else none
  | .mulR n => if e.centre = .bond n ∧ 1 ≤ n ∧ n ≤ N then some { e.touch n with centre := .site n } else none
  | .heffL n => if 1 ≤ n ∧ n ≤ N ∧ n - 1 ≤ e.left then some { e with left := max e.left n } else none
  | .heffR n => if 1 ≤ n ∧ n ≤ N ∧ e.right ≤ n + 1 then some { e with right := min e.right n } else none
  | .cb _ => if e.centre = .site 1 then some e else none

/-- All operations of a list in turn. -/
def checks (N : ℕ) (e : Env) (ops : List Op) : Option Env := ops.foldl (fun e o => e.bind fun e => check N e o) (some e)

end EvoMPS.Split
