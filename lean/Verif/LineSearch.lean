import Verif.Step
import Verif.Renorm

/-!
# The line search of the finite chain (`tdvp_gen.py:982-1100`)

The minimiser is code of `scipy.optimize`.  What it does between two evaluations of the function is
arbitrary: it is a tree of questions and answers.
-/

namespace EvoMPS

namespace LineSearch

open Matrix

variable {q D : ℕ → ℕ}

/-- A client of the function `f(tau)`: it returns a value, gives up with the exception that its caller
expects, or asks for the value of the function and continues depending on the answer.  All behaviours of
`scipy.optimize.bracket` and `scipy.optimize.brent` are of this kind. -/
inductive Client (α : Type) where
  | ret (a : α)
  | fail
  | ask (tau : ℝ) (next : ℝ → Client α)

/-- The object and the three lists of `tdvp_gen.py:993-999`. -/
structure Search (q D : ℕ → ℕ) where
  S : TDVP ℂ q D
  taus : List ℝ
  ress : List ℝ
  hs : List ℝ

/-- Run a client against a function that may raise. -/
def Client.run {α : Type} (f : ℝ → Search q D → Option (Search q D × ℝ)) :
    Client α → Search q D → Option (Search q D × Option α)
  | .ret a, X => some (X, some a)
  | .fail, X => some (X, none)
  | .ask tau next, X => (f tau X).bind fun Y => (next Y.2).run f Y.1

/-- The arguments of `find_min_h_brent` and the settings of the object it depends on. -/
structure Setup (q D : ℕ → ℕ) where
  P : Num
  g : Gauge
  N : ℕ
  ham : Ham ℂ q
  h0 : D 0 = 1
  hN : D N = 1
  /-- the matrix objects in `self.l` and `self.r`, see `lObjs` -/
  lm : ∀ n, MM ℂ (D n) (D n)
  rm : ∀ n, MM ℂ (D n) (D n)
  /-- `self.eta_sq.sum()`; nothing here changes it, since `calc_B` is called with `set_eta=False` -/
  etaSum : ℂ
  /-- `Bs` -/
  B : BList q D
  /-- `use_tangvec_overlap` -/
  overlap : Bool

/-- `tdvp_gen.py:1393-1421` `expect_2s(self.ham[n], n)` and `1423-1451` `expect_3s(self.ham[n], n)`: the
operator is the stored term, so the stored `C` is used.  A missing term is handed on to the general
function, which raises. -/
def expectTerm (ham : Ham ℂ q) (S : TDVP ℂ q D) (k : ℕ) : Option ℂ :=
  match ham with
  | .two h => (h k).bind fun _ => (S.C2 k).map fun C =>
      adot (S.l k) (epsR2 (S.r (k + 1 + 1)) C (S.AA k))
  | .three h => (h k).bind fun _ => (S.C3 k).map fun C =>
      adot (S.l k) (epsR3 (S.r (k + 2 + 1)) C (S.AAA k))

/-- The loops `tdvp_gen.py:1034-1040`. -/
def sumTerms (N : ℕ) (ham : Ham ℂ q) (S : TDVP ℂ q D) : Option ℝ :=
  (List.range' 0 (N + 1 - ham.sites)).foldl (fun (x : Option ℝ) k => x.bind fun x =>
    (expectTerm ham S k).map fun e => x + e.re) (some 0)

/-- `tdvp_gen.py:1015-1017`: the tensors of the trial point; sites without a `B` keep the tensor the
object has at this moment. -/
def trialTensors (N : ℕ) (A0 : Tensors ℂ q D) (B : BList q D) (tau : ℝ) (A : Tensors ℂ q D) :
    Tensors ℂ q D :=
  (List.range' 0 N).foldl (fun A k =>
    (B k).elim A fun b => Function.update A k (A0 k - (tau : ℂ) • b)) A

/-- `tdvp_gen.py:1029-1041`: the energy of the trial point. -/
noncomputable def trialEnergy (W : Setup q D) (S : TDVP ℂ q D) : Option (TDVP ℂ q D × ℝ × ℝ) :=
  let M := simpleRenorm W.N W.hN (calcR W.N (calcL W.N S.toMPS)) true
  let S := calcCs W.N W.ham { S with toMPS := M }
  (sumTerms W.N W.ham S).map fun h => (S, h, h)

/-- `tdvp_gen.py:450-485` `update(restore_CF=False)`, which normalises. -/
noncomputable def updateNorm (W : Setup q D) (S : TDVP ℂ q D) : Option (TDVP ℂ q D) :=
  let S := calcCs W.N W.ham { S with toMPS := updateNoCFNorm W.N W.hN S.toMPS true }
  match W.g with
  | .right => some (calcKs W.N W.ham W.h0 S)
  | .left => calcKls W.N W.ham W.hN S

/-- The loop `tdvp_gen.py:1023-1025`.  `Bsg[n]` is `None` exactly when `calc_B` finds no free parameters;
the contraction then raises. -/
noncomputable def sumOverlaps (N : ℕ) (S : TDVP ℂ q D) (Bg B : BList q D) : Option ℝ :=
  (List.range' 0 N).foldl (fun (x : Option ℝ) k => x.bind fun x =>
    (B k).elim (some x) fun b => (Bg k).map fun bg =>
      x + ‖adot (S.l k) (epsR (S.r (k + 1)) bg b)‖) (some 0)

/-- `tdvp_gen.py:1019-1026`: the overlap of the gradient at the trial point with the direction. -/
noncomputable def trialOverlap (W : Setup q D) (S : TDVP ℂ q D) : Option (TDVP ℂ q D × ℝ × ℝ) :=
  (updateNorm W S).bind fun S =>
  (calcB W.P W.g W.N W.ham S (lObjs W.lm S.l) (rObjs W.N W.rm S.r)).bind fun T =>
  (sumOverlaps W.N S T.B W.B).bind fun res => S.H.map fun H => (S, res, H.re)

/-- Appending to the three lists. -/
def Search.push (X : Search q D) (tau res h : ℝ) : Search q D :=
  { X with taus := X.taus ++ [tau], ress := X.ress ++ [res], hs := X.hs ++ [h] }

/-- `tdvp_gen.py:1001-1048`: the function `f(tau)` that is minimised.  `taus.index` finds the first
entry.  Returned are the object with the lists and the value.  Exceptions of the evaluation are not of
the kinds the minimiser's callers catch. -/
noncomputable def f (W : Setup q D) (A0 : Tensors ℂ q D) (H0 : ℂ) (tau : ℝ) (X : Search q D) :
    Option (Search q D × ℝ) :=
  if tau < 0 then
    let res := tau ^ 2 + (if W.overlap then W.etaSum.re else H0.re)
    some (X.push tau res H0.re, res)
  else
    if tau ∈ X.taus then
      (X.ress[X.taus.idxOf tau]?).map fun res => (X, res)
    else
      let S := X.S.setA (trialTensors W.N A0 W.B tau X.S.A)
      (if W.overlap then trialOverlap W S else trialEnergy W S).map fun (S, res, h) =>
        ({ X with S := S }.push tau res h, res)

/-- The loop `tdvp_gen.py:1057-1071`: at most two attempts to bracket the minimum. -/
noncomputable def bracketLoop (fn : ℝ → Search q D → Option (Search q D × ℝ))
    (bracket : ℝ → ℝ → Client (ℝ × ℝ × ℝ)) : ℕ → ℝ → ℝ → Search q D →
      Option (Search q D × Option (ℝ × ℝ × ℝ))
  | 0, _, _, X => some (X, none)
  | n + 1, xa, xb, X => ((bracket xa xb).run fn X).bind fun Y =>
      Y.2.elim (bracketLoop fn bracket n (xa * (1 / 10)) (xb * (1 / 10)) Y.1) fun br =>
        some (Y.1, some br)

/-- What `find_min_h_brent` returns. -/
inductive Out where
  /-- `return dtau_init` (line 1053) -/
  | scalar (tau : ℝ)
  /-- `return tau_opt, h_min` (line 1099) -/
  | pair (tau h : ℝ)

/-- `tdvp_gen.py:1091-1097`: everything that is restored. -/
def restore (S0 S : TDVP ℂ q D) : TDVP ℂ q D :=
  { S with toMPS := ⟨S0.A, S0.l, S0.r⟩, C2 := S0.C2, C3 := S0.C3, K := S0.K, Kl := S0.Kl, H := S0.H }

/-- `tdvp_gen.py:1073-1089`: the minimisation after a bracket was found, or not. -/
noncomputable def minimise (W : Setup q D) (A0 : Tensors ℂ q D) (H0 : ℂ)
    (brent : ℝ × ℝ × ℝ → Client ℝ) (X : Search q D) (br : Option (ℝ × ℝ × ℝ)) :
    Option (Search q D × ℝ × ℝ) :=
  br.elim (some (X, 0, H0.re)) fun br =>
    ((brent br).run (f W A0 H0) X).map fun Y =>
      Y.2.elim (Y.1, 0, H0.re) fun tau =>
        if tau ∈ Y.1.taus then
          (Y.1.hs[Y.1.taus.idxOf tau]?).elim (Y.1, 0, H0.re) fun h => (Y.1, tau, h)
        else (Y.1, 0, H0.re)

/-- The lists at the start, `tdvp_gen.py:993-999`. -/
noncomputable def start (W : Setup q D) (S : TDVP ℂ q D) (H0 : ℂ) : Search q D where
  S := S
  taus := [0]
  ress := [if W.overlap then W.etaSum.re else H0.re]
  hs := [H0.re]

/-- `tdvp_gen.py:1056-1099`, after the shortcut. -/
noncomputable def searchMin (W : Setup q D) (S0 : TDVP ℂ q D) (H0 : ℂ) (dtau : ℝ)
    (bracket : ℝ → ℝ → Client (ℝ × ℝ × ℝ)) (brent : ℝ × ℝ × ℝ → Client ℝ) (X : Search q D) :
    Option (TDVP ℂ q D × Out) :=
  (bracketLoop (f W S0.A H0) bracket 2 (dtau * (9 / 10)) (dtau * (3 / 2)) X).bind fun X =>
  (minimise W S0.A H0 brent X.1 X.2).map fun Y => (restore S0 Y.1.S, .pair Y.2.1 Y.2.2)

/-- `tdvp_gen.py:982-1099` `find_min_h_brent(Bs, dtau_init, skipIfLower)`.  Copies made at the beginning
are the arguments here.  `self.H_expect` must have been set before. -/
noncomputable def findMin (W : Setup q D) (S0 : TDVP ℂ q D) (dtau : ℝ) (skipIfLower : Bool)
    (bracket : ℝ → ℝ → Client (ℝ × ℝ × ℝ)) (brent : ℝ × ℝ × ℝ → Client ℝ) :
    Option (TDVP ℂ q D × Out) :=
  S0.H.bind fun H0 =>
    if skipIfLower then
      (f W S0.A H0 dtau (start W S0 H0)).bind fun Y => Y.1.S.H.bind fun H =>
        if Y.2 < H.re then some (Y.1.S, .scalar dtau)
        else searchMin W S0 H0 dtau bracket brent Y.1
    else searchMin W S0 H0 dtau bracket brent (start W S0 H0)

end LineSearch

end EvoMPS
