import Verif.UniformK
import Verif.Sandwich

/-!
# Uniform chains made from tensors and from other chains (`mps_uniform.py`, `tdvp_uniform.py`)

`none` is a raised exception.  Tolerances and options, which are copied one by one, and the data type are left out.
-/

namespace EvoMPS.Uni

open Matrix

variable {q D : ℕ}

/-- The index into an axis of length `n` when it is repeated to the length `m`. -/
def repIdx {m n : ℕ} (h : n = m ∨ n = 1) (i : Fin m) : Fin n :=
  ⟨if n = 1 then 0 else i.val, by have := i.isLt; split <;> omega⟩

/-- `x[:] = X` for an array `x` of shape `(q, D, D)`: axes of `X` of length one are repeated, other lengths must agree. -/
def fillTen (q D : ℕ) (X : AnyTen ℂ) : Option (Ten ℂ q D D) :=
  if h : (X.q = q ∨ X.q = 1) ∧ (X.a = D ∨ X.a = 1) ∧ (X.b = D ∨ X.b = 1) then
    some fun s => Matrix.of fun i j => X.val (repIdx h.1 s) (repIdx h.2.1 i) (repIdx h.2.2 j)
  else none

/-- A new chain after `_init_arrays`, `mps_uniform.py:272-293`, with the given tensors: everything else is zeros or ones. -/
def freshChain (L : ℕ) (A : ℕ → Ten ℂ q D D) : UMPS ℂ q D where
  L := L
  A := A
  AA _ := 0
  l _ := Matrix.of fun _ _ => 1
  r _ := Matrix.of fun _ _ => 1
  lL := Matrix.of fun _ _ => 1
  rL := Matrix.of fun _ _ => 1

/-- `mps_uniform.py:192-204` `EvoMPS_MPS_Uniform.from_tensors(As, do_update)`; the dimensions are those of the first tensor
(its first two axes).  `upd` is `update(restore_CF=False)`. -/
def chainFromTensors (upd : ∀ {q D : ℕ}, UMPS ℂ q D → Option (UMPS ℂ q D)) (As : List (AnyTen ℂ)) (doUpdate : Bool) :
    Option (Σ q D : ℕ, UMPS ℂ q D) :=
  As.head?.bind fun a =>
  if As.all fun X => (fillTen a.q a.a X).isSome then
    let M := freshChain As.length fun k => ((As[k]?).bind (fillTen a.q a.a)).getD 0
    (if doUpdate then upd M else some M).map fun M => ⟨a.q, a.a, M⟩
  else none

/-- `tdvp_uniform.py:113-138` `EvoMPS_TDVP_Uniform.from_mps(mps, ham, ham_sites)`: the state and `self.ham_sites`.  The lines 120
and 121 both assign to `lL_before_CF`; `rL_before_CF` keeps the matrix of ones made by `_init_arrays`. -/
def fromMps (M : UMPS ℂ q D) (ham : HamArg) (hamSites : Option ℕ) : Option (UMPS ℂ q D × ℕ) :=
  (newHamSites ham hamSites).map fun sites =>
  let T : UMPS ℂ q D := freshChain M.L fun _ => 0
  let T := { T with A := M.A, AA := M.AA, l := M.l, r := M.r }
  let T := { T with lL := T.l (T.L - 1) }
  let T := { T with lL := T.r (T.L - 1) }
  (T, sites)

/-- `tdvp_uniform.py:103-111` `EvoMPS_TDVP_Uniform.from_tensors(As, ham, ham_sites, do_update)`. -/
def tdvpFromTensors (upd : ∀ {q D : ℕ}, UMPS ℂ q D → Option (UMPS ℂ q D)) (As : List (AnyTen ℂ)) (ham : HamArg)
    (hamSites : Option ℕ) (doUpdate : Bool) : Option ((Σ q D : ℕ, UMPS ℂ q D) × ℕ) :=
  (chainFromTensors upd As doUpdate).bind fun M =>
  (fromMps M.2.2 ham hamSites).map fun T => (⟨M.1, M.2.1, T.1⟩, T.2)

end EvoMPS.Uni
