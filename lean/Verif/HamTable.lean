import Verif.UniformK
import Mathlib.Data.List.OfFn

/-!
# Hamiltonians given as functions (`tdvp_uniform.py`)

`none` is a raised exception.
-/

namespace EvoMPS.Uni

variable {q : ℕ}

/-- A number as python passes it: an integer or a floating-point number with that value. -/
inductive PyNum
  | int (n : ℕ)
  | float (n : ℕ)

/-- A function with numbers as arguments; the list has their right number. -/
abbrev PyFun := List PyNum → Option ℂ

open Classical in
/-- `np.fromfunction(np.vectorize(f), (q, ..., q))` with `n` axes.  The indices are passed as floating-point numbers (the
default `dtype=float` of `fromfunction`); an exception in one of the calls is passed on. -/
noncomputable def fromFunction (n q : ℕ) (f : PyFun) : Option ((Fin n → Fin q) → ℂ) :=
  let g : (Fin n → Fin q) → Option ℂ := fun i => f (List.ofFn fun k => .float (i k).val)
  if ∀ i, (g i).isSome then some fun i => (g i).getD 0 else none

/-- `tdvp_uniform.py:186-204` `set_ham_array_from_function(ham_func)`: `self.ham` afterwards. -/
noncomputable def setHamArray (sites q : ℕ) (f : PyFun) : Option (UHam q) :=
  if sites = 2 then (fromFunction 4 q f).map fun h => .two fun s t u v => h ![s, t, u, v]
  else (fromFunction 6 q f).map fun h => .three fun s t u v w z => h ![s, t, u, v, w, z]

/-- The attribute `self.ham`. -/
inductive HamAttr (q : ℕ)
  | function (f : PyFun)
  | array (h : UHam q)

/-- `tdvp_uniform.py:222-226`: the array that `calc_C` uses.  The first axes of `C[0]` are those of the `ham_sites` sites. -/
noncomputable def hamForC (sites : ℕ) : HamAttr q → Option (UHam q)
  | .function f =>
    if sites = 2 then (fromFunction (2 * 2) q f).map fun h => .two fun s t u v => h ![s, t, u, v]
    else (fromFunction (3 * 2) q f).map fun h => .three fun s t u v w z => h ![s, t, u, v, w, z]
  | .array h => some h

end EvoMPS.Uni
