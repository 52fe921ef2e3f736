import Verif.HamTable
import Mathlib.Data.Fin.VecNotation

/-!
# C100: Hamiltonians given as functions
-/

namespace EvoMPS

open Uni

variable {q : ℕ}

/-- The value of the number. -/
def PyNumVal : PyNum → ℕ
  | .int n => n
  | .float n => n

/-- A function of the values of its arguments, which does not care whether they are integers or floating-point numbers. -/
def ValueFun (g : List ℕ → ℂ) : PyFun := fun a => some (g (a.map PyNumVal))

/-- A function that looks up an entry of an array: floating-point numbers cannot be indices. -/
def IndexFun (g : List ℕ → ℂ) : PyFun := fun a =>
  if a.all fun x => match x with | .int _ => true | .float _ => false then some (g (a.map PyNumVal)) else none

theorem fromFunction_value (n : ℕ) (g : List ℕ → ℂ) :
    fromFunction n q (ValueFun g) = some fun i => g (List.ofFn fun k => (i k).val) := by
  unfold fromFunction ValueFun
  simp only [Option.isSome_some, implies_true, if_true, Option.getD_some, List.map_ofFn]
  rfl

theorem fromFunction_index (n : ℕ) (hn : 0 < n) (hq : 0 < q) (g : List ℕ → ℂ) : fromFunction n q (IndexFun g) = none := by
  unfold fromFunction IndexFun
  simp only
  rw [if_neg]
  intro h
  have := h fun _ => ⟨0, hq⟩
  obtain ⟨m, rfl⟩ : ∃ m, n = m + 1 := ⟨n - 1, by omega⟩
  simp [List.ofFn_succ] at this

/-- **C100** `set_ham_array_from_function(f)`, partial: for a function of the values of its arguments the Hamiltonian becomes the array of its values, for
two and for three sites.  Missing are functions that need integers, see `C100_index_violated`. -/
theorem C100_array_partial (g : List ℕ → ℂ) :
    setHamArray 2 q (ValueFun g) = some (.two fun s t u v => g [s, t, u, v]) ∧
      setHamArray 3 q (ValueFun g) = some (.three fun s t u v w z => g [s, t, u, v, w, z]) := by
  constructor
  · simp only [setHamArray, if_true, fromFunction_value, Option.map_some]
    rfl
  · simp only [setHamArray, fromFunction_value, Option.map_some]
    rfl

/-- **C100** The array is the one that `calc_C()` makes of the function, so it does not matter for the dynamics whether the Hamiltonian is stored as
a function or as an array; in particular both raise for the same functions. -/
theorem C100_same (sites : ℕ) (f : PyFun) :
    setHamArray sites q f = hamForC sites (.function f) ∧
      ∀ h, setHamArray sites q f = some h → hamForC sites (.array h) = hamForC sites (.function (q := q) f) := by
  have e : setHamArray sites q f = hamForC sites (.function f) := rfl
  exact ⟨e, fun h hh => by rw [← e, hh]; rfl⟩

/-- **C100, violated** (indices).  A function that looks up the matrix elements in an array is rejected, in `set_ham_array_from_function` and as the Hamiltonian in
`calc_C()`, because it is called with floating-point numbers. -/
theorem C100_index_violated (sites : ℕ) (hq : 0 < q) (g : List ℕ → ℂ) :
    setHamArray sites q (IndexFun g) = none ∧ hamForC sites (.function (q := q) (IndexFun g)) = none := by
  have h : setHamArray sites q (IndexFun g) = none := by
    unfold setHamArray
    rw [fromFunction_index 4 (by omega) hq, fromFunction_index 6 (by omega) hq]
    simp
  exact ⟨h, h⟩

/-- The two kinds of functions agree on integers. -/
theorem C100_index_fun (g : List ℕ → ℂ) (a : List ℕ) : IndexFun g (a.map .int) = some (g a) ∧ ValueFun g (a.map .int) = some (g a) := by
  constructor <;> simp [IndexFun, ValueFun, Function.comp_def, PyNumVal]

/-- A concrete term: the exchange of two spins. -/
example : ∃ h, setHamArray 2 2 (ValueFun fun a => if a.getD 0 0 = a.getD 3 0 ∧ a.getD 1 0 = a.getD 2 0 then 1 else 0) = some (.two h) ∧
    h 0 1 1 0 = 1 ∧ h 0 1 0 1 = 0 :=
  ⟨_, (C100_array_partial _).1, by simp, by simp⟩

end EvoMPS
