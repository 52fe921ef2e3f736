import Mathlib.LinearAlgebra.Matrix.Trace
import Mathlib.LinearAlgebra.Matrix.ConjTranspose
import Mathlib.Algebra.BigOperators.Fin
import Mathlib.Logic.Equiv.Fin.Basic

/-!
# Loops, tensors and the scalar product

Building blocks shared by the whole model.
-/

namespace EvoMPS

open Matrix

/-- `for s in range(q): out += f(s)` started from a zero-filled `out`.  This is the
shape of every accumulation loop in the code, e.g. `core_common.py:140-145`. -/
def forSum {M : Type*} [AddCommMonoid M] (q : ℕ) (f : Fin q → M) : M :=
  (List.finRange q).foldl (fun acc s => acc + f s) 0

/-- A site tensor `A[n]` of shape `(q, a, b)`: one `a x b` matrix per site basis state
(`mps_gen.py:70-72`). -/
abbrev Ten (R : Type*) (q a b : ℕ) := Fin q → Matrix (Fin a) (Fin b) R

/-- A two-site tensor of shape `(q, q', a, b)` (`core_common.py:13-24`). -/
abbrev Ten2 (R : Type*) (q q' a b : ℕ) := Fin q → Fin q' → Matrix (Fin a) (Fin b) R

/-- A three-site tensor of shape `(q, q', q'', a, b)` (`core_common.py:33-50`). -/
abbrev Ten3 (R : Type*) (q q' q'' a b : ℕ) :=
  Fin q → Fin q' → Fin q'' → Matrix (Fin a) (Fin b) R

theorem foldl_add_eq {M ι : Type*} [AddCommMonoid M] (L : List ι) (f : ι → M) (a : M) :
    L.foldl (fun acc s => acc + f s) a = a + (L.map f).sum := by
  induction L generalizing a with
  | nil => simp
  | cons x xs ih => simp [ih, add_assoc]

theorem forSum_eq {M : Type*} [AddCommMonoid M] (q : ℕ) (f : Fin q → M) :
    forSum q f = ∑ s, f s := by
  rw [forSum, foldl_add_eq, zero_add, ← List.ofFn_eq_map, List.sum_ofFn]

section
variable {R : Type*} [CommRing R] [StarRing R]

/-- `matmul.py:309-315` `adot(a, b) = inner(a.ravel().conj(), b.ravel())`; the
row-major `ravel` is the double loop over rows and columns. -/
def adot {m n : ℕ} (a b : Matrix (Fin m) (Fin n) R) : R :=
  forSum m fun i => forSum n fun j => star (a i j) * b i j

/-- `matmul.py:317-323` `adot_noconj(a, b) = inner(a.T.ravel(), b.ravel())`. -/
def adotNoconj {m n : ℕ} (a : Matrix (Fin n) (Fin m) R) (b : Matrix (Fin m) (Fin n) R) : R :=
  forSum m fun i => forSum n fun j => aᵀ i j * b i j

theorem adot_eq_trace {m n : ℕ} (a b : Matrix (Fin m) (Fin n) R) :
    adot a b = (aᴴ * b).trace := by
  simp only [adot, forSum_eq, Matrix.trace, Matrix.diag_apply, Matrix.mul_apply,
    Matrix.conjTranspose_apply]
  exact Finset.sum_comm

theorem adotNoconj_eq_trace {m n : ℕ} (a : Matrix (Fin n) (Fin m) R)
    (b : Matrix (Fin m) (Fin n) R) : adotNoconj a b = (a * b).trace := by
  simp only [adotNoconj, forSum_eq, Matrix.trace, Matrix.diag_apply, Matrix.mul_apply,
    Matrix.transpose_apply]
  exact Finset.sum_comm

end

/-- Reordering a fourfold sum. -/
theorem sum_comm4 {M : Type*} [AddCommMonoid M] {α β γ δ : Type*} [Fintype α] [Fintype β]
    [Fintype γ] [Fintype δ] (f : α → β → γ → δ → M) :
    ∑ a, ∑ b, ∑ c, ∑ d, f a b c d = ∑ d, ∑ c, ∑ a, ∑ b, f a b c d := by
  have h1 : ∑ a, ∑ b, ∑ c, ∑ d, f a b c d
      = ∑ p : α × β, ∑ r : δ × γ, f p.1 p.2 r.2 r.1 := by
    simp only [Fintype.sum_prod_type]
    exact Finset.sum_congr rfl fun a _ => Finset.sum_congr rfl fun b _ => Finset.sum_comm
  rw [h1, Finset.sum_comm]
  simp only [Fintype.sum_prod_type]

end EvoMPS
