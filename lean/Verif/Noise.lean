import Verif.Canon
import Verif.UniformEnv
import Mathlib.Analysis.Complex.Basic

/-!
# Random tensors (`randomize`, `add_noise`)

The numbers drawn are a parameter: `rnd` holds for each entry of each tensor the pair drawn by the first and the second call
of `sp.rand` (`sp.random.ranf`).  They lie between 0 (included) and 1 (excluded).
-/

namespace EvoMPS

open Matrix

/-- `la.norm(X)` of a tensor: the norm of the flattened array. -/
noncomputable def tenNorm {q m n : ℕ} (X : Ten ℂ q m n) : ℝ := √(∑ s, ∑ i, ∑ j, ‖X s i j‖ ^ 2)

/-- `matmul.py:349-354` `randomize_cmplx(x, a, b, aj, bj)`. -/
noncomputable def randomizeCmplx {q m n : ℕ} (a b aj bj : ℝ) (rnd : Fin q → Fin m → Fin n → ℝ × ℝ) : Ten ℂ q m n :=
  fun s => Matrix.of fun i j =>
    (((b - a) * (rnd s i j).1 + a : ℝ) : ℂ) + Complex.I * (((bj - aj) * (rnd s i j).2 + aj : ℝ) : ℂ)

section
variable {q D : ℕ → ℕ}

/-- The draws for a finite chain. -/
abbrev Draws (q D : ℕ → ℕ) := ∀ n, Fin (q n) → Fin (D n) → Fin (D (n + 1)) → ℝ × ℝ

/-- `mps_gen.py:270-272`, the tensor drawn in `randomize`. -/
noncomputable def drawn (rnd : Draws q D) : Tensors ℂ q D := fun n s => Matrix.of fun i j =>
  (((rnd n s i j).1 - 1 / 2 : ℝ) : ℂ) + Complex.I * (((rnd n s i j).2 - 1 / 2 : ℝ) : ℂ)

/-- `mps_gen.py:262-276` `randomize(do_update=False)`; `A n` is python's `A[n + 1]`.  A tensor with norm zero would become
`nan`. -/
noncomputable def randomizeGen (N : ℕ) (rnd : Draws q D) (A : Tensors ℂ q D) : Tensors ℂ q D :=
  (List.range' 0 N).foldl (fun (A : Tensors ℂ q D) n =>
    let X := drawn rnd n
    Function.update A n fun s => (1 / (tenNorm X : ℂ)) • X s) A

/-- `mps_gen.py:279-295` `add_noise(fac, do_update=False)`. -/
noncomputable def addNoiseGen (N : ℕ) (fac : ℝ) (rnd : Draws q D) (A : Tensors ℂ q D) : Tensors ℂ q D :=
  (List.range' 0 N).foldl (fun (A : Tensors ℂ q D) n =>
    Function.update A n fun s => Matrix.of fun i j =>
      ⟨(A n s i j).re + ((rnd n s i j).1 - 1 / 2) * 2 * fac, (A n s i j).im + ((rnd n s i j).2 - 1 / 2) * 2 * fac⟩) A

end

namespace Uni

variable {q D : ℕ}

/-- `mps_uniform.py:206-219` `randomize(do_update=False)`. -/
noncomputable def randomizeUni (rnd : ℕ → Fin q → Fin D → Fin D → ℝ × ℝ) (S : UMPS ℂ q D) : UMPS ℂ q D :=
  (List.range S.L).foldl (fun (S : UMPS ℂ q D) k =>
    let X := randomizeCmplx (-1 / 2) (1 / 2) (-1 / 2) (1 / 2) (rnd k)
    { S with A := Function.update S.A k fun s => (1 / (tenNorm X : ℂ)) • X s }) S

/-- `mps_uniform.py:221-241` `add_noise(fac, do_update=False)`: the last two arguments of `randomize_cmplx` keep their
defaults. -/
noncomputable def addNoiseUni (fac : ℝ) (rnd : ℕ → Fin q → Fin D → Fin D → ℝ × ℝ) (S : UMPS ℂ q D) : UMPS ℂ q D :=
  (List.range S.L).foldl (fun (S : UMPS ℂ q D) k =>
    let f := fac * (tenNorm (S.A k) / (q * D ^ 2))
    let R := randomizeCmplx (-f / 2) (f / 2) (-1 / 2) (1 / 2) (rnd k)
    { S with A := Function.update S.A k fun s => S.A k s + R s }) S

end Uni

end EvoMPS
