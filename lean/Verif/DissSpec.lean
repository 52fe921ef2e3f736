import Verif.TangentSpec
import Verif.StepSpec

/-!
# Specification: quantum trajectories of an open chain

No model definitions are used here.
-/

namespace EvoMPS

open Matrix

variable {q : ℕ → ℕ} {N : ℕ}

/-- A jump operator `(n, L)` acting on two or three neighbouring sites from site `k` on. -/
inductive Jump (q : ℕ → ℕ) where
  | two (k : ℕ) (op : Fin (q k) → Fin (q (k + 1)) → Fin (q k) → Fin (q (k + 1)) → ℂ)
  | three (k : ℕ) (op : Fin (q k) → Fin (q (k + 1)) → Fin (q (k + 2)) →
      Fin (q k) → Fin (q (k + 1)) → Fin (q (k + 2)) → ℂ)

/-- The jump operator as an operator on the whole chain; 0 if it does not fit. -/
def Jump.onChain : Jump q → Cfg q N → Cfg q N → ℂ
  | .two k op => if hk : k + 1 < N then siteOp2 k hk op else fun _ _ => 0
  | .three k op => if hk : k + 2 < N then siteOp3 k hk op else fun _ _ => 0

/-- The product `O† O`. -/
def adjMul (O : Cfg q N → Cfg q N → ℂ) (s t : Cfg q N) : ℂ := ∑ u, star (O u s) * O u t

/-- The identity operator. -/
def idChain (s t : Cfg q N) : ℂ := if s = t then 1 else 0

/-- `O - ⟨ψ|O|ψ⟩`. -/
def centred (ψ : Cfg q N → ℂ) (O : Cfg q N → Cfg q N → ℂ) (s t : Cfg q N) : ℂ :=
  O s t - matElem ψ O ψ * idChain s t

/-- The contribution of one jump operator `L` with noise `w` to the generator: with `m = ⟨ψ|L|ψ⟩` it is
`m* (L - m) - (L†L - ⟨L†L⟩) / 2 + w (L - m)`. -/
noncomputable def jumpTerm (ψ : Cfg q N → ℂ) (L : Cfg q N → Cfg q N → ℂ) (w : ℂ) (s t : Cfg q N) : ℂ :=
  star (matElem ψ L ψ) * centred ψ L s t - 1 / 2 * centred ψ (adjMul L) s t + w * centred ψ L s t

/-- The generator of one Euler-Maruyama step of size `dt` of the trajectory: `-i (H - ⟨H⟩)` and the contributions of
all jump operators with the increments `W` of the noise. -/
noncomputable def trajectory (ψ : Cfg q N → ℂ) (H : Cfg q N → Cfg q N → ℂ)
    (jumps : List ((Cfg q N → Cfg q N → ℂ) × ℂ)) (dt : ℝ) (s t : Cfg q N) : ℂ :=
  -Complex.I * centred ψ H s t + (jumps.map fun j => jumpTerm ψ j.1 (j.2 / dt) s t).sum

end EvoMPS
