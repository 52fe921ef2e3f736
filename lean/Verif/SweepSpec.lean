import Verif.TangentSpec
import Verif.EffOpsSpec
import Verif.SplitStepSpec
import Mathlib.Analysis.Normed.Algebra.MatrixExponential
import Mathlib.Analysis.Complex.Basic

/-!
# Specification: local time evolution and local optimisation of a state

No model definitions are used here (`Loc` is the name of a place in the chain).  States are vectors of amplitudes, `H` is the matrix of the Hamiltonian.  A local
step keeps to the vectors that a chain can represent if only one of its tensors (or a matrix on one of its bonds) may
vary.
-/

namespace EvoMPS

open Matrix

section
variable {q D : ℕ → ℕ} {N : ℕ}

/-- The states that result from the chain `A` if the tensor of site `k` varies. -/
def siteSpace (A : Tensors ℂ q D) (h0 : D 0 = 1) (hN : D N = 1) (k : ℕ) : Set (Cfg q N → ℂ) :=
  Set.range (oneSite A h0 hN k)

/-- The states that result from the chain `A` if a matrix on the bond behind site `k` varies. -/
def bondSpace (A : Tensors ℂ q D) (h0 : D 0 = 1) (hN : D N = 1) (k : ℕ) : Set (Cfg q N → ℂ) :=
  Set.range fun G : Matrix (Fin (D (k + 1))) (Fin (D (k + 1))) ℂ => oneSite A h0 hN k fun s => A k s * G

/-- `P` is the orthogonal projector on `V`. -/
structure IsProj (P : Matrix (Cfg q N) (Cfg q N) ℂ) (V : Set (Cfg q N → ℂ)) : Prop where
  herm : P.IsHermitian
  idem : P * P = P
  range : ∀ ψ, ψ ∈ V ↔ P *ᵥ ψ = ψ

/-- The vector of norm 1 in the direction of `φ`. -/
noncomputable def unitVec (φ : Cfg q N → ℂ) : Cfg q N → ℂ := ((Real.sqrt (braket φ φ).re : ℝ) : ℂ)⁻¹ • φ

/-- `ψ'` is `exp(c P H P) ψ`, with norm 1, where `P` projects on `V`. -/
def Evolved (H : Matrix (Cfg q N) (Cfg q N) ℂ) (V : Set (Cfg q N → ℂ)) (c : ℂ) (ψ ψ' : Cfg q N → ℂ) : Prop :=
  ψ ∈ V ∧ ∃ P, IsProj P V ∧ ψ' = unitVec (NormedSpace.exp (c • (P * H * P)) *ᵥ ψ)

/-- `ψ'` has norm 1 and minimises the energy among the vectors of `V`. -/
def Optimal (H : Matrix (Cfg q N) (Cfg q N) ℂ) (V : Set (Cfg q N → ℂ)) (ψ' : Cfg q N → ℂ) : Prop :=
  ψ' ∈ V ∧ braket ψ' ψ' = 1 ∧
    ∀ φ ∈ V, (matElem ψ' H ψ').re * (braket φ φ).re ≤ (matElem φ H φ).re

/-- The mean value of `H`. -/
noncomputable def meanE (H : Matrix (Cfg q N) (Cfg q N) ℂ) (ψ : Cfg q N → ℂ) : ℝ :=
  (matElem ψ H ψ).re / (braket ψ ψ).re

end

/-- Consecutive steps of the kinds given by the list. -/
inductive Steps {α V : Type*} (step : α → V → V → Prop) : List α → V → V → Prop
  | nil (v : V) : Steps step [] v v
  | cons {a : α} {l : List α} {u v w : V} (h : step a u v) (t : Steps step l v w) : Steps step (a :: l) u w

section
variable {q D : ℕ → ℕ} {N : ℕ}

/-- The chain is in the central gauge with the centre at site `k`. -/
def Central (N : ℕ) (A : Tensors ℂ q D) (k : ℕ) : Prop :=
  (∀ n < k, Eff.LOrth (A n)) ∧ ∀ n, k < n → n < N → Eff.ROrth (A n)

/-- An evolution at a place for the time `t`; sites and bonds are numbered from 1 as in python. -/
def EvoStep (D : ℕ → ℕ) (H : Matrix (Cfg q N) (Cfg q N) ℂ) (h0 : D 0 = 1) (hN : D N = 1) (fac : ℂ) :
    Split.Loc × ℝ → (Cfg q N → ℂ) → (Cfg q N → ℂ) → Prop
  | (.site (k + 1), t), ψ, ψ' => k < N ∧ ∃ A : Tensors ℂ q D, Central N A k ∧
      Evolved H (siteSpace A h0 hN k) (t * fac) ψ ψ'
  | (.bond (k + 1), t), ψ, ψ' => k + 1 < N ∧ ∃ A : Tensors ℂ q D, Central N A k ∧ Eff.LOrth (A k) ∧
      Evolved H (bondSpace A h0 hN k) (t * fac) ψ ψ'
  | _, _, _ => False

/-- An optimisation of the tensor of a site, numbered from 1. -/
def OptStep (D : ℕ → ℕ) (H : Matrix (Cfg q N) (Cfg q N) ℂ) (h0 : D 0 = 1) (hN : D N = 1) :
    ℕ → (Cfg q N → ℂ) → (Cfg q N → ℂ) → Prop
  | k + 1, ψ, ψ' => k < N ∧ ∃ A : Tensors ℂ q D, Central N A k ∧ ψ ∈ siteSpace A h0 hN k ∧
      Optimal H (siteSpace A h0 hN k) ψ'
  | _, _, _ => False

/-- Dimensions for which no step is trivial or changes them. -/
structure Sweep.Dims (q D : ℕ → ℕ) (N : ℕ) : Prop where
  left : ∀ k < N, D (k + 1) ≤ q k * D k
  right : ∀ k < N, D k ≤ q k * D (k + 1)
  site : ∀ k < N, 2 ≤ q k
  bond : ∀ k, 0 < k → k < N → 2 ≤ D k

end

end EvoMPS
