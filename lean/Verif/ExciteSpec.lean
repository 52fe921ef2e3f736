import Verif.UniformTangentSpec
import Mathlib.Analysis.SpecialFunctions.Exp
import Mathlib.Topology.Instances.Matrix

/-!
# Specification: excitations of the infinite chain

This file does not import the model.  The sites of the infinite chain are the integers.  An excited state is a
superposition `∑ k, exp(i p k) |k⟩` of states `|k⟩` with the tensor `B` at site `k`, the tensors `A` of one
uniform state in front of it and the tensors `A'` of the same or another uniform state behind it.
-/

namespace EvoMPS

open Matrix

variable {q D : ℕ}

/-- One tensor for every site of the chain: `A` in front of site `k`, `B` at site `k`, `A'` behind it. -/
def wall (A A' : Fin q → Matrix (Fin D) (Fin D) ℂ) (k : ℤ) (B : Fin q → Matrix (Fin D) (Fin D) ℂ) :
    ℤ → Fin q → Matrix (Fin D) (Fin D) ℂ :=
  fun j => if j < k then A else if j = k then B else A'

/-- The part of the infinite chain that starts `a` sites in front of site 0. -/
def fromSite (a : ℕ) (X : ℤ → Fin q → Matrix (Fin D) (Fin D) ℂ) : ℕ → Fin q → Matrix (Fin D) (Fin D) ℂ :=
  fun i => X (i - a)

/-- `O - e`. -/
def shiftOp {n : ℕ} (O : (Fin n → Fin q) → (Fin n → Fin q) → ℂ) (e : ℂ) : (Fin n → Fin q) → (Fin n → Fin q) → ℂ :=
  fun s t => O s t - if s = t then e else 0

/-- `⟨0|1|k⟩`, evaluated on the sites `-a, ..., b`; `B'` is the tensor of the bra. -/
noncomputable def wallBraket (A A' : Fin q → Matrix (Fin D) (Fin D) ℂ) (l r : Matrix (Fin D) (Fin D) ℂ)
    (B' B : Fin q → Matrix (Fin D) (Fin D) ℂ) (k : ℤ) (a b : ℕ) : ℂ :=
  windowBraket 1 (fun _ => l) (fun _ => r) 0 (a + 1 + b) (fromSite a (wall A A' 0 B')) (fromSite a (wall A A' k B))

/-- `⟨0|H|k⟩` for the terms of `H` on the sites `-a, ..., b`. -/
noncomputable def wallHam (A A' : Fin q → Matrix (Fin D) (Fin D) ℂ) (l r : Matrix (Fin D) (Fin D) ℂ) {n : ℕ}
    (O : (Fin n → Fin q) → (Fin n → Fin q) → ℂ) (B' B : Fin q → Matrix (Fin D) (Fin D) ℂ) (k : ℤ) (a b : ℕ) : ℂ :=
  windowHam 1 (fun _ => l) (fun _ => r) 0 (a + 1 + b) n O (fromSite a (wall A A' 0 B')) (fromSite a (wall A A' k B))

/-- `v = ∑ k, exp(i p k) ⟨0|H|k⟩`: every matrix element is a limit of finite windows, the sum over the positions is
the limit of finite sums. -/
def IsExciteElem (A A' : Fin q → Matrix (Fin D) (Fin D) ℂ) (l r : Matrix (Fin D) (Fin D) ℂ) {n : ℕ}
    (O : (Fin n → Fin q) → (Fin n → Fin q) → ℂ) (p : ℝ) (B' B : Fin q → Matrix (Fin D) (Fin D) ℂ) (v : ℂ) : Prop :=
  ∃ h : ℤ → ℂ,
    (∀ k, Filter.Tendsto (fun ab : ℕ × ℕ => wallHam A A' l r O B' B k ab.1 ab.2) Filter.atTop (nhds (h k))) ∧
    Filter.Tendsto (fun m : ℕ × ℕ => ∑ k ∈ Finset.Icc (-m.1 : ℤ) m.2, Complex.exp (Complex.I * p * k) * h k) Filter.atTop
      (nhds v)

/-- The transfer map of many sites forgets everything except the component along the right environment. -/
def Mixing (A : Fin q → Matrix (Fin D) (Fin D) ℂ) (l r : Matrix (Fin D) (Fin D) ℂ) : Prop :=
  ∀ x, Filter.Tendsto (fun n => chainTransfer 1 1 (fun _ => A) (fun _ => A) 0 n x) Filter.atTop (nhds ((lᴴ * x).trace • r))

/-- The mixed transfer map of many sites vanishes: two states that are orthogonal per site. -/
def Decays (A A' : Fin q → Matrix (Fin D) (Fin D) ℂ) : Prop :=
  ∀ x, Filter.Tendsto (fun n => chainTransfer 1 1 (fun _ => A) (fun _ => A') 0 n x) Filter.atTop (nhds 0)

end EvoMPS
