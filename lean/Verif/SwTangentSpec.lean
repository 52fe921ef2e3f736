import Verif.ExciteSpec

/-!
# Specification: the inner product of a sandwich state with a tangent vector

This file does not import the model.
-/

namespace EvoMPS

open Matrix

variable {q D : ℕ}

/-- The sandwich state: `AL` at the sites `..., -1, 0`, the tensors `A 1, ..., A N`, and `AR` behind them. -/
def sandwichSite (AL AR : Fin q → Matrix (Fin D) (Fin D) ℂ) (N : ℕ) (A : ℕ → Fin q → Matrix (Fin D) (Fin D) ℂ) :
    ℤ → Fin q → Matrix (Fin D) (Fin D) ℂ :=
  fun j => if j < 1 then AL else if j ≤ N then A j.toNat else AR

/-- `⟨k|ψ⟩`, evaluated on the sites `-a, ..., N + b`: `|k⟩` has the tensor `B` at site `k`, `AL` in front of it and
`AR` behind it, `|ψ⟩` is the sandwich state. -/
noncomputable def tangentBraket (AL AR : Fin q → Matrix (Fin D) (Fin D) ℂ) (l r : Matrix (Fin D) (Fin D) ℂ) (N : ℕ)
    (A : ℕ → Fin q → Matrix (Fin D) (Fin D) ℂ) (B : Fin q → Matrix (Fin D) (Fin D) ℂ) (k : ℤ) (a b : ℕ) : ℂ :=
  windowBraket 1 (fun _ => l) (fun _ => r) 0 (a + 1 + N + b) (fromSite a (wall AL AR k B))
    (fromSite a (sandwichSite AL AR N A))

/-- `v = ∑ k, f k ⟨k|ψ⟩`: every scalar product is a limit of finite windows, the sum over the positions is the limit
of finite sums. -/
def IsTangentOverlap (AL AR : Fin q → Matrix (Fin D) (Fin D) ℂ) (l r : Matrix (Fin D) (Fin D) ℂ) (N : ℕ)
    (A : ℕ → Fin q → Matrix (Fin D) (Fin D) ℂ) (B : Fin q → Matrix (Fin D) (Fin D) ℂ) (f : ℤ → ℂ) (v : ℂ) : Prop :=
  ∃ h : ℤ → ℂ,
    (∀ k, Filter.Tendsto (fun ab : ℕ × ℕ => tangentBraket AL AR l r N A B k ab.1 ab.2) Filter.atTop (nhds (h k))) ∧
    Filter.Tendsto (fun m : ℕ × ℕ => ∑ k ∈ Finset.Icc (-m.1 : ℤ) m.2, f k * h k) Filter.atTop (nhds v)

end EvoMPS
