import Verif.UniformKSpec
import Mathlib.Analysis.Complex.Basic
import Mathlib.Topology.Instances.Matrix

/-!
# Specification: a window between two uniform chains

This file does not import the model.  The infinite chain has one tensor for every integer; the sites `1, ..., N` are
the window, the sites up to `0` repeat the block of the left chain, the sites behind `N` that of the right chain.
-/

namespace EvoMPS

open Matrix

variable {q D : ℕ}

/-- The matrix product over the `k` sites `n, ..., n+k-1`. -/
def siteProd (site : ℤ → Fin q → Matrix (Fin D) (Fin D) ℂ) (n : ℤ) (k : ℕ) (s : Fin k → Fin q) : Matrix (Fin D) (Fin D) ℂ :=
  (List.ofFn fun i : Fin k => site (n + i) (s i)).prod

/-- The expectation value of an operator acting on the sites `n, ..., n+k-1`; `l m`, `r m` are the environments of the
cut behind site `m`. -/
def termEnergy (site : ℤ → Fin q → Matrix (Fin D) (Fin D) ℂ) (l r : ℤ → Matrix (Fin D) (Fin D) ℂ) (n : ℤ) (k : ℕ)
    (O : (Fin k → Fin q) → (Fin k → Fin q) → ℂ) : ℂ :=
  ∑ s, ∑ t, O s t * (l (n - 1) * siteProd site n k t * r (n + k - 1) * (siteProd site n k s)ᴴ).trace

/-- The chain `site` made of the left block `AL 0, ..., AL (LL-1)` ending at site `0`, the window `A 1, ..., A N` and the
right block `AR 0, ..., AR (LR-1)` starting at site `N+1`, with environments `l`, `r` at all cuts that agree
with those of the left block on its left and with those of the right block on its right. -/
structure SandwichChain (LL N LR : ℕ) (AL A AR : ℕ → Fin q → Matrix (Fin D) (Fin D) ℂ)
    (lL rR : ℕ → Matrix (Fin D) (Fin D) ℂ) (site : ℤ → Fin q → Matrix (Fin D) (Fin D) ℂ)
    (l r : ℤ → Matrix (Fin D) (Fin D) ℂ) : Prop where
  siteL : ∀ n ≤ (0 : ℤ), site n = AL ((n - 1) % LL).toNat
  siteW : ∀ n : ℕ, 1 ≤ n → n ≤ N → site n = A n
  siteR : ∀ n > (N : ℤ), site n = AR ((n - N - 1) % LR).toNat
  envL : ∀ n ≤ (0 : ℤ), l n = lL ((n - 1) % LL).toNat
  envR : ∀ n ≥ (N : ℤ), r n = rR ((n - N - 1) % LR).toNat
  stepL : ∀ n, l n = ∑ s, (site n s)ᴴ * l (n - 1) * site n s
  stepR : ∀ n, r (n - 1) = ∑ s, site n s * r n * (site n s)ᴴ
  norm : (l 0 * r 0).trace = 1

/-- The powers of the transfer map of the block converge to the projection on the fixed points. -/
def BlockMixing (L : ℕ) (A : ℕ → Fin q → Matrix (Fin D) (Fin D) ℂ) (l r : Matrix (Fin D) (Fin D) ℂ) : Prop :=
  ∀ x, Filter.Tendsto (fun m : ℕ => chainTransfer L L A A 0 (m * L) x) Filter.atTop (nhds ((lᴴ * x).trace • r))

end EvoMPS
