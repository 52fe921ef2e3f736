import Verif.SwEnergySpec
import Verif.TangentSpec

/-!
# Specification: derivatives of the energy of a window between two uniform chains

This file does not import the model.  `Φ_n(B)` is the state of the infinite chain in which the tensor of site `n` is replaced by
`B`; `gradTerm` is the matrix element of a term of the Hamiltonian between `Φ_n(B)` and the state itself.
-/

namespace EvoMPS

open Matrix

variable {q D : ℕ}

/-- The environment `x` of the cut in front of site `n` moved behind the sites `n, ..., n+i-1`, between the chains `bra` and
`site`. -/
def pushL (bra site : ℤ → Fin q → Matrix (Fin D) (Fin D) ℂ) (x : Matrix (Fin D) (Fin D) ℂ) (n : ℤ) :
    ℕ → Matrix (Fin D) (Fin D) ℂ
  | 0 => x
  | i + 1 => ∑ s, (bra (n + i) s)ᴴ * pushL bra site x n i * site (n + i) s

/-- The environment `x` of the cut behind site `n` moved in front of the sites `n-i+1, ..., n`. -/
def pushR (bra site : ℤ → Fin q → Matrix (Fin D) (Fin D) ℂ) (x : Matrix (Fin D) (Fin D) ℂ) (n : ℤ) :
    ℕ → Matrix (Fin D) (Fin D) ℂ
  | 0 => x
  | i + 1 => ∑ s, site (n - i) s * pushR bra site x n i * (bra (n - i) s)ᴴ

/-- The left environment of the cut behind site `m`, between `Φ_n(B)` and the state. -/
def gradEnvL (site : ℤ → Fin q → Matrix (Fin D) (Fin D) ℂ) (l : ℤ → Matrix (Fin D) (Fin D) ℂ) (n : ℤ)
    (B : Fin q → Matrix (Fin D) (Fin D) ℂ) (m : ℤ) : Matrix (Fin D) (Fin D) ℂ :=
  if m < n then l m else pushL (Function.update site n B) site (l (n - 1)) n (m + 1 - n).toNat

/-- The right environment of the cut behind site `m`, between `Φ_n(B)` and the state. -/
def gradEnvR (site : ℤ → Fin q → Matrix (Fin D) (Fin D) ℂ) (r : ℤ → Matrix (Fin D) (Fin D) ℂ) (n : ℤ)
    (B : Fin q → Matrix (Fin D) (Fin D) ℂ) (m : ℤ) : Matrix (Fin D) (Fin D) ℂ :=
  if n ≤ m then r m else pushR (Function.update site n B) site (r n) n (n - m).toNat

/-- The matrix element of an operator acting on the sites `j, ..., j+k-1` between `Φ_n(B)` and the state. -/
def gradTerm (site : ℤ → Fin q → Matrix (Fin D) (Fin D) ℂ) (l r : ℤ → Matrix (Fin D) (Fin D) ℂ) (n : ℤ)
    (B : Fin q → Matrix (Fin D) (Fin D) ℂ) (j : ℤ) (k : ℕ) (O : (Fin k → Fin q) → (Fin k → Fin q) → ℂ) : ℂ :=
  ∑ s, ∑ t, O s t * (gradEnvL site l n B (j - 1) * siteProd site j k t * gradEnvR site r n B (j + k - 1)
    * (siteProd (Function.update site n B) j k s)ᴴ).trace

/-- The inner product of `Φ_n(B)` (conjugated) and `Φ_n(B')`. -/
def tanInner (l r : ℤ → Matrix (Fin D) (Fin D) ℂ) (n : ℤ) (B B' : Fin q → Matrix (Fin D) (Fin D) ℂ) : ℂ :=
  ∑ s, (l (n - 1) * B' s * r n * (B s)ᴴ).trace

end EvoMPS
