import Verif.Spec
import Verif.UniformCFSpec

/-!
# Specification: gauge transformations of a finite part between two uniform chains

Sites of the finite part are numbered from 0 (site `n` is python's site `n + 1`), bonds as in python: bond `n` is to the left
of site `n`.  This file does not import the model.
-/

namespace EvoMPS

open Matrix

/-- The tensors of the infinite chain: blocks of `LL` tensors `AL` to the left, the `N` tensors `A`, blocks of `LR` tensors
`AR` to the right. -/
structure SwTensors (q D : ℕ → ℕ) (qL qR N : ℕ) where
  LL : ℕ
  AL : ℕ → Fin qL → Matrix (Fin (D 0)) (Fin (D 0)) ℂ
  A : Tensors ℂ q D
  LR : ℕ
  AR : ℕ → Fin qR → Matrix (Fin (D N)) (Fin (D N)) ℂ

variable {q D : ℕ → ℕ} {qL qR N : ℕ}

/-- The matrix product over the window of `a` blocks of the left chain, the finite part, and `b` blocks of the right chain. -/
noncomputable def swProd (T : SwTensors q D qL qR N) (a b : ℕ)
    (s : (Fin (a * T.LL) → Fin qL) × Cfg q N × (Fin (b * T.LR) → Fin qR)) : Matrix (Fin (D 0)) (Fin (D N)) ℂ :=
  chainProd T.LL T.AL 0 (a * T.LL) s.1 * amp T.A N s.2.1 * chainProd T.LR T.AR 0 (b * T.LR) s.2.2

/-- `⟨ψ|O|ψ⟩` for an operator on such a window, where everything to the left is contracted to `l` and everything to the right to
`r`. -/
noncomputable def swExpect (T : SwTensors q D qL qR N) (l : Matrix (Fin (D 0)) (Fin (D 0)) ℂ)
    (r : Matrix (Fin (D N)) (Fin (D N)) ℂ) (a b : ℕ)
    (O : (Fin (a * T.LL) → Fin qL) × Cfg q N × (Fin (b * T.LR) → Fin qR) →
      (Fin (a * T.LL) → Fin qL) × Cfg q N × (Fin (b * T.LR) → Fin qR) → ℂ) : ℂ :=
  ∑ s, ∑ t, O s t * (lᴴ * swProd T a b t * r * (swProd T a b s)ᴴ).trace

/-- `l n`, `r n` are the environments of bond `n` of the finite part, if `l0` is that of the left chain and `rN` that of the
right one. -/
structure SwEnv (N : ℕ) (A : Tensors ℂ q D) (l0 : Matrix (Fin (D 0)) (Fin (D 0)) ℂ)
    (rN : Matrix (Fin (D N)) (Fin (D N)) ℂ) (l r : Envs ℂ D) : Prop where
  first : l 0 = l0
  l_succ : ∀ n < N, l (n + 1) = ∑ s, (A n s)ᴴ * l n * A n s
  last : r N = rN
  r_pred : ∀ n < N, r n = ∑ s, A n s * r (n + 1) * (A n s)ᴴ

/-- The finite part `A'` is `A` with `g n gi n = 1` inserted at every bond, and the tensor of site `c` multiplied by `k`. -/
structure SwGauge (N c : ℕ) (k : ℂ) (g gi : Envs ℂ D) (A A' : Tensors ℂ q D) : Prop where
  inv : ∀ n ≤ N, g n * gi n = 1 ∧ gi n * g n = 1
  eq : ∀ n < N, ∀ s, A' n s = (if n = c then k else 1) • (gi n * A n s * g (n + 1))

/-- A diagonal matrix of nonnegative numbers in ascending order. -/
def AscendingDiag {n : ℕ} (M : Matrix (Fin n) (Fin n) ℂ) : Prop :=
  ∃ e : Fin n → ℝ, (∀ i, 0 ≤ e i) ∧ (∀ i j, i ≤ j → e i ≤ e j) ∧ M = diagonal fun i => (e i : ℂ)

end EvoMPS
