import Verif.EpsMaps

/-!
# Lists of tensors with matching bond dimensions
-/

namespace EvoMPS

open Matrix

/-- A list of site tensors such that neighbours share a bond dimension.  The indices are
the list of site dimensions and the two outer bond dimensions. -/
inductive Chain (R : Type*) : List ℕ → ℕ → ℕ → Type _
  | nil (D : ℕ) : Chain R [] D D
  | cons {q Dl D Dr : ℕ} {qs : List ℕ} (A : Ten R q Dl D) (C : Chain R qs D Dr) :
      Chain R (q :: qs) Dl Dr

variable {R : Type*} [CommRing R] [StarRing R]

/-- `A[i]` for a site index computed as a natural number.  The second case is never reached:
the code only uses indices reduced modulo the site dimension, inside a loop that has no
iterations when a dimension is 0. -/
def tenAt {q a b : ℕ} (A : Ten R q a b) (i : ℕ) : Matrix (Fin a) (Fin b) R :=
  if h : i < q then A ⟨i, h⟩ else 0

/-- The inner loops of `core_common.py:302-305`, `311-314` for flattened site index `s`.
Returns the product of the selected matrices and the product of the site dimensions so far
(`A1dims_prod`).  Simplified: the accumulated product starts with the identity instead of
the last matrix. -/
def prodAt : {qs : List ℕ} → {Dl Dr : ℕ} → Chain R qs Dl Dr → ℕ → Matrix (Fin Dl) (Fin Dr) R × ℕ
  | _, _, _, .nil _, _ => (1, 1)
  | _, _, _, @Chain.cons _ q _ _ _ _ A C, s =>
      let P := prodAt C s
      (tenAt A ((s / P.2) % q) * P.1, P.2 * q)

/-- `core_common.py:262-327` `eps_r_noop_multi(x, A1, A2)` after the site axes within each
tensor have been flattened (lines 286-287; `mergeSites` for two axes). -/
def epsRMulti {qs qs' : List ℕ} {a b a' b' : ℕ} (x : Matrix (Fin b) (Fin b') R)
    (A1 : Chain R qs a b) (A2 : Chain R qs' a' b') : Matrix (Fin a) (Fin a') R :=
  let S := (prodAt A1 0).2
  forSum S fun s => (prodAt A1 s.val).1 * (x * ((prodAt A2 s.val).1)ᴴ)

end EvoMPS
