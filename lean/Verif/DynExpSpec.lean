import Verif.StepSpec

/-!
# States with one pair of neighbouring tensors replaced (specification)
-/

namespace EvoMPS

open Matrix

section
variable {R : Type*} [CommRing R] {q D : ℕ → ℕ}

/-- Two-site tensors for all pairs of neighbouring sites. -/
abbrev Pairs (R : Type*) (q D : ℕ → ℕ) := ∀ k, Ten2 R (q k) (q (k + 1)) (D k) (D (k + 1 + 1))

/-- The matrix product over the first `N` sites with the tensors of the sites `k` and `k + 1` replaced by the
two-site tensor `X k`; 0 if these sites are not among the first `N`. -/
def amp2 (A : Tensors R q D) (X : Pairs R q D) (k : ℕ) : ∀ N, Cfg q N → Matrix (Fin (D 0)) (Fin (D N)) R
  | 0, _ => 0
  | 1, _ => 0
  | N + 2, s =>
    if N = k then
      amp A N (fun i => s i.castSucc.castSucc) * X N (s (Fin.last N).castSucc) (s (Fin.last (N + 1)))
    else amp2 A X k (N + 1) (fun i => s i.castSucc) * A (N + 1) (s (Fin.last (N + 1)))

/-- The state with the tensors of the sites `k` and `k + 1` replaced by the two-site tensor `X k`. -/
def twoSite {N : ℕ} (A : Tensors R q D) (h0 : D 0 = 1) (hN : D N = 1) (X : Pairs R q D) (k : ℕ) (s : Cfg q N) :
    R :=
  amp2 A X k N s ⟨0, by omega⟩ ⟨0, by omega⟩

/-- The matrix product in which any number of pairs of neighbouring tensors is replaced by `-t * X k`: the last
site is not part of a replaced pair, or it is. -/
def ampGrow (E : Tensors R q D) (X : Pairs R q D) (t : R) : ∀ N, Cfg q N → Matrix (Fin (D 0)) (Fin (D N)) R
  | 0, _ => 1
  | 1, s => E 0 (s 0)
  | N + 2, s =>
    ampGrow E X t (N + 1) (fun i => s i.castSucc) * E (N + 1) (s (Fin.last (N + 1)))
      - t • (ampGrow E X t N (fun i => s i.castSucc.castSucc)
          * X N (s (Fin.last N).castSucc) (s (Fin.last (N + 1))))

end

end EvoMPS
