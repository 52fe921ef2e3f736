import Mathlib.LinearAlgebra.Matrix.Trace
import Mathlib.LinearAlgebra.Matrix.ConjTranspose
import Mathlib.Algebra.BigOperators.Fin

/-!
# Specification: the state a list of tensors stands for

This file does not import the model.  It defines the amplitudes of the state
represented by a list of site tensors and the textbook quantities (scalar products,
matrix elements of local operators, expectation values) as explicit finite sums over
basis configurations.

Sites are numbered from 0 here (site `k` is python's site `k + 1`), bonds as in python.
-/

namespace EvoMPS

open Matrix

/-- The tensors of a chain: site `n` has `q n` basis states and a `D n x D (n+1)` matrix
for each of them. -/
abbrev Tensors (R : Type*) (q D : ℕ → ℕ) :=
  ∀ n, Fin (q n) → Matrix (Fin (D n)) (Fin (D (n + 1))) R

/-- One square matrix per bond. -/
abbrev Envs (R : Type*) (D : ℕ → ℕ) := ∀ n, Matrix (Fin (D n)) (Fin (D n)) R

/-- A basis configuration of the first `N` sites. -/
abbrev Cfg (q : ℕ → ℕ) (N : ℕ) := ∀ i : Fin N, Fin (q i)

section
variable {R : Type*} [CommRing R]

/-- The matrix product `A[1][s_1] A[2][s_2] ... A[N][s_N]`. -/
def amp {q D : ℕ → ℕ} (A : Tensors R q D) :
    ∀ N : ℕ, Cfg q N → Matrix (Fin (D 0)) (Fin (D N)) R
  | 0, _ => 1
  | N + 1, s => amp A N (fun i => s i.castSucc) * A N (s (Fin.last N))

/-- The amplitude of configuration `s` in the state of an open chain (outer bond
dimensions 1): the only entry of the matrix product. -/
def psi {q D : ℕ → ℕ} {N : ℕ} (A : Tensors R q D) (h0 : D 0 = 1) (hN : D N = 1)
    (s : Cfg q N) : R :=
  amp A N s ⟨0, by omega⟩ ⟨0, by omega⟩

variable [StarRing R]

/-- `⟨φ|ψ⟩`. -/
def braket {q : ℕ → ℕ} {N : ℕ} (φ ψ : Cfg q N → R) : R := ∑ s, star (φ s) * ψ s

/-- `⟨φ|O|ψ⟩` for an operator given by its matrix elements `O s t = ⟨s|O|t⟩`. -/
def matElem {q : ℕ → ℕ} {N : ℕ} (φ : Cfg q N → R) (O : Cfg q N → Cfg q N → R)
    (ψ : Cfg q N → R) : R :=
  ∑ s, ∑ t, star (φ s) * O s t * ψ t

/-- Matrix elements of a single-site operator acting on site `k`, the identity on all
other sites. -/
def siteOp {q : ℕ → ℕ} {N : ℕ} (k : ℕ) (hk : k < N) (op : Fin (q k) → Fin (q k) → R) :
    Cfg q N → Cfg q N → R :=
  fun s t => if ∀ i : Fin N, i.val ≠ k → s i = t i then op (s ⟨k, hk⟩) (t ⟨k, hk⟩) else 0

/-- Matrix elements of the product of an operator on site `j` and one on site `k`
(`j ≠ k`). -/
def siteOpPair {q : ℕ → ℕ} {N : ℕ} (j k : ℕ) (hj : j < N) (hk : k < N)
    (op1 : Fin (q j) → Fin (q j) → R) (op2 : Fin (q k) → Fin (q k) → R) :
    Cfg q N → Cfg q N → R :=
  fun s t => if ∀ i : Fin N, i.val ≠ j → i.val ≠ k → s i = t i then
    op1 (s ⟨j, hj⟩) (t ⟨j, hj⟩) * op2 (s ⟨k, hk⟩) (t ⟨k, hk⟩) else 0

/-- Matrix elements of an operator acting on the two neighbouring sites `k, k+1`. -/
def siteOp2 {q : ℕ → ℕ} {N : ℕ} (k : ℕ) (hk : k + 1 < N)
    (op : Fin (q k) → Fin (q (k + 1)) → Fin (q k) → Fin (q (k + 1)) → R) :
    Cfg q N → Cfg q N → R :=
  fun s t => if ∀ i : Fin N, i.val ≠ k → i.val ≠ k + 1 → s i = t i then
    op (s ⟨k, by omega⟩) (s ⟨k + 1, hk⟩) (t ⟨k, by omega⟩) (t ⟨k + 1, hk⟩) else 0

/-- Matrix elements of an operator acting on the three neighbouring sites
`k, k+1, k+2`. -/
def siteOp3 {q : ℕ → ℕ} {N : ℕ} (k : ℕ) (hk : k + 2 < N)
    (op : Fin (q k) → Fin (q (k + 1)) → Fin (q (k + 2)) →
      Fin (q k) → Fin (q (k + 1)) → Fin (q (k + 2)) → R) :
    Cfg q N → Cfg q N → R :=
  fun s t => if ∀ i : Fin N, i.val ≠ k → i.val ≠ k + 1 → i.val ≠ k + 2 → s i = t i then
    op (s ⟨k, by omega⟩) (s ⟨k + 1, by omega⟩) (s ⟨k + 2, hk⟩)
      (t ⟨k, by omega⟩) (t ⟨k + 1, by omega⟩) (t ⟨k + 2, hk⟩) else 0

/-- Matrix elements of the product `o_0 ⊗ o_1 ⊗ ... ⊗ o_{N-1}`. -/
def prodOp {q : ℕ → ℕ} {N : ℕ} (o : ∀ n, Fin (q n) → Fin (q n) → R) :
    Cfg q N → Cfg q N → R :=
  fun s t => ∏ i : Fin N, o i (s i) (t i)

/-- Matrix elements of the product of the operators `op k, op (k+1), ...` on the `len`
sites from site `k` on, the identity on the other sites. -/
def stringOp {q : ℕ → ℕ} {N : ℕ} (k len : ℕ) (op : ∀ n, Fin (q n) → Fin (q n) → R) :
    Cfg q N → Cfg q N → R :=
  prodOp fun n => if k ≤ n ∧ n < k + len then op n else fun s t => if s = t then 1 else 0

/-- The product of the matrices `W n [.., .., s_n, t_n]` of a matrix product operator over
the first `N` sites. -/
def mpoProd {q M : ℕ → ℕ} (W : ∀ n, Fin (M n) → Fin (M (n + 1)) → Fin (q n) → Fin (q n) → R) :
    ∀ N : ℕ, Cfg q N → Cfg q N → Matrix (Fin (M 0)) (Fin (M N)) R
  | 0, _, _ => 1
  | N + 1, s, t => mpoProd W N (fun i => s i.castSucc) (fun i => t i.castSucc) *
      Matrix.of fun a b => W N a b (s (Fin.last N)) (t (Fin.last N))

/-- The MPO that consists of the tensors `W n` for `k ≤ n < k + m` and acts trivially on
the other sites. -/
def mpoWindow {q M : ℕ → ℕ} (k m : ℕ)
    (W : ∀ n, Fin (M n) → Fin (M (n + 1)) → Fin (q n) → Fin (q n) → R) :
    ∀ n, Fin (M n) → Fin (M (n + 1)) → Fin (q n) → Fin (q n) → R :=
  fun n a b s t => if k ≤ n ∧ n < k + m then W n a b s t else if s = t then 1 else 0

/-- Matrix elements of the operator given by the MPO tensors `W n` on the sites
`k ≤ n < k + m`, the identity on the other sites. -/
def mpoOp {q M : ℕ → ℕ} {N : ℕ} (k m : ℕ) (h0 : M 0 = 1) (hN : M N = 1)
    (W : ∀ n, Fin (M n) → Fin (M (n + 1)) → Fin (q n) → Fin (q n) → R) :
    Cfg q N → Cfg q N → R :=
  fun s t => mpoProd (mpoWindow k m W) N s t ⟨0, by omega⟩ ⟨0, by omega⟩

/-- `self.ham` together with `self.ham_sites` (`tdvp_gen.py:254-271`).  Entry `k` acts on
the sites `k, k+1` (and `k+2`); `none` is python's `None`.  A callable Hamiltonian is
evaluated into an array before use (lines 362-365), so arrays cover both cases. -/
inductive Ham (R : Type*) (q : ℕ → ℕ) where
  | two (h : ∀ k, Option (Fin (q k) → Fin (q (k + 1)) → Fin (q k) → Fin (q (k + 1)) → R))
  | three (h : ∀ k, Option (Fin (q k) → Fin (q (k + 1)) → Fin (q (k + 2)) →
      Fin (q k) → Fin (q (k + 1)) → Fin (q (k + 2)) → R))

/-- The `k`-th Hamiltonian term as an operator on the whole chain; 0 if it is missing or
does not fit. -/
def Ham.term {q : ℕ → ℕ} {N : ℕ} (ham : Ham R q) (k : ℕ) : Cfg q N → Cfg q N → R :=
  match ham with
  | .two h => if hk : k + 1 < N then (h k).elim (fun _ _ => 0) (siteOp2 k hk) else fun _ _ => 0
  | .three h => if hk : k + 2 < N then (h k).elim (fun _ _ => 0) (siteOp3 k hk) else fun _ _ => 0

/-- The Hamiltonian of the chain: the sum of all terms. -/
def Ham.total {q : ℕ → ℕ} {N : ℕ} (ham : Ham R q) : Cfg q N → Cfg q N → R :=
  fun s t => ∑ k ∈ Finset.range N, ham.term k s t

/-- The environments `l`, `r` belong to the tensors `A`: both ends are the identity and
every `l` (`r`) matrix is the contraction of its left (right) neighbour with the site
tensor in between.  This is what "the state must be up-to-date" in the documentation of
the measurement functions (`mps_gen.py:785` and others) means. -/
structure UpToDate {q D : ℕ → ℕ} (N : ℕ) (A : Tensors R q D) (l r : Envs R D) : Prop where
  l_zero : l 0 = 1
  l_succ : ∀ n < N, l (n + 1) = ∑ s, (A n s)ᴴ * l n * A n s
  r_last : r N = 1
  r_pred : ∀ n < N, r n = ∑ s, A n s * r (n + 1) * (A n s)ᴴ

end

end EvoMPS
