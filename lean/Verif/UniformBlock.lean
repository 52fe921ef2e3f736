import Verif.UniformEnv
import Mathlib.Algebra.BigOperators.Fin

/-!
# The uniform chain: blocking the sites of a unit cell
-/

namespace EvoMPS

/-- Row-major index of a configuration of `n` sites: the last site varies fastest. -/
def rowEquiv (n q : ℕ) : (Fin n → Fin q) ≃ Fin (q ^ n) :=
  (Equiv.arrowCongr Fin.revPerm (Equiv.refl _)).trans finFunctionFinEquiv

/-- The block configurations of a configuration of `n` blocks of `L` sites. -/
def blocksOf (q L n : ℕ) (s : Fin (n * L) → Fin q) : Fin n → Fin (q ^ L) :=
  fun i => rowEquiv L q fun j => s (finProdFinEquiv (i, j))

/-- The operator `h` on the sites `k, ..., k+n-1` of `N` sites, the identity on all others. -/
def windowOp {R : Type*} [Zero R] {q : ℕ} (N k n : ℕ) (hk : k + n ≤ N)
    (h : (Fin n → Fin q) → (Fin n → Fin q) → R) (s t : Fin N → Fin q) : R :=
  if ∀ i : Fin N, (i : ℕ) < k ∨ k + n ≤ i → s i = t i then
    h (fun j => s ⟨k + j, by omega⟩) (fun j => t ⟨k + j, by omega⟩) else 0

namespace Uni

open Matrix

variable {R : Type*} [CommRing R] [StarRing R] {q D : ℕ}

/-- `mps_uniform.py:253-258`: the tensor of the block,

    newA[s] = sp.eye(self.D)
    for k in range(L):
        t = (s // q**k) % q
        newA[s] = self.A[L - k - 1][t].dot(newA[s])

(for `q = 0` there is no index `s`). -/
def blockTensor (L : ℕ) (A : ℕ → Ten R q D D) : Ten R (q ^ L) D D := fun s =>
  (List.range L).foldl (fun acc k =>
    if h : 0 < q then A (L - k - 1) ⟨(s : ℕ) / q ^ k % q, Nat.mod_lt _ h⟩ * acc else acc) 1

/-- `mps_uniform.py:243-270` `convert_to_TI_blocked(do_update=False)`, with `_init_arrays`
(272-291): for `L = 1` nothing happens, otherwise the state has one site of dimension `q**L`,
environments filled with ones, and the old end matrices as initial guesses for the new
environments.  `q` may change, so the result is a pair. -/
def UMPS.convertBlocked (S : UMPS R q D) : (q' : ℕ) × UMPS R q' D :=
  if S.L = 1 then ⟨q, S⟩ else
  ⟨q ^ S.L,
    { L := 1
      A := fun _ => blockTensor S.L S.A
      AA := fun _ => 0
      l := fun _ => Matrix.of fun _ _ => 1
      r := fun _ => Matrix.of fun _ _ => 1
      lL := S.l (S.L - 1)
      rL := S.r (S.L - 1) }⟩

/-- `tdvp_uniform.py:177`: `self.ham.reshape((q**ham_sites, q**ham_sites))`, row-major. -/
def hamMatrix {n : ℕ} (h : (Fin n → Fin q) → (Fin n → Fin q) → R) :
    Matrix (Fin (q ^ n)) (Fin (q ^ n)) R :=
  Matrix.of fun i j => h ((rowEquiv n q).symm i) ((rowEquiv n q).symm j)

theorem blockHam_dim {q L k n : ℕ} (hk : k + n ≤ 2 * L) :
    q ^ L * q ^ L = q ^ k * q ^ n * q ^ (2 * L - k - n) := by
  rw [← pow_add, ← pow_add, ← pow_add]
  congr 1
  omega

/-- `tdvp_uniform.py:180`: `sp.kron(sp.kron(sp.eye(q**k), oldham), sp.eye(q**(2*L - k - ham_sites)))`,
added to a matrix of dimension `newq**2`.  `none`: negative exponent. -/
def blockHamTerm (L n k : ℕ) (h : Matrix (Fin (q ^ n)) (Fin (q ^ n)) R) :
    Option (Matrix (Fin (q ^ L * q ^ L)) (Fin (q ^ L * q ^ L)) R) :=
  if hk : k + n ≤ 2 * L then
    some (Matrix.of fun i j =>
      kron (kron (1 : Matrix (Fin (q ^ k)) (Fin (q ^ k)) R) h)
        (1 : Matrix (Fin (q ^ (2 * L - k - n))) (Fin (q ^ (2 * L - k - n))) R)
        (Fin.cast (blockHam_dim hk) i) (Fin.cast (blockHam_dim hk) j))
  else none

/-- `tdvp_uniform.py:174-183`: the nearest-neighbour Hamiltonian of the blocked chain for a
Hamiltonian array (a function has no `reshape`).  `newham[s, t, u, v]` is
`newham (s, t) (u, v)` in the model. -/
def blockHam (L n : ℕ) (h : (Fin n → Fin q) → (Fin n → Fin q) → R) :
    Option (Fin (q ^ L) → Fin (q ^ L) → Fin (q ^ L) → Fin (q ^ L) → R) :=
  ((List.range L).foldl (fun acc k => acc.bind fun acc =>
    (blockHamTerm L n k (hamMatrix h)).map fun m => acc + m) (some 0)).map
    fun m s t u v => m (flat s t) (flat u v)

end Uni

end EvoMPS
