import Mathlib.Algebra.Star.Basic
import Mathlib.Algebra.BigOperators.Group.Finset.Basic
import Mathlib.Algebra.BigOperators.Ring.Finset
import Mathlib.Data.Finset.Range

/-!
# The compiled maps (`eps_maps_c.pyx`)

Arrays are flat memory, functions `ℕ → R` from the position to the value; an array of shape `(d, a, b)` has entry
`(s, i, j)` at position `s * (a * b) + i * b + j` (C order).  Shapes are explicit.  The BLAS routines are
modelled by what their documentation says they do with the memory.

`prange` is modelled by arbitrary interleavings of the loop bodies: the body of every chunk is a list of
operations on the shared memory, and a schedule picks the chunk whose next operation is carried out.
-/

namespace EvoMPS

variable {R : Type*} [CommSemiring R] [StarRing R]

/-- An array in memory. -/
abbrev Buf (R : Type*) := ℕ → R

/-- `zgemm(transa, transb, M, N, K, alpha, A, lda, B, ldb, beta, C, ldc)`: column-major
`C = alpha op(A) op(B) + beta C`, where `op` is the identity for `'n'` (false) and the conjugate transpose for
`'c'` (true); `A`, `B`, `C` are given with the position of their first entry. -/
def zgemm (ca cb : Bool) (M N K : ℕ) (alpha : R) (A : Buf R) (pa lda : ℕ) (B : Buf R) (pb ldb : ℕ) (beta : R)
    (C : Buf R) (pc ldc : ℕ) : Buf R := fun p =>
  if pc ≤ p ∧ (p - pc) % ldc < M ∧ (p - pc) / ldc < N then
    let i := (p - pc) % ldc
    let j := (p - pc) / ldc
    alpha * (∑ l ∈ Finset.range K,
      (if ca then star (A (pa + (l + i * lda))) else A (pa + (i + l * lda)))
        * (if cb then star (B (pb + (j + l * ldb))) else B (pb + (l + j * ldb)))) + beta * C p
  else C p

/-- `zaxpy(n, alpha, x, 1, y, 1)`: `y += alpha x`. -/
def zaxpy (n : ℕ) (alpha : R) (x : Buf R) (px : ℕ) (y : Buf R) (py : ℕ) : Buf R := fun p =>
  if py ≤ p ∧ p < py + n then y p + alpha * x (px + (p - py)) else y p

/-- `eps_maps_c.pyx:188-211` `gdmm(HX, X, Y, out)`, `X` of shape `(m, n)`: the two loops write
`out[j, i] = conj(X[i, j]) Y[i]` (`HX`) or `out[i, j] = X[i, j] Y[j]` at every position. -/
def gdmm (hx : Bool) (m n : ℕ) (X : Buf R) (px : ℕ) (Y : Buf R) (C : Buf R) (pc : ℕ) : Buf R :=
  (List.range m).foldl (fun C i => (List.range n).foldl (fun C j =>
    if hx then Function.update C (pc + (j * m + i)) (star (X (px + (i * n + j))) * Y i)
    else Function.update C (pc + (i * n + j)) (X (px + (i * n + j)) * Y j)) C) C

/-- The memory the threads write to: the scratch array `A1Hx` or `A1x` and the array `outs` (or `out`). -/
structure Mem (R : Type*) where
  tmp : Buf R
  outs : Buf R

/-- The type of the matrix `x`. -/
inductive XKind | eye | diag | dense
  deriving DecidableEq

/-- The operations of one iteration `s` of the loops of `eps_l_noop_id`, `eps_l_noop_diag` and `eps_l_noop_dense`
(`eps_maps_c.pyx:213-232`, `254-282`, `333-351`).  `A1` has shape `(d, a, b)`, `A2` has shape `(d, a2, b2)`,
`s` counts from the start of the whole array, `pt` and `po` are the first positions of the scratch and output
arrays passed in. -/
def stepL (k : XKind) (a b a2 b2 : ℕ) (x A1 A2 : Buf R) (pt po s : ℕ) : List (Mem R → Mem R) :=
  match k with
  | .eye => [fun m => ⟨m.tmp, zgemm false true b2 b a2 1 A2 (s * (a2 * b2)) b2 A1 (s * (a * b)) b 1 m.outs po b2⟩]
  | .diag => [fun m => ⟨gdmm true a b A1 (s * (a * b)) x m.tmp pt, m.outs⟩,
      fun m => ⟨m.tmp, zgemm false false b2 b a 1 A2 (s * (a2 * b2)) b2 m.tmp pt a 1 m.outs po b2⟩]
  | .dense => [fun m => ⟨zgemm false true a2 b a 1 x 0 a2 A1 (s * (a * b)) b 0 m.tmp pt a2, m.outs⟩,
      fun m => ⟨m.tmp, zgemm false false b2 b a2 1 A2 (s * (a2 * b2)) b2 m.tmp pt a2 1 m.outs po b2⟩]

/-- The same for `eps_r_noop_id`, `eps_r_noop_diag` and `eps_r_noop_dense` (`eps_maps_c.pyx:234-252`, `284-331`). -/
def stepR (k : XKind) (a b a2 b2 : ℕ) (x A1 A2 : Buf R) (pt po s : ℕ) : List (Mem R → Mem R) :=
  match k with
  | .eye => [fun m => ⟨m.tmp, zgemm true false a2 a b 1 A2 (s * (a2 * b2)) b A1 (s * (a * b)) b 1 m.outs po a2⟩]
  | .diag => [fun m => ⟨gdmm false a b A1 (s * (a * b)) x m.tmp pt, m.outs⟩,
      fun m => ⟨m.tmp, zgemm true false a2 a b 1 A2 (s * (a2 * b2)) b m.tmp pt b 1 m.outs po a2⟩]
  | .dense => [fun m => ⟨zgemm false false b2 a b 1 x 0 b2 A1 (s * (a * b)) b 0 m.tmp pt b2, m.outs⟩,
      fun m => ⟨m.tmp, zgemm true false a2 a b2 1 A2 (s * (a2 * b2)) b2 m.tmp pt b2 1 m.outs po a2⟩]

/-- `eps_maps_c.pyx:43`, `124`: `num_chunks = int_min(omp_get_max_threads(), d)`. -/
def numChunks (threads d : ℕ) : ℕ := min threads d

/-- `eps_maps_c.pyx:44`, `125`: loops per chunk. -/
def lpc (threads d : ℕ) : ℕ := max 1 (d / numChunks threads d)

/-- `si`. -/
def chunkStart (threads d i : ℕ) : ℕ := i * lpc threads d

/-- `sf`. -/
def chunkEnd (threads d i : ℕ) : ℕ := if i + 1 = numChunks threads d then d else (i + 1) * lpc threads d

/-- The physical indices chunk `i` runs over: the slice `si:sf`. -/
def chunk (threads d i : ℕ) : List ℕ :=
  List.range' (chunkStart threads d i) (chunkEnd threads d i - chunkStart threads d i)

/-- Carry out a list of operations. -/
def runOps (ops : List (Mem R → Mem R)) (m : Mem R) : Mem R := ops.foldl (fun m op => op m) m

/-- One step of the threads: chunk `i` carries out its next operation, if there is one. -/
def schedStep (st : Mem R × (ℕ → List (Mem R → Mem R))) (i : ℕ) : Mem R × (ℕ → List (Mem R → Mem R)) :=
  match st.2 i with
  | [] => st
  | op :: rest => (op st.1, Function.update st.2 i rest)

/-- All steps of a schedule. -/
def runSched (sched : List ℕ) (m : Mem R) (prog : ℕ → List (Mem R → Mem R)) :
    Mem R × (ℕ → List (Mem R → Mem R)) :=
  sched.foldl schedStep (m, prog)

/-- The program of chunk `i`: the kernel called with the slices, with its own scratch array (of `nt` entries) and
its own output (of `no` entries). -/
def chunkProg (step : ℕ → ℕ → ℕ → List (Mem R → Mem R)) (nt no threads d i : ℕ) : List (Mem R → Mem R) :=
  (chunk threads d i).flatMap fun s => step (i * nt) (i * no) s

/-- `eps_maps_c.pyx:32-107` and `113-187`: `eps_l_noop_inplace`, `eps_r_noop_inplace` with the kernel `step`.
`nt` is the size of the scratch array of a chunk, `no` that of the result, `ndout` the array passed in, which is
filled with zeros first.  `none` is `ZeroDivisionError` for `d = 0`.  The schedule is only used if there is more
than one chunk. -/
def epsNoop (step : ℕ → ℕ → ℕ → List (Mem R → Mem R)) (nt no d threads : ℕ) (sched : List ℕ) (ndout : Buf R) :
    Option (Buf R) :=
  if numChunks threads d = 0 then none
  else
    let out : Buf R := fun p => if p < no then 0 else ndout p
    if numChunks threads d = 1 then
      some (runOps ((List.range d).flatMap fun s => step 0 0 s) ⟨fun _ => 0, out⟩).outs
    else
      let m := (runSched sched ⟨fun _ => 0, fun _ => 0⟩ (chunkProg step nt no threads d)).1
      some ((List.range (numChunks threads d)).foldl (fun out i => zaxpy no 1 m.outs (i * no) out 0) out)

/-- The parallel loop is over when every chunk has done all its operations. -/
def Complete (sched : List ℕ) (step : ℕ → ℕ → ℕ → List (Mem R → Mem R)) (nt no d threads : ℕ) : Prop :=
  ∀ i < numChunks threads d, (runSched sched ⟨fun _ => 0, fun _ => 0⟩ (chunkProg step nt no threads d)).2 i = []

/-- `eps_maps_c.pyx:32-107` `eps_l_noop_inplace`. -/
def epsLC (k : XKind) (d a b a2 b2 : ℕ) (x A1 A2 : Buf R) (threads : ℕ) (sched : List ℕ) (ndout : Buf R) :
    Option (Buf R) :=
  epsNoop (stepL k a b a2 b2 x A1 A2) (b * a2) (b * b2) d threads sched ndout

/-- `eps_maps_c.pyx:113-187` `eps_r_noop_inplace`. -/
def epsRC (k : XKind) (d a b a2 b2 : ℕ) (x A1 A2 : Buf R) (threads : ℕ) (sched : List ℕ) (ndout : Buf R) :
    Option (Buf R) :=
  epsNoop (stepR k a b a2 b2 x A1 A2) (a * b2) (a * a2) d threads sched ndout

end EvoMPS
