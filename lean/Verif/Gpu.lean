import Verif.Chunks
import Verif.UniformPinv

/-!
# The transfer operators on the GPU (`cuda_alternatives.py`)

The classes `EOp_CUDA` and `PinvOp_CUDA`, which replace `EOp` and `PinvOp` when `ev_arpack_CUDA` or `PPinv_use_CUDA` is
set.  Every array allocated on the device is a flat piece of memory of its own (`Loc` names the arrays of one object), and
an operation of the CUBLAS library is a map of the device memory.  The memory lives as long as the object, so each call of
`matvec` finds what the calls before it have left behind.

Work put on different streams, and the products of one batch, are carried out in any order: a schedule names, step by
step, the stream that carries out its next operation (see `runStreams`).  Operations on the default stream wait for all
others, and others wait for them (CUDA's rule for streams made by `cd.Stream()`).

Simplified: exact arithmetic; the arrays have the shapes the constructor expects (`A1[k]`, `A2[k]` all of shape
`(q, D, D)`); running out of device memory, the CUBLAS error codes, the pointer mode (set to "device" around the products
of `_dev` functions and back) and `close_cuda` are not modelled.
-/

namespace EvoMPS.Gpu

open Matrix EvoMPS.Uni

/-- The arrays an `EOp_CUDA` or `PinvOp_CUDA` object keeps on the device, `cuda_alternatives.py:407-461`, `508-558`: the
vector, the result buffers, the scratch arrays per stream, the constants `1` and `0` per stream, the tensors
`A1G[k][s]`, `A2G[k][s]`, and the matrices `lG`, `rG`. -/
inductive Loc
  | xG | out | out2 | lG | rG
  | tmp (s : ℕ) | tmp2 (s : ℕ) | ones (s : ℕ) | zeros (s : ℕ)
  | A1 (k s : ℕ) | A2 (k s : ℕ)
  deriving DecidableEq

/-- The memory of the device. -/
abbrev Dev (R : Type*) := Loc → Buf R

variable {R : Type*} [CommRing R] [StarRing R] {q D : ℕ}

/-- `GPUArray.set(v)` and `garr.to_gpu(v)` for an array of `n` entries in C order. -/
def setBuf {n : ℕ} (v : Fin n → R) (old : Buf R) : Buf R := fun p => if h : p < n then v ⟨p, h⟩ else old p

/-- `GPUArray.get().ravel()` for an array of `n` entries. -/
def getBuf (n : ℕ) (b : Buf R) : Fin n → R := fun p => b p

/-- `GPUArray.fill(c)` for an array of `n` entries. -/
def fillBuf (n : ℕ) (c : R) (old : Buf R) : Buf R := fun p => if p < n then c else old p

/-- `garr.to_gpu(A[k][s])`, if there is such a tensor. -/
def tenBuf (A : List (Ten R q D D)) (k s : ℕ) (old : Buf R) : Buf R :=
  match A[k]? with
  | some T => if h : s < q then setBuf (ravel (T ⟨s, h⟩)) old else old
  | none => old

/-- The device memory after the constructors have run, `cuda_alternatives.py:407-461` (and `508-558` without `l`, `r`).
`junk` is what the memory held before: `garr.empty` does not clear it.  The constants are not allocated in batch mode. -/
def initDev (A1 A2 : List (Ten R q D D)) (useBatch : Bool) (junk : Dev R) : Dev R
  | .A1 k s => tenBuf A1 k s (junk (.A1 k s))
  | .A2 k s => tenBuf A2 k s (junk (.A2 k s))
  | .ones s => if useBatch then junk (.ones s) else fillBuf 1 1 (fillBuf 1 0 (junk (.ones s)))
  | .zeros s => if useBatch then junk (.zeros s) else fillBuf 1 0 (junk (.zeros s))
  | loc => junk loc

/-- `cuda_alternatives.py:55-68` `cublasZgemm_dev` for square row length `D`, the factors `alpha`, `beta` read from the
device. -/
def gemmDev (D : ℕ) (ca cb : Bool) (al a b be c : Loc) (m : Dev R) : Dev R :=
  Function.update m c (zgemm ca cb D D D (m al 0) (m a) 0 D (m b) 0 D (m be 0) (m c) 0 D)

/-- One of the products of `cb.cublasZgemmBatched`, `alpha`, `beta` passed from the host. -/
def gemm (D : ℕ) (ca cb : Bool) (al : R) (a b : Loc) (be : R) (c : Loc) (m : Dev R) : Dev R :=
  Function.update m c (zgemm ca cb D D D al (m a) 0 D (m b) 0 D be (m c) 0 D)

/-- `cb.cublasZaxpy(handle, n, alpha, x, 1, y, 1)`. -/
def axpy (n : ℕ) (al : R) (x y : Loc) (m : Dev R) : Dev R :=
  Function.update m y (zaxpy n al (m x) 0 (m y) 0)

/-- Stream `s` carries out its next operation, if one is left; the second component counts what each stream has done. -/
def streamStep (ops : ℕ → List (Dev R → Dev R)) (st : Dev R × (ℕ → ℕ)) (s : ℕ) : Dev R × (ℕ → ℕ) :=
  match (ops s)[st.2 s]? with
  | some op => (op st.1, Function.update st.2 s (st.2 s + 1))
  | none => st

/-- The operations `ops s` of the streams `s`, in the order of the schedule. -/
def runStreams (ops : ℕ → List (Dev R → Dev R)) (sched : List ℕ) (m : Dev R) : Dev R :=
  (sched.foldl (streamStep ops) (m, fun _ => 0)).1

/-- `out.fill(0)`, then `out += tmp2[s]` for all `s`, `cuda_alternatives.py:92-96`, `134-137`, `178-181`, `193-196`. -/
def gather (q D : ℕ) (dst : Loc) (m : Dev R) : Dev R :=
  (List.range q).foldl (fun m s => axpy (D * D) 1 (.tmp2 s) dst m)
    (Function.update m dst (fillBuf (D * D) 0 (m dst)))

/-- `cuda_alternatives.py:74-98` `eps_r_noop_strm_dev(x, A1[k], A2[k], out, tmp, tmp2, ones, zeros, streams, handle)`. -/
def epsRDev (q D : ℕ) (sched : ℕ → List ℕ) (x dst : Loc) (k : ℕ) (m : Dev R) : Dev R :=
  gather q D dst (runStreams (fun s => if s < q then
    [gemmDev D false false (.ones s) x (.A1 k s) (.zeros s) (.tmp s),
      gemmDev D true false (.ones s) (.A2 k s) (.tmp s) (.zeros s) (.tmp2 s)] else []) (sched 0) m)

/-- `cuda_alternatives.py:125-139` `eps_r_noop_batch`; the pointers to `x` are all the same. -/
def epsRBatch (q D : ℕ) (sched : ℕ → List ℕ) (x dst : Loc) (k : ℕ) (m : Dev R) : Dev R :=
  gather q D dst
    (runStreams (fun s => if s < q then [gemm D true false 1 (.A2 k s) (.tmp s) 0 (.tmp2 s)] else []) (sched 1)
      (runStreams (fun s => if s < q then [gemm D false false 1 x (.A1 k s) 0 (.tmp s)] else []) (sched 0) m))

/-- `cuda_alternatives.py:161-183` `eps_l_noop_strm_dev`. -/
def epsLDev (q D : ℕ) (sched : ℕ → List ℕ) (x dst : Loc) (k : ℕ) (m : Dev R) : Dev R :=
  gather q D dst (runStreams (fun s => if s < q then
    [gemmDev D false true (.ones s) x (.A1 k s) (.zeros s) (.tmp s),
      gemmDev D false false (.ones s) (.A2 k s) (.tmp s) (.zeros s) (.tmp2 s)] else []) (sched 0) m)

/-- `cuda_alternatives.py:185-198` `eps_l_noop_batch`. -/
def epsLBatch (q D : ℕ) (sched : ℕ → List ℕ) (x dst : Loc) (k : ℕ) (m : Dev R) : Dev R :=
  gather q D dst
    (runStreams (fun s => if s < q then [gemm D false false 1 (.A2 k s) (.tmp s) 0 (.tmp2 s)] else []) (sched 1)
      (runStreams (fun s => if s < q then [gemm D false true 1 x (.A1 k s) 0 (.tmp s)] else []) (sched 0) m))

/-- The map called in the loops of the two `matvec` methods. -/
def epsDev (q D : ℕ) (left useBatch : Bool) (sched : ℕ → List ℕ) (x dst : Loc) (k : ℕ) (m : Dev R) : Dev R :=
  if left then
    if useBatch then epsLBatch q D sched x dst k m else epsLDev q D sched x dst k m
  else
    if useBatch then epsRBatch q D sched x dst k m else epsRDev q D sched x dst k m

/-- The sites in the order of the loops, `range(len(A1G))` or `range(len(A2G) - 1, -1, -1)`. -/
def gpuSites (left : Bool) (n1 n2 : ℕ) : List ℕ := if left then List.range n1 else (List.range n2).reverse

/-- `cuda_alternatives.py:463-497` `EOp_CUDA.matvec`: result and memory afterwards.  `n1`, `n2` are the numbers of
tensors; `sched k` are the schedules at site `k`.  `none`: index error. -/
def eMatvec (n1 n2 : ℕ) (left useBatch : Bool) (sched : ℕ → ℕ → List ℕ) (v : Fin (D * D) → R) (m : Dev R) :
    Option ((Fin (D * D) → R) × Dev R) :=
  let m := Function.update m .xG (setBuf v (m .xG))
  ((gpuSites left n1 n2).foldl (fun (st : Option (Loc × Loc × Dev R)) k => st.bind fun st =>
    if k < n1 ∧ k < n2 then
      let x := st.2.1
      let xnext := st.1
      some (x, xnext, epsDev q D left useBatch (sched k) x xnext k st.2.2)
    else none) (some (Loc.out, Loc.xG, m))).map fun st =>
  (getBuf (D * D) (st.2.2 st.2.1), st.2.2)

/-- The attributes of a `PinvOp_CUDA` object that are not on the device, `cuda_alternatives.py:508-558`. -/
structure PinvCuda (D : ℕ) where
  p : ℝ
  n1 : ℕ
  n2 : ℕ
  l : Matrix (Fin D) (Fin D) ℂ
  r : Matrix (Fin D) (Fin D) ℂ
  left : Bool
  pseudo : Bool
  useBatch : Bool

/-- The device memory after `PinvOp_CUDA.__init__`, `cuda_alternatives.py:508-558`. -/
def pinvDev (A1 A2 : List (Ten ℂ q D D)) (l r : Matrix (Fin D) (Fin D) ℂ) (useBatch : Bool) (junk : Dev ℂ) : Dev ℂ
  | .lG => setBuf (ravel l) (junk .lG)
  | .rG => setBuf (ravel r) (junk .rG)
  | loc => initDev A1 A2 useBatch junk loc

/-- `cuda_alternatives.py:508-558` `PinvOp_CUDA.__init__`: the object and the device memory.  Simplified: `l` and `r` are
given (`pinv_1mE` is always called with both). -/
def PinvCuda.new (p : ℝ) (A1 A2 : List (Ten ℂ q D D)) (l r : Matrix (Fin D) (Fin D) ℂ) (left pseudo useBatch : Bool)
    (junk : Dev ℂ) : Option (PinvCuda D × Dev ℂ) :=
  if A1.isEmpty then none else
  some (⟨p, A1.length, A2.length, l, r, left, pseudo, useBatch⟩, pinvDev A1 A2 l r useBatch junk)

/-- `cuda_alternatives.py:560-618` `PinvOp_CUDA.matvec`: result and memory afterwards.  The difference
`Ehx - self.lG * m.adot(self.r, x)` is a new array. -/
noncomputable def PinvCuda.matvec (q : ℕ) (P : PinvCuda D) (sched : ℕ → ℕ → List ℕ) (v : Fin (D * D) → ℂ) (m : Dev ℂ) :
    Option ((Fin (D * D) → ℂ) × Dev ℂ) :=
  let x : Matrix (Fin D) (Fin D) ℂ := reshape v
  let m := Function.update m .xG (setBuf v (m .xG))
  let m := Function.update m .out2 (setBuf (getBuf (D * D) (m .xG)) (m .out2))
  ((gpuSites P.left P.n1 P.n2).foldl (fun (st : Option (Loc × Loc × Dev ℂ)) k => st.bind fun st =>
    if k < P.n1 ∧ k < P.n2 then
      let m := epsDev q D P.left P.useBatch (sched k) st.2.1 st.1 k st.2.2
      some (st.2.1, st.1, m)
    else none) (some (Loc.out, Loc.out2, m))).map fun (st : Loc × Loc × Dev ℂ) =>
  let m : Dev ℂ := st.2.2
  let Ex := m st.2.1
  let res : Buf ℂ :=
    if P.left then
      if P.pseudo then
        let QEQ : Buf ℂ := fun p => Ex p - m .lG p * adot P.r x
        zaxpy (D * D) (-Complex.exp (-Complex.I * P.p)) QEQ 0 (m .xG) 0
      else zaxpy (D * D) (-Complex.exp (-Complex.I * P.p)) Ex 0 (m .xG) 0
    else
      if P.pseudo then
        let QEQ : Buf ℂ := fun p => Ex p - m .rG p * adot P.l x
        zaxpy (D * D) (-Complex.exp (Complex.I * P.p)) QEQ 0 (m .xG) 0
      else zaxpy (D * D) (-Complex.exp (Complex.I * P.p)) Ex 0 (m .xG) 0
  let m := Function.update m .xG res
  (getBuf (D * D) (m .xG), m)

/-- A program that calls an operator: it ends with a result or calls the operator with a vector and goes on with what it
gets.  ARPACK and the iterative solvers are such programs. -/
inductive Caller (V W : Type*)
  | done (w : W)
  | call (v : V) (next : V → Caller V W)

/-- The program run with an operator without memory. -/
def Caller.run {V W : Type*} (f : V → Option V) : Caller V W → Option W
  | .done w => some w
  | .call v next => (f v).bind fun y => (next y).run f

/-- The program run with an operator that keeps memory; `c` counts the calls. -/
def Caller.runMem {V W M : Type*} (f : ℕ → V → M → Option (V × M)) : ℕ → M → Caller V W → Option W
  | _, _, .done w => some w
  | c, m, .call v next => (f c v m).bind fun y => (next y.1).runMem f (c + 1) y.2

/-- `mps_uniform.py:336-343` `_get_EOP` with `ev_arpack_CUDA`, then a program using the operator.  `A1[0]`, `A1[0][0]` are
read by the constructor.  `sched c` are the schedules in call `c`. -/
def withEOpCuda {W : Type*} (A1 A2 : List (Ten R q D D)) (left : Bool) (maxD : ℕ) (sched : ℕ → ℕ → ℕ → List ℕ)
    (junk : Dev R) (prog : Caller (Fin (D * D) → R) W) : Option W :=
  if A1.isEmpty ∨ q = 0 then none else
  let useBatch : Bool := decide (D ≤ maxD)
  prog.runMem (fun c v m => eMatvec (q := q) A1.length A2.length left useBatch (sched c) v m) 0
    (initDev A1 A2 useBatch junk)

/-- `mps_uniform_pinv.py:120-160` `pinv_1mE` with `use_CUDA=True`; the solver is a program for every right-hand side and
initial guess. -/
noncomputable def pinv1mECuda (solver : (Fin (D * D) → ℂ) → (Fin (D * D) → ℂ) → Caller (Fin (D * D) → ℂ) ((Fin (D * D) → ℂ) × ℤ))
    (x : Matrix (Fin D) (Fin D) ℂ) (A1 A2 : List (Ten ℂ q D D)) (l r : Matrix (Fin D) (Fin D) ℂ) (p : ℝ)
    (left pseudo useBatch : Bool) (out : Option (Matrix (Fin D) (Fin D) ℂ)) (sched : ℕ → ℕ → ℕ → List ℕ)
    (junk : Dev ℂ) : Option (Matrix (Fin D) (Fin D) ℂ) :=
  let out := match out with
    | some out => out
    | none => Matrix.of fun _ _ => 1
  (PinvCuda.new p A1 A2 l r left pseudo useBatch junk).bind fun op =>
  ((solver (ravel x) (ravel out)).runMem (fun c v m => op.1.matvec q (sched c) v m) 0 op.2).map fun res => reshape res.1

end EvoMPS.Gpu
