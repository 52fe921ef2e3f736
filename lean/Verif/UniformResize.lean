import Verif.UniformDyn
import Verif.UniformK

/-!
# The uniform chain: changing the dimensions of a state (`mps_uniform.py`, `tdvp_uniform.py`)

`set_q` and `expand_D` of `EvoMPS_TDVP_Uniform` with those of its base class, which they call.  `none` is a raised exception.
The arrays `AA`, `AAA`, `C`, which are computed anew before their next use, are left out; the block has at least one site.
-/

namespace EvoMPS.Uni

open Matrix

/-- The attributes the methods read and write.  The Hamiltonian itself is kept by both and stands here for the number of its
axes. -/
structure Resizable (q D : ℕ) where
  L : ℕ
  A : ℕ → Ten ℂ q D D
  l : ℕ → Matrix (Fin D) (Fin D) ℂ
  r : ℕ → Matrix (Fin D) (Fin D) ℂ
  /-- `self.lL_before_CF`, the starting value for the left fixed point -/
  lGuess : Matrix (Fin D) (Fin D) ℂ
  /-- `self.rL_before_CF` -/
  rGuess : Matrix (Fin D) (Fin D) ℂ
  K : ℕ → Matrix (Fin D) (Fin D) ℂ
  ham : HamArg
  hamSites : ℕ

variable {q D : ℕ}

/-- Where the bound `x` of a python slice of an axis of length `len` ends up. -/
def sliceBound (len : ℕ) (x : ℤ) : ℕ := if x < 0 then (len + x).toNat else min x.toNat len

/-- Entry `i` of a tensor. -/
def entry (A : Ten ℂ q D D) (i : ℕ) : Matrix (Fin D) (Fin D) ℂ := if h : i < q then A ⟨i, h⟩ else 0

/-- `mps_uniform.py:1845-1851`: one turn of the loop of `set_q`.  An assignment to a slice of a different length raises a
`ValueError` unless the right-hand side has length one, when it is repeated. -/
def setQSite (newq : ℕ) (offset : ℤ) (A : Ten ℂ q D D) : Option (Ten ℂ newq D D) :=
  if q < newq then
    let lo := sliceBound newq offset
    let n := sliceBound newq (q + offset) - lo
    if n = q then some fun s => if lo ≤ s.val ∧ s.val < lo + n then entry A (s.val - lo) else 0
    else if q = 1 then some fun s => if lo ≤ s.val ∧ s.val < lo + n then entry A 0 else 0
    else none
  else
    let lo := sliceBound q (-offset)
    let n := sliceBound q (newq - offset) - lo
    if n = newq then some fun s => entry A (lo + s.val)
    else if n = 1 then some fun _ => entry A lo
    else none

/-- `tdvp_uniform.py:1617-1621` `set_q(newq, offset)` with `mps_uniform.py:1824-1851`.  `_init_arrays` makes new arrays (the
starting values are filled with ones) and calls `set_ham(self.ham)`; `l`, `r` and `K` are put back. -/
def Resizable.setQ (S : Resizable q D) (newq : ℕ) (offset : ℤ) : Option (Resizable newq D) :=
  (setHamSites S.ham none).bind fun sites =>
  if ∀ k < S.L, (setQSite newq offset (S.A k)).isSome then
    some {
      L := S.L
      A := fun k => (setQSite newq offset (S.A k)).getD 0
      l := S.l
      r := S.r
      lGuess := Matrix.of fun _ _ => 1
      rGuess := Matrix.of fun _ _ => 1
      K := S.K
      ham := S.ham
      hamSites := sites }
  else none

/-- `x[:D, :D] = old` for the flat array `x` of an `m x m` matrix. -/
def setCorner (m : ℕ) (old : Matrix (Fin D) (Fin D) ℂ) (x : ℕ → ℂ) : ℕ → ℂ :=
  fun f => if h : f / m < D ∧ f % m < D then old ⟨f / m, h.1⟩ ⟨f % m, h.2⟩ else x f

/-- `randomize_cmplx(x[n:], a=0, b=val, aj=0, bj=0)` for a flat array; `rnd` are the random numbers between 0 and 1. -/
def noiseTail (n : ℕ) (val : ℝ) (rnd : ℕ → ℝ) (x : ℕ → ℂ) : ℕ → ℂ :=
  fun f => if n ≤ f then ((rnd f * val : ℝ) : ℂ) else x f

/-- `abs(old.mean())`. -/
noncomputable def absMean (old : Matrix (Fin D) (Fin D) ℂ) : ℝ := ‖(∑ i, ∑ j, old i j) / ((D * D : ℕ) : ℂ)‖

/-- `mps_uniform.py:1895-1897`, `1902-1904` and `tdvp_uniform.py:1630-1635`: the matrix of ones made by `_init_arrays`, after the
old matrix has been put into its corner and the entries of the flat array from `oldD ** 2` on have been randomized. -/
noncomputable def growEnv (d : ℕ) (rnd : ℕ → ℝ) (old : Matrix (Fin D) (Fin D) ℂ) :
    Matrix (Fin (D + d)) (Fin (D + d)) ℂ :=
  Matrix.of fun i j => noiseTail (D ^ 2) (absMean old) rnd (setCorner (D + d) old fun _ => 1) (i.val * (D + d) + j.val)

/-- The random numbers of `expand_D`. -/
structure ExpandRnd (q : ℕ) where
  A : ℕ → Fin q → ℕ → ℕ → ℂ × ℂ
  l : ℕ → ℕ → ℝ
  r : ℕ → ℕ → ℝ
  K : ℕ → ℝ

/-- `expand_D(D + d, refac, imfac)`, `tdvp_uniform.py:1623-1635` with `mps_uniform.py:1871-1904`.  `realnorm`, `imagnorm` are the
norms of real and imaginary part of the tensors.  The starting values are the last entries of the new lists `l` and `r`
(`mps_uniform.py:287-288`), which are changed in place. -/
noncomputable def Resizable.expand (S : Resizable q D) (d : ℕ) (realnorm imagnorm : ℕ → ℂ) (rnd : ExpandRnd q)
    (refac imfac : ℂ) : Option (Resizable q (D + d)) :=
  (setHamSites S.ham none).map fun sites =>
  { L := S.L
    A := expandA d realnorm imagnorm rnd.A refac imfac S.A
    l := fun k => growEnv d (rnd.l k) (S.l k)
    r := fun k => growEnv d (rnd.r k) (S.r k)
    lGuess := growEnv d (rnd.l (S.L - 1)) (S.l (S.L - 1))
    rGuess := growEnv d (rnd.r (S.L - 1)) (S.r (S.L - 1))
    K := Function.update (fun _ => Matrix.of fun _ _ => 1) 0 (growEnv d rnd.K (S.K 0))
    ham := S.ham
    hamSites := sites }

/-- `expand_D(newD, refac, imfac)`.  For a smaller bond dimension the method of the base class returns at once
(`mps_uniform.py:1868-1869`), and the remaining lines of the other one write `K[0]` onto itself. -/
noncomputable def Resizable.expandD (S : Resizable q D) (newD : ℕ) (realnorm imagnorm : ℕ → ℂ) (rnd : ExpandRnd q)
    (refac imfac : ℂ) : Option (Σ D', Resizable q D') :=
  if newD < D then some ⟨D, S⟩
  else (S.expand (newD - D) realnorm imagnorm rnd refac imfac).map fun T => ⟨_, T⟩

end EvoMPS.Uni
