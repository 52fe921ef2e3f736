import Verif.UniformEnv
import Mathlib.LinearAlgebra.Matrix.NonsingularInverse

/-!
# The uniform chain: the (pseudo) inverse of `1 - exp(i p) E`

`mps_uniform_pinv.py`.  The iterative solver is a parameter; the CUDA variant is in `Gpu.lean`.
-/

namespace EvoMPS.Uni

open Matrix

variable {q D : ℕ}

/-- The attributes of `PinvOp` set by the constructor, `mps_uniform_pinv.py:20-38`; the two work buffers
are arguments of `matvec`. -/
structure PinvOp (q D : ℕ) where
  p : ℝ
  A1 : List (Ten ℂ q D D)
  A2 : List (Ten ℂ q D D)
  lL : Option (Matrix (Fin D) (Fin D) ℂ)
  rL : Option (Matrix (Fin D) (Fin D) ℂ)
  left : Bool
  pseudo : Bool

/-- `mps_uniform_pinv.py:20-38` `PinvOp.__init__`: the assertion, and `A1[0]` is read. -/
noncomputable def PinvOp.new (p : ℝ) (A1 A2 : List (Ten ℂ q D D)) (lL rL : Option (Matrix (Fin D) (Fin D) ℂ))
    (left pseudo : Bool) : Option (PinvOp q D) :=
  if pseudo && (lL.isNone || rL.isNone) then none else
  if A1.isEmpty then none else
  some { p := p, A1 := A1, A2 := A2, lL := lL, rL := rL, left := left, pseudo := pseudo }

/-- `mps_uniform_pinv.py:40-80` `PinvOp.matvec`: the loops over the sites (as in `EOp.matvec`), then in place

    out[:] = self.lL;  out *= m.adot(self.rL, x);  res -= out
    res *= -sp.exp(-1.j * self.p);  res += x

(right: `rL`, `lL`, `+1.j`).  `junk` is what the second buffer holds; the argument does not share
memory with the buffers, the method returns a copy. -/
noncomputable def PinvOp.matvec (P : PinvOp q D) (junk : Matrix (Fin D) (Fin D) ℂ) (v : Fin (D * D) → ℂ) :
    Option (Fin (D * D) → ℂ) :=
  let x : Matrix (Fin D) (Fin D) ℂ := reshape v
  let sites := if P.left then List.range P.A1.length else (List.range P.A1.length).reverse
  (sites.foldl (fun b n => b.bind fun b => (EOp.mk P.A1 P.A2 P.left).site b n) (some (x, junk))).bind fun b =>
  let res := b.1
  if P.left then
    if P.pseudo then
      match P.lL, P.rL with
      | some lL, some rL =>
        let out := adot rL x • lL
        let res := res - out
        let res := (-Complex.exp (-Complex.I * P.p)) • res
        some (ravel (res + x))
      | _, _ => none
    else
      let res := (-Complex.exp (-Complex.I * P.p)) • res
      some (ravel (res + x))
  else
    if P.pseudo then
      match P.lL, P.rL with
      | some lL, some rL =>
        let out := adot lL x • rL
        let res := res - out
        let res := (-Complex.exp (Complex.I * P.p)) • res
        some (ravel (res + x))
      | _, _ => none
    else
      let res := (-Complex.exp (Complex.I * P.p)) • res
      some (ravel (res + x))

/-- `la.inv`: `none` (`LinAlgError`) for a singular matrix. -/
noncomputable def laInv {n : ℕ} (M : Matrix (Fin n) (Fin n) ℂ) : Option (Matrix (Fin n) (Fin n) ℂ) :=
  open Classical in if IsUnit M.det then some M⁻¹ else none

/-- `mps_uniform_pinv.py:83-92`: the matrices of the sites (`IndexError` if `A2` is shorter) and their product. -/
noncomputable def bruteBlock (A1 A2 : List (Ten ℂ q D D)) : Option (Matrix (Fin (D * D)) (Fin (D * D)) ℂ) :=
  match A1[0]?, A2[0]? with
  | some a, some b =>
    (List.range' 1 (A1.length - 1)).foldl (fun E k => E.bind fun E =>
      match A1[k]?, A2[k]? with
      | some a, some b => some (E * denseSite a b)
      | _, _ => none) (some (denseSite a b))
  | _, _ => none

/-- `mps_uniform_pinv.py:94-102`: the matrix that `pinv_1mE_brute` inverts. -/
noncomputable def bruteMat (A1 A2 : List (Ten ℂ q D D)) (lL rL : Matrix (Fin D) (Fin D) ℂ) (p : ℝ) (pseudo : Bool) :
    Option (Matrix (Fin (D * D)) (Fin (D * D)) ℂ) :=
  (bruteBlock A1 A2).bind fun E =>
  let QEQ := if pseudo then E - vecMulVec (ravel rL) (star (ravel lL)) else E
  some (1 - Complex.exp (Complex.I * p) • QEQ)

/-- `mps_uniform_pinv.py:82-104` `pinv_1mE_brute`. -/
noncomputable def pinvBrute (A1 A2 : List (Ten ℂ q D D)) (lL rL : Matrix (Fin D) (Fin D) ℂ) (p : ℝ) (pseudo : Bool) :
    Option (Matrix (Fin (D * D)) (Fin (D * D)) ℂ) :=
  (bruteMat A1 A2 lL rL p pseudo).bind laInv

/-- `mps_uniform_pinv.py:106-118` `pinv_1mE_brute_LOP`: the operator applied to all unit vectors (the loop
writes column `i`), adjoint for `left`, inverse. -/
noncomputable def pinvBruteLOP (junk : Matrix (Fin D) (Fin D) ℂ) (A1 A2 : List (Ten ℂ q D D))
    (lL rL : Option (Matrix (Fin D) (Fin D) ℂ)) (p : ℝ) (pseudo left : Bool) :
    Option (Matrix (Fin (D * D)) (Fin (D * D)) ℂ) :=
  (PinvOp.new p A1 A2 lL rL left pseudo).bind fun op =>
  ((List.finRange (D * D)).foldl (fun bop i => bop.bind fun bop =>
    (op.matvec junk (Pi.single i 1)).map fun y => Matrix.of fun a b => if b = i then y a else bop a b)
    (some (0 : Matrix (Fin (D * D)) (Fin (D * D)) ℂ))).bind fun bop =>
  laInv (if left then bopᴴ else bop)

/-- A linear solver `solver(op, b, x0)`: the answer and the exit status. -/
abbrev Solver (D : ℕ) :=
  ((Fin (D * D) → ℂ) → Option (Fin (D * D) → ℂ)) → (Fin (D * D) → ℂ) → (Fin (D * D) → ℂ) → (Fin (D * D) → ℂ) × ℤ

/-- `mps_uniform_pinv.py:120-192` `pinv_1mE` with `use_CUDA=False`: whatever the solver returns is the result,
the exit status and the checks only produce log messages.  `out` is the initial guess and, overwritten, the result. -/
noncomputable def pinv1mE (solver : Solver D) (junk x : Matrix (Fin D) (Fin D) ℂ) (A1 A2 : List (Ten ℂ q D D))
    (lL rL : Option (Matrix (Fin D) (Fin D) ℂ)) (p : ℝ) (left pseudo : Bool)
    (out : Option (Matrix (Fin D) (Fin D) ℂ)) : Option (Matrix (Fin D) (Fin D) ℂ) :=
  let out := match out with
    | some out => out
    | none => Matrix.of fun _ _ => 1
  (PinvOp.new p A1 A2 lL rL left pseudo).bind fun op =>
  some (reshape (solver (op.matvec junk) (ravel x) (ravel out)).1)

end EvoMPS.Uni
