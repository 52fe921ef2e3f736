import Verif.Canon
import Mathlib.Data.Complex.Basic

/-!
# Matrix multiplication with identity and diagonal matrix objects (`matmul.py`)

Shapes are part of the types, i.e. only products of compatible matrices are modelled.  Data types
and aliasing of the returned objects are not modelled.  `none` is a raised exception.
-/

namespace EvoMPS

open Matrix

/-- A matrix object: `eyemat`, `simple_diag_matrix` or an `ndarray`
(`matmul.py:14-20`, `125-139`). -/
inductive MM (R : Type*) : ℕ → ℕ → Type _ where
  | eye (n : ℕ) : MM R n n
  | diag {n : ℕ} (d : Fin n → R) : MM R n n
  | dense {m n : ℕ} (M : Matrix (Fin m) (Fin n) R) : MM R m n

section
variable {R : Type*} [CommRing R]

/-- `toarray()` (`matmul.py:25-26`, `188-189`): the matrix an object stands for. -/
def MM.toArray {m n : ℕ} : MM R m n → Matrix (Fin m) (Fin n) R
  | .eye _ => Matrix.of fun i j => if i = j then 1 else 0
  | .diag d => Matrix.of fun i j => if i = j then d i else 0
  | .dense M => M

/-- `matmul.py:397-417` `mmul_diag(Adiag, B, act_right=True)`. -/
def mmulDiagR {m n : ℕ} (d : Fin m → R) (B : Matrix (Fin m) (Fin n) R) :
    Matrix (Fin m) (Fin n) R :=
  (Matrix.of fun j i => d i * Bᵀ j i)ᵀ

/-- `matmul.py:397-417` `mmul_diag(Adiag, B, act_right=False)`. -/
def mmulDiagL {m n : ℕ} (d : Fin n → R) (B : Matrix (Fin m) (Fin n) R) :
    Matrix (Fin m) (Fin n) R :=
  Matrix.of fun i j => d j * B i j

/-- The `dot` methods (`matmul.py:76-80`, `144-150`); an `ndarray` converts the other operand. -/
def MM.dot {m n k : ℕ} : MM R m n → MM R n k → MM R m k
  | .eye _, b => b
  | .diag d, .diag e => .diag fun i => d i * e i
  | .diag d, .eye _ => .diag d
  | .diag d, .dense B => .dense (mmulDiagR d B)
  | .dense A, b => .dense (A * b.toArray)

/-- The `dot_left` methods (`matmul.py:82-86`, `152-158`); an `ndarray` has none
(`AttributeError`). -/
def MM.dotLeft {m n k : ℕ} : MM R n k → MM R m n → Option (MM R m k)
  | .eye _, a => some a
  | .diag d, .diag e => some (.diag fun i => d i * e i)
  | .diag d, .eye _ => some (.diag d)
  | .diag d, .dense A => some (.dense (mmulDiagL d A))
  | .dense _, _ => none

/-- The arguments of `mmul` after the first one: matrices with matching shapes. -/
inductive MChain (R : Type*) : ℕ → ℕ → Type _ where
  | nil (n : ℕ) : MChain R n n
  | cons {m n k : ℕ} (x : MM R m n) (rest : MChain R n k) : MChain R m k

/-- `matmul.py:247-284` `mmul(res, *args)`. -/
def MM.mmul {m n k : ℕ} (res : MM R m n) : MChain R n k → MM R m k
  | .nil _ => res
  | .cons x rest => MM.mmul ((x.dotLeft res).getD (res.dot x)) rest

/-- `matmul.py:295-307` `dot_inplace(A, B, out)`: the new contents of `out`.  `mmul_diag` asks the
second operand for its attribute `ndim` (line 404), which `simple_diag_matrix` does not have. -/
def MM.dotInplace {m n k : ℕ} : MM R m n → MM R n k → Option (Matrix (Fin m) (Fin k) R)
  | .eye _, B => some B.toArray
  | A, .eye _ => some A.toArray
  | .diag _, .diag _ => none
  | .diag d, .dense B => some (mmulDiagR d B)
  | .dense A, .diag d => some (mmulDiagL d A)
  | .dense A, .dense B => some (A * B)

/-- Multiplication by a number (`matmul.py:28-31`, `194-196`). -/
def MM.smul {m n : ℕ} (c : R) : MM R m n → MM R m n
  | .eye _ => .diag fun _ => 1 * c
  | .diag d => .diag fun i => d i * c
  | .dense M => .dense (Matrix.of fun i j => M i j * c)

/-- Addition (`matmul.py:42-52`, `210-220`): always dense. -/
def MM.add {m n : ℕ} (a b : MM R m n) : MM R m n := .dense (a.toArray + b.toArray)

/-- Subtraction (`matmul.py:54-64`, `222-232`): always dense. -/
def MM.sub {m n : ℕ} (a b : MM R m n) : MM R m n := .dense (a.toArray - b.toArray)

/-- Element-wise product of square objects of the same shape (`matmul.py:33-35`, `198-202`): an
identity or diagonal object only keeps the diagonal. -/
def MM.emul {n : ℕ} : MM R n n → MM R n n → MM R n n
  | .eye _, b => .diag b.toArray.diag
  | .diag d, b => .diag fun i => d i * b.toArray.diag i
  | .dense A, .eye _ => .diag A.diag
  | .dense A, .diag d => .diag fun i => d i * A.diag i
  | .dense A, .dense B => .dense (Matrix.of fun i j => A i j * B i j)

/-- `trace(offset)` (`matmul.py:94-98`, `182-186`); `offset` only tells whether the argument is
zero for the special classes, an `ndarray` sums the shifted diagonal. -/
def MM.trace {n : ℕ} (offset : ℕ) : MM R n n → R
  | .eye _ => if offset = 0 then (n : R) else 0
  | .diag d => if offset = 0 then ∑ i, d i else 0
  | .dense M => ∑ i, ∑ j, if j.val = i.val + offset then M i j else 0

/-- `diagonal()` (`matmul.py:100-101`, `179-180`). -/
def MM.diagonal {n : ℕ} : MM R n n → Fin n → R
  | .eye _ => fun _ => 1
  | .diag d => d
  | .dense M => M.diag

/-- `H(m)` (`matmul.py:325-347`): `m.T.conj()` of the object. -/
def MM.adjoint {m n : ℕ} [StarRing R] : MM R m n → MM R n m
  | .eye _ => .eye _
  | .diag d => .diag fun i => star (d i)
  | .dense M => .dense Mᴴ

end

/-- `inv()` (`matmul.py:106-107`, `168-169`) of the special classes. -/
noncomputable def MM.inv {m n : ℕ} : MM ℂ m n → Option (MM ℂ m n)
  | .eye _ => some (.eye _)
  | .diag d => some (.diag fun i => 1 / d i)
  | .dense _ => none

/-- `sqrt()` (`matmul.py:103-104`, `171-172`) of the special classes; `sq` is `scipy.sqrt`. -/
def MM.sqrt {m n : ℕ} (sq : ℂ → ℂ) : MM ℂ m n → Option (MM ℂ m n)
  | .eye _ => some (.eye _)
  | .diag d => some (.diag fun i => sq (d i))
  | .dense _ => none

/-- `matmul.py:356-395` `sqrtmh(A)`; `sq` is `scipy.sqrt`, complex for negative arguments. -/
noncomputable def sqrtmh {n : ℕ} (eigh : Eigh ℂ) (sq : ℂ → ℂ) (A : Matrix (Fin n) (Fin n) ℂ) :
    Matrix (Fin n) (Fin n) ℂ :=
  let ev := fun i => sq (eigh.ev A i)
  let EV := eigh.vec A
  let B := mmulDiagR ev EVᴴ
  (MM.mmul (.dense EV) (.cons (.dense B) (.nil n))).toArray

/-- `matmul.py:419-433` `invmh(A)`. -/
noncomputable def invmh {n : ℕ} (eigh : Eigh ℂ) (A : Matrix (Fin n) (Fin n) ℂ) :
    Matrix (Fin n) (Fin n) ℂ :=
  let ev := fun i => 1 / eigh.ev A i
  let EV := eigh.vec A
  let B := mmulDiagR ev EVᴴ
  (MM.mmul (.dense EV) (.cons (.dense B) (.nil n))).toArray

end EvoMPS
