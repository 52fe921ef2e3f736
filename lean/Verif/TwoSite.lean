import Verif.EpsMaps

/-!
# Alternative contraction routines for two-site operators (`core_common.py`, `tdvp_common.py`)

An operator given as a python callable `op(s, t, u, v)` and one given as an array
`op[s, t, u, v]` are the same kind of object here.
-/

namespace EvoMPS

open Matrix

variable {R : Type*} [CommRing R] [StarRing R]
variable {q q' q'' a a' b b' c c' : ℕ}

/-- Two-site operator matrix elements `op[s, t, u, v] = <st|op|uv>`. -/
abbrev Op2 (R : Type*) (q q' : ℕ) := Fin q → Fin q' → Fin q → Fin q' → R

section
variable [DecidableEq R]

/-- `core_common.py:363-400` `eps_r_op_2s_A(x, A1, A2, A3, A4, op)`. -/
def epsR2A (x : Matrix (Fin c) (Fin c') R) (A1 : Ten R q a b) (A2 : Ten R q' b c)
    (A3 : Ten R q a' b') (A4 : Ten R q' b' c') (op : Op2 R q q') : Matrix (Fin a) (Fin a') R :=
  (List.finRange q).foldl (fun res u =>
    (List.finRange q').foldl (fun res v =>
      let subres : Matrix (Fin a) (Fin c) R := (List.finRange q).foldl (fun sub s =>
        (List.finRange q').foldl (fun sub t =>
          let opval := op u v s t
          if opval ≠ 0 then sub + opval • (A1 s * A2 t) else sub) sub) 0
      res + subres * (x * (A3 u * A4 v)ᴴ)) res) 0

/-- `core_common.py:402-438` `eps_r_op_2s_AA12(x, AA12, A3, A4, op)`. -/
def epsR2AA12 (x : Matrix (Fin c) (Fin c') R) (AA12 : Ten2 R q q' a c)
    (A3 : Ten R q a' b') (A4 : Ten R q' b' c') (op : Op2 R q q') : Matrix (Fin a) (Fin a') R :=
  (List.finRange q).foldl (fun res u =>
    (List.finRange q').foldl (fun res v =>
      let subres : Matrix (Fin a) (Fin c) R := (List.finRange q).foldl (fun sub s =>
        (List.finRange q').foldl (fun sub t =>
          let opval := op u v s t
          if opval ≠ 0 then sub + opval • AA12 s t else sub) sub) 0
      res + subres * (x * (A3 u * A4 v)ᴴ)) res) 0

/-- `core_common.py:440-475` `eps_r_op_2s_AA_func_op(x, AA12, AA34, op)`. -/
def epsR2Func (x : Matrix (Fin c) (Fin c') R) (AA12 : Ten2 R q q' a c)
    (AA34 : Ten2 R q q' a' c') (op : Op2 R q q') : Matrix (Fin a) (Fin a') R :=
  (List.finRange q).foldl (fun res u =>
    (List.finRange q').foldl (fun res v =>
      let subres : Matrix (Fin a) (Fin c) R := (List.finRange q).foldl (fun sub s =>
        (List.finRange q').foldl (fun sub t =>
          let opval := op u v s t
          if opval ≠ 0 then sub + opval • AA12 s t else sub) sub) 0
      res + subres * (x * (AA34 u v)ᴴ)) res) 0

/-- `C[s, t] += y`. -/
def addAt (C : Ten2 R q q' a b) (s : Fin q) (t : Fin q') (y : Matrix (Fin a) (Fin b) R) :
    Ten2 R q q' a b :=
  Function.update C s (Function.update (C s) t (C s t + y))

/-- `core_common.py:514-526` `calc_C_func_op(op, A, Ap1)`. -/
def calcCFunc (op : Op2 R q q') (A : Ten R q a b) (Ap1 : Ten R q' b c) : Ten2 R q q' a c :=
  (List.finRange q).foldl (fun C u =>
    (List.finRange q').foldl (fun C v =>
      let AAuv := A u * Ap1 v
      (List.finRange q).foldl (fun C s =>
        (List.finRange q').foldl (fun C t =>
          let h := op s t u v
          if h ≠ 0 then addAt C s t (h • AAuv) else C) C) C) C) 0

/-- `core_common.py:528-540` `calc_C_func_op_AA(op, AA)`. -/
def calcCFuncAA (op : Op2 R q q') (AA : Ten2 R q q' a c) : Ten2 R q q' a c :=
  (List.finRange q).foldl (fun C u =>
    (List.finRange q').foldl (fun C v =>
      let AAuv := AA u v
      (List.finRange q).foldl (fun C s =>
        (List.finRange q').foldl (fun C t =>
          let h := op s t u v
          if h ≠ 0 then addAt C s t (h • AAuv) else C) C) C) C) 0

end

/-- `core_common.py:477-505` `eps_r_op_2s_C12(x, C12, A3, A4)`. -/
def epsR2C12 (x : Matrix (Fin c) (Fin c') R) (C12 : Ten2 R q q' a c)
    (A3 : Ten R q a' b') (A4 : Ten R q' b' c') : Matrix (Fin a) (Fin a') R :=
  (List.finRange q).foldl (fun res u =>
    (List.finRange q').foldl (fun res v =>
      res + C12 u v * (x * (A3 u * A4 v)ᴴ)) res) 0

/-- `core_common.py:507-512` `eps_r_op_2s_C34(x, A1, A2, C34)`. -/
def epsR2C34 (x : Matrix (Fin c) (Fin c') R) (A1 : Ten R q a b) (A2 : Ten R q' b c)
    (C34 : Ten2 R q q' a' c') : Matrix (Fin a) (Fin a') R :=
  (List.finRange q).foldl (fun res u =>
    (List.finRange q').foldl (fun res v =>
      res + (A1 u * A2 v) * (x * (C34 u v)ᴴ)) res) 0

/-- `tdvp_common.py:51-56` `eps_l_op_2s_A1_A2_C34(x, A1, A2, C34)`. -/
def epsL2A1A2C34 (x : Matrix (Fin a) (Fin a') R) (A1 : Ten R q a b) (A2 : Ten R q' b c)
    (C34 : Ten2 R q q' a' c') : Matrix (Fin c) (Fin c') R :=
  (List.finRange q).foldl (fun res u =>
    (List.finRange q').foldl (fun res v =>
      res + (A1 u * A2 v)ᴴ * (x * C34 u v)) res) 0

/-- `tdvp_common.py:70-71` `calc_C_mat_op_AA_tensordot`: contract axes `(2, 3)` of the
operator with axes `(0, 1)`. -/
def calcCTensordot (op : Op2 R q q') (AA : Ten2 R q q' a b) : Ten2 R q q' a b :=
  fun s t => Matrix.of fun i j => forSum q fun u => forSum q' fun v => op s t u v * AA u v i j

/-- `tdvp_common.py:87-88` `calc_C_3s_mat_op_AAA_tensordot`. -/
def calcC3Tensordot (op : Fin q → Fin q' → Fin q'' → Fin q → Fin q' → Fin q'' → R)
    (AAA : Ten3 R q q' q'' a b) : Ten3 R q q' q'' a b :=
  fun s t w => Matrix.of fun i j => forSum q fun s' => forSum q' fun t' => forSum q'' fun w' =>
    op s t w s' t' w' * AAA s' t' w' i j

/-- `tdvp_common.py:90-94` `calc_C_conj_mat_op_AA`. -/
def calcCConj (op : Op2 R q q') (AA : Ten2 R q q' a b) : Ten2 R q q' a b :=
  ten2OfMat ((matOfOp2 op)ᴴ * matOfTen2 AA)

/-- `tdvp_common.py:96-97` `calc_C_conj_mat_op_AA_tensordot`: axes `(0, 1)` of `op.conj()`
with axes `(0, 1)`; the result has axes `[op2, op3, a, b]`. -/
def calcCConjTensordot (op : Op2 R q q') (AA : Ten2 R q q' a b) : Ten2 R q q' a b :=
  fun s t => Matrix.of fun i j =>
    forSum q fun u => forSum q' fun v => star (op u v s t) * AA u v i j

/-- `op.dot(A.reshape((q, a*b))).reshape(A.shape)` as in `tdvp_common.py:105-106`. -/
def opDotTen (op : Matrix (Fin q) (Fin q) R) (A : Ten R q a b) : Ten R q a b :=
  let A_ : Matrix (Fin q) (Fin (a * b)) R := Matrix.of fun s j => A s j.divNat j.modNat
  fun s => Matrix.of fun i j => (op * A_) s (flat i j)

/-- `tdvp_common.py:99-110` `calc_C_mat_op_tp(op_tp, A, Ap1)`. -/
def calcCtpMat (opTp : List (Matrix (Fin q) (Fin q) R × Matrix (Fin q') (Fin q') R))
    (A : Ten R q a b) (Ap1 : Ten R q' b c) : Ten2 R q q' a c :=
  opTp.foldl (fun C o => C + calcAA (opDotTen o.1 A) (opDotTen o.2 Ap1)) 0

/-- `tdvp_common.py:112-120` `calc_C_tp(op_tp, A, Ap1)`. -/
def calcCtp (opTp : List (Matrix (Fin q) (Fin q) R × Matrix (Fin q') (Fin q') R))
    (A : Ten R q a b) (Ap1 : Ten R q' b c) : List (Ten R q a b × Ten R q' b c) :=
  opTp.foldl (fun C o => C ++ [(opDotTen o.1 A, opDotTen o.2 Ap1)]) []

/-- `tdvp_common.py:122-126` `eps_l_op_2s_C34_tp(x, A1, A2, C34_tp)`. -/
def epsL2tp (x : Matrix (Fin a) (Fin a') R) (A1 : Ten R q a b) (A2 : Ten R q' b c)
    (C34 : List (Ten R q a' b' × Ten R q' b' c')) : Matrix (Fin c) (Fin c') R :=
  C34.foldl (fun res C => res + epsL (epsL x A1 C.1) A2 C.2) 0

/-- `tdvp_common.py:128-132` `eps_r_op_2s_C12_tp(x, C12_tp, A1, A2)`. -/
def epsR2tp (x : Matrix (Fin c) (Fin c') R) (C12 : List (Ten R q a b × Ten R q' b c))
    (A1 : Ten R q a' b') (A2 : Ten R q' b' c') : Matrix (Fin a) (Fin a') R :=
  C12.foldl (fun res C => res + epsR (epsR x C.2 A2) C.1 A1) 0

end EvoMPS
