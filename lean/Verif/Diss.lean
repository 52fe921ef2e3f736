import Verif.DissSpec
import Verif.Step

/-!
# Stochastic steps of an open system (`tdvp_gen_diss.py`)

Site `k` here is python's site `n = k + 1`; `none` stands for a raised exception.
-/

namespace EvoMPS

open Matrix

variable {q D : ℕ → ℕ}

/-- The object.  The arrays `AA` and `AAA` are filled with `None` when they are made (`tdvp_gen.py:280-281`); the two
flags tell whether they have been written.  `nan` tells whether `h_expect` and `H_expect` are filled with `NaN`. -/
structure Diss (q D : ℕ → ℕ) where
  S : TDVP ℂ q D
  haveAA : Bool
  haveAAA : Bool
  nan : Bool

/-- `tdvp_gen.py:1393-1421` `expect_2s(op, n)` for an operator that is not the object stored in `self.ham[n]`: the
stored product is used if there is one. -/
def Diss.expect2 (N : ℕ) (X : Diss q D) (k : ℕ)
    (op : Fin (q k) → Fin (q (k + 1)) → Fin (q k) → Fin (q (k + 1)) → ℂ) : Option ℂ :=
  expect2s N X.S.toMPS k op (if X.haveAA then some (X.S.AA k) else none)

/-- `tdvp_gen.py:1423-1451` `expect_3s(op, n)`, likewise.  Without a stored product of three tensors the stored product of
two is used; if there is none either this raises. -/
def Diss.expect3 (N : ℕ) (X : Diss q D) (k : ℕ)
    (op : Fin (q k) → Fin (q (k + 1)) → Fin (q (k + 2)) →
      Fin (q k) → Fin (q (k + 1)) → Fin (q (k + 2)) → ℂ) : Option ℂ :=
  if X.haveAAA then expect3s N X.S.toMPS k op (some (X.S.AAA k))
  else if X.haveAA then expect3s N X.S.toMPS k op (some (calcAAA_AA (X.S.AA k) (X.S.A (k + 2))))
  else none

/-- `Lr.conj().T.dot(Lr).reshape(L.shape)` of `tdvp_gen_diss.py:143` for an operator on two sites; `Lr` is the matrix with
the indices of `L` joined (line 131). -/
def opSq2 {p p' : ℕ} (op : Fin p → Fin p' → Fin p → Fin p' → ℂ) : Fin p → Fin p' → Fin p → Fin p' → ℂ :=
  fun s t u v => forSum p fun x => forSum p' fun y => star (op x y s t) * op x y u v

/-- The same for an operator on three sites (line 133). -/
def opSq3 {p p' p'' : ℕ} (op : Fin p → Fin p' → Fin p'' → Fin p → Fin p' → Fin p'' → ℂ) :
    Fin p → Fin p' → Fin p'' → Fin p → Fin p' → Fin p'' → ℂ :=
  fun s t u s' t' u' => forSum p fun x => forSum p' fun y => forSum p'' fun z =>
    star (op x y z s t u) * op x y z s' t' u'

/-- `tdvp_gen_diss.py:143-146`: `Leff` for one jump operator on two sites with mean value `Le`; `W` is the complex
increment of line 141. -/
noncomputable def leff2 {p p' : ℕ} (op : Fin p → Fin p' → Fin p → Fin p' → ℂ) (Le W : ℂ) (dt : ℝ) :
    Fin p → Fin p' → Fin p → Fin p' → ℂ :=
  fun s t u v => -(1 / 2) * opSq2 op s t u v + (star Le + W / dt) * op s t u v

/-- The same for an operator on three sites. -/
noncomputable def leff3 {p p' p'' : ℕ} (op : Fin p → Fin p' → Fin p'' → Fin p → Fin p' → Fin p'' → ℂ) (Le W : ℂ)
    (dt : ℝ) : Fin p → Fin p' → Fin p'' → Fin p → Fin p' → Fin p'' → ℂ :=
  fun s t u s' t' u' => -(1 / 2) * opSq3 op s t u s' t' u' + (star Le + W / dt) * op s t u s' t' u'

/-- `tdvp_gen_diss.py:151` `HL = [-1.j * hn ...]`. -/
noncomputable def hamStart : Ham ℂ q → Ham ℂ q
  | .two h => .two fun k => (h k).map fun op s t u v => -Complex.I * op s t u v
  | .three h => .three fun k => (h k).map fun op s t u s' t' u' => -Complex.I * op s t u s' t' u'

/-- `tdvp_gen_diss.py:129-156` for one jump operator: its mean value, `Leff`, and adding it to the effective Hamiltonian
`HL`.  The mean values are all computed before the first `Leff`; since nothing is changed in between this makes no
difference.  An operator whose range is not that of the Hamiltonian terms cannot be reshaped. -/
noncomputable def addJump (N : ℕ) (X : Diss q D) (dt : ℝ) (HL : Ham ℂ q) (j : Jump q × ℂ) : Option (Ham ℂ q) :=
  match HL, j.1 with
  | .two h, .two k op => (X.expect2 N k op).map fun Le =>
      .two (Function.update h k (some ((h k).elim (leff2 op Le j.2 dt) fun o s t u v =>
        o s t u v + leff2 op Le j.2 dt s t u v)))
  | .three h, .three k op => (X.expect3 N k op).map fun Le =>
      .three (Function.update h k (some ((h k).elim (leff3 op Le j.2 dt) fun o s t u s' t' u' =>
        o s t u s' t' u' + leff3 op Le j.2 dt s t u s' t' u')))
  | _, _ => none

/-- `tdvp_gen_diss.py:129-156`: the effective Hamiltonian.  `jumps` is `self.linds` with the random increment for each
operator.  A step size that is not positive is rejected: `normal` raises for a negative variance, and `W/dt` is not a
number for 0. -/
noncomputable def dissHam (N : ℕ) (ham : Ham ℂ q) (X : Diss q D) (jumps : List (Jump q × ℂ)) (dt : ℝ) :
    Option (Ham ℂ q) :=
  if 0 < dt then
    jumps.foldl (fun (HL : Option (Ham ℂ q)) j => HL.bind fun HL => addJump N X dt HL j) (some (hamStart ham))
  else none

/-- `tdvp_gen_diss.py:104-174` `take_step_dissipative(dt, save_memory)`, in the right gauge, without bond expansion.  `ham`
is a list of terms, not a function. -/
noncomputable def dissStep (P : Num) (N : ℕ) (ham : Ham ℂ q) (h0 : D 0 = 1) (lm rm : ∀ n, MM ℂ (D n) (D n))
    (X : Diss q D) (jumps : List (Jump q × ℂ)) (dt : ℝ) (saveMemory : Bool) : Option (Diss q D) :=
  (dissHam N ham X jumps dt).bind fun HL =>
    let S := calcKs N HL h0 (calcCs N HL X.S)
    (takeStep P .right N HL S lm rm (-dt) none saveMemory).map fun Y =>
      { S := Y.1, haveAA := true, haveAAA := HL.sites == 3, nan := true }

/-- `tdvp_gen_diss.py:70-99` `update`: only what the class for states without dynamics does, which is to replace the
tensors and environments. -/
def Diss.update (f : MPS ℂ q D → MPS ℂ q D) (X : Diss q D) : Diss q D :=
  { X with S := { X.S with toMPS := f X.S.toMPS } }

/-- `tdvp_gen.py:325-377` `calc_C()` called by the user. -/
def Diss.calcC (N : ℕ) (ham : Ham ℂ q) (X : Diss q D) : Diss q D :=
  { X with S := calcCs N ham X.S, haveAA := true, haveAAA := ham.sites == 3 }

/-- `tdvp_gen_diss.py:177-204` `calc_B_1s_diss(op, n)`; a callable operator is evaluated into an array first. -/
def calcB1sDiss {R : Type*} [CommRing R] [StarRing R] (S : MPS R q D) (k : ℕ) (op : Fin (q k) → Fin (q k) → R) :
    Ten R (q k) (D k) (D (k + 1)) :=
  let newAn : Ten R (q k) (D k) (D (k + 1)) := fun s => forSum (q k) fun t => op s t • S.A k t
  let rm1 := epsR (S.r (k + 1)) newAn newAn
  let ev := adot (S.l k) rm1
  fun s => newAn s - ev • S.A k s

end EvoMPS
