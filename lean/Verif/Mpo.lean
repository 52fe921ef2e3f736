import Verif.MpsGen

/-!
# Matrix product operators (`core_common.py`, `tdvp_common.py`, `mps_gen.py`)

The list of MPO tensors applied from python site `n1 = k + 1` on is given as a family
`W n`, `k ≤ n < k + m`, with MPO bond dimensions `M n`; tensors outside that window are
not used.
-/

namespace EvoMPS

open Matrix

variable {R : Type*} [CommRing R] [StarRing R]

/-- `core_common.py:256-260` `eps_r_op_MPO(x, A1, A2, op)`, three `tensordot`s.
`x` has axes `[M, Dket, Dbra]`, `op` has axes `[M1, M2, pbra, pket]`. -/
def epsRMPO {q a b a' b' m1 m2 : ℕ} (x : Fin m2 → Matrix (Fin b) (Fin b') R)
    (A1 : Ten R q a b) (A2 : Ten R q a' b') (op : Fin m1 → Fin m2 → Fin q → Fin q → R) :
    Fin m1 → Matrix (Fin a) (Fin a') R :=
  -- `[p, D1ket, xM, xD2bra]`
  let A1x : Fin q → Fin a → Fin m2 → Fin b' → R := fun p i m j =>
    forSum b fun d => A1 p i d * x m d j
  -- `[M1, pbra, D1ket, xD2bra]`
  let A1xop : Fin m1 → Fin q → Fin a → Fin b' → R := fun m p i j =>
    forSum m2 fun n => forSum q fun t => op m n p t * A1x t i n j
  -- `[M1, D1ket, D1bra]`
  fun m => Matrix.of fun i i' =>
    forSum q fun p => forSum b' fun j => A1xop m p i j * star (A2 p i' j)

/-- `tdvp_common.py:346-354` `apply_MPO_local(Mn, An)`: `tensordot`, `transpose` to
`[pbra, D1, M1, D2, M2]` and row-major reshape. -/
def applyMPOLocal {q a b m1 m2 : ℕ} (Mn : Fin m1 → Fin m2 → Fin q → Fin q → R)
    (An : Ten R q a b) : Ten R q (a * m1) (b * m2) :=
  -- `[M1, M2, pbra, D1, D2]`
  let MAn : Fin m1 → Fin m2 → Fin q → Fin a → Fin b → R := fun x y p i j =>
    forSum q fun t => Mn x y p t * An t i j
  fun p => Matrix.of fun I J => MAn I.modNat J.modNat p I.divNat J.divNat

variable {q D M : ℕ → ℕ}

/-- `mps_gen.py:1015-1052` `expect_MPO(MPO, n1)` with `n1 = k + 1`, `len(MPO) = m`.  The
local variable `x` changes its shape and is an array over the bonds here.  The first
reshape makes the MPO axis of length 1, the last one needs it to have length 1. -/
def expectMPO (N : ℕ) (S : MPS R q D) (k m : ℕ)
    (W : ∀ n, Fin (M n) → Fin (M (n + 1)) → Fin (q n) → Fin (q n) → R) : Option R :=
  if h : k + m ≤ N ∧ M k = 1 ∧ M (k + m) = 1 then
    let x0 : ∀ n, Fin (M n) → Matrix (Fin (D n)) (Fin (D n)) R :=
      Function.update (fun _ _ => 0) (k + m) (fun _ => S.r (k + m))
    let x := (List.range' k m).reverse.foldl (fun x n =>
      Function.update x n (epsRMPO (x (n + 1)) (S.A n) (S.A n) (W n))) x0
    some (adot (S.l k) (x k ⟨0, by omega⟩))
  else none

/-- `mps_gen.py:1152-1176` `apply_op_MPO(MPO, n1, do_update=False)` followed by
`set_state_from_tensors` (`mps_gen.py:237-260`), which reads the bond dimensions off the
tensors.  The new bond dimension is `D n * M n` with `M n = 1` outside the window, where
the tensors are kept (`D n * 1` is `D n`).  A site beyond the end raises `IndexError`.
Simplified: MPOs whose end dimensions are not 1 are not modelled (`none`; the code raises
for most of them, but numpy broadcasting accepts some). -/
def applyOpMPO (N : ℕ) (A : Tensors R q D) (k m : ℕ)
    (W : ∀ n, Fin (M n) → Fin (M (n + 1)) → Fin (q n) → Fin (q n) → R) :
    Option (Tensors R q (fun n => D n * M n)) :=
  if k + m ≤ N ∧ M k = 1 ∧ M (k + m) = 1 then
    some fun n => if k ≤ n ∧ n < k + m then applyMPOLocal (W n) (A n)
      else fun s => Matrix.of fun I J => A n s I.divNat J.divNat
  else none

end EvoMPS
