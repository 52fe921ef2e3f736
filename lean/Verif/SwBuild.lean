import Verif.Sandwich

/-!
# Sandwich states made from given tensors

`EvoMPS_MPS_Sandwich.from_tensors` and the function `sandwich_from_tensors`, up to the state they return.  `none` is a raised
exception.  `upd` is `update(restore_CF=False)` of a uniform chain and `updF` is `update()`; what they do is the subject of
C44 and C45, here they are parameters that map the attributes before the call to those after it.  The tensors a new uniform
chain is filled with are random: `rnd` stands for them.
-/

namespace EvoMPS.SW

open Matrix

variable {R : Type*} [CommRing R] [StarRing R]

/-- `np.ones_like(A[0][0])`. -/
def onesMat (a : ℕ) : AnyMat R := ⟨a, a, fun _ _ => 1⟩

/-- `EvoMPS_MPS_Uniform(D, q, L=L, do_update=False)`, `mps_uniform.py:100-187, 272-293`. -/
def newBulk (rnd : ∀ q D : ℕ, ℕ → Ten R q D D) (D q L : ℕ) : Bulk R where
  L := L
  D := D
  q := q
  A k := ⟨q, D, D, rnd q D k⟩
  l _ := onesMat D
  r _ := onesMat D

/-- `uni.A = As; uni.update(restore_CF=False)`: the update goes through the tensors `A[0], ..., A[L - 1]`, which raises if the
list is shorter. -/
def setAndUpdate (upd : Bulk R → Option (Bulk R)) (u : Bulk R) (As : List (AnyTen R)) : Option (Bulk R) :=
  if u.L ≤ As.length then upd { u with A := fun k => As.getD k (zeroTen 0 0 0) } else none

/-- `mps_sandwich.py:155-169` and `36-50`: the tensors of the finite part and the bond dimensions are stored, the bulk chains
get their tensors and are updated, and then the environments of the finite part are computed. -/
def fillTensors (upd : Bulk R → Option (Bulk R)) (DL DR : ℕ) (AsL C AsR : List (AnyTen R)) (S : State R) :
    Option (State R) :=
  let S := { S with
    A := fun n => if 1 ≤ n then C.getD (n - 1) (S.A n) else S.A n
    D := fun n => if n = 0 then DL else if n ≤ C.length then (C.getD (n - 1) (S.A n)).b else DR }
  (setAndUpdate upd S.uniL AsL).bind fun uL => (setAndUpdate upd S.uniR AsR).bind fun uR =>
    updateRaw { S with uniL := uL, uniR := uR }

/-- `mps_sandwich.py:133-171` `from_tensors(As_L, As_C, As_R)`.  The bulk chains handed to the constructor are new and not
updated. -/
def fromTensorsFull (upd : Bulk R → Option (Bulk R)) (rndL rndR : ∀ q D : ℕ, ℕ → Ten R q D D)
    (AsL C AsR : List (AnyTen R)) : Option (State R) :=
  AsL.head?.bind fun a => AsR.head?.bind fun b =>
    (new C.length (newBulk rndL a.a a.q AsL.length) (some (newBulk rndR b.a b.q AsR.length))).bind
      (fillTensors upd a.a b.a AsL C AsR)

/-- `mps_sandwich.py:19-52` `sandwich_from_tensors(As_L, As_C, As_R)`.  The constructor is given one chain, with the
dimensions of `As_L`; it is updated (`updF`) and used on both sides. -/
def sandwichFromTensors (updF upd : Bulk R → Option (Bulk R)) (rnd : ∀ q D : ℕ, ℕ → Ten R q D D)
    (AsL C AsR : List (AnyTen R)) : Option (State R) :=
  AsL.head?.bind fun a => (updF (newBulk rnd a.a a.q AsL.length)).bind fun u =>
    (new C.length u none).bind fun S => AsR.head?.bind fun b => fillTensors upd a.a b.a AsL C AsR S

end EvoMPS.SW
