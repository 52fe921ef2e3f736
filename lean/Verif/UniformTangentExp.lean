import Verif.UniformExpect

/-!
# Expectation values and correlations in tangent states (`tdvp_uniform.py:1651-1746`)

The functions read entry 0 of the lists of tensors and environments, so they are for one site per cell.  The state has the
tensors of `self` before site `nb`, the tensor `B` at site `nb` and the tensors of `s2` (by default `self`) after it.
Lists are functions of the index; all entries that are read have been written.
-/

namespace EvoMPS.Uni

open Matrix

variable {R : Type*} [CommRing R] [StarRing R] [DecidableEq R] {q D : ℕ}

/-- `tdvp_uniform.py:1660`, also `1697` and `1737`: the list `As`; entries past the end are not read. -/
def tangentAs (A B A2 : Ten R q D D) (d nb : ℕ) (n : ℕ) : Ten R q D D :=
  (List.replicate nb A ++ [B] ++ List.replicate (2 * d + 1 - nb) A2).getD n 0

/-- `tdvp_uniform.py:1651-1683` `_get_tangent_lr(B, d, nb, op1, s2)`. -/
def UMPS.tangentLr (S : UMPS R q D) (B : Ten R q D D) (d : ℕ) (nb : Option ℕ) (op1 : Option (Fin q → Fin q → R))
    (s2 : Option (UMPS R q D)) : (ℕ → Matrix (Fin D) (Fin D) R) × (ℕ → Matrix (Fin D) (Fin D) R) :=
  let nb := nb.getD (d + 1)
  let A2 := match s2 with
    | none => S.A 0
    | some s2 => s2.A 0
  let r := match s2 with
    | none => S.r
    | some s2 => s2.r
  let As := tangentAs (S.A 0) B A2 d nb
  let ls : ℕ → Matrix (Fin D) (Fin D) R := fun _ => S.l 0
  let ls := match op1 with
    | none => Function.update ls 1 (epsL (ls 0) (As 1) (As 1))
    | some op1 => Function.update ls 1 (epsLOp1 (ls 0) (As 1) (As 1) op1)
  let ls := (List.range' 2 (2 * d - 1)).foldl (fun (ls : ℕ → Matrix (Fin D) (Fin D) R) (n : ℕ) =>
    Function.update ls n (epsL (ls (n - 1)) (As n) (As n))) ls
  let rs : ℕ → Matrix (Fin D) (Fin D) R := Function.update (fun _ => 0) (2 * d + 1) (r 0)
  let rs := (List.range' 1 (2 * d + 1)).reverse.foldl
    (fun (rs : ℕ → Matrix (Fin D) (Fin D) R) (n : ℕ) => Function.update rs (n - 1) (epsR (rs n) (As n) (As n))) rs
  (ls, rs)

/-- `tdvp_uniform.py:1685-1703` `expect_tangent_1s(B, op, d, nb, lrs, s2)`. -/
def UMPS.expectTangent1s (S : UMPS R q D) (B : Ten R q D D) (op : Fin q → Fin q → R) (d : ℕ) (nb : Option ℕ)
    (lrs : Option ((ℕ → Matrix (Fin D) (Fin D) R) × (ℕ → Matrix (Fin D) (Fin D) R))) (s2 : Option (UMPS R q D)) : List R :=
  let nb := nb.getD (d + 1)
  let lrs := match lrs with
    | none => S.tangentLr B d (some nb) none s2
    | some lrs => lrs
  let ls := lrs.1
  let rs := lrs.2
  let A2 := match s2 with
    | none => S.A 0
    | some s2 => s2.A 0
  let As := tangentAs (S.A 0) B A2 d nb
  (List.range' 1 (2 * d + 1)).map fun n => adot (ls (n - 1)) (epsROp1 (rs n) (As n) (As n) op)

/-- `tdvp_uniform.py:1705-1728` `expect_tangent_2s(B, op, d)`. -/
def UMPS.expectTangent2s (S : UMPS R q D) (B : Ten R q D D) (op : Fin q → Fin q → Fin q → Fin q → R) (d : ℕ) : List R :=
  let AA := calcAA (S.A 0) (S.A 0)
  let AB := calcAA (S.A 0) B
  let BA := calcAA B (S.A 0)
  let Cop := calcC op AA
  let CopAB := calcC op AB
  let CopBA := calcC op BA
  let nb := d + 1
  let lrs := S.tangentLr B d none none none
  let ls := lrs.1
  let rs := lrs.2
  let AAs : ℕ → Ten2 R q q D D := fun _ => AA
  let AAs := Function.update AAs (nb - 1) AB
  let AAs := Function.update AAs nb BA
  let Cs : ℕ → Ten2 R q q D D := fun _ => Cop
  let Cs := Function.update Cs (nb - 1) CopAB
  let Cs := Function.update Cs nb CopBA
  (List.range' 1 (2 * d)).map fun n => adot (ls (n - 1)) (epsR2 (rs (n + 1)) (Cs n) (AAs n))

/-- `tdvp_uniform.py:1730-1746` `correlation_tangent_1s_1s(B, op1, op2, d, nb, s2)`: the arrays `c` and `g`. -/
def UMPS.correlationTangent (S : UMPS R q D) (B : Ten R q D D) (op1 op2 : Fin q → Fin q → R) (d : ℕ) (nb : Option ℕ)
    (s2 : Option (UMPS R q D)) : List R × List R :=
  let lrs := S.tangentLr B d nb none s2
  let exs1 := S.expectTangent1s B op1 d nb (some lrs) s2
  let exs2 := S.expectTangent1s B op2 d nb (some lrs) s2
  let nb := nb.getD (d + 1)
  let A2 := match s2 with
    | none => S.A 0
    | some s2 => s2.A 0
  let As := tangentAs (S.A 0) B A2 d nb
  let lrs := S.tangentLr B d (some nb) (some op1) s2
  let ls := lrs.1
  let rs := lrs.2
  let g := [adot (ls 0) (epsROp1 (rs 1) (As 1) (As 1) (opDot op1 op2))]
  let g := g ++ (List.range' 2 (2 * d)).map fun n => adot (ls (n - 1)) (epsROp1 (rs n) (As n) (As n) op2)
  let c := List.zipWith (· - ·) g (List.zipWith (· * ·) exs1 exs2)
  (c, g)

end EvoMPS.Uni
