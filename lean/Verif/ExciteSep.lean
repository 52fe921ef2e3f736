import Verif.TwoSite

/-!
# Matrix elements between excitations at two sites (`mps_uniform_excite.py:869-891`)

Lists are functions of the index; all entries that are read have been written.
-/

namespace EvoMPS.Uni

open Matrix

variable {R : Type*} [CommRing R] [StarRing R] {q D : ℕ}

/-- `mps_uniform_excite.py:875-876`, the lists `As1` and `As2` without their first entry `None`: entry `n` of the python list
is entry `n - 1` here.  A list times a negative number is empty. -/
def sepAs (AL AR B : Ten R q D D) (d n1 n : ℕ) : Ten R q D D :=
  (List.replicate (n1 - 1) AL ++ [B] ++ List.replicate (d + 1 - n1) AR).getD (n - 1) 0

/-- `mps_uniform_excite.py:869-891` `_excite_expect_2s_tp_sep(AL, AR, B, lL, rR, op, d, n1, n2)`. -/
def exciteSep (AL AR B : Ten R q D D) (lL rR : Matrix (Fin D) (Fin D) R)
    (op : List (Matrix (Fin q) (Fin q) R × Matrix (Fin q) (Fin q) R)) (d n1 n2 : ℕ) : List R :=
  let As1 := sepAs AL AR B d n1
  let As2 := sepAs AL AR B d n2
  let ls : ℕ → Matrix (Fin D) (Fin D) R := (List.range' 1 (d - 1)).foldl (fun ls n =>
    Function.update ls n (epsL (ls (n - 1)) (As1 n) (As2 n))) (Function.update (fun _ => 0) 0 lL)
  let rs : ℕ → Matrix (Fin D) (Fin D) R := (List.range' 1 d).reverse.foldl (fun rs n =>
    Function.update rs (n - 1) (epsR (rs n) (As1 n) (As2 n))) (Function.update (fun _ => 0) d rR)
  let Cs1 := (List.range' 1 (d - 1)).foldl (fun Cs1 n =>
    Function.update Cs1 n (calcCtp op (As1 n) (As1 (n + 1)))) (fun _ => [])
  (List.range' 1 (d - 1)).map fun n => adot (ls (n - 1)) (epsR2tp (rs (n + 1)) (Cs1 n) (As2 n) (As2 (n + 1)))

end EvoMPS.Uni
