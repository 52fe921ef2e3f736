import Verif.UniformPinv

/-!
# The sandwich state: the inner product with a tangent vector

`mps_sandwich.py:715-762`.  Only the case of one bond dimension `D` in all parts is modelled (the constructor makes
the finite part with the bond dimension of the left bulk, `mps_sandwich.py:67-107`).
-/

namespace EvoMPS.Uni

open Matrix

variable {q D : ℕ}

/-- The attributes of `EvoMPS_MPS_Sandwich` that `overlap_tangent` reads, `mps_sandwich.py:58-114`: the number of
sites and the tensors `A 1, ..., A N` of the finite part; block lengths, tensors and environments of the bulks. -/
structure SwTan (q D : ℕ) where
  N : ℕ
  A : ℕ → Ten ℂ q D D
  LL : ℕ
  LR : ℕ
  AL : ℕ → Ten ℂ q D D
  AR : ℕ → Ten ℂ q D D
  lL : ℕ → Matrix (Fin D) (Fin D) ℂ
  rR : ℕ → Matrix (Fin D) (Fin D) ℂ

/-- The loop `mps_sandwich.py:739-741`: `rs.insert(0, eps_r_noop(rs[0], A[j], AR))` for `j = N, ..., 1`. -/
def SwTan.rs (S : SwTan q D) : List (Matrix (Fin D) (Fin D) ℂ) :=
  (List.range' 1 S.N).reverse.foldl (fun rs j => epsR (rs.headD 0) (S.A j) (S.AR 0) :: rs) [S.rR 0]

/-- One turn of the loop `mps_sandwich.py:750-754`. -/
noncomputable def SwTan.winStep (S : SwTan q D) (B : Ten ℂ q D D) (p : ℝ) (rs : List (Matrix (Fin D) (Fin D) ℂ))
    (st : Matrix (Fin D) (Fin D) ℂ × List ℂ) (j : ℕ) : Matrix (Fin D) (Fin D) ℂ × List ℂ :=
  let res_j := Complex.exp (Complex.I * p * j) * adot st.1 (epsR (rs.getD j 0) (S.A j) B)
  (epsL st.1 (S.A j) (S.AL 0), st.2 ++ [res_j])

/-- `mps_sandwich.py:715-762` `overlap_tangent` with `return_contributions=True`: the part of the left bulk and the
list of the contributions of the window.  The gauge condition is only printed.  The solver is that of `pinv_1mE`,
`junk` what its buffer holds. -/
noncomputable def SwTan.overlapTangentParts (S : SwTan q D) (solver : Solver D) (junk : Matrix (Fin D) (Fin D) ℂ)
    (B : Ten ℂ q D D) (p : ℝ) (topTriv : Bool) : Option (ℂ × List ℂ) :=
  if ¬(S.LL = 1 ∧ S.LR = 1) then none else
  (pinv1mE solver junk (epsL (S.lL 0) (S.AL 0) B) [S.AL 0] [S.AR 0] (some (S.lL 0)) (some (S.rR 0)) p true topTriv none).map
    fun vBL =>
      let rs := S.rs
      let ol_left_bulk := adot vBL (rs.getD 0 0) * Complex.exp (-Complex.I * p)
      (ol_left_bulk, ((List.range' 1 S.N).foldl (S.winStep B p rs) (S.lL 0, [])).2)

/-- `overlap_tangent` with the default `return_contributions=False`, `mps_sandwich.py:762`. -/
noncomputable def SwTan.overlapTangent (S : SwTan q D) (solver : Solver D) (junk : Matrix (Fin D) (Fin D) ℂ)
    (B : Ten ℂ q D D) (p : ℝ) (topTriv : Bool) : Option ℂ :=
  (S.overlapTangentParts solver junk B p topTriv).map fun x => x.1 + x.2.sum

end EvoMPS.Uni
