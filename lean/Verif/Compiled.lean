import Mathlib.Analysis.Complex.Norm
import Mathlib.Algebra.BigOperators.Group.Finset.Basic

/-!
# The small compiled functions (`tdvp_calc_C.pyx`, `allclose.pyx`)

Arrays carry their shape, since the functions check it; entries outside of the shape have no meaning.  Arrays are changed in
place, so it matters whether two arguments are the same array.  Exact arithmetic.
-/

namespace EvoMPS.Compiled

/-- An array with four indices. -/
structure Arr4 where
  n1 : ℕ
  n2 : ℕ
  n3 : ℕ
  n4 : ℕ
  v : ℕ → ℕ → ℕ → ℕ → ℂ

/-- An array with two indices. -/
structure Arr2 where
  n1 : ℕ
  n2 : ℕ
  v : ℕ → ℕ → ℂ

/-- The argument `out` of `calc_C`: not given, an array of its own, or the array `AA` itself. -/
inductive OutArg
  | missing
  | given (a : Arr4)
  | same

/-- The two arrays in memory during the loops; if `same`, there is only the second. -/
structure CMem where
  AA : ℕ → ℕ → ℕ → ℕ → ℂ
  out : ℕ → ℕ → ℕ → ℕ → ℂ

/-- `tdvp_calc_C.pyx:49-51`: the two inner loops, for one `h`. -/
def innerC (same : Bool) (D1 D2 s t u v : ℕ) (h : ℂ) (m : CMem) : CMem :=
  (List.range D1).foldl (fun m i => (List.range D2).foldl (fun (m : CMem) j =>
    let AA := if same then m.out else m.AA
    ⟨m.AA, fun s' t' i' j' => if s' = s ∧ t' = t ∧ i' = i ∧ j' = j then m.out s t i j + h * AA u v i j
      else m.out s' t' i' j'⟩) m) m

/-- `tdvp_calc_C.pyx:42-51`: the loops over the states of the two sites. -/
noncomputable def loopsC (same : Bool) (q1 q2 D1 D2 : ℕ) (h : ℕ → ℕ → ℕ → ℕ → ℂ) (m : CMem) : CMem :=
  (List.range q1).foldl (fun m s => (List.range q2).foldl (fun m t => (List.range q1).foldl (fun m u =>
    (List.range q2).foldl (fun m v =>
      open Classical in if h s t u v ≠ 0 then innerC same D1 D2 s t u v (h s t u v) m else m) m) m) m) m

/-- `tdvp_calc_C.pyx:14-53` `calc_C(AA, h_nn_cptr, out)`; `h` is the C function behind the capsule.  `none`: failed
assertion.  `out.fill(0)` sets the whole array to zero. -/
noncomputable def calcC (AA : Arr4) (h : ℕ → ℕ → ℕ → ℕ → ℂ) (out : OutArg) : Option Arr4 :=
  let ok : Bool := match out with
    | .given a => decide (a.n1 = AA.n1 ∧ a.n2 = AA.n2 ∧ a.n3 = AA.n3 ∧ a.n4 = AA.n4)
    | _ => true
  let same : Bool := match out with
    | .same => true
    | _ => false
  if ok then some ⟨AA.n1, AA.n2, AA.n3, AA.n4,
    (loopsC same AA.n1 AA.n2 AA.n3 AA.n4 h ⟨AA.v, fun _ _ _ _ => 0⟩).out⟩
  else none

/-- `allclose.pyx:17-18` `abs_cmp(X)`. -/
noncomputable def absCmp (X : ℂ) : ℝ := √(X.re ^ 2 + X.im ^ 2)

/-- `allclose.pyx:31-34`: a row; `false` is the early return. -/
noncomputable def rowClose (A B : Arr2) (rtol atol : ℝ) (i : ℕ) : List ℕ → Bool
  | [] => true
  | j :: t => open Classical in
    if absCmp (A.v i j - B.v i j) > atol + rtol * absCmp (B.v i j) then false else rowClose A B rtol atol i t

/-- `allclose.pyx:30-36`: the rows. -/
noncomputable def rowsClose (A B : Arr2) (rtol atol : ℝ) (D2 : ℕ) : List ℕ → Bool
  | [] => true
  | i :: t => if rowClose A B rtol atol i (List.range D2) then rowsClose A B rtol atol D2 t else false

/-- `allclose.pyx:20-36` `allclose_mat(A, B, rtol, atol)`.  `none`: failed assertion. -/
noncomputable def allcloseMat (A B : Arr2) (rtol atol : ℝ) : Option Bool :=
  if A.n1 = B.n1 ∧ A.n2 = B.n2 then some (rowsClose A B rtol atol A.n2 (List.range A.n1)) else none

end EvoMPS.Compiled
