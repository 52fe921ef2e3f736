import Verif.SwCF
import Verif.Fidelity
import Verif.LowRank
import Verif.SwOverlapSpec

/-!
# The overlap of two sandwich states (`mps_sandwich.py`)
-/

namespace EvoMPS.SW

open Matrix Uni

variable {q D D' : ℕ → ℕ} {qL qR m : ℕ}

open Classical in
/-- `scipy.linalg.inv`: raises if the matrix is not square or singular. -/
noncomputable def laInv {a b : ℕ} (M : Matrix (Fin a) (Fin b) ℂ) : Option (Matrix (Fin b) (Fin a) ℂ) :=
  if h : ∃ X : Matrix (Fin b) (Fin a) ℂ, M * X = 1 ∧ X * M = 1 then some h.choose else none

/-- `scipy.linalg.norm` of a matrix. -/
noncomputable def laNorm {a b : ℕ} (M : Matrix (Fin a) (Fin b) ℂ) : ℝ := Real.sqrt (frobSq M)

/-- `mps_sandwich.py:709-710`, the loop `for n in range(N - 1, 1, -1)`: python's site `n` is `k = n - 1`. -/
def overlapLoop (A : Tensors ℂ q D) (A' : Tensors ℂ q D') (m : ℕ) (x : Matrix (Fin (D (m + 1))) (Fin (D' (m + 1))) ℂ) :
    ∀ n, Matrix (Fin (D n)) (Fin (D' n)) ℂ :=
  (List.range' 1 m).reverse.foldl (fun y k => Function.update y k (epsR (y (k + 1)) (A k) (A' k)))
    (Function.update (fun _ => 0) (m + 1) x)

/-- `mps_sandwich.py:700-713`: the contraction over the window with given gauge matrices, for `N = m + 1`.  For `N = 1` the last statement
uses the result of the first one as an environment of the cut behind site 1, which raises if the shapes do not fit. -/
def overlapWindow (A : Tensors ℂ q D) (A' : Tensors ℂ q D') (l : Matrix (Fin (D 0)) (Fin (D 0)) ℂ)
    (gl : Matrix (Fin (D 0)) (Fin (D' 0)) ℂ) :
    ∀ m, Matrix (Fin (D (m + 1))) (Fin (D (m + 1))) ℂ → Matrix (Fin (D' (m + 1))) (Fin (D (m + 1))) ℂ → Option ℂ
  | 0, r, gri =>
    let AN : Fin (q 0) → _ := fun s => A' 0 s * gri
    let A1 : Fin (q 0) → _ := fun s => gl * A' 0 s
    let x := epsR r (A 0) AN
    if h : D 1 = D 0 ∧ D' 1 = D' 0 then
      some (adot l (epsR (x.submatrix (Fin.cast h.1) (Fin.cast h.2)) (A 0) A1))
    else none
  | m + 1, r, gri =>
    let AN : Fin (q (m + 1)) → _ := fun s => A' (m + 1) s * gri
    let A1 : Fin (q 0) → _ := fun s => gl * A' 0 s
    let x := epsR r (A (m + 1)) AN
    some (adot l (epsR (overlapLoop A A' m x 1) (A 0) A1))

/-- `mps_sandwich.py:629-713` `overlap(other)` for two states with the same number `N = m + 1` of sites and the same local
dimensions (else `None` is returned).  `tol` stands for the literal `1E-12`.  `none` is a raised exception: `reshape` needs equal
bond dimensions at the ends of the window.  Division by a norm that is zero (`other` with environments that vanish) is not modelled. -/
noncomputable def overlapSw (lib : ∀ n, SpecLib n) (tol : ℝ) (S : Sw q D qL qR (m + 1)) (S' : Sw q D' qL qR (m + 1)) : Option ℂ :=
  (fidelity (lib _) ⟨false, false, 64⟩ true S.uniL S'.uniL).bind fun fL =>
  (fidelity (lib _) ⟨false, false, 64⟩ false S.uniR S'.uniR).bind fun fR =>
  if D 0 = D' 0 ∧ D (m + 1) = D' (m + 1) then
    let gLl : Matrix (Fin (D 0)) (Fin (D' 0)) ℂ := reshape fL.2.2
    let gRr : Matrix (Fin (D (m + 1))) (Fin (D' (m + 1))) ℂ := reshape fR.2.2
    let rS := S.uniR.r (S.uniR.L - 1)
    let lS := S.uniL.l (S.uniL.L - 1)
    (laInv gRr).bind fun Ri => (laInv rS).bind fun rSi => (laInv lS).bind fun lSi => (laInv gLl).bind fun Li =>
    let gr := (Ri * rS)ᴴ
    let gri := (rSi * gRr)ᴴ
    let r := gr * S'.uniR.r (S'.uniR.L - 1) * grᴴ
    let facR := laNorm rS / laNorm r
    let gri := ((1 / Real.sqrt facR : ℝ) : ℂ) • gri
    let gl := lSi * gLl
    let gli := Li * lS
    let l := gliᴴ * S'.uniL.l (S'.uniL.L - 1) * gli
    let facL := laNorm lS / laNorm l
    let gl := ((1 / Real.sqrt facL : ℝ) : ℂ) • gl
    if ¬ |fL.1 - 1| < tol then some 0
    else if ¬ |fR.1 - 1| < tol then some 0
    else overlapWindow S.A S'.A lS gl m rS gri
  else none

end EvoMPS.SW
