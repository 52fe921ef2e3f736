import Verif.SwStep
import Verif.DynExp

/-!
# Sandwich states: dynamical expansion of the bonds and projection error (`tdvp_sandwich.py`)

One local dimension `q` and one bond dimension `D` before the step, as in `SwEnergy.lean`; `none` is a raised exception.  As there, `lm n`,
`rm n` are the matrix objects behind the environments: for the bonds used here, those returned by `get_l(n)`, `get_r(n)`.
-/

namespace EvoMPS.Uni

open Matrix

variable {q D : ℕ}

/-- `tdvp_sandwich.py:738-749` and `774-784`: `Y` for the sites `n`, `n + 1`. -/
def SwT.bbYn (S : SwT q D) (n : ℕ) {v w : ℕ} (Vlh : Fin q → Matrix (Fin v) (Fin D) ℂ) (Vrh : Fin q → Matrix (Fin D) (Fin w) ℂ)
    (l_s l_si r_s r_si : Matrix (Fin D) (Fin D) ℂ) : Option (Matrix (Fin v) (Fin w) ℂ) :=
  if S.hamSites = 2 then (S.getC2 n).map fun C => calcBBY C Vlh Vrh l_s r_s
  else calcBBY3 (some (S.getA ((n : ℤ) - 1))) (some (S.getA ((n : ℤ) + 2))) (S.getC3 n) (S.getC3 ((n : ℤ) - 1)) Vlh Vrh
    (S.getL ((n : ℤ) - 2)) (S.getR ((n : ℤ) + 2)) l_s l_si r_s r_si

/-- One turn of the loop of `compute_projection_error`, `tdvp_sandwich.py:728-750`. -/
noncomputable def SwT.projStep (P : Num) (S : SwT q D) (lm rm : ℕ → MM ℂ D D) (eta : ℕ → ℂ) (n : ℕ) : Option (ℕ → ℂ) :=
  let (l_s, l_si) := P.roots (lm (n - 1))
  let (r_s, r_si) := P.roots (rm (n + 1))
  match calcVshl P.qr (S.getA n) l_s, calcVsh P.qr (S.getA ((n : ℤ) + 1)) r_s with
  | some Vlh, some Vrh => (S.bbYn n Vlh Vrh l_s l_si r_s r_si).map fun Y => Function.update eta n (adot Y Y)
  | _, _ => some eta

/-- `tdvp_sandwich.py:723-751` `compute_projection_error()`. -/
noncomputable def SwT.projectionError (P : Num) (S : SwT q D) (lm rm : ℕ → MM ℂ D D) : Option (ℕ → ℂ) :=
  (List.range' 1 (S.N - 1)).foldlM (S.projStep P lm rm) fun _ => 0

/-- One turn of the loop of `calc_BB`, `tdvp_sandwich.py:761-795`: entry `n` holds `BB12[n]`, `BB21[n + 1]` and `dD[n]`.  The list
`etaBB_sq` is not returned and is left out, so the argument `compute_eta` only decides whether the bond is looked at. -/
noncomputable def SwT.bbStep (P : Num) (svd : Svd) (S : SwT q D) (lm rm : ℕ → MM ℂ D D) (svTol : ℝ) (dDmax Dmax : ℕ)
    (computeEta : Bool) (bb : ℕ → BB q q D D) (n : ℕ) : Option (ℕ → BB q q D D) :=
  if D ≥ Dmax ∧ ¬ computeEta then some bb else
  let (l_s, l_si) := P.roots (lm (n - 1))
  let (r_s, r_si) := P.roots (rm (n + 1))
  match calcVshl P.qr (S.getA n) l_s, calcVsh P.qr (S.getA ((n : ℤ) + 1)) r_s with
  | some Vlh, some Vrh => (S.bbYn n Vlh Vrh l_s l_si r_s r_si).map fun Y =>
      if D < Dmax then Function.update bb n (calcBB2s svd Y Vlh Vrh l_si r_si (min (Dmax - D) dDmax) svTol) else bb
  | _, _ => some bb

/-- `tdvp_sandwich.py:753-799` `calc_BB(sv_tol, dD_max, D_max, compute_eta)`. -/
noncomputable def SwT.calcBB (P : Num) (svd : Svd) (S : SwT q D) (lm rm : ℕ → MM ℂ D D) (svTol : ℝ) (dDmax Dmax : ℕ)
    (computeEta : Bool) : Option (ℕ → BB q q D D) :=
  (List.range' 1 (S.N - 1)).foldlM (S.bbStep P svd lm rm svTol dDmax Dmax computeEta) fun _ => .nothing

/-- The window after a step with `dynexp=True`: the list `dD` that is returned and the tensors; the tensor of site `n` is entry `n - 1`. -/
structure SwGrown (q D : ℕ) where
  dD : ℕ → ℕ
  A : Tensors ℂ (fun _ => q) fun n => D + dD n

/-- `tdvp_sandwich.py:801-837` `take_step(dtau, B, dynexp=True, dD_max, D_max, sv_tol)`.  A tensor for which neither `BB12[n]` nor `BB21[n]`
is given stays as it is: its blocks have no new rows and columns then. -/
noncomputable def SwT.takeStepDyn (P : Num) (svd : Svd) (S : SwT q D) (lm rm : ℕ → MM ℂ D D) (dtau : ℂ) (B : Option (WList q D))
    (dDmax Dmax : ℕ) (svTol : ℝ) : Option (SwGrown q D) :=
  (B.elim ((S.calcB P lm rm).map SwTanOut.B) some).bind fun F =>
  (S.calcBB P svd lm rm svTol dDmax Dmax false).map fun bb =>
    let A := (eulerW S.N dtau (S.A, F)).1
    let bb' := fun k => bb (k + 1)
    ⟨dDOf (q := fun _ => q) (D := fun _ => D) bb', grownA (q := fun _ => q) (D := fun _ => D) bb' (-Complex.I * P.sq dtau) fun k => A (k + 1)⟩

end EvoMPS.Uni
