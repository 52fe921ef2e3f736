import Verif.UniformTangent
import Verif.DynExp

/-!
# The uniform chain: dynamical expansion of the bond (`tdvp_uniform.py`, `mps_uniform.py`)

`none` is a raised exception.  As in `UniformTangent.lean`, `lm` and `rm` are the matrix objects behind the environments.
The tensor-product form of the Hamiltonian is left out; `calc_BB_Y_2s_tp` is in `TensorProd.lean`.
-/

namespace EvoMPS.Uni

open Matrix

variable {q D : ℕ}

/-- An entry of `BB1`: a tensor with any right dimension. -/
abbrev BBRight (q D : ℕ) := Σ d : ℕ, Fin q → Matrix (Fin D) (Fin d) ℂ

/-- An entry of `BB2`. -/
abbrev BBLeft (q D : ℕ) := Σ d : ℕ, Fin q → Matrix (Fin d) (Fin D) ℂ

/-- `tdvp_uniform.py:558-576` `calc_BB_Y_2s(Vlh)`: `Y[k]`. -/
def UTDVP.bbYk (S : UTDVP q D) (k : ℕ) {v w : ℕ} (Vlh : Fin q → Matrix (Fin v) (Fin D) ℂ)
    (Vrh : Fin q → Matrix (Fin D) (Fin w) ℂ) (l_s l_si r_s r_si : Matrix (Fin D) (Fin D) ℂ) :
    Option (Matrix (Fin v) (Fin w) ℂ) :=
  let L := S.L
  match S.ham with
  | .two _ => some (calcBBY (S.C2 k) Vlh Vrh l_s r_s)
  | .three _ => calcBBY3 (some (S.A (pmod ((k : ℤ) - 1) L))) (some (S.A ((k + 2) % L))) (some (S.C3 k))
      (some (S.C3 (pmod ((k : ℤ) - 1) L))) Vlh Vrh (S.l (pmod ((k : ℤ) - 2) L)) (S.r ((k + 2) % L)) l_s l_si r_s r_si

/-- What `calc_B_2s` returns; entries that are `None` are `none`. -/
structure UBB (q D : ℕ) where
  BB1 : ℕ → Option (BBRight q D)
  BB2 : ℕ → Option (BBLeft q D)
  etaBBSq : ℕ → ℂ

/-- One iteration of the loops of `calc_B_2s` (`tdvp_uniform.py:582-592`), which run over the same sites and do not depend on
each other.  `self.Vsh` is what `calc_B` computed for the state at hand; a null space that is `None` raises when it is used.
The argument `sv_tol` of `calc_BB_2s` is 0. -/
noncomputable def UTDVP.calcB2sIter (P : Num) (svd : Svd) (S : UTDVP q D) (lm rm : ℕ → MM ℂ D D) (dDmax : ℕ)
    (X : UBB q D) (k : ℕ) : Option (UBB q D) :=
  let L := S.L
  let (l_s, l_si) := P.roots (lm (pmod ((k : ℤ) - 1) L))
  let (r_s, r_si) := P.roots (rm ((k + 1) % L))
  (calcVshl P.qr (S.A k) l_s).bind fun Vlh =>
  (calcVsh P.qr (S.A ((k + 1) % L)) r_s).bind fun Vrh =>
  (S.bbYk k Vlh Vrh l_s l_si r_s r_si).map fun Y =>
  let bb := calcBB2s svd Y Vlh Vrh l_si r_si dDmax 0
  { BB1 := Function.update X.BB1 k (bb.B12.map fun B => ⟨bb.d, B⟩)
    BB2 := Function.update X.BB2 ((k + 1) % L) (bb.B21.map fun B => ⟨bb.d, B⟩)
    etaBBSq := Function.update X.etaBBSq k (adot Y Y) }

/-- `tdvp_uniform.py:578-594` `calc_B_2s(dD_max, sv_tol)`; `sv_tol` is not used. -/
noncomputable def UTDVP.calcB2s (P : Num) (svd : Svd) (S : UTDVP q D) (lm rm : ℕ → MM ℂ D D) (dDmax : ℕ) (_svTol : ℝ) :
    Option (UBB q D) :=
  (List.range S.L).foldl (fun X k => X.bind fun X => S.calcB2sIter P svd lm rm dDmax X k)
    (some ⟨fun _ => none, fun _ => none, fun _ => 0⟩)

/-- The value assigned to a slice with `d` columns: an array with one column is repeated, any other with the wrong number of
columns raises. -/
def fitRight (d : ℕ) (X : BBRight q D) : Option (Fin q → Matrix (Fin D) (Fin d) ℂ) :=
  if h : X.1 = d then some (h ▸ X.2) else
  if h : X.1 = 1 then some fun s => Matrix.of fun i _ => X.2 s i ⟨0, by omega⟩ else none

/-- The value assigned to a slice with `d` rows. -/
def fitLeft (d : ℕ) (X : BBLeft q D) : Option (Fin q → Matrix (Fin d) (Fin D) ℂ) :=
  if h : X.1 = d then some (h ▸ X.2) else
  if h : X.1 = 1 then some fun s => Matrix.of fun _ j => X.2 s ⟨0, by omega⟩ j else none

/-- A block of tensors with a larger bond dimension. -/
structure UGrown (q D : ℕ) where
  d : ℕ
  A : ℕ → Ten ℂ q (D + d) (D + d)

/-- The scaled noise `randomize_cmplx(x, a=0, b=realfac, aj=0, bj=imagfac)`; `x`, `y` are the random numbers between 0 and 1. -/
def noise (realfac imagfac x y : ℂ) : ℂ := x * realfac + y * imagfac * Complex.I

/-- `mps_uniform.py:1854-1890` `expand_D(newD, refac, imfac)`: the tensors, for `newD = D + d`.  `realnorm`, `imagnorm` are the
norms of real and imaginary part of `A[k]`; `rnd` the random numbers.  The environments, which are only used as initial values
afterwards, are in `UniformResize.lean`. -/
noncomputable def expandA (d : ℕ) (realnorm imagnorm : ℕ → ℂ) (rnd : ℕ → Fin q → ℕ → ℕ → ℂ × ℂ) (refac imfac : ℂ)
    (A : ℕ → Ten ℂ q D D) : ℕ → Ten ℂ q (D + d) (D + d) :=
  fun k s =>
    let realfac := realnorm k / ((q * D * D : ℕ) : ℂ) * refac
    let imagfac := imagnorm k / ((q * D * D : ℕ) : ℂ) * imfac
    let x (i j : ℕ) : ℂ := noise realfac imagfac (rnd k s i j).1 (rnd k s i j).2
    blocks (A k s) (Matrix.of fun i j => x i (D + j)) (Matrix.of fun i j => x (D + i) j) 0

/-- The loop of `take_step` over the sites of the block (`tdvp_uniform.py:663-672`), after `expand_D`: the four slices of `A[k]`.
The first one is the sum of the old tensor and `-dtau * B[k]`. -/
noncomputable def growLoop (L d : ℕ) (c dtau : ℂ) (B A : ℕ → Ten ℂ q D D) (X : UBB q D) (A1 : ℕ → Ten ℂ q (D + d) (D + d)) :
    Option (ℕ → Ten ℂ q (D + d) (D + d)) :=
  (List.range L).foldl (fun (A' : Option (ℕ → Ten ℂ q (D + d) (D + d))) k => A'.bind fun A' =>
    ((X.BB1 k).bind (fitRight d)).bind fun b1 => ((X.BB2 k).bind (fitLeft d)).map fun b2 =>
      Function.update A' k fun s => blocks (A k s + -dtau • B k s) (c • b1 s) (c • b2 s) 0) (some A1)

/-- `tdvp_uniform.py:641-679` `take_step(dtau, B, dynexp=True, D_max, dD_max, sv_tol)` with `BB=None`; `B` is the argument or the
result of `calc_B`. -/
noncomputable def UTDVP.takeStepDyn (P : Num) (svd : Svd) (S : UTDVP q D) (lm rm : ℕ → MM ℂ D D) (dtau : ℂ)
    (B : ℕ → Ten ℂ q D D) (realnorm imagnorm : ℕ → ℂ) (rnd : ℕ → Fin q → ℕ → ℕ → ℂ × ℂ) (Dmax dDmax : ℕ) (svTol : ℝ) :
    Option (UGrown q D) :=
  if D < Dmax then
    (S.calcB2s P svd lm rm (min dDmax (Dmax - D)) svTol).bind fun X =>
    (X.BB1 0).bind fun b =>
    let d := b.1
    (growLoop S.L d (-Complex.I * P.sq dtau) dtau B S.A X (expandA d realnorm imagnorm rnd 0 0 S.A)).map fun A =>
    ⟨d, A⟩
  else some ⟨0, fun k => stepLoop S.L dtau B S.A k⟩

end EvoMPS.Uni
