import Verif.Sweep
import Verif.DynExp

/-!
# The two-site operations of `evolve_split`

`evolve_AA` and `opt_AA` replace the tensors of two neighbouring sites and may change the dimension of the bond between
them.  The arguments `D_max` and `min_schmidt` are `None` by default.
-/

namespace EvoMPS

open Matrix

namespace TwoSplit

/-- `AAn.ravel()` for the array of shape `(q, q', D, D'')`. -/
def flat2 {p p' a c : ℕ} (X : Ten2 ℂ p p' a c) : Fin p × Fin p' × Fin a × Fin c → ℂ := fun x => X x.1 x.2.1 x.2.2.1 x.2.2.2

/-- `v.reshape((q, q', D, D''))`. -/
def tens2 {p p' a c : ℕ} (v : Fin p × Fin p' × Fin a × Fin c → ℂ) : Ten2 ℂ p p' a c :=
  fun s t => Matrix.of fun i j => v (s, t, i, j)

/-- `AA_mat` (`split_step.py:659-661`): rows are indexed by the first site and the left bond. -/
def aaMat {p p' a c : ℕ} (X : Ten2 ℂ p p' a c) : Matrix (Fin (p * a)) (Fin (p' * c)) ℂ :=
  Matrix.of fun x y => X x.divNat y.divNat x.modNat y.modNat

/-- The loop `split_step.py:664-667` over the first `D1` singular values: the index of the first one below `min_schmidt`,
`D1` if there is none.  A comparison with `None` raises. -/
noncomputable def cutAt (minS : Option ℝ) : List ℝ → Option ℕ
  | [] => some 0
  | x :: xs => minS.bind fun e => if x < e then some 0 else (cutAt minS xs).map (· + 1)

/-- `split_step.py:663-667`: the number of singular values to keep; `min(None, ..)` raises. -/
noncomputable def keep (Dmax : Option ℕ) (minS : Option ℝ) (s : List ℝ) : Option ℕ :=
  Dmax.bind fun Dm => cutAt minS (s.take (min Dm s.length))

/-- The values that `split_twosite` returns. -/
structure Parts (p p' a c : ℕ) where
  d : ℕ
  A1 : Ten ℂ p a d
  G : Matrix (Fin d) (Fin d) ℂ
  A2 : Ten ℂ p' d c
  rest : List ℝ

/-- `split_step.py:657-675` `split_twosite`. -/
noncomputable def splitTwosite (svd : Svd) {p p' a c : ℕ} (X : Ten2 ℂ p p' a c) (Dmax : Option ℕ) (minS : Option ℝ) :
    Option (Parts p p' a c) :=
  (svd (aaMat X)).bind fun f => (keep Dmax minS (List.ofFn f.sv)).bind fun d =>
    if h : d ≤ min (p * a) (p' * c) then
      some ⟨d, fun s => Matrix.of fun i l => f.U (flat s i) ⟨l, by omega⟩,
        Matrix.diagonal fun l => (f.sv ⟨l, by omega⟩ : ℂ),
        fun t => Matrix.of fun l j => f.Vh ⟨l, by omega⟩ (flat t j), (List.ofFn f.sv).drop d⟩
    else none -- does not happen, see `keep_spec`

/-- `trunc_err` (`split_step.py:560`, `643`): the norm of the discarded singular values. -/
noncomputable def truncErr (rest : List ℝ) : ℝ := if 0 < rest.length then Real.sqrt (rest.map (· ^ 2)).sum else 0

variable {q D : ℕ → ℕ}

/-- An array with the same entries, where the shape is known to be the same. -/
def recast {p p' a a' b b' : ℕ} (hp : p' = p) (ha : a' = a) (hb : b' = b) (X : Ten ℂ p a b) : Ten ℂ p' a' b' :=
  fun s => (X (Fin.cast hp s)).submatrix (Fin.cast ha) (Fin.cast hb)

/-- `mps.A[n] = An`, `mps.A[n+1] = Anp1`, `mps.D[n] = D_new` for `n = k + 1` (`split_step.py:569-571`, `652-654`). -/
def replace (A : Tensors ℂ q D) (k d : ℕ) (A1 : Ten ℂ (q k) (D k) d) (A2 : Ten ℂ (q (k + 1)) d (D (k + 2))) :
    Tensors ℂ q (Function.update D (k + 1) d) := fun n =>
  if h : n = k then recast (by rw [h]) (by rw [h, Function.update_of_ne (by omega)]) (by rw [h, Function.update_self]) A1
  else if h' : n = k + 1 then
    recast (by rw [h']) (by rw [h', Function.update_self]) (by rw [h', Function.update_of_ne (by omega)]) A2
  else recast rfl (Function.update_of_ne h' _ _) (Function.update_of_ne (by omega) _ _) (A n)

/-- The chain afterwards and the truncation error. -/
structure Res (q : ℕ → ℕ) where
  D : ℕ → ℕ
  A : Tensors ℂ q D
  err : ℝ

/-- `split_step.py:559-572`, `642-655`: what `evolve_AA` and `opt_AA` do with the new two-site tensor.  If the singular
values that are kept are all 0, the division `G /= ..` yields `nan`; this is not modelled (`none`). -/
noncomputable def finish (svd : Svd) (A : Tensors ℂ q D) (k : ℕ) (Dmax : Option ℕ) (minS : Option ℝ) (right : Bool)
    (X : Ten2 ℂ (q k) (q (k + 1)) (D k) (D (k + 2))) : Option (Res q) :=
  (splitTwosite svd X Dmax minS).bind fun P =>
    let nrm := Real.sqrt (adot P.G P.G).re
    if nrm = 0 ∧ 0 < P.d then none
    else
      let G := ((nrm : ℂ)⁻¹) • P.G
      some ⟨Function.update D (k + 1) P.d,
        if right then replace A k P.d P.A1 fun t => G * P.A2 t
        else replace A k P.d (fun s => P.A1 s * G) P.A2, truncErr P.rest⟩

/-- `split_step.py:525-572` `evolve_AA(n, step, .., moving_right)` for `n = k + 1`, without `debug`. -/
noncomputable def evolveAA (svd : Svd) (L : Sweep.Solvers) (N : ℕ) (ham : Ham ℂ q) (fac : ℂ) (Dmax : Option ℕ)
    (minS : Option ℝ) (A : Tensors ℂ q D) (KL KR : OptEnvs ℂ D) (k : ℕ) (step : ℝ) (right : Bool) : Option (Res q) :=
  (L.expmv (fun v => (Eff.pairMatvec N ham A k (KL k) (KR (k + 2)) fac (tens2 v)).map flat2) step
    (flat2 (calcAA (A k) (A (k + 1))))).bind fun w => finish svd A k Dmax minS right (tens2 w)

/-- `split_step.py:622-655` `opt_AA(n, moving_right)` for `n = k + 1` and a Hermitian Hamiltonian. -/
noncomputable def optAA (svd : Svd) (L : Sweep.Solvers) (N : ℕ) (ham : Ham ℂ q) (Dmax : Option ℕ) (minS : Option ℝ)
    (A : Tensors ℂ q D) (KL KR : OptEnvs ℂ D) (k : ℕ) (right : Bool) : Option (Res q) :=
  (L.eigsh (fun v => (Eff.pairMatvec N ham A k (KL k) (KR (k + 2)) 1 (tens2 v)).map flat2)
    (flat2 (calcAA (A k) (A (k + 1))))).bind fun w => finish svd A k Dmax minS right (tens2 w)

end TwoSplit

end EvoMPS
