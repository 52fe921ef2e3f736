import Verif.UniformK
import Verif.Tangent

/-!
# The uniform chain: tangent vectors and steps (`tdvp_uniform.py`)

As in `Tangent.lean` the environments appear twice, as plain matrices of the object and as
matrix objects `MM`.  The tensor-product form of the Hamiltonian (`ham_tp`) is in `TensorProd.lean`.
-/

namespace EvoMPS.Uni

open Matrix

variable {q D : ℕ}

/-- `tdvp_uniform.py:512-537`: the call of `calc_x` or `calc_x_3s` for site `k`.  `none` is a raised exception. -/
def UTDVP.calcXk (S : UTDVP q D) (k : ℕ) {v : ℕ} (Vsh : Fin q → Matrix (Fin D) (Fin v) ℂ)
    (l_s l_si r_s r_si : Matrix (Fin D) (Fin D) ℂ) : Option (Matrix (Fin D) (Fin v) ℂ) :=
  let L := S.L
  match S.ham with
  | .two _ => some (calcX (some (S.K ((k + 1) % L))) (some (S.C2 k)) (some (S.C2 (pmod ((k : ℤ) - 1) L)))
      (S.r ((k + 1) % L)) (S.l (pmod ((k : ℤ) - 2) L)) (S.A (pmod ((k : ℤ) - 1) L)) (S.A k) (S.A ((k + 1) % L))
      l_s l_si r_s r_si Vsh)
  | .three _ => calcX3 (some (S.K ((k + 1) % L))) (some (S.C3 k)) (some (S.C3 (pmod ((k : ℤ) - 1) L)))
      (some (S.C3 (pmod ((k : ℤ) - 2) L))) (S.r ((k + 1) % L)) (S.r ((k + 2) % L))
      (some (S.l (pmod ((k : ℤ) - 2) L))) (some (S.l (pmod ((k : ℤ) - 3) L)))
      (S.AA (pmod ((k : ℤ) - 2) L)) (S.A (pmod ((k : ℤ) - 1) L)) (S.A k)
      (S.A ((k + 1) % L)) (S.AA ((k + 1) % L)) l_s l_si r_s r_si Vsh

/-- `tdvp_uniform.py:456-480` `get_B_from_x(xk, Vshk, lkm1_sqrt_i, rk_sqrt_i)`. -/
def getBFromX {v : ℕ} (x : Matrix (Fin D) (Fin v) ℂ) (Vsh : Fin q → Matrix (Fin D) (Fin v) ℂ)
    (l_si r_si : Matrix (Fin D) (Fin D) ℂ) : Ten ℂ q D D :=
  fun s => l_si * x * (r_si * Vsh s)ᴴ

/-- What `calc_B` computes: the list it returns, `self.eta_sq` and `self.eta`. -/
structure UTangent (q D : ℕ) where
  B : ℕ → Ten ℂ q D D
  etaSq : ℕ → ℂ
  eta : ℂ

/-- One iteration of the loop of `calc_B` (`tdvp_uniform.py:509-549`); the roots are those of
`calc_l_r_roots` (`tdvp_uniform.py:482-491`).  If `calc_Vsh` returns `None`, the first use of it raises. -/
noncomputable def UTDVP.calcBIter (P : Num) (S : UTDVP q D) (lm rm : ℕ → MM ℂ D D) (setEta : Bool)
    (T : UTangent q D) (k : ℕ) : Option (UTangent q D) :=
  let (l_s, l_si) := P.roots (lm (pmod ((k : ℤ) - 1) S.L))
  let (r_s, r_si) := P.roots (rm k)
  (calcVsh P.qr (S.A k) r_s).bind fun Vsh =>
  (S.calcXk k Vsh l_s l_si r_s r_si).map fun x =>
  { T with
    etaSq := if setEta then Function.update T.etaSq k (adot x x) else T.etaSq
    B := Function.update T.B k (getBFromX x Vsh l_si r_si) }

/-- `tdvp_uniform.py:493-556` `calc_B(set_eta)`.  `etaSq` is `self.eta_sq` before the call. -/
noncomputable def UTDVP.calcB (P : Num) (S : UTDVP q D) (lm rm : ℕ → MM ℂ D D) (setEta : Bool)
    (etaSq : ℕ → ℂ) : Option (UTangent q D) :=
  ((List.range S.L).foldl (fun T k => T.bind fun T => S.calcBIter P lm rm setEta T k)
    (some { B := fun _ => 0, etaSq := etaSq, eta := 0 })).map fun T =>
  { T with eta := P.sq ((List.range S.L).foldl (fun a k => a + T.etaSq k) 0) }

/-- The loop `self.A[k] += -dtau * B[k]` of `take_step` (`tdvp_uniform.py:641-679`, `dynexp=False`) on the list `self.A`. -/
def stepLoop (L : ℕ) (dtau : ℂ) (B A : ℕ → Ten ℂ q D D) : ℕ → Ten ℂ q D D :=
  (List.range L).foldl (fun A k => Function.update A k (A k + fun s => -dtau • B k s)) A

/-- The list `B_fin` of `take_step_RK4`: entries `0 .. L-1` are tensors, `tail` what has been appended to the list. -/
structure BFin (q D : ℕ) where
  head : ℕ → Ten ℂ q D D
  tail : List (Matrix (Fin D) (Fin D) ℂ)

/-- `B_fin += X` for the python list `B_fin` and an array `X` of shape `(q, D, D)`: the list is extended by
the `q` matrices of `X`. -/
def BFin.extend (b : BFin q D) (X : Ten ℂ q D D) : BFin q D :=
  { b with tail := b.tail ++ List.ofFn X }

/-- `B_fin[k] += X`. -/
def BFin.addAt (b : BFin q D) (k : ℕ) (X : Ten ℂ q D D) : BFin q D :=
  { b with head := Function.update b.head k (b.head k + X) }

/-- `tdvp_uniform.py:681-737` `take_step_RK4(dtau, B_i)` with `dynexp = False`.  `slope` is the local function
`update()` followed by `calc_B(set_eta=False)` as a function of `self.A` (`none`: it raised); `update` may
rescale `self.A`, but all later assignments to `self.A[k]` start from `A0`. `B1` is `B_i` or `calc_B()`, a
list. -/
noncomputable def takeStepRK4 (L : ℕ) (slope : (ℕ → Ten ℂ q D D) → Option (ℕ → Ten ℂ q D D)) (dtau : ℂ)
    (B1 : ℕ → Ten ℂ q D D) (A0 : ℕ → Ten ℂ q D D) : Option (ℕ → Ten ℂ q D D) :=
  let A := stepLoop L (dtau / 2) B1 A0
  let bfin : BFin q D := ⟨B1, []⟩
  (slope A).bind fun B2 =>
  let (A, bfin) := (List.range L).foldl (fun (p : (ℕ → Ten ℂ q D D) × BFin q D) k =>
    (Function.update p.1 k (A0 k - fun s => (dtau / 2) • B2 k s), p.2.addAt k fun s => (2 : ℂ) • B2 k s)) (A, bfin)
  (slope A).bind fun B3 =>
  let (A, bfin) := (List.range L).foldl (fun (p : (ℕ → Ten ℂ q D D) × BFin q D) k =>
    (Function.update p.1 k (A0 k - fun s => dtau • B3 k s), p.2.extend fun s => (2 : ℂ) • B3 k s)) (A, bfin)
  (slope A).map fun B4 =>
  ((List.range L).foldl (fun (p : (ℕ → Ten ℂ q D D) × BFin q D) k =>
    let bfin := p.2.addAt k (B4 k)
    (Function.update p.1 k (A0 k - fun s => (dtau / 6) • bfin.head k s), bfin)) (A, bfin)).1

end EvoMPS.Uni
