import Verif.UniformTangent

/-!
# Overlaps of tangent vectors with momentum and gauge fixing (`tdvp_uniform.py:985-1345`)

The tensors have one physical index (`M = 1` in the code), and both tangent vectors belong to the same state (`other=None`).
Lists of `None` and of arrays are `Option` of a function; entry `L - 1` of a list is its last entry.
-/

namespace EvoMPS.Uni

open Matrix

variable {q D : ℕ}

/-- `tdvp_uniform.py:1008-1021`, the entry `BRr[k]`. -/
def UMPS.ovBRr (S : UMPS ℂ q D) (B : ℕ → Ten ℂ q D D) (conj : Bool) (k : ℕ) : Matrix (Fin D) (Fin D) ℂ :=
  if conj then epsR (S.r k) (S.A k) (B k) else epsR (S.r k) (B k) (S.A k)

/-- `tdvp_uniform.py:1016-1024`, the loop over `k` from `L - 1` down. -/
noncomputable def UMPS.ovBlock (S : UMPS ℂ q D) (B : ℕ → Ten ℂ q D D) (p : ℝ) (conj : Bool) : Matrix (Fin D) (Fin D) ℂ :=
  (List.range S.L).reverse.foldl (fun BRblock k =>
    let BRblock := if k < S.L - 1 then Complex.exp (Complex.I * p) • epsR BRblock (S.A k) (S.A k) else BRblock
    BRblock + S.ovBRr B conj k) 0

/-- `sp.allclose(x, 0, rtol=GF_tol)`: the relative tolerance is multiplied by zero, the absolute one is the default. -/
def CloseZero (x : Matrix (Fin D) (Fin D) ℂ) : Prop := ∀ i j, ‖x i j‖ ≤ 1e-8

/-- `tdvp_uniform.py:1041-1042`, the loop over `k` from `L - 1` down to `1`; entries not yet written are not read. -/
noncomputable def UMPS.ovLoop (S : UMPS ℂ q D) (B : ℕ → Ten ℂ q D D) (p : ℝ) (conj : Bool) (BR0 : Matrix (Fin D) (Fin D) ℂ) :
    ℕ → Matrix (Fin D) (Fin D) ℂ :=
  (List.range' 1 (S.L - 1)).reverse.foldl (fun BR k =>
    Function.update BR k (S.ovBRr B conj k + Complex.exp (Complex.I * p) • epsR (BR ((k + 1) % S.L)) (S.A k) (S.A k)))
    (Function.update (fun _ => 0) 0 BR0)

open Classical in
/-- `tdvp_uniform.py:985-1051` `_B_overlap_calc_BR(B, p_, conj)`: the list `BR`, `none` if its entries are `None`, and
`BRblock_fid`.  The solver is `lgmres`.  A block without sites raises. -/
noncomputable def UMPS.ovBR (S : UMPS ℂ q D) (solver : Solver D) (junk : Matrix (Fin D) (Fin D) ℂ) (B : ℕ → Ten ℂ q D D) (p : ℝ)
    (conj : Bool) : Option (Option (ℕ → Matrix (Fin D) (Fin D) ℂ) × ℂ) :=
  if S.L = 0 then none else
  let BRblock := S.ovBlock B p conj
  if CloseZero BRblock then some (none, 0) else
  let fid := adot (S.l (S.L - 1)) BRblock
  let QBRblock := BRblock - fid • S.r (S.L - 1)
  (pinv1mE solver junk QBRblock S.list S.list (some (S.l (S.L - 1))) (some (S.r (S.L - 1))) (S.L * p) false true
    (some QBRblock)).map fun BR0 => (some (S.ovLoop B p conj BR0), fid)

/-- `tdvp_uniform.py:1247-1287`, the function `calc_con(BnoGF, BGF, p_, noGF_conj)` inside `_B_overlap`. -/
noncomputable def UMPS.calcCon (S : UMPS ℂ q D) (solver : Solver D) (junk : Matrix (Fin D) (Fin D) ℂ) (BnoGF BGF : ℕ → Ten ℂ q D D)
    (p : ℝ) (conj : Bool) : Option (ℂ × ℂ) :=
  let p := if conj then -p else p
  (S.ovBR solver junk BnoGF p conj).map fun res =>
    match res.1 with
    | none => (0, res.2)
    | some BR =>
      let rescon := (List.range S.L).foldl (fun rescon k =>
        let R := if conj then epsR (BR ((k + 1) % S.L)) (BGF k) (S.A k) else epsR (BR ((k + 1) % S.L)) (S.A k) (BGF k)
        rescon + adot (S.l (pmod ((k : ℤ) - 1) S.L)) R) 0
      (rescon * Complex.exp (Complex.I * p), res.2)

/-- `tdvp_uniform.py:1139-1201` `_B_overlap_onsite`: for `M = 1` the results `res12`, `res21` are zero. -/
def UMPS.ovOnsite (S : UMPS ℂ q D) (B1 B2 : ℕ → Ten ℂ q D D) : ℂ :=
  (List.range S.L).foldl (fun res (k : ℕ) => res + adot (S.l (pmod ((k : ℤ) - 1) S.L)) (epsR (S.r k) (B1 k) (B2 k))) 0

/-- `tdvp_uniform.py:1204-1309` `_B_overlap(B1, B2, p, B1_is_GF, B2_is_GF)`. -/
noncomputable def UMPS.bOverlap (S : UMPS ℂ q D) (solver : Solver D) (junk : Matrix (Fin D) (Fin D) ℂ) (B1 B2 : ℕ → Ten ℂ q D D)
    (p : ℝ) (gf1 gf2 : Bool) : Option ℂ :=
  if S.L = 0 then none else
  let res := S.ovOnsite B1 B2
  (if gf2 then some (0, 0) else S.calcCon solver junk B2 B1 p true).bind fun c2 =>
  let res := res + c2.1
  (if gf1 then some (0, 0) else S.calcCon solver junk B1 B2 p false).map fun c1 =>
  let res := res + c1.1
  res - c1.2 * c2.2

/-- `tdvp_uniform.py:1069-1074`: `VRr_si[s] = (r_si Vsh[s])ᴴ`. -/
def ovVR {v : ℕ} (rsi : Matrix (Fin D) (Fin D) ℂ) (Vsh : Fin q → Matrix (Fin D) (Fin v) ℂ) : Ten ℂ q v D := fun s => (rsi * Vsh s)ᴴ

/-- `tdvp_uniform.py:1053-1112` `_B_to_B_GF(B, p)`: the lists `newB` and `x`.  `ls`, `lsi`, `rsi`, `Vsh` are `self.l_sqrt`, `self.l_sqrt_i`,
`self.r_sqrt_i` and `self.Vsh`. -/
noncomputable def UMPS.toGF {v : ℕ} (S : UMPS ℂ q D) (solver : Solver D) (junk : Matrix (Fin D) (Fin D) ℂ)
    (ls lsi rsi : ℕ → Matrix (Fin D) (Fin D) ℂ) (Vsh : ℕ → Fin q → Matrix (Fin D) (Fin v) ℂ) (B : ℕ → Ten ℂ q D D) (p : ℝ) :
    Option ((ℕ → Ten ℂ q D D) × (ℕ → Matrix (Fin D) (Fin v) ℂ)) :=
  (S.ovBR solver junk B p false).map fun res =>
    let x : ℕ → Matrix (Fin D) (Fin v) ℂ := fun k =>
      let V := ovVR (rsi k) (Vsh k)
      let BR_ : Matrix (Fin D) (Fin v) ℂ := match res.1 with
        | some BR => epsR (BR ((k + 1) % S.L)) (S.A k) V
        | none => 0
      let Rs := epsR (S.r k) (B k) V + Complex.exp (Complex.I * p) • BR_
      ls (pmod ((k : ℤ) - 1) S.L) * ((1 : Matrix (Fin D) (Fin D) ℂ) * Rs)
    (fun (k : ℕ) s => lsi (pmod ((k : ℤ) - 1) S.L) * x k * ovVR (rsi k) (Vsh k) s, x)

/-- `tdvp_uniform.py:1334-1350` `_B_rand_GT(B, p, x=x)`, with matrices `x[k]` of shape `D × D`. -/
noncomputable def UMPS.randGT (S : UMPS ℂ q D) (B : ℕ → Ten ℂ q D D) (p : ℝ) (x : ℕ → Matrix (Fin D) (Fin D) ℂ) (k : ℕ) : Ten ℂ q D D :=
  fun s => B k s + (S.A k s * x ((k + 1) % S.L) - Complex.exp (-Complex.I * p) • (x k * S.A k s))

end EvoMPS.Uni
