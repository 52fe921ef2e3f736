import Verif.UniformPinv
import Verif.UniformExpect
import Verif.UniformK
import Verif.MatMul

/-!
# The uniform chain: operators acting on the Schmidt vectors of a half chain

`expect_sum_1s_density_hc` of `mps_uniform.py`.  The solver of the pseudo-inverse is a parameter.
-/

namespace EvoMPS.Uni

open Matrix

variable {q D : ℕ}

/-- The argument `op`, an array or a function. -/
inductive OpArg (q : ℕ) where
  | arr (o : Fin q → Fin q → ℂ)
  | fn (o : Fin q → Fin q → ℂ)

/-- What `expect_sum_1s_density_hc` returns: one array, or a tuple of two or three entries. -/
inductive HcOut (D : ℕ) where
  | bare (expvals : Fin D → ℂ)
  | pair (expvals : Fin D → ℂ) (perSite : ℂ)
  | triple (expvals : Fin D → ℂ) (perSite : ℂ) (virtop : Matrix (Fin D) (Fin D) ℂ)

/-- `mps_uniform.py:1710-1718`: the array `rops`. -/
noncomputable def UMPS.rops (S : UMPS ℂ q D) (op : Fin q → Fin q → ℂ) (k : ℕ) : Matrix (Fin D) (Fin D) ℂ :=
  let rops := epsROp1 (S.r k) (S.A k) (S.A k) op
  (List.range' 1 (S.L - 1)).foldl (fun rops (j : ℕ) =>
    let pos := (k + j) % S.L
    let rj := epsROp1 (S.r pos) (S.A pos) (S.A pos) op
    let rj := (List.range j).foldl (fun rj (l : ℕ) =>
      let pos := pmod ((k : ℤ) + j - l - 1) S.L
      epsR rj (S.A pos) (S.A pos)) rj
    rops + rj) rops

/-- `mps_uniform.py:1666-1750` `expect_sum_1s_density_hc(op, k, return_g=retG)`; `none` is a raised exception.  The warning of lines
1705-1708 is only logged.  `rm` are the objects in the list `r`, `symm` is `self.symm_gauge`, `junk` what the buffer of
the solver's operator holds.  `eps_r_op_1s` reads `op[s, t]`, which a function does not allow. -/
noncomputable def UMPS.sumHc (S : UMPS ℂ q D) (solver : Solver D) (junk : Matrix (Fin D) (Fin D) ℂ) (rm : ℕ → MM ℂ D D) (symm : Bool)
    (op : OpArg q) (k : ℕ) (retG : Bool) : Option (HcOut D) :=
  match op with
  | .fn _ => none
  | .arr op =>
    if S.L ≤ k then none else
    let rops := S.rops op k
    let expval2 := adot (S.l (prev S.L k)) rops
    if D = 1 then some (.bare 0) else
    let Ashift := rotList k S.list
    (pinv1mE solver junk rops Ashift Ashift (some (S.l ((k + S.L - 1) % S.L))) (some (S.r k)) 0 false true none).bind fun virtop =>
    (if symm then (rm ((k + S.L - 1) % S.L)).inv.map fun ri => (ri.dot (.dense virtop)).toArray else some virtop).map fun virtop =>
    let expvals := virtop.diag
    if retG then .triple expvals (expval2 / S.L) virtop else .pair expvals (expval2 / S.L)

end EvoMPS.Uni
