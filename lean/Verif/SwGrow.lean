import Verif.SwEnergy

/-!
# Sandwich states: growing the window together with its Hamiltonian (`tdvp_sandwich.py`)

As in `SwEnergy.lean`, one local dimension `q` and one bond dimension `D` in all parts; for these `grow_left` and `grow_right` of
`mps_sandwich.py` are also modelled in `Sandwich.lean` with arbitrary dimensions.
-/

namespace EvoMPS.Uni

open Matrix

variable {q D : ℕ}

/-- The lists made by `tdvp_sandwich.py:323-364` `_init_arrays()` for a window of `N` sites.  Numbers that are `NaN` or zero in the new arrays are
zero here. -/
def SwT.initArrays (S : SwT q D) : SwT q D :=
  { S with
    l := 0, r := 0
    AA := fun _ => none, AAA := fun _ => none
    C2 := fun i => if i + S.hamSites ≤ S.N + 2 then some 0 else none
    C3 := fun i => if i + S.hamSites ≤ S.N + 2 then some 0 else none
    K := 0, Kl := 0, hExpect := 0, dH := 0 }

/-- `tdvp_sandwich.py:904-908` `grow_left(m)` with `mps_sandwich.py:500-535`.  (`A[0]` is `None` in the code and not used.) -/
def SwT.growLeft (m : ℕ) (S : SwT q D) : SwT q D :=
  let M := m * S.uniL.L
  let T := SwT.initArrays { S with N := S.N + M }
  { T with
    A := fun n => if n ≤ M then S.uniL.A ((n - 1) % S.uniL.L) else S.A (n - M)
    l := Function.update T.l 0 (S.l 0)
    r := Function.update (Function.update T.r T.N (S.r S.N)) (T.N + 1) (S.r S.N)
    ham := match S.ham with
      | .list h => .list (List.replicate (m * S.uniL.L) S.uniL.ham ++ h)
      | .fn h => .fn h
    nc := S.nc + m }

/-- `tdvp_sandwich.py:910-913` `grow_right(m)` with `mps_sandwich.py:538-572`.  `self.D[:-m] = oldD` raises an exception for
`m = 0`. -/
def SwT.growRight (m : ℕ) (S : SwT q D) : Option (SwT q D) :=
  let M := m * S.uniR.L
  if M = 0 then none
  else
    let T := SwT.initArrays { S with N := S.N + M }
    some { T with
      A := fun n => if n ≤ S.N then S.A n else S.uniR.A ((n - S.N - 1) % S.uniR.L)
      l := Function.update T.l 0 (S.l 0)
      r := Function.update (Function.update T.r T.N (S.r S.N)) (T.N + 1) (S.r S.N)
      ham := match S.ham with
        | .list h => .list (h ++ List.replicate (m * S.uniR.L) S.uniR.ham)
        | .fn h => .fn h }

/-- `mps_sandwich.py:250-263` `calc_l()` with `mps_gen.py:350-361`, all sites. -/
def SwT.calcL (S : SwT q D) : SwT q D :=
  let l := (List.range' 1 S.N).foldl (fun l n => Function.update l n (epsL (l (n - 1)) (S.A n) (S.A n)))
    (Function.update S.l 0 (S.uniL.l (S.uniL.L - 1)))
  { S with l := Function.update l (S.N + 1) (epsL (l S.N) (S.uniR.A 0) (S.uniR.A 0)) }

/-- `mps_sandwich.py:265-276` `calc_r()` with `mps_gen.py:363-374`, all sites. -/
def SwT.calcR (S : SwT q D) : SwT q D :=
  let r := (List.range S.N).reverse.foldl (fun r n => Function.update r n (epsR (r (n + 1)) (S.A (n + 1)) (S.A (n + 1))))
    (Function.update S.r S.N (S.uniR.r (S.uniR.L - 1)))
  { S with r := r }

/-- `tdvp_sandwich.py:711-721` `update(restore_CF=False, normalize=False)` with `mps_sandwich.py:231-247`. -/
noncomputable def SwT.updatePlain (S : SwT q D) (sL sR : Solver D) (jL jR : Matrix (Fin D) (Fin D) ℂ) : Option (SwT q D) :=
  S.calcL.calcR.calcC.bind fun S => S.calcK sL sR jL jR

end EvoMPS.Uni
