import Verif.Canon
import Mathlib.Analysis.Complex.Basic

/-!
# `check_RCF` (`mps_gen.py:685-718`)

The five tests look at the stored environments `self.l`, `self.r` only.  `a`, `b` in `allclose` are arrays of the same
shape here; exact arithmetic, so that a comparison with a tolerance is the inequality of numpy's documentation.
-/

namespace EvoMPS

open Matrix

/-- `scipy.allclose(a, b, rtol, atol)`: `|a - b| <= atol + rtol * |b|` for all entries. -/
def allclose {m n : ℕ} (a b : Matrix (Fin m) (Fin n) ℂ) (rtol atol : ℝ) : Prop :=
  ∀ i j, ‖a i j - b i j‖ ≤ atol + rtol * ‖b i j‖

/-- The Hermitian matrix that LAPACK works with if it is given `M`: only the lower triangle and the real parts of the
diagonal are read. -/
noncomputable def lowerHerm {n : ℕ} (M : Matrix (Fin n) (Fin n) ℂ) : Matrix (Fin n) (Fin n) ℂ :=
  Matrix.of fun i j => if j < i then M i j else if i < j then star (M j i) else ((M i i).re : ℂ)

/-- `la.eigvalsh(M)`. -/
noncomputable def eigvalsh (eigh : Eigh ℂ) {n : ℕ} (M : Matrix (Fin n) (Fin n) ℂ) (i : Fin n) : ℝ :=
  (eigh.ev (lowerHerm M) i).re

/-- The flags of `check_RCF`; `herm` is computed but not returned. -/
structure RcfFlags where
  rns : Prop
  tr : Prop
  herm : Prop
  pos : Prop
  diag : Prop

/-- The value of `check_RCF`. -/
structure RcfCheck where
  rnsOK : Prop
  lsTrOK : Prop
  lsPos : Prop
  lsDiag : Prop
  normOK : Prop

/-- `mps_gen.py:685-718` `check_RCF()`; `eps` is `self.eps`.  The defaults of `allclose` are `rtol=1e-5`, `atol=1e-8`. -/
def checkRCF {q D : ℕ → ℕ} (eigh : Eigh ℂ) (N : ℕ) (eps : ℝ) (S : MPS ℂ q D) : RcfCheck :=
  let f := (List.range' 1 N).foldl (fun (f : RcfFlags) n =>
    { rns := f.rns ∧ allclose (S.r n) (Matrix.of fun i j => if i = j then 1 else 0) 0 (eps * 2)
      herm := f.herm ∧ allclose (S.l n - (S.l n)ᴴ) 0 (1 / 10 ^ 5) (eps * 2)
      tr := f.tr ∧ allclose (m := 1) (n := 1) (Matrix.of fun _ _ => (S.l n).trace) (Matrix.of fun _ _ => 1) 0 (eps * 1000)
      pos := f.pos ∧ ∀ i, eigvalsh eigh (S.l n) i > 0
      diag := f.diag ∧ allclose (S.l n) (Matrix.diagonal (S.l n).diag) (1 / 10 ^ 5) (1 / 10 ^ 8) })
    ⟨True, True, True, True, True⟩
  ⟨f.rns, f.tr, f.pos, f.diag, allclose (S.l N) (Matrix.of fun _ _ => 1) 0 (eps * 1000)⟩

end EvoMPS
