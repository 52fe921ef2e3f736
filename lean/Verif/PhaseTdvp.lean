import Verif.Fidelity
import Verif.UniformK

/-!
# `phase_align` of a uniform state with a Hamiltonian
-/

namespace EvoMPS.Uni

variable {q D1 D2 : ℕ}

/-- `tdvp_uniform.py:621-639` `phase_align(other)` with `ham_tp = None`: the method of the parent class, then `calc_C()`. -/
noncomputable def UTDVP.phaseAlign (lib : SpecLib (D1 * D2)) (S : UTDVP q D1) (S' : UMPS ℂ q D2) :
    Option (UTDVP q D1 × ℂ) :=
  (Uni.phaseAlign lib S.toUMPS S').map fun p => (({ S with toUMPS := p.1 } : UTDVP q D1).calcC, p.2)

end EvoMPS.Uni
