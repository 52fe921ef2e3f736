import Verif.TangentGrad
import Verif.PairTangent

/-! # Helper lemmas: tangent vectors in the left gauge -/

set_option linter.unusedSectionVars false

namespace EvoMPS

open Matrix

section
variable {R : Type*} [CommRing R] [StarRing R] {qr : FullQR R} {p a b : ℕ} {A : Ten R p a b} {l_s : Matrix (Fin a) (Fin a) R}

/-- Every left gauge-fixed tensor comes from a parameter matrix. -/
theorem tenL_surj {Vsh} (h : calcVshl qr A l_s = some Vsh) {l l_si : Matrix (Fin a) (Fin a) R}
    {r_s r_si : Matrix (Fin b) (Fin b) R} (hs : l_sᴴ = l_s) (hli : l_si * l_s = 1) (hll : l_s * l_s = l)
    (hri : r_s * r_si = 1) (hu : IsUnit (∑ s, (A s)ᴴ * l * A s).det)
    (b' : Ten R p a b) (hb : LeftGauge A b' l) :
    tenL l_si r_si Vsh (∑ t, Vsh t * (l_s * b' t) * r_s) = b' := by
  have hc := vshl_complete h (by rw [hs, hll]; exact hu) (fun s => l_s * b' s) (by
    rw [← hb]
    refine Finset.sum_congr rfl fun s _ => ?_
    rw [hs, ← Matrix.mul_assoc, Matrix.mul_assoc _ l_s l_s, hll])
  funext s
  rw [tenL, ← Matrix.sum_mul, Matrix.mul_assoc l_si, ← Matrix.mul_assoc _ _ r_s, hc s, Matrix.mul_assoc, Matrix.mul_assoc,
    hri, Matrix.mul_one, ← Matrix.mul_assoc, hli, Matrix.one_mul]

theorem tenL_overlap {Vsh} (h : calcVshl qr A l_s = some Vsh) {r r_s r_si : Matrix (Fin b) (Fin b) R}
    {l l_si : Matrix (Fin a) (Fin a) R}
    (hsi : r_siᴴ = r_si) (hr : r_si * r = r_s) (hri : r_s * r_si = 1)
    (hl : lᴴ = l) (hlsi : l_siᴴ = l_si) (hls : l * l_si = l_s) (hli : l_si * l_s = 1)
    (x x' : Matrix (Fin (p * a - b)) (Fin b) R) :
    adot l (∑ s, tenL l_si r_si Vsh x s * r * (tenL l_si r_si Vsh x' s)ᴴ) = adot x' x := by
  have e : ∀ s, tenL l_si r_si Vsh x s * r * (tenL l_si r_si Vsh x' s)ᴴ
      = l_si * (Vsh s)ᴴ * (x * x'ᴴ) * (Vsh s) * l_si := by
    intro s
    simp only [tenL, conjTranspose_mul, conjTranspose_conjTranspose, hsi, hlsi]
    calc l_si * (Vsh s)ᴴ * x * r_si * r * (r_si * (x'ᴴ * (Vsh s * l_si)))
        = l_si * (Vsh s)ᴴ * x * ((r_si * r) * r_si) * (x'ᴴ * (Vsh s * l_si)) := by simp only [Matrix.mul_assoc]
      _ = _ := by rw [hr, hri, Matrix.mul_one]; simp only [Matrix.mul_assoc]
  simp only [e]
  rw [adot_eq_trace, adot_eq_trace, hl, Matrix.mul_sum, Matrix.trace_sum]
  have e2 : ∀ s, (l * (l_si * (Vsh s)ᴴ * (x * x'ᴴ) * Vsh s * l_si)).trace = ((Vsh s * (Vsh s)ᴴ) * (x * x'ᴴ)).trace := by
    intro s
    calc (l * (l_si * (Vsh s)ᴴ * (x * x'ᴴ) * Vsh s * l_si)).trace
        = (((l * l_si) * ((Vsh s)ᴴ * (x * x'ᴴ) * Vsh s)) * l_si).trace := by simp only [Matrix.mul_assoc]
      _ = ((l_si * (l * l_si)) * ((Vsh s)ᴴ * (x * x'ᴴ) * Vsh s)).trace := by
          rw [Matrix.trace_mul_comm, Matrix.mul_assoc l_si]
      _ = (((Vsh s)ᴴ * (x * x'ᴴ)) * Vsh s).trace := by rw [hls, hli, Matrix.one_mul]
      _ = _ := by rw [Matrix.trace_mul_comm]; simp only [Matrix.mul_assoc]
  simp only [e2]
  rw [← Matrix.trace_sum, ← Matrix.sum_mul, vshl_iso h, Matrix.one_mul, Matrix.trace_mul_comm]

theorem pair_tenL (g : Ten R p a b) {l_si : Matrix (Fin a) (Fin a) R} (hl : l_siᴴ = l_si)
    {r_si : Matrix (Fin b) (Fin b) R} (hr : r_siᴴ = r_si) {v : ℕ} (Vsh : Fin p → Matrix (Fin v) (Fin a) R) (x) :
    pair g (tenL l_si r_si Vsh x) = adot x (∑ s, Vsh s * (l_si * g s * r_si)) := by
  simp only [pair, adot_eq_trace, Matrix.mul_sum, Matrix.trace_sum]
  refine Finset.sum_congr rfl fun s _ => ?_
  simp only [tenL, conjTranspose_mul, conjTranspose_conjTranspose, hl, hr]
  calc (g s * (r_si * (xᴴ * (Vsh s * l_si)))).trace = ((g s * r_si) * (xᴴ * (Vsh s * l_si))).trace := by
        simp only [Matrix.mul_assoc]
    _ = _ := by
      rw [Matrix.trace_mul_comm]
      simp only [Matrix.mul_assoc]

end

end EvoMPS
