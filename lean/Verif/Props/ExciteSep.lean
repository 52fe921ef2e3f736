import Verif.ExciteSepLemmas
import Verif.ExciteSepSpec

/-!
# Property theorems: matrix elements between excitations at two sites (C81)
-/

set_option linter.unusedSectionVars false

namespace EvoMPS

open Matrix Uni

section
variable {R : Type*} [CommRing R] [StarRing R] {q D : ℕ}

/-- Entry `n` of the result of `_excite_expect_2s_tp_sep` is the matrix element of the operator at the sites `n + 1, n + 2`
between the state with `B` at site `n2` and the state with `B` at site `n1`. -/
theorem C81_elements (AL AR B : Ten R q D D) (lL rR : Matrix (Fin D) (Fin D) R)
    (op : List (Matrix (Fin q) (Fin q) R × Matrix (Fin q) (Fin q) R)) (d n1 n2 : ℕ) (h1 : 1 ≤ n1) (h2 : 1 ≤ n2) :
    (exciteSep AL AR B lL rR op d n1 n2).length = d - 1 ∧
    ∀ n < d - 1, (exciteSep AL AR B lL rR op d n1 n2)[n]? = some (windowElem 1 (fun _ => lL) (fun _ => rR) 1 n 2 (d - n - 2)
      (fun s t => (op.map fun o => o.1 (s 0) (t 0) * o.2 (s 1) (t 1)).sum) (defectLine AL B AR n2) (defectLine AL B AR n1)) :=
  ⟨exciteSep_length AL AR B lL rR op d n1 n2, fun n hn => exciteSep_get AL AR B lL rR op d n1 n2 h1 h2 n hn⟩

theorem waveExpect_eq (AL B AR : Ten R q D D) (c : ℕ → R) (l r : Matrix (Fin D) (Fin D) R) (a n b : ℕ)
    (O : (Fin n → Fin q) → (Fin n → Fin q) → R) :
    waveExpect AL B AR c l r a n b O = ∑ m2 ∈ Finset.Icc 1 (a + n + b), ∑ m1 ∈ Finset.Icc 1 (a + n + b), star (c m2) * c m1
      * windowElem 1 (fun _ => l) (fun _ => r) 1 a n b O (defectLine AL B AR m2) (defectLine AL B AR m1) := by
  have h : ∀ s t, padOp (a := a) (b := b) O s t * (lᴴ * waveProd AL B AR c (a + n + b) t * r * (waveProd AL B AR c (a + n + b) s)ᴴ).trace
      = ∑ m2 ∈ Finset.Icc 1 (a + n + b), ∑ m1 ∈ Finset.Icc 1 (a + n + b), star (c m2) * c m1
        * (padOp (a := a) (b := b) O s t * (lᴴ * lineProd (defectLine AL B AR m1) 1 (a + n + b) t * r
          * (lineProd (defectLine AL B AR m2) 1 (a + n + b) s)ᴴ).trace) := by
    intro s t
    simp only [waveProd, Matrix.conjTranspose_sum, Matrix.conjTranspose_smul, Matrix.sum_mul, Matrix.trace_sum,
      Matrix.mul_smul, Matrix.smul_mul, Matrix.trace_smul, smul_eq_mul, Finset.mul_sum]
    refine Finset.sum_congr rfl fun m2 _ => Finset.sum_congr rfl fun m1 _ => ?_
    ring
  simp only [waveExpect, h, windowElem, Finset.mul_sum]
  calc _ = ∑ s, ∑ m2 ∈ Finset.Icc 1 (a + n + b), ∑ t, ∑ m1 ∈ Finset.Icc 1 (a + n + b), _ :=
        Finset.sum_congr rfl fun s _ => Finset.sum_comm
    _ = ∑ m2 ∈ Finset.Icc 1 (a + n + b), ∑ s, ∑ t, ∑ m1 ∈ Finset.Icc 1 (a + n + b), _ := Finset.sum_comm
    _ = _ := ?_
  refine Finset.sum_congr rfl fun m2 _ => ?_
  calc _ = ∑ s, ∑ m1 ∈ Finset.Icc 1 (a + n + b), ∑ t, _ := Finset.sum_congr rfl fun s _ => Finset.sum_comm
    _ = _ := Finset.sum_comm

/-- The elements combine to expectation values in wave packets: for all amplitudes `c`, the sum of entry `n` over all pairs of
sites, weighted with the amplitudes, is the expectation value at the sites `n + 1, n + 2` in the superposition of the
states with `B` at one site of the window. -/
theorem C81_wave_packet (AL AR B : Ten R q D D) (lL rR : Matrix (Fin D) (Fin D) R)
    (op : List (Matrix (Fin q) (Fin q) R × Matrix (Fin q) (Fin q) R)) (c : ℕ → R) (n b : ℕ) :
    ∑ n2 ∈ Finset.Icc 1 (n + 2 + b), ∑ n1 ∈ Finset.Icc 1 (n + 2 + b), star (c n2) * c n1
      * ((exciteSep AL AR B lL rR op (n + 2 + b) n1 n2)[n]?.getD 0)
      = waveExpect AL B AR c lL rR n 2 b fun s t => (op.map fun o => o.1 (s 0) (t 0) * o.2 (s 1) (t 1)).sum := by
  rw [waveExpect_eq]
  refine Finset.sum_congr rfl fun n2 h2 => Finset.sum_congr rfl fun n1 h1 => ?_
  rw [Finset.mem_Icc] at h1 h2
  rw [(C81_elements AL AR B lL rR op (n + 2 + b) n1 n2 h1.1 h2.1).2 n (by omega), show n + 2 + b - n - 2 = b by omega]
  rfl

end

/-- An operator with two terms. -/
def demoSepOp : List (Matrix (Fin 2) (Fin 2) ℂ × Matrix (Fin 2) (Fin 2) ℂ) :=
  [(!![0, 1; 1, 0], !![0, 1; 1, 0]), (!![1, 0; 0, -1], 1)]

/-- A window of five sites of a chain with two basis states per site and bond dimension two. -/
example (AL AR B : Ten ℂ 2 2 2) :
    (exciteSep AL AR B 1 1 demoSepOp 5 2 4)[3]? = some (windowElem 1 (fun _ => 1)
      (fun _ => 1) 1 3 2 0 (fun s t => (demoSepOp.map fun o => o.1 (s 0) (t 0) * o.2 (s 1) (t 1)).sum)
      (defectLine AL B AR 4) (defectLine AL B AR 2)) :=
  (C81_elements AL AR B 1 1 _ 5 2 4 (by norm_num) (by norm_num)).2 3 (by norm_num)

end EvoMPS
