import Verif.UniformLimit

/-!
# C47: the thermodynamic limit

The contraction `chainExpect` which the expectation value routines return is the limit of expectation values in longer
and longer finite pieces of the chain, for all boundary vectors that are not orthogonal to the environments.
-/

namespace EvoMPS

open Matrix Filter Topology

section
variable {q D : ℕ} {L : ℕ} {A : ℕ → Ten ℂ q D D}

/-- **C47.** The value computed by the expectation value routines is the thermodynamic limit: if the powers of the
block transfer map converge to the projection onto the environments (a unique dominant eigenvalue, normalised), then
the expectation values in finite pieces of the chain with `m * L + k` sites to the left and `b + m' * L` sites to the
right of the operator converge to `chainExpect` when `m` and `m'` grow independently, for all boundary vectors that
have an overlap with the environments. -/
theorem C47_thermodynamic (hL : 0 < L) {l r : ℕ → Matrix (Fin D) (Fin D) ℂ} (E : ChainEnv L A l r)
    (hlim : ∀ x, Tendsto (fun m : ℕ => chainTransfer L L A A 0 (m * L) x) atTop
      (𝓝 (((l (L - 1))ᴴ * x).trace • r (L - 1))))
    (u v : Fin D → ℂ) (hu : u ⬝ᵥ (r (L - 1) *ᵥ star u) ≠ 0) (hv : star v ⬝ᵥ ((l (L - 1))ᴴ *ᵥ v) ≠ 0)
    (k n b : ℕ) (hb : (k + n + b) % L = 0) (O : (Fin n → Fin q) → (Fin n → Fin q) → ℂ) :
    Tendsto (fun m : ℕ × ℕ =>
        pieceElem L A u v 0 (m.1 * L + k) n (b + m.2 * L) O
          / pieceNorm L A u v 0 (m.1 * L + k + n + (b + m.2 * L)))
      (atTop ×ˢ atTop) (𝓝 (chainExpect L A l r k n O)) := by
  simp only [← adot_eq_trace] at hlim
  set U := vecMulVec (star u) u
  set V := vecMulVec v (star v)
  have hl0 : l (L - 1) = l ((0 + L - 1) % L) := by rw [Nat.zero_add, Nat.mod_eq_of_lt (by omega)]
  have hr0 : r (L - 1) = r ((k + n + b + L - 1) % L) := by
    rw [← mod_pred hL, hb, Nat.zero_add, Nat.mod_eq_of_lt (by omega)]
  have hX : Tendsto (fun m : ℕ => chainTransferL L L A A 0 (m * L + k) U) atTop
      (𝓝 (star (adot U (r (L - 1))) • l ((k + L - 1) % L))) := by
    have h := ((continuous_transferL (L := L) (A := A) 0 k).tendsto _).comp (left_limit hlim U)
    rw [Uni.chainTransferL_smul, hl0, E.transferL hL, Nat.zero_add] at h
    refine h.congr fun m => ?_
    rw [chainTransferL_add, Function.comp_apply]
    exact chainTransferL_shift L A (by simp) _ _
  have hY : Tendsto (fun m : ℕ => chainTransfer L L A A (k + n) (b + m * L) V) atTop
      (𝓝 (adot (l (L - 1)) V • r ((k + n + L - 1) % L))) := by
    have h := ((continuous_transfer (L := L) (A := A) (k + n) b).tendsto _).comp (hlim V)
    rw [Uni.chainTransfer_smul, hr0, E.transferR hL] at h
    refine h.congr fun m => ?_
    rw [chainTransfer_add, Function.comp_apply]
    congr 1
    exact chainTransfer_shift L A (by rw [hb]; simp) _ _
  have key : ∀ O : (Fin n → Fin q) → (Fin n → Fin q) → ℂ, Tendsto (fun m : ℕ × ℕ =>
      pieceElem L A u v 0 (m.1 * L + k) n (b + m.2 * L) O) (atTop ×ˢ atTop)
      (𝓝 (adot U (r (L - 1)) * adot (l (L - 1)) V * chainExpect L A l r k n O)) := by
    intro O
    have h := ((continuous_sandwich (L := L) (A := A) k n O).tendsto _).comp
      ((hX.comp tendsto_fst).prodMk_nhds (hY.comp tendsto_snd))
    rw [sandwich_smul, star_star, ← chainExpect_sandwich] at h
    refine h.congr fun m => ?_
    rw [pieceElem_eq, Function.comp_apply, Function.comp_apply, Function.comp_apply]
    rw [sandwich_shift L A (k := 0 + (m.1 * L + k)) (k' := k) (by simp),
      chainTransfer_shift L A (k := 0 + (m.1 * L + k) + n) (k' := k + n)
        (by rw [show 0 + (m.1 * L + k) + n = k + n + m.1 * L by ring]; simp)]
  have hc : adot U (r (L - 1)) ≠ 0 := by
    rw [adot_eq_trace, Matrix.conjTranspose_vecMulVec, star_star, Matrix.vecMulVec_mul, Matrix.trace_vecMulVec]
    rw [Matrix.dotProduct_mulVec, dotProduct_comm] at hu
    exact hu
  have hd : adot (l (L - 1)) V ≠ 0 := by
    rw [adot_eq_trace, Matrix.mul_vecMulVec, Matrix.trace_vecMulVec, dotProduct_comm]
    exact hv
  have h := (key O).div (key fun s t => if s = t then 1 else 0) (by
    rw [chainExpect_one hL E, mul_one]; exact mul_ne_zero hc hd)
  rw [chainExpect_one hL E, mul_one, mul_div_cancel_left₀ _ (mul_ne_zero hc hd)] at h
  refine h.congr fun m => ?_
  rw [pieceNorm_eq]
  rfl

end

/-! ## A case -/

/-- A state whose transfer map is `x ↦ tr x • diag (9/25, 16/25)`. -/
noncomputable def demoMix : ℕ → Ten ℂ 4 2 2 := fun _ s =>
  Matrix.single (s.divNat (m := 2) (n := 2)) (s.modNat (m := 2) (n := 2)) (![3 / 5, 4 / 5] (s.divNat (m := 2) (n := 2)))

noncomputable def demoMixR : Matrix (Fin 2) (Fin 2) ℂ := !![9 / 25, 0; 0, 16 / 25]

theorem demoMix_eps (k : ℕ) (x : Matrix (Fin 2) (Fin 2) ℂ) :
    ∑ s, demoMix k s * x * (demoMix k s)ᴴ = x.trace • demoMixR := by
  have h : ∀ f : Fin 4 → Matrix (Fin 2) (Fin 2) ℂ, ∑ s, f s = f 0 + f 1 + f 2 + f 3 := Fin.sum_univ_four
  have d0 : ((0 : Fin 4).divNat (m := 2) (n := 2)) = 0 := rfl
  have d1 : ((1 : Fin 4).divNat (m := 2) (n := 2)) = 0 := rfl
  have d2 : ((2 : Fin 4).divNat (m := 2) (n := 2)) = 1 := rfl
  have d3 : ((3 : Fin 4).divNat (m := 2) (n := 2)) = 1 := rfl
  have m0 : ((0 : Fin 4).modNat (m := 2) (n := 2)) = 0 := rfl
  have m1 : ((1 : Fin 4).modNat (m := 2) (n := 2)) = 1 := rfl
  have m2 : ((2 : Fin 4).modNat (m := 2) (n := 2)) = 0 := rfl
  have m3 : ((3 : Fin 4).modNat (m := 2) (n := 2)) = 1 := rfl
  rw [h]
  simp only [demoMix, d0, d1, d2, d3, m0, m1, m2, m3]
  ext i j
  fin_cases i <;> fin_cases j <;>
    simp [demoMixR, Matrix.trace_fin_two] <;> ring

theorem demoMix_env : ChainEnv 1 demoMix (fun _ => 1) (fun _ => demoMixR) := by
  refine ⟨fun k _ => ?_, fun k _ => ?_, fun k _ => ?_⟩
  · ext i j
    simp only [Fin.sum_univ_four, demoMix, show ((0 : Fin 4).divNat (m := 2) (n := 2)) = 0 from rfl,
      show ((1 : Fin 4).divNat (m := 2) (n := 2)) = 0 from rfl, show ((2 : Fin 4).divNat (m := 2) (n := 2)) = 1 from rfl,
      show ((3 : Fin 4).divNat (m := 2) (n := 2)) = 1 from rfl, show ((0 : Fin 4).modNat (m := 2) (n := 2)) = 0 from rfl,
      show ((1 : Fin 4).modNat (m := 2) (n := 2)) = 1 from rfl, show ((2 : Fin 4).modNat (m := 2) (n := 2)) = 0 from rfl,
      show ((3 : Fin 4).modNat (m := 2) (n := 2)) = 1 from rfl]
    fin_cases i <;> fin_cases j <;> simp <;> norm_num
  · rw [demoMix_eps]; simp [demoMixR, Matrix.trace_fin_two]; norm_num
  · simp [demoMixR, Matrix.trace_fin_two]; norm_num

theorem demoMix_limit (x : Matrix (Fin 2) (Fin 2) ℂ) :
    Tendsto (fun m : ℕ => chainTransfer 1 1 demoMix demoMix 0 (m * 1) x) atTop
      (𝓝 (((1 : Matrix (Fin 2) (Fin 2) ℂ)ᴴ * x).trace • demoMixR)) := by
  refine tendsto_const_nhds.congr' ?_
  filter_upwards [eventually_ge_atTop 1] with m hm
  obtain ⟨n, rfl⟩ : ∃ n, m = n + 1 := ⟨m - 1, by omega⟩
  rw [Nat.mul_one, chainTransfer_succ, epsR_eq, demoMix_eps, Uni.chainTransfer_smul, Matrix.conjTranspose_one,
    Matrix.one_mul]
  congr 1
  have := demoMix_env.transferR Nat.one_pos 0 n
  simpa using this.symm

example (O : (Fin 2 → Fin 4) → (Fin 2 → Fin 4) → ℂ) :
    Tendsto (fun m : ℕ × ℕ => pieceElem 1 demoMix ![1, 0] ![1, 1] 0 (m.1 * 1 + 0) 2 (0 + m.2 * 1) O
        / pieceNorm 1 demoMix ![1, 0] ![1, 1] 0 (m.1 * 1 + 0 + 2 + (0 + m.2 * 1)))
      (atTop ×ˢ atTop) (𝓝 (chainExpect 1 demoMix (fun _ => 1) (fun _ => demoMixR) 0 2 O)) :=
  C47_thermodynamic Nat.one_pos demoMix_env demoMix_limit _ _
    (by simp [demoMixR, Matrix.vecHead]) (by simp [dotProduct, Fin.sum_univ_two]) 0 2 0 (Nat.mod_one _) O

end EvoMPS
