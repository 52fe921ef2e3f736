import Verif.EffOpsSite

/-!
# The bond operator (helper lemmas)
-/

set_option linter.unusedSectionVars false

namespace EvoMPS

open Matrix

namespace Eff

section
variable {R : Type*} [CommRing R] [StarRing R] {q D : ℕ → ℕ} {N : ℕ}

/-- A matrix on a bond can be multiplied into either neighbour. -/
theorem oneSite_move (A : Tensors R q D) (h0 : D 0 = 1) (hN : D N = 1) (k : ℕ) (hk : k + 1 < N)
    (G : Matrix (Fin (D (k + 1))) (Fin (D (k + 1))) R) :
    oneSite (N := N) A h0 hN k (fun s => A k s * G) = oneSite A h0 hN (k + 1) (fun s => G * A (k + 1) s) := by
  have key : ∀ d (s : Cfg q (k + 2 + d)), amp (Function.update A k fun s => A k s * G) (k + 2 + d) s
      = amp (Function.update A (k + 1) fun s => G * A (k + 1) s) (k + 2 + d) s := by
    intro d
    induction d with
    | zero =>
      intro s
      show amp _ k _ * _ * _ = amp _ k _ * _ * _
      rw [amp_congr (B := A) (fun m hm => Function.update_of_ne (by omega) _ _),
        amp_congr (A := Function.update A (k + 1) _) (B := A) (fun m hm => Function.update_of_ne (by omega) _ _),
        Function.update_self, Function.update_self, Function.update_of_ne (by omega), Function.update_of_ne (by omega)]
      simp only [Matrix.mul_assoc]
    | succ d ih =>
      intro s
      show amp _ (k + 2 + d) _ * _ = amp _ (k + 2 + d) _ * _
      rw [ih]
      congr 1
      rw [Function.update_of_ne (show (k + 2).add d ≠ k from (show k + 2 + d ≠ k by omega)), Function.update_of_ne (show (k + 2).add d ≠ k + 1 from
        (show k + 2 + d ≠ k + 1 by omega))]
  funext s
  obtain ⟨d, rfl⟩ : ∃ d, N = k + 2 + d := ⟨N - (k + 2), by omega⟩
  rw [oneSite, oneSite, psi, psi, key]

section
variable {A : Tensors R q D} (h0 : D 0 = 1) (hN : D N = 1)

theorem pair_contract {p a b : ℕ} (A : Ten R p a b) (x : Ten R p a b) (G' : Matrix (Fin b) (Fin b) R) :
    pair x (fun s => A s * G') = ((∑ s, (A s)ᴴ * x s) * G'ᴴ).trace := by
  rw [pair, Matrix.sum_mul, Matrix.trace_sum]
  refine Finset.sum_congr rfl fun s _ => ?_
  rw [Matrix.conjTranspose_mul, ← Matrix.mul_assoc, Matrix.trace_mul_comm]
  simp only [Matrix.mul_assoc]

theorem elemBond_total (ham : Ham R q) (k : ℕ) (hk : k + 1 < N) (G G' : Matrix (Fin (D (k + 1))) (Fin (D (k + 1))) R)
    (hL : ∀ n < k + 1, LOrth (A n)) (hR : ∀ n, k < n → n < N → ROrth (A n)) {KL KR : Envs R D}
    (hKL : IsLeft ham A (k + 1) KL) (hKR : IsRight N ham A (k + 1) KR) :
    elem1 N A h0 hN k (fun s => A k s * G') (fun s => A k s * G) (ham.total (N := N))
      = (KL (k + 1) * G * G'ᴴ).trace
      + ∑ j ∈ Finset.Ico (k + 2 - ham.sites) (k + 1),
          elem1 N A h0 hN k (fun s => A k s * G') (fun s => A k s * G) (ham.term (N := N) j)
      + (G * KR (k + 1) * G'ᴴ).trace := by
  obtain ⟨rr, h⟩ := exists_mixed N (Function.update A (k + 1) fun s => G * A (k + 1) s)
    (Function.update A (k + 1) fun s => G' * A (k + 1) s)
  obtain ⟨rr', h'⟩ := exists_mixed N (Function.update A k fun s => A k s * G)
    (Function.update A k fun s => A k s * G')
  have hs := sites_pos ham
  have h1 := sum_left hKL h (fun n _ => Function.update_of_ne (by omega) _ _)
    (fun n _ => Function.update_of_ne (by omega) _ _) hL hk.le h0 hN
  have h2 := sum_right hKR h' (fun n _ _ => Function.update_of_ne (by omega) _ _)
    (fun n _ _ => Function.update_of_ne (by omega) _ _) (fun n a b => hR n (by omega) b) hk.le h0 hN
  have eL : rr (k + 1) = G * G'ᴴ := by
    rw [h.pred (k + 1) hk, rr_behind (fun n a b => hR n (by omega) b) h _ (by omega) (by omega), epsR_eq]
    simp only [Function.update_self, Matrix.mul_one, Matrix.conjTranspose_mul]
    rw [show ∑ s, G * A (k + 1) s * ((A (k + 1) s)ᴴ * G'ᴴ) = G * (∑ s, A (k + 1) s * (A (k + 1) s)ᴴ) * G'ᴴ by
      simp only [Matrix.mul_sum, Matrix.sum_mul, Matrix.mul_assoc], show ∑ s, A (k + 1) s * (A (k + 1) s)ᴴ = 1 from
      hR (k + 1) (by omega) hk, Matrix.mul_one]
  have eR : mixL (Function.update A k fun s => A k s * G) (Function.update A k fun s => A k s * G') 1 (k + 1)
      = Gᴴ * G' := by
    rw [mixL_succ, mix_front (fun n a => hL n (by omega)) k le_rfl]
    simp only [Function.update_self, Matrix.mul_one, Matrix.conjTranspose_mul]
    rw [show ∑ s, Gᴴ * (A k s)ᴴ * (A k s * G') = Gᴴ * (∑ s, (A k s)ᴴ * A k s) * G' by
      simp only [Matrix.mul_sum, Matrix.sum_mul, Matrix.mul_assoc], show ∑ s, (A k s)ᴴ * A k s = 1 from
      hL k (by omega), Matrix.mul_one]
  have m1 := oneSite_move A h0 hN k hk G
  have m2 := oneSite_move A h0 hN k hk G'
  rw [oneSite, oneSite] at m1 m2
  rw [eL, adotNoconj_eq_trace, ← Matrix.mul_assoc, ← m1, ← m2] at h1
  rw [eR, adot_eq_trace, Matrix.conjTranspose_mul, Matrix.conjTranspose_conjTranspose, Matrix.mul_assoc,
    Matrix.trace_mul_comm] at h2
  rw [elem1, matElem_total, ← Finset.sum_range_add_sum_Ico _ (show k + 1 ≤ N by omega),
    ← Finset.sum_range_add_sum_Ico _ (show k + 2 - ham.sites ≤ k + 1 by omega), h1, h2]
  rfl

theorem bondLocal_eq (ham : Ham R q) (k : ℕ) (hk : k + 1 < N) (G G' : Matrix (Fin (D (k + 1))) (Fin (D (k + 1))) R)
    (hL : ∀ n < k + 1, LOrth (A n)) (hR : ∀ n, k < n → n < N → ROrth (A n)) {KL KR : OptEnvs R D}
    (hKL : IsLeft ham A (k + 1) fun n => (KL n).getD 0) (hKR : IsRight N ham A (k + 1) fun n => (KR n).getD 0) {res}
    (hres : bondLocal N ham A k (KL (k + 1)) (KR (k + 1)) G = some res) :
    elem1 N A h0 hN k (fun s => A k s * G') (fun s => A k s * G) (ham.total (N := N)) = (res * G'ᴴ).trace := by
  rw [elemBond_total h0 hN ham k hk G G' hL hR hKL hKR]
  have hK : ∀ (KL KR : Option (Matrix (Fin (D (k + 1))) (Fin (D (k + 1))) R)) c,
      ((KR.elim (KL.elim 0 fun K => K * G) (fun K => (KL.elim 0 fun K => K * G) + G * K) + c) * G'ᴴ).trace
        = (KL.getD 0 * G * G'ᴴ).trace + (c * G'ᴴ).trace + (G * KR.getD 0 * G'ᴴ).trace := by
    intro KL KR c
    cases KL <;> cases KR <;> simp only [Option.elim_none, Option.elim_some, Option.getD_none, Option.getD_some,
      Matrix.zero_mul, Matrix.mul_zero, Matrix.add_mul, Matrix.trace_add, Matrix.trace_zero] <;> ring
  have hL' : ∀ n < k, LOrth (A n) := fun n hn => hL n (by omega)
  cases ham with
  | two hm =>
    simp only [bondLocal] at hres
    obtain ⟨c, hc, rfl⟩ := Option.map_eq_some_iff.1 hres
    rw [hK, add_left_inj, add_right_inj]
    simp only [Ham.sites]
    rw [show k + 2 - 2 = k by omega, Nat.Ico_succ_singleton, Finset.sum_singleton]
    rw [bond2] at hc
    obtain ⟨op, ho, rfl⟩ := Option.map_eq_some_iff.1 hc
    rw [site_R2 h0 hN hm k _ _ hL' hR (a := fun s => epsR 1 (calcC op (calcAA (fun s => A k s * G) (A (k + 1))) s)
      (A (k + 1))) (by rw [siteR2, if_pos hk, ho]; rfl), pair_contract]
    dsimp only
    rw [forSum_eq]
    have e : calcAA (fun s => A k s * G) (A (k + 1)) = calcAA (A k) (fun s => G * A (k + 1) s) := by
      funext s t
      simp only [calcAA, Matrix.mul_assoc]
    rw [e]
  | three hm =>
    simp only [bondLocal] at hres
    obtain ⟨a, ha, hb⟩ := Option.bind_eq_some_iff.1 hres
    obtain ⟨b, hb, hres'⟩ := Option.map_eq_some_iff.1 hb
    rw [← hres', add_assoc _ a b, hK, add_left_inj, add_right_inj]
    simp only [Ham.sites]
    have hRt : elem1 N A h0 hN k (fun s => A k s * G') (fun s => A k s * G) ((Ham.three hm).term (N := N) k)
        = (a * G'ᴴ).trace := by
      rw [bondR3] at ha
      split at ha
      · next h2 =>
        obtain ⟨op, ho, rfl⟩ := Option.map_eq_some_iff.1 ha
        rw [site_R3 h0 hN hm k _ _ hL' hR (a := fun s => epsR2 1 (calcC3 op (calcAAA_AA (calcAA (fun s => A k s * G)
          (A (k + 1))) (A (k + 2))) s) (calcAA (A (k + 1)) (A (k + 2)))) (by rw [siteR3, if_pos h2, ho]; rfl),
          pair_contract]
        dsimp only
        rw [forSum_eq]
        have e : calcAAA_AA (calcAA (fun s => A k s * G) (A (k + 1))) (A (k + 2))
            = calcAAA_AAr (A k) (calcAA (fun s => G * A (k + 1) s) (A (k + 2))) := by
          funext s t u
          simp only [calcAA, calcAAA_AA, calcAAA_AAr, Matrix.mul_assoc]
        rw [e]
      · next h2 =>
        obtain rfl := Option.some.inj ha
        rw [elem1, term_zero _ k (by simp only [Ham.sites]; omega)]
        simp
    rw [Matrix.add_mul, Matrix.trace_add, Finset.sum_Ico_succ_top (by omega), hRt, add_comm, add_right_inj]
    cases k with
    | zero =>
      obtain rfl := Option.some.inj hb
      simp
    | succ k =>
      rw [show k + 1 + 2 - 3 = k by omega, Nat.Ico_succ_singleton, Finset.sum_singleton]
      rw [bondL3] at hb
      obtain ⟨op, ho, rfl⟩ := Option.map_eq_some_iff.1 hb
      rw [site_M3 h0 hN hm k _ _ hL' hR (a := fun s => forSum (q k) fun u => (A k u)ᴴ * epsR 1 (calcC3 op
        (calcAAA_AA (calcAA (A k) fun s => A (k + 1) s * G) (A (k + 2))) u s) (A (k + 2)))
        (by rw [siteM3, if_pos hk, ho]; rfl), pair_contract]
      congr 2
      have e : calcAAA_AA (calcAA (A k) fun s => A (k + 1) s * G) (A (k + 2))
          = calcAAA_AA (calcAA (A k) (A (k + 1))) fun s => G * A (k + 2) s := by
        funext s t u
        simp only [calcAA, calcAAA_AA, Matrix.mul_assoc]
      rw [e]
      simp only [forSum_eq, epsR_eq, epsL2_eq, Matrix.mul_sum, Matrix.sum_mul]
      rw [sum_rot3]
      refine Finset.sum_congr rfl fun u _ => ?_
      rw [Finset.sum_comm]
      refine Finset.sum_congr rfl fun s _ => Finset.sum_congr rfl fun t _ => ?_
      simp only [calcAA, Matrix.mul_one, Matrix.conjTranspose_mul, Matrix.mul_assoc]

end

end

end Eff

end EvoMPS
