import Verif.TensorProd
import Verif.Props.Contract
import Verif.UniformTangentLemmas
import Verif.TangentLemmas
import Verif.TangentGrad

/-!
# The tensor-product form of the Hamiltonian (helper lemmas)
-/

namespace EvoMPS

open Matrix

section
variable {R : Type*} [CommRing R] [StarRing R] {q q' a b c a' b' c' : ℕ}
variable (tp : List (Matrix (Fin q) (Fin q) R × Matrix (Fin q') (Fin q') R)) (A : Ten R q a b) (B : Ten R q' b c)

theorem epsR2tp_dense (x : Matrix (Fin c) (Fin c') R) (A3 : Ten R q a' b') (A4 : Ten R q' b' c') :
    epsR2tp x (calcCtp tp A B) A3 A4 = epsR2 x (calcC (tpDense tp) (calcAA A B)) (calcAA A3 A4) :=
  (C14_tensor_product_routines (a' := a') (b' := b') (c' := c') tp (tpDense tp) (fun _ _ _ _ => rfl) A B).2.1 x A3 A4

theorem epsL2tp_dense (x : Matrix (Fin a') (Fin a) R) (A1 : Ten R q a' b') (A2 : Ten R q' b' c') :
    epsL2tp x A1 A2 (calcCtp tp A B) = epsL2 x (calcAA A1 A2) (calcC (tpDense tp) (calcAA A B)) :=
  (C14_tensor_product_routines (a' := a') (b' := b') (c' := c') tp (tpDense tp) (fun _ _ _ _ => rfl) A B).2.2 x A1 A2

theorem calcC_tpDense (s : Fin q) (t : Fin q') :
    calcC (tpDense tp) (calcAA A B) s t = (tp.map fun o => opDotTen o.1 A s * opDotTen o.2 B t).sum := by
  rw [calcC_eq]
  simp only [tpDense, opDotTen_eq]
  induction tp with
  | nil => simp
  | cons o L ih =>
    rw [List.map_cons, List.sum_cons, ← ih]
    simp only [List.map_cons, List.sum_cons, add_smul, Finset.sum_add_distrib]
    congr 1
    rw [Matrix.sum_mul]
    refine Finset.sum_congr rfl fun u _ => ?_
    rw [Matrix.mul_sum]
    refine Finset.sum_congr rfl fun v _ => ?_
    rw [Matrix.smul_mul, Matrix.mul_smul, smul_smul]
    rfl

/-- `calc_BB_Y_2s_tp`. -/
theorem calcBBYtp_dense {v w : ℕ} (Vlh : Fin q → Matrix (Fin v) (Fin a) R) (Vrh : Fin q' → Matrix (Fin c) (Fin w) R)
    (l_s : Matrix (Fin a) (Fin a) R) (r_s : Matrix (Fin c) (Fin c) R) :
    calcBBYtp (calcCtp tp A B) Vlh Vrh l_s r_s = calcBBY (calcC (tpDense tp) (calcAA A B)) Vlh Vrh l_s r_s := by
  rw [calcBBYtp, calcBBY, calcCtp_eq, foldl_add_eq, zero_add, List.map_map, forSum_eq]
  simp only [epsR_eq, calcC_tpDense]
  induction tp with
  | nil => simp
  | cons o L ih =>
    rw [List.map_cons, List.sum_cons, ih]
    simp only [List.map_cons, List.sum_cons, Matrix.add_mul, Matrix.mul_add, Finset.sum_add_distrib]
    congr 1
    simp only [Function.comp, epsL_eq, conjTranspose_conjTranspose, Matrix.mul_sum, Matrix.sum_mul, Matrix.mul_assoc]
    exact Finset.sum_comm

/-- `calc_x_tp`, if the inverse root on the right is Hermitian. -/
theorem calcXtp_dense {pm z v : ℕ} (tpm : List (Matrix (Fin pm) (Fin pm) R × Matrix (Fin q) (Fin q) R))
    (K : Matrix (Fin b) (Fin b) R) (rp1 : Matrix (Fin c) (Fin c) R) (lm2 : Matrix (Fin z) (Fin z) R) (Am1 : Ten R pm z a)
    (l_s l_si : Matrix (Fin a) (Fin a) R) (r_s r_si : Matrix (Fin b) (Fin b) R) (hr : r_siᴴ = r_si)
    (Vsh : Fin q → Matrix (Fin b) (Fin v) R) :
    calcXtp (some K) (some (calcCtp tp A B)) (some (calcCtp tpm Am1 A)) rp1 lm2 Am1 A B l_s l_si r_s r_si Vsh
      = calcX (some K) (some (calcC (tpDense tp) (calcAA A B))) (some (calcC (tpDense tpm) (calcAA Am1 A))) rp1 lm2 Am1 A B
        l_s l_si r_s r_si Vsh := by
  rw [calcX_eq]
  have e1 : l_s * epsR2tp rp1 (calcCtp tp A B) (fun s => (Vsh s)ᴴ * r_si) B
      = ∑ s, l_s * epsR rp1 (calcC (tpDense tp) (calcAA A B) s) B * (r_si * Vsh s) := by
    rw [epsR2tp_dense, epsR2_eq, Matrix.mul_sum]
    refine Finset.sum_congr rfl fun s _ => ?_
    rw [epsR_eq]
    simp only [calcAA, conjTranspose_mul, conjTranspose_conjTranspose, hr, Matrix.mul_sum, Matrix.sum_mul, Matrix.mul_assoc]
  have e2 : l_s * epsR K A (fun s => (Vsh s)ᴴ * r_si) = ∑ s, l_s * (A s * K) * (r_si * Vsh s) := by
    rw [epsR_eq, Matrix.mul_sum]
    simp only [conjTranspose_mul, conjTranspose_conjTranspose, hr, Matrix.mul_assoc]
  have e3 : ((calcCtp tpm Am1 A).map fun C => l_si * (epsL lm2 Am1 C.1 * epsR r_s C.2 fun s => (Vsh s)ᴴ)).sum
      = ∑ s, l_si * (epsL lm2 Am1 fun t => calcC (tpDense tpm) (calcAA Am1 A) t s) * (r_s * Vsh s) := by
    rw [calcCtp_eq, List.map_map]
    simp only [epsL_eq, calcC_tpDense]
    clear e1 e2
    induction tpm with
    | nil => simp
    | cons o L ih =>
      rw [List.map_cons, List.sum_cons, ih]
      simp only [List.map_cons, List.sum_cons, Matrix.add_mul, Matrix.mul_add, Finset.sum_add_distrib]
      congr 1
      simp only [Function.comp, epsR_eq, conjTranspose_conjTranspose, Matrix.mul_sum, Matrix.sum_mul, Matrix.mul_assoc]
  unfold calcXtp
  dsimp only [Option.elim]
  rw [foldl_add_eq, zero_add, e1, e2, e3]
  abel

end

namespace Uni

variable {q D : ℕ}

/-- `T` and `S` hold the same state, the same `K`, and the same term in the two forms, contracted with the tensors. -/
structure TpMatch (T : UTP q D) (S : UTDVP q D) : Prop where
  L : S.L = T.L
  A : S.A = T.A
  l : S.l = T.l
  r : S.r = T.r
  K : S.K = T.K
  K0 : S.K0init = T.K0init
  Kl : S.Kl = T.Kl
  two : ∃ h, T.ham = .two h
  ham : S.ham = .two (tpDense T.hamTp)
  Ctp : ∀ k < T.L, T.Ctp k = calcCtp T.hamTp (T.A k) (T.A ((k + 1) % T.L))
  AA : ∀ k < T.L, S.AA k = calcAA (T.A k) (T.A ((k + 1) % T.L))
  C2 : ∀ k < T.L, S.C2 k = EvoMPS.calcC (tpDense T.hamTp) (calcAA (T.A k) (T.A ((k + 1) % T.L)))

theorem tpMatch_calcC (T : UTP q D) (ht : ∃ h, T.ham = .two h) : TpMatch T.calcC T.dense.calcC := by
  obtain ⟨h, hh⟩ := ht
  obtain ⟨fL, fA, fl, fr, fh, fK, fK0, fKl⟩ := calcC_fields T.dense
  have hc := calcC_current T.dense
  have e : T.calcC = { T with Ctp := (List.range T.L).foldl (fun C k =>
      Function.update C k (calcCtp T.hamTp (T.A k) (T.A ((k + 1) % T.L)))) T.Ctp } := by
    unfold UTP.calcC; rw [hh]
  rw [e]
  have h2 := hc.C2 (tpDense T.hamTp) fh
  have h1 := hc.AA
  rw [fL, fA] at h1 h2
  exact ⟨fL, fA, fl, fr, fK, fK0, fKl, ⟨h, hh⟩, fh,
    fun k hk => rangeUp T.L (fun k => calcCtp T.hamTp (T.A k) (T.A ((k + 1) % T.L))) T.Ctp k hk, h1, h2⟩

section
variable {T : UTP q D} {S : UTDVP q D} (m : TpMatch T S)
include m

theorem TpMatch.Hrk (k : ℕ) (hk : k < T.L) : T.Hrk k = S.Hrk k := by
  obtain ⟨h, hh⟩ := m.two
  unfold UTP.Hrk UTDVP.Hrk
  rw [hh, m.ham]
  dsimp only
  rw [m.L, m.r, m.AA k hk, m.C2 k hk, m.Ctp k hk, epsR2tp_dense]

theorem TpMatch.Hr (hL : 0 < T.L) : T.Hr = S.Hr := by
  unfold UTP.Hr UTDVP.Hr
  rw [m.L, m.Hrk 0 hL]
  refine List.foldl_ext _ _ _ fun x k hk => ?_
  rw [m.Hrk k (by have := List.mem_range'_1.1 hk; omega), m.A]

theorem TpMatch.calcKIter (K : ℕ → Matrix (Fin D) (Fin D) ℂ) (k : ℕ) (hk : k < T.L) :
    T.calcKIter K k = S.calcKIter K k := by
  obtain ⟨h, hh⟩ := m.two
  unfold UTP.calcKIter UTDVP.calcKIter
  rw [hh, m.ham]
  dsimp only [calcKSiteTp, calcKSite2]
  rw [m.L, m.r, m.l, m.A, m.AA k hk, m.C2 k hk, m.Ctp k hk, epsR2tp_dense]

theorem TpMatch.pinv (solver : Solver D) (junk x : Matrix (Fin D) (Fin D) ℂ) (left : Bool)
    (out : Option (Matrix (Fin D) (Fin D) ℂ)) :
    T.calcPPinv solver junk x left out = S.calcPPinv solver junk x left out := by
  unfold UTDVP.calcPPinv UMPS.list
  rw [m.L, m.A, m.l, m.r]

/-- `calc_K` in the two forms: both raise, or both succeed with the same energy and the same matrices. -/
theorem TpMatch.calcK (solver : Solver D) (junk : Matrix (Fin D) (Fin D) ℂ) :
    T.calcK solver junk
      = (S.calcK solver junk).map fun S' => { T with hExpect := S'.hExpect, K0init := S'.K0init, K := S'.K } := by
  unfold UTP.calcK UTDVP.calcK
  dsimp only
  rw [m.L]
  by_cases hL : T.L = 0
  · rw [if_pos hL, if_pos hL]; rfl
  rw [if_neg hL, if_neg hL, m.Hr (by omega), m.pinv, m.l, m.r, m.K, m.K0, Option.map_map]
  congr 1
  funext K0
  dsimp only [Function.comp]
  congr 2
  refine List.foldl_ext _ _ _ fun K k hk => ?_
  exact m.calcKIter K k (by have := List.mem_range'_1.1 (List.mem_reverse.1 hk); omega)

theorem TpMatch.after_calcK {solver : Solver D} {junk : Matrix (Fin D) (Fin D) ℂ} {S' : UTDVP q D}
    (h : S.calcK solver junk = some S') :
    TpMatch { T with hExpect := S'.hExpect, K0init := S'.K0init, K := S'.K } S' := by
  obtain ⟨e1, e2, e3, e4, e5, e6, e7, -⟩ := calcK_fields h
  have e8 : S'.Kl = S.Kl := by
    unfold UTDVP.calcK at h
    dsimp only at h
    split at h
    · exact absurd h (by simp)
    · obtain ⟨K0, -, rfl⟩ := Option.map_eq_some_iff.1 h
      rfl
  exact ⟨e1.trans m.L, e2.trans m.A, e3.trans m.l, e4.trans m.r, rfl, rfl, e8.trans m.Kl, m.two, e5.trans m.ham, m.Ctp,
    fun k hk => by rw [e6]; exact m.AA k hk, fun k hk => by rw [e7]; exact m.C2 k hk⟩

theorem TpMatch.lH (hL : 0 < T.L) : T.lH = S.lH := by
  obtain ⟨h, hh⟩ := m.two
  unfold UTP.lH UTDVP.lH
  rw [hh, m.ham]
  dsimp only
  have hp := fun i => pmod_lt hL i
  rw [m.L, m.l, m.AA _ (hp _), m.C2 _ (hp _), m.Ctp _ (hp _), epsL2tp_dense]
  have e : ∀ k < T.L, epsL2tp (T.l (pmod ((k : ℤ) - 1) T.L)) (T.A k) (T.A ((k + 1) % T.L)) (T.Ctp k) = S.lHk k := by
    intro k hk
    unfold UTDVP.lHk
    rw [m.ham]
    dsimp only
    rw [m.L, m.l, m.AA k hk, m.C2 k hk, m.Ctp k hk, epsL2tp_dense]
  have e1 : (T.A (pmod ((T.L : ℤ) - 1) T.L)) = T.A ((pmod ((T.L : ℤ) - 2) T.L + 1) % T.L) := by
    congr 1
    have := pmod_self ((T.L : ℤ) - 2) hL 1
    rw [show ((T.L : ℤ) - 2 + 1) = (T.L : ℤ) - 1 by ring] at this
    rw [← this, ← pmod_nat]
    push_cast
    rfl
  rw [e1]
  refine List.foldl_ext _ _ _ fun x k hk => ?_
  obtain ⟨i, -, rfl⟩ := List.mem_map.1 hk
  rw [e _ (hp _), m.A]

theorem TpMatch.calcKlIter (hL : 0 < T.L) (Kl : ℕ → Option (Matrix (Fin D) (Fin D) ℂ)) (k : ℕ) (hk : k < T.L) :
    T.calcKlIter Kl k = S.calcKlIter Kl k := by
  obtain ⟨h, hh⟩ := m.two
  have hp := fun i => pmod_lt hL i
  have e1 : (pmod ((k : ℤ) - 1) T.L + 1) % T.L = k := by
    have := pmod_self ((k : ℤ) - 1) hL 1
    rw [show ((k : ℤ) - 1 + 1) = (k : ℤ) by ring, pmod_nat, Nat.mod_eq_of_lt hk] at this
    rw [← pmod_nat]
    push_cast
    exact this
  unfold UTP.calcKlIter UTDVP.calcKlIter
  rw [hh, m.ham]
  dsimp only [calcKlSiteTp, calcKlSite2]
  rw [m.L, m.r, m.l, m.A, m.K, m.AA _ (hp _), m.C2 _ (hp _), m.Ctp _ (hp _), e1, epsL2tp_dense]

theorem TpMatch.calcKl (solver : Solver D) (junk : Matrix (Fin D) (Fin D) ℂ) :
    T.calcKl solver junk = (S.calcKl solver junk).map fun p => ({ T with Kl := p.1.Kl }, p.2) := by
  unfold UTP.calcKl UTDVP.calcKl
  dsimp only
  rw [m.L]
  by_cases hL : T.L = 0
  · rw [if_pos hL, if_pos hL]; rfl
  rw [if_neg hL, if_neg hL, m.lH (by omega), m.pinv, m.l, m.r, m.Kl, Option.map_map]
  congr 1
  funext K1
  dsimp only [Function.comp]
  congr 3
  refine List.foldl_ext _ _ _ fun K k hk => ?_
  exact m.calcKlIter (by omega) K k (by have := List.mem_range.1 hk; omega)

theorem TpMatch.calcXk (k : ℕ) (hk : k < T.L) {v : ℕ} (Vsh : Fin q → Matrix (Fin D) (Fin v) ℂ)
    (l_s l_si r_s r_si : Matrix (Fin D) (Fin D) ℂ) (hr : r_siᴴ = r_si) :
    T.calcXk k Vsh l_s l_si r_s r_si = S.calcXk k Vsh l_s l_si r_s r_si := by
  obtain ⟨h, hh⟩ := m.two
  have hL : 0 < T.L := by omega
  have hp := fun i => pmod_lt hL i
  have e1 : (pmod ((k : ℤ) - 1) T.L + 1) % T.L = k := by
    have := pmod_self ((k : ℤ) - 1) hL 1
    rw [show ((k : ℤ) - 1 + 1) = (k : ℤ) by ring, pmod_nat, Nat.mod_eq_of_lt hk] at this
    rw [← pmod_nat]
    push_cast
    exact this
  unfold UTP.calcXk UTDVP.calcXk
  rw [hh, m.ham]
  dsimp only
  rw [m.L, m.r, m.l, m.A, m.K, m.C2 _ (hp _), m.C2 k hk, m.Ctp k hk, m.Ctp _ (hp _), e1, calcXtp_dense _ _ _ _ _ _ _ _ _ _ _ _ hr]

theorem TpMatch.calcB (P : Num) (hP : P.Ok) (lm rm : ℕ → MM ℂ D D) (hrm : ∀ k < T.L, (rm k).toArray.IsHermitian)
    (setEta : Bool) (etaSq : ℕ → ℂ) : T.calcB P lm rm setEta etaSq = S.calcB P lm rm setEta etaSq := by
  unfold UTP.calcB UTDVP.calcB
  rw [m.L]
  congr 1
  refine List.foldl_ext _ _ _ fun U k hk => ?_
  have hk := List.mem_range.1 hk
  congr 1
  funext U
  unfold UTP.calcBIter UTDVP.calcBIter
  dsimp only
  rw [m.L, m.A]
  congr 1
  funext Vsh
  rw [m.calcXk k hk Vsh _ _ _ _ (roots_spec hP (rm k) (hrm k hk)).si_herm]

end

end Uni

end EvoMPS
