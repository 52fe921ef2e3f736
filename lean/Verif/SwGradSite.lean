import Verif.SwGrad
import Verif.SwGradLimit
import Verif.TangentLeft
import Verif.Props.MatMul

/-!
# The tensors computed by `calc_x` and `calc_B_centre` of the sandwich (helper lemmas)
-/

set_option linter.unusedSectionVars false

namespace EvoMPS.Uni

open Matrix

variable {q D : ℕ} {S T : SwT q D} {H : ℤ → UHam q} {site : ℤ → Ten ℂ q D D} {l r : ℤ → Matrix (Fin D) (Fin D) ℂ}

section
variable (o2 : ℤ → Fin q → Fin q → Fin q → Fin q → ℂ) (o3 : ℤ → Fin q → Fin q → Fin q → Fin q → Fin q → Fin q → ℂ)
  (site : ℤ → Ten ℂ q D D) (l r : ℤ → Matrix (Fin D) (Fin D) ℂ) (n : ℤ)

/-- `C[j]` for terms on two sites. -/
def tc2 (j : ℤ) : Ten2 ℂ q q D D := EvoMPS.calcC (o2 j) (calcAA (site j) (site (j + 1)))

/-- `C[j]` for terms on three sites. -/
def tc3 (j : ℤ) : Ten3 ℂ q q q D D := calcC3 (o3 j) (calcAAA (site j) (site (j + 1)) (site (j + 2)))

/-- The gradient of the terms touching the site `n`, for terms on two sites. -/
def touch2 : Ten ℂ q D D := fun s =>
  l (n - 1) * epsR (r (n + 1)) (tc2 o2 site n s) (site (n + 1))
    + epsL (l (n - 2)) (site (n - 1)) (fun t => tc2 o2 site (n - 1) t s) * r n

/-- The same for terms on three sites. -/
def touch3 : Ten ℂ q D D := fun s =>
  l (n - 1) * epsR2 (r (n + 2)) (tc3 o3 site n s) (calcAA (site (n + 1)) (site (n + 2)))
    + (∑ t, (site (n - 1) t)ᴴ * l (n - 2) * epsR (r (n + 1)) (tc3 o3 site (n - 1) t s) (site (n + 1)))
    + epsL2 (l (n - 3)) (calcAA (site (n - 2)) (site (n - 1))) (fun t u => tc3 o3 site (n - 2) t u s) * r n

variable {o2 o3 n}

theorem touch2_sum (hH : ∀ j, H j = .two (o2 j)) (B : Ten ℂ q D D) :
    sumZ (fun j => gradTerm site l r n B j (H j).sites (H j).op) (n + 1 - (2 : ℕ)) 2 = pair (touch2 o2 site l r n) B := by
  have a1 := gradTerm_two_first site l r n B (o2 n)
  have a2 := gradTerm_two_second site l r n B (o2 (n - 1))
  have b : ∀ j, gradTerm site l r n B j (H j).sites (H j).op = gradTerm site l r n B j 2 (UHam.two (o2 j)).op := fun j => by
    rw [hH]; rfl
  have e : n + 1 - ((2 : ℕ) : ℤ) = n - 1 := by push_cast; ring
  have e1 : n - 1 + 1 = n := by ring
  simp only [b, e]
  rw [sumZ, Finset.sum_range_succ, Finset.sum_range_one, Nat.cast_zero, Nat.cast_one, add_zero, e1, a1, a2, add_comm, ← pair_add]
  refine congrArg (fun g => pair g B) (funext fun s => ?_)
  rw [Pi.add_apply, touch2, tc2, tc2, e1]

theorem touch3_sum (hH : ∀ j, H j = .three (o3 j)) (B : Ten ℂ q D D) :
    sumZ (fun j => gradTerm site l r n B j (H j).sites (H j).op) (n + 1 - (3 : ℕ)) 3 = pair (touch3 o3 site l r n) B := by
  have e : n + 1 - ((3 : ℕ) : ℤ) = n - 2 := by push_cast; ring
  rw [e, sumZ_succ', sumZ_succ', sumZ_succ', sumZ_zero, show n - 2 + 1 + 1 = n by ring, show n - 2 + 1 = n - 1 by ring, hH, hH, hH,
    add_zero]
  have a1 := gradTerm_three_first site l r n B (o3 n)
  have a2 := gradTerm_three_second site l r n B (o3 (n - 1))
  have a3 := gradTerm_three_third site l r n B (o3 (n - 2))
  simp only [UHam.sites]
  rw [a1, a2, a3, ← pair_add, ← pair_add]
  congr 1
  funext s
  simp only [touch3, tc3, Pi.add_apply, show n - 1 + 1 = n by ring, show n - 1 + 2 = n + 1 by ring, show n - 2 + 1 = n - 1 by ring,
    show n - 2 + 2 = n by ring]
  abel

end

section
variable (h : SwReady S H site l r) (o : SwEnergyOut S T H site l r)
include h o

theorem getC2_eq {o2 : ℤ → Fin q → Fin q → Fin q → Fin q → ℂ} (hH : ∀ j, H j = .two (o2 j)) {j : ℤ} (h0 : 0 ≤ j) (hN : j ≤ S.N) :
    T.getC2 j = some (tc2 o2 site j) := by
  have hs : S.hamSites = 2 := by rw [← h.sites 0, hH]; rfl
  have := (o.cur j (by omega) hN).two _ (hH j)
  rw [o.reads.ga, o.reads.ga] at this
  rw [SwT.getC2, if_neg (by rw [o.frame.1]; omega), this.2]
  rfl

theorem getC3_eq {o3 : ℤ → Fin q → Fin q → Fin q → Fin q → Fin q → Fin q → ℂ} (hH : ∀ j, H j = .three (o3 j)) {j : ℤ} (h0 : -1 ≤ j)
    (hN : j ≤ S.N) : T.getC3 j = some (tc3 o3 site j) := by
  have hs : S.hamSites = 3 := by rw [← h.sites 0, hH]; rfl
  have := (o.cur j (by omega) hN).three _ (hH j)
  rw [o.reads.ga, o.reads.ga, o.reads.ga] at this
  rw [SwT.getC3, if_neg (by rw [o.frame.1]; omega), this.2.2]
  rfl

theorem getAA_eq {j : ℤ} (h0 : 2 - S.hamSites ≤ j) (hN : j ≤ S.N + 1) : T.getAA j = some (calcAA (site j) (site (j + 1))) := by
  have hs23 : 2 ≤ S.hamSites ∧ S.hamSites ≤ 3 := by rw [← h.sites 0]; exact UHam.sites_le _
  have hTN := o.frame.1
  rw [SwT.getAA, if_neg (by omega)]
  split
  · obtain rfl : j = S.N + 1 := by omega
    rw [hTN, show (S.N : ℤ) + 1 - S.N - 1 = 0 by ring, show pmod 0 T.uniR.L = 0 by simp [pmod], o.uniR.2]
    have e1 := h.chain.siteR_nat 0
    have e2 := h.chain.siteR_nat 1
    rw [Nat.zero_mod] at e1
    simp only [Nat.cast_zero, add_zero, Nat.cast_one] at e1 e2
    rw [e1, e2]
  · have := o.cur j h0 (by omega)
    cases hj : H j with
    | two a => rw [(this.two a hj).1, o.reads.ga, o.reads.ga]
    | three a => rw [(this.three a hj).1, o.reads.ga, o.reads.ga]

theorem getAAA_eq (h3 : S.hamSites = 3) {j : ℤ} (h0 : -1 ≤ j) (hN : j ≤ S.N) :
    T.getAAA j = some (calcAAA (site j) (site (j + 1)) (site (j + 2))) := by
  have hTN := o.frame.1
  rw [SwT.getAAA, if_neg (by omega), if_neg (by omega)]
  have := o.cur j (by omega) hN
  cases hj : H j with
  | two a => have := h.sites j; rw [hj, h3] at this; simp [UHam.sites] at this
  | three a => rw [(this.three a hj).2.1, o.reads.ga, o.reads.ga, o.reads.ga]

theorem getR_eq {j : ℤ} (h0 : 0 ≤ j) (hN : j ≤ S.N + 1) : T.getR j = r j := by
  rw [SwT.getR, if_pos ⟨h0, by rw [o.frame.1]; exact hN⟩, o.reads.gr _ (by rw [o.frame.1]; omega), Int.toNat_of_nonneg h0]

variable {n : ℕ} (h1 : 1 ≤ n) (hN : n ≤ S.N) {v : ℕ} {l_s r_s l_si r_si : Matrix (Fin D) (Fin D) ℂ}
  (hl : l_si * l ((n : ℤ) - 1) = l_s) (hr : r n * r_si = r_s)
include h1 hN hl hr

omit hl hr in
theorem getW : T.A n = site n := by
  rw [o.frame.2.2.1, h.chain.siteW n h1 hN]

theorem calcXr_two {o2 : ℤ → Fin q → Fin q → Fin q → Fin q → ℂ} (hH : ∀ j, H j = .two (o2 j))
    (Vsh : Fin q → Matrix (Fin D) (Fin v) ℂ) :
    T.calcXr n Vsh l_s r_s l_si r_si
      = some (l_si * ∑ s, (touch2 o2 site l r n s + l ((n : ℤ) - 1) * site n s * T.K (n + 1)) * (r_si * Vsh s)) := by
  have hs : T.hamSites = 2 := by rw [o.frame.2.2.2.2.2, ← h.sites 0, hH]; rfl
  rw [SwT.calcXr, if_pos hs, getC2_eq h o hH (by omega) (by omega), getC2_eq h o hH (by omega) (by omega), getW h o h1 hN,
    o.reads.ga, o.reads.ga, o.reads.gl _ (by rw [o.frame.1]; omega), o.reads.gr _ (by rw [o.frame.1]; omega), calcX_eq,
    Matrix.mul_sum, ← Finset.sum_add_distrib, ← Finset.sum_add_distrib]
  refine congrArg some (Finset.sum_congr rfl fun s _ => ?_)
  simp only [Option.elim, touch2, ← hl, ← hr, Matrix.add_mul, Matrix.mul_add, Matrix.mul_assoc]
  push_cast
  abel

theorem calcXl_two {o2 : ℤ → Fin q → Fin q → Fin q → Fin q → ℂ} (hH : ∀ j, H j = .two (o2 j))
    (Vsh : Fin q → Matrix (Fin v) (Fin D) ℂ) :
    T.calcXleft n Vsh l_s r_s l_si r_si
      = some (∑ s, Vsh s * (l_si * (touch2 o2 site l r n s + T.Kl (n - 1) * site n s * r n) * r_si)) := by
  have hs : T.hamSites = 2 := by rw [o.frame.2.2.2.2.2, ← h.sites 0, hH]; rfl
  rw [SwT.calcXleft, if_pos hs, getC2_eq h o hH (by omega) (by omega), getC2_eq h o hH (by omega) (by omega), getW h o h1 hN,
    o.reads.ga, o.reads.ga, o.reads.gl _ (by rw [o.frame.1]; omega), o.reads.gr _ (by rw [o.frame.1]; omega), calcXl]
  simp only [Option.map_some, forSum_eq, zero_add, Matrix.sum_mul, ← Finset.sum_add_distrib]
  refine congrArg some (Finset.sum_congr rfl fun s _ => ?_)
  simp only [touch2, ← hl, ← hr, Matrix.add_mul, Matrix.mul_add, Matrix.mul_assoc]
  push_cast
  abel

theorem calcXr_three {o3 : ℤ → Fin q → Fin q → Fin q → Fin q → Fin q → Fin q → ℂ} (hH : ∀ j, H j = .three (o3 j))
    (hlh : ∀ j, (l j)ᴴ = l j) (Vsh : Fin q → Matrix (Fin D) (Fin v) ℂ) :
    T.calcXr n Vsh l_s r_s l_si r_si
      = some (l_si * ∑ s, (touch3 o3 site l r n s + l ((n : ℤ) - 1) * site n s * T.K (n + 1)) * (r_si * Vsh s)) := by
  have hs' : S.hamSites = 3 := by rw [← h.sites 0, hH]; rfl
  have hs : T.hamSites = 3 := by rw [o.frame.2.2.2.2.2, hs']
  have hTN := o.frame.1
  rw [SwT.calcXr, if_neg (by omega), getC3_eq h o hH (by omega) (by omega), getC3_eq h o hH (by omega) (by omega),
    getC3_eq h o hH (by omega) (by omega), getW h o h1 hN, getAA_eq h o (by omega) (by omega), getAA_eq h o (by omega) (by omega),
    o.reads.ga, o.reads.ga, o.reads.gl _ (by omega), o.reads.gl _ (by omega), o.reads.gr2 hs _ (by omega) (by omega),
    o.reads.gr2 hs _ (by omega) (by omega), Option.bind_some, Option.bind_some, calcX3_eq _ _ _ _ _ _ _ _ _ _ _ _ _ _ _ _ _ _
    (by simp) (by simp), Matrix.mul_sum, ← Finset.sum_add_distrib, ← Finset.sum_add_distrib, ← Finset.sum_add_distrib]
  refine congrArg some (Finset.sum_congr rfl fun s _ => ?_)
  simp only [Option.elim, touch3, ← hl, ← hr, Matrix.add_mul, Matrix.mul_add, Matrix.mul_assoc, conjTranspose_mul, hlh]
  rw [show (n : ℤ) - 2 + 1 = n - 1 by ring, show (n : ℤ) + 1 + 1 = n + 2 by ring]
  abel

theorem calcXl_three {o3 : ℤ → Fin q → Fin q → Fin q → Fin q → Fin q → Fin q → ℂ} (hH : ∀ j, H j = .three (o3 j))
    (hsi : l_siᴴ = l_si) (Vsh : Fin q → Matrix (Fin v) (Fin D) ℂ) :
    T.calcXleft n Vsh l_s r_s l_si r_si
      = some (∑ s, Vsh s * (l_si * (touch3 o3 site l r n s + T.Kl (n - 1) * site n s * r n) * r_si)) := by
  have hs' : S.hamSites = 3 := by rw [← h.sites 0, hH]; rfl
  have hs : T.hamSites = 3 := by rw [o.frame.2.2.2.2.2, hs']
  have hTN := o.frame.1
  rw [SwT.calcXleft, if_neg (by omega), getC3_eq h o hH (by omega) (by omega), getC3_eq h o hH (by omega) (by omega),
    getC3_eq h o hH (by omega) (by omega), getW h o h1 hN, getAA_eq h o (by omega) (by omega), getAA_eq h o (by omega) (by omega),
    o.reads.ga, o.reads.ga, o.reads.gl _ (by omega), o.reads.gl _ (by omega), o.reads.gr2 hs _ (by omega) (by omega),
    o.reads.gr2 hs _ (by omega) (by omega), Option.bind_some, Option.map_some, calcXl3]
  have e2 : ∀ u, epsL2 (l ((n : ℤ) - 2)) (calcAA (site ((n : ℤ) - 1)) fun s => l_si * (Vsh s)ᴴ) (fun s t => tc3 o3 site ((n : ℤ) - 1) s t u)
      = ∑ s, Vsh s * (l_si * ∑ t, (site ((n : ℤ) - 1) t)ᴴ * (l ((n : ℤ) - 2) * tc3 o3 site ((n : ℤ) - 1) t s u)) := by
    intro u
    rw [epsL2_eq, Finset.sum_comm]
    refine Finset.sum_congr rfl fun s _ => ?_
    simp only [calcAA, conjTranspose_mul, conjTranspose_conjTranspose, hsi, Matrix.mul_sum, Matrix.mul_assoc]
  simp only [zero_add, e2, epsL_eq, epsR_eq, conjTranspose_conjTranspose, Matrix.sum_mul]
  rw [Finset.sum_comm (s := Finset.univ) (t := Finset.univ) (f := fun (u s : Fin q) => _)]
  simp only [← Finset.sum_add_distrib]
  refine congrArg some (Finset.sum_congr rfl fun s _ => ?_)
  rw [show (n : ℤ) - 2 + 1 = n - 1 by ring, show (n : ℤ) + 1 + 1 = n + 2 by ring]
  simp only [touch3, epsR_eq, ← hl, ← hr, Matrix.add_mul, Matrix.mul_add, Matrix.mul_assoc, Matrix.mul_sum, Matrix.sum_mul]
  rw [Finset.sum_comm (s := Finset.univ) (t := Finset.univ) (f := fun (u t : Fin q) => _)]
  abel

end

/-! ## The centre -/

theorem invOf_spec (P : Num) {m : ℕ} (x : MM ℂ m m) (hx : x.toArray.IsHermitian) (hd : x.toArray.det ≠ 0) :
    P.invOf x * x.toArray = 1 ∧ x.toArray * P.invOf x = 1 := by
  cases x with
  | eye => simp [Num.invOf, MM.inv]
  | diag d =>
    have hd' : ∀ i, d i ≠ 0 := by
      rw [toArray_diag, det_diagonal] at hd
      exact fun i => (Finset.prod_ne_zero_iff.1 hd) i (Finset.mem_univ i)
    simp only [Num.invOf, MM.inv, toArray_diag, diagonal_mul_diagonal]
    constructor <;>
    · rw [← diagonal_one]
      congr 1
      funext i
      field_simp [hd' i]
  | dense M =>
    obtain ⟨h1, h2, h3⟩ := eigh_spectral P.eigh M hx
    have : ∀ i, P.eigh.ev M i ≠ 0 := by
      rw [show (MM.dense M).toArray = M from rfl, h3, det_mul, det_mul, det_diagonal] at hd
      have := (mul_ne_zero_iff.1 (mul_ne_zero_iff.1 hd).2).1
      exact fun i => (Finset.prod_ne_zero_iff.1 this) i (Finset.mem_univ i)
    have := C54_invmh P.eigh M hx this
    exact ⟨this.1, this.2.1⟩

section
variable (h : SwReady S H site l r) (o : SwEnergyOut S T H site l r) {P : Num} {lm rm : ℕ → MM ℂ D D}
  (hli : l ((S.nc : ℤ) - 1) * P.invOf (lm (S.nc - 1)) = 1) (hri : P.invOf (rm S.nc) * r S.nc = 1)
include h o hli hri

theorem centre_two {o2 : ℤ → Fin q → Fin q → Fin q → Fin q → ℂ} (hH : ∀ j, H j = .two (o2 j)) (hlh : ∀ j, (l j)ᴴ = l j) :
    ∃ Bc, T.calcBCentre P lm rm = some (Bc, adot (l ((S.nc : ℤ) - 1)) (epsR (r S.nc) Bc Bc)) ∧
      ∀ s, l ((S.nc : ℤ) - 1) * Bc s * r S.nc = touch2 o2 site l r S.nc s + l ((S.nc : ℤ) - 1) * site S.nc s * T.K (S.nc + 1)
        + T.Kl (S.nc - 1) * site S.nc s * r S.nc
        - ((l S.nc * T.K (S.nc + 1)).trace + (T.Kl (S.nc - 1) * r ((S.nc : ℤ) - 1)).trace
          + termEnergy site l r S.nc (H S.nc).sites (H S.nc).op
          + termEnergy site l r ((S.nc : ℤ) - 1) (H ((S.nc : ℤ) - 1)).sites (H ((S.nc : ℤ) - 1)).op)
          • (l ((S.nc : ℤ) - 1) * site S.nc s * r S.nc) := by
  obtain ⟨hTN, hTnc, -, hTl, hTr, hTs⟩ := o.frame
  have hnc := h.centre
  have hs' : S.hamSites = 2 := by rw [← h.sites 0, hH]; rfl
  have hn1 : ((S.nc - 1 : ℕ) : ℤ) = (S.nc : ℤ) - 1 := by omega
  have e1 : T.hExpect (pmod ((S.nc : ℤ) - 1) (T.N + 1))
      = termEnergy site l r ((S.nc : ℤ) - 1) (H ((S.nc : ℤ) - 1)).sites (H ((S.nc : ℤ) - 1)).op := by
    rw [← hn1, pmod_nat, Nat.mod_eq_of_lt (by omega), o.low _ (by omega), hs', hn1,
      show (S.nc : ℤ) - 1 + 2 - (2 : ℕ) = S.nc - 1 by push_cast; ring]
  have e2 := o.high S.nc le_rfl hnc.2
  have e3 : ∀ x, adot (T.l S.nc) x = (l S.nc * x).trace := fun x => by
    rw [hTl, h.curL _ hnc.1 hnc.2, adot_eq_trace, hlh]
  have e4 : ∀ x, adotNoconj x (T.r (S.nc - 1)) = (x * r ((S.nc : ℤ) - 1)).trace := fun x => by
    rw [o.reads.gr _ (by omega), adotNoconj_eq_trace, hn1]
  have rr : ∑ t, site ((S.nc : ℤ) + 1) t * r ((S.nc : ℤ) + 1) * (site ((S.nc : ℤ) + 1) t)ᴴ = r S.nc := by
    have := h.chain.stepR ((S.nc : ℤ) + 1)
    rw [show (S.nc : ℤ) + 1 - 1 = S.nc by ring] at this
    exact this.symm
  have ll : ∑ t, (site ((S.nc : ℤ) - 1) t)ᴴ * l ((S.nc : ℤ) - 2) * site ((S.nc : ℤ) - 1) t = l ((S.nc : ℤ) - 1) := by
    have := h.chain.stepL ((S.nc : ℤ) - 1)
    rw [show (S.nc : ℤ) - 1 - 1 = S.nc - 2 by ring] at this
    exact this.symm
  unfold SwT.calcBCentre
  simp only [hTnc]
  rw [if_pos (by omega), getC2_eq h o hH (by omega) (by omega), getC2_eq h o hH (by omega) (by omega),
    getAA_eq h o (by omega) (by omega), getAA_eq h o (by omega) (by omega), getW h o hnc.1 hnc.2, o.reads.ga, o.reads.ga,
    o.reads.gl _ (by omega), o.reads.gl _ (by omega), o.reads.gr S.nc (by omega), getR_eq h o (by omega) (by omega), e1, e2, e3, e4]
  simp only [Option.bind_some, Option.map_some]
  refine ⟨_, rfl, fun s => ?_⟩
  generalize P.invOf (lm (S.nc - 1)) = li at *
  generalize P.invOf (rm S.nc) = ri at *
  generalize T.K (S.nc + 1) = K
  generalize T.Kl (S.nc - 1) = Kl
  generalize termEnergy site l r S.nc (H S.nc).sites (H S.nc).op = E0
  generalize termEnergy site l r ((S.nc : ℤ) - 1) (H ((S.nc : ℤ) - 1)).sites (H ((S.nc : ℤ) - 1)).op = E1
  simp only [forSum_eq, calcAA, touch2, epsR_eq, epsL_eq]
  have a1 : (∑ t, (tc2 o2 site S.nc s t - E0 • (site S.nc s * site ((S.nc : ℤ) + 1) t)) * r ((S.nc : ℤ) + 1)
      * (site ((S.nc : ℤ) + 1) t)ᴴ * ri) * r S.nc
      = ∑ t, tc2 o2 site S.nc s t * r ((S.nc : ℤ) + 1) * (site ((S.nc : ℤ) + 1) t)ᴴ - E0 • (site S.nc s * r S.nc) := by
    rw [← Matrix.sum_mul, Matrix.mul_assoc, hri, Matrix.mul_one]
    simp only [Matrix.sub_mul, Finset.sum_sub_distrib, Matrix.smul_mul, ← Finset.smul_sum, Matrix.mul_assoc]
    congr 2
    rw [← rr, Matrix.mul_sum]
    simp only [Matrix.mul_assoc]
  have a2 : ∑ t, (site ((S.nc : ℤ) - 1) t)ᴴ * (l ((S.nc : ℤ) - 2) * (tc2 o2 site ((S.nc : ℤ) - 1) t s
        - E1 • (site ((S.nc : ℤ) - 1) t * site ((S.nc : ℤ) - 1 + 1) s)))
      = ∑ t, (site ((S.nc : ℤ) - 1) t)ᴴ * l ((S.nc : ℤ) - 2) * tc2 o2 site ((S.nc : ℤ) - 1) t s
        - E1 • (l ((S.nc : ℤ) - 1) * site S.nc s) := by
    rw [show (S.nc : ℤ) - 1 + 1 = S.nc by ring]
    simp only [Matrix.mul_sub, Finset.sum_sub_distrib, Matrix.mul_smul, ← Finset.smul_sum, Matrix.mul_assoc]
    congr 2
    rw [← ll, Matrix.sum_mul]
    simp only [Matrix.mul_assoc]
  rw [a2, Matrix.mul_add, Matrix.mul_add, Matrix.add_mul, Matrix.add_mul, ← Matrix.mul_assoc _ li, hli, Matrix.one_mul,
    Matrix.mul_assoc _ (∑ t, _) (r S.nc), a1, Matrix.mul_assoc (l _) (_ * ri) (r S.nc), Matrix.mul_assoc _ ri, hri, Matrix.mul_one]
  simp only [Matrix.mul_sub, Matrix.sub_mul, Matrix.add_mul, Matrix.smul_mul, Matrix.mul_smul, Matrix.mul_assoc,
    add_smul]
  abel

theorem centre_three {o3 : ℤ → Fin q → Fin q → Fin q → Fin q → Fin q → Fin q → ℂ} (hH : ∀ j, H j = .three (o3 j))
    (hlh : ∀ j, (l j)ᴴ = l j) :
    ∃ Bc, T.calcBCentre P lm rm = some (Bc, adot (l ((S.nc : ℤ) - 1)) (epsR (r S.nc) Bc Bc)) ∧
      ∀ s, l ((S.nc : ℤ) - 1) * Bc s * r S.nc = touch3 o3 site l r S.nc s + l ((S.nc : ℤ) - 1) * site S.nc s * T.K (S.nc + 1)
        + T.Kl (S.nc - 1) * site S.nc s * r S.nc
        - ((l S.nc * T.K (S.nc + 1)).trace + (T.Kl (S.nc - 1) * r ((S.nc : ℤ) - 1)).trace
          + termEnergy site l r S.nc (H S.nc).sites (H S.nc).op + T.hExpect (S.nc - 1)
          + T.hExpect (pmod ((S.nc : ℤ) - 2) (S.N + 1)))
          • (l ((S.nc : ℤ) - 1) * site S.nc s * r S.nc) := by
  obtain ⟨hTN, hTnc, -, hTl, hTr, hTs⟩ := o.frame
  have hnc := h.centre
  have hs' : S.hamSites = 3 := by rw [← h.sites 0, hH]; rfl
  have hn1 : ((S.nc - 1 : ℕ) : ℤ) = (S.nc : ℤ) - 1 := by omega
  have e1 : T.hExpect (pmod ((S.nc : ℤ) - 1) (T.N + 1)) = T.hExpect (S.nc - 1) := by
    rw [← hn1, pmod_nat, Nat.mod_eq_of_lt (by omega)]
  have e2 := o.high S.nc le_rfl hnc.2
  have e3 : ∀ x, adot (T.l S.nc) x = (l S.nc * x).trace := fun x => by
    rw [hTl, h.curL _ hnc.1 hnc.2, adot_eq_trace, hlh]
  have e4 : ∀ x, adotNoconj x (T.r (S.nc - 1)) = (x * r ((S.nc : ℤ) - 1)).trace := fun x => by
    rw [o.reads.gr _ (by omega), adotNoconj_eq_trace, hn1]
  have rr : ∑ t, site ((S.nc : ℤ) + 1) t * r ((S.nc : ℤ) + 1) * (site ((S.nc : ℤ) + 1) t)ᴴ = r S.nc := by
    have := h.chain.stepR ((S.nc : ℤ) + 1)
    rw [show (S.nc : ℤ) + 1 - 1 = S.nc by ring] at this
    exact this.symm
  have rr2 : ∑ t, site ((S.nc : ℤ) + 2) t * r ((S.nc : ℤ) + 2) * (site ((S.nc : ℤ) + 2) t)ᴴ = r ((S.nc : ℤ) + 1) := by
    have := h.chain.stepR ((S.nc : ℤ) + 2)
    rw [show (S.nc : ℤ) + 2 - 1 = S.nc + 1 by ring] at this
    exact this.symm
  have ll : ∑ t, (site ((S.nc : ℤ) - 1) t)ᴴ * l ((S.nc : ℤ) - 2) * site ((S.nc : ℤ) - 1) t = l ((S.nc : ℤ) - 1) := by
    have := h.chain.stepL ((S.nc : ℤ) - 1)
    rw [show (S.nc : ℤ) - 1 - 1 = S.nc - 2 by ring] at this
    exact this.symm
  have ll2 : ∑ t, (site ((S.nc : ℤ) - 2) t)ᴴ * l ((S.nc : ℤ) - 3) * site ((S.nc : ℤ) - 2) t = l ((S.nc : ℤ) - 2) := by
    have := h.chain.stepL ((S.nc : ℤ) - 2)
    rw [show (S.nc : ℤ) - 2 - 1 = S.nc - 3 by ring] at this
    exact this.symm
  unfold SwT.calcBCentre
  simp only [hTnc]
  rw [if_neg (by omega), getC3_eq h o hH (by omega) (by omega), getC3_eq h o hH (by omega) (by omega),
    getC3_eq h o hH (by omega) (by omega), getAAA_eq h o hs' (by omega) (by omega), getAAA_eq h o hs' (by omega) (by omega),
    getAAA_eq h o hs' (by omega) (by omega),
    getAA_eq h o (by omega) (by omega), getAA_eq h o (by omega) (by omega), getW h o hnc.1 hnc.2, o.reads.ga, o.reads.ga,
    o.reads.gl _ (by omega), o.reads.gl _ (by omega), o.reads.gl _ (by omega), o.reads.gr S.nc (by omega),
    getR_eq h o (j := (S.nc : ℤ) + 1) (by omega) (by omega), o.reads.gr2 (by omega) _ (by omega) (by omega), e1, e2, e3, e4, hTN]
  simp only [Option.bind_some, Option.map_some]
  refine ⟨_, rfl, fun s => ?_⟩
  generalize P.invOf (lm (S.nc - 1)) = li at *
  generalize P.invOf (rm S.nc) = ri at *
  generalize T.K (S.nc + 1) = K
  generalize T.Kl (S.nc - 1) = Kl
  generalize termEnergy site l r S.nc (H S.nc).sites (H S.nc).op = E0
  generalize T.hExpect (S.nc - 1) = E1
  generalize T.hExpect (pmod ((S.nc : ℤ) - 2) (S.N + 1)) = E2
  have f1 : (S.nc : ℤ) - 1 + 1 = S.nc := by ring
  have f2 : (S.nc : ℤ) - 1 + 2 = S.nc + 1 := by ring
  have f3 : (S.nc : ℤ) - 2 + 1 = S.nc - 1 := by ring
  have f4 : (S.nc : ℤ) - 2 + 2 = S.nc := by ring
  have f5 : (S.nc : ℤ) + 1 + 1 = S.nc + 2 := by ring
  rw [f1, f2, f3, f4, f5]
  generalize (S.nc : ℤ) = n at *
  have a1 : epsR2 (r (n + 2)) (fun t u => tc3 o3 site n s t u - E0 • calcAAA (site n) (site (n + 1)) (site (n + 2)) s t u)
        (calcAA (site (n + 1)) (site (n + 2)))
      = epsR2 (r (n + 2)) (tc3 o3 site n s) (calcAA (site (n + 1)) (site (n + 2))) - E0 • (site n s * r n) := by
    simp only [epsR2_eq, Matrix.sub_mul, Finset.sum_sub_distrib, Matrix.smul_mul, ← Finset.smul_sum]
    congr 2
    rw [← rr, ← rr2]
    simp only [calcAAA, calcAA, conjTranspose_mul, Matrix.mul_sum, Matrix.sum_mul, Matrix.mul_assoc]
  have a2 : epsL2 (l (n - 3)) (calcAA (site (n - 2)) (site (n - 1))) (fun t u => tc3 o3 site (n - 2) t u s
          - E2 • calcAAA (site (n - 2)) (site (n - 1)) (site n) t u s)
      = epsL2 (l (n - 3)) (calcAA (site (n - 2)) (site (n - 1))) (fun t u => tc3 o3 site (n - 2) t u s)
        - E2 • (l (n - 1) * site n s) := by
    simp only [epsL2_eq, Matrix.mul_sub, Finset.sum_sub_distrib, Matrix.mul_smul, ← Finset.smul_sum]
    congr 2
    rw [← ll, ← ll2, Finset.sum_comm]
    simp only [calcAAA, calcAA, conjTranspose_mul, Matrix.mul_sum, Matrix.sum_mul, Matrix.mul_assoc]
  have a3 : epsL (l (n - 2)) (site (n - 1)) (fun t => epsR (r (n + 1)) (fun u => tc3 o3 site (n - 1) t s u
          - E1 • calcAAA (site (n - 1)) (site n) (site (n + 1)) t s u) (site (n + 1)))
      = (∑ t, (site (n - 1) t)ᴴ * l (n - 2) * epsR (r (n + 1)) (tc3 o3 site (n - 1) t s) (site (n + 1)))
        - E1 • (l (n - 1) * site n s * r n) := by
    simp only [epsL_eq, epsR_eq, Matrix.sub_mul, Matrix.mul_sub, Finset.sum_sub_distrib, Matrix.mul_smul, Matrix.smul_mul,
      ← Finset.smul_sum]
    congr 2
    rw [← ll, ← rr]
    simp only [calcAAA, Matrix.mul_sum, Matrix.sum_mul, Matrix.mul_assoc]
    rw [Finset.sum_comm]
  rw [a1, a2, a3]
  simp only [touch3]
  generalize epsR2 (r (n + 2)) (tc3 o3 site n s) (calcAA (site (n + 1)) (site (n + 2))) = X1
  generalize epsL2 (l (n - 3)) (calcAA (site (n - 2)) (site (n - 1))) (fun t u => tc3 o3 site (n - 2) t u s) = X2
  generalize (∑ t, (site (n - 1) t)ᴴ * l (n - 2) * epsR (r (n + 1)) (tc3 o3 site (n - 1) t s) (site (n + 1))) = X3
  generalize (l n * K).trace = k1
  generalize (Kl * r (n - 1)).trace = k2
  have L : ∀ X : Matrix (Fin D) (Fin D) ℂ, l (n - 1) * (li * X) = X := fun X => by
    rw [← Matrix.mul_assoc, hli, Matrix.one_mul]
  simp only [Matrix.mul_add, Matrix.add_mul, Matrix.mul_assoc, hri, Matrix.mul_one, L]
  simp only [Matrix.mul_sub, Matrix.sub_mul, Matrix.smul_mul, Matrix.mul_smul, Matrix.mul_assoc, add_smul]
  abel

end

end EvoMPS.Uni
