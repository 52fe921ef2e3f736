import Verif.SwTangentLemmas
import Verif.Props.Excite

/-!
# C61: the inner product of a sandwich state with a tangent vector
-/

namespace EvoMPS

open Matrix Filter Topology Uni

variable {q D : ℕ}

/-- The hypotheses of `overlap_tangent`: blocks of one tensor, environments of the two bulks, and the gauge of `B`.
Topologically trivial: the two bulks are the same normalised state, which forgets; non-trivial: they are orthogonal. -/
structure TangentSetting (S : SwTan q D) (B : Ten ℂ q D D) (topTriv : Bool) : Prop where
  left_one : S.LL = 1
  right_one : S.LR = 1
  l_herm : (S.lL 0)ᴴ = S.lL 0
  left : ∑ s, (S.AL 0 s)ᴴ * S.lL 0 * S.AL 0 s = S.lL 0
  right : ∑ s, S.AR 0 s * S.rR 0 * (S.AR 0 s)ᴴ = S.rR 0
  gauge : ∑ s, S.AR 0 s * S.rR 0 * (B s)ᴴ = 0
  triv : topTriv = true → S.AL 0 = S.AR 0 ∧ ((S.lL 0)ᴴ * S.rR 0).trace = 1 ∧ Mixing (S.AL 0) (S.lL 0) (S.rR 0)
  nontriv : topTriv = false → Decays (S.AL 0) (S.AR 0)

/-- What `overlap_tangent` computes, for every momentum: the states with the replaced tensor in the left bulk enter with
the phases `exp(-ip(k+1))`, those in the window with `exp(ipk)`. -/
theorem C61_phases_partial (S : SwTan q D) (B : Ten ℂ q D D) (topTriv : Bool) (h : TangentSetting S B topTriv)
    (solver : Solver D) (junk : Matrix (Fin D) (Fin D) ℂ) (p : ℝ)
    (hsol : ExactMomentum (S.AL 0) (S.AR 0) (some (S.lL 0)) (some (S.rR 0)) p true topTriv solver junk) :
    ∃ v, S.overlapTangent solver junk B p topTriv = some v ∧
      IsTangentOverlap (S.AL 0) (S.AR 0) (S.lL 0) (S.rR 0) S.N S.A B
        (fun k => if k ≤ 0 then Complex.exp (-Complex.I * p * (k + 1)) else Complex.exp (Complex.I * p * k)) v := by
  have hcase : if topTriv then S.AL 0 = S.AR 0 ∧ ((S.lL 0)ᴴ * S.rR 0).trace = 1 ∧ Mixing (S.AL 0) (S.lL 0) (S.rR 0)
      else Decays (S.AL 0) (S.AR 0) := by
    cases topTriv with
    | true => simpa using h.triv rfl
    | false => simpa using h.nontriv rfl
  obtain ⟨M, h1, h2, h3⟩ := TanOv.left_solution (B := B) h.l_herm h.left h.right h.gauge topTriv hcase solver junk p hsol
  refine ⟨_, ?_, TanOv.total (N := S.N) (A := S.A) h.l_herm h.left h.right h.gauge p h2 h3⟩
  unfold SwTan.overlapTangent SwTan.overlapTangentParts
  rw [if_neg (by simp [h.left_one, h.right_one]), h1]
  dsimp only [Option.map_some]
  rw [TanOv.lpart_fold S h.l_herm B p S.N le_rfl, TanOv.rs_get S 0 (by omega), Nat.sub_zero, adot_eq_trace]

/-- **C61**, partial: `overlap_tangent` returns the inner product `∑ k, exp(ipk) ⟨k|ψ⟩` for the momentum `p = 0`.
For other momenta it does not, see `C61_violated`. -/
theorem C61_zero_partial (S : SwTan q D) (B : Ten ℂ q D D) (topTriv : Bool) (h : TangentSetting S B topTriv)
    (solver : Solver D) (junk : Matrix (Fin D) (Fin D) ℂ)
    (hsol : ExactMomentum (S.AL 0) (S.AR 0) (some (S.lL 0)) (some (S.rR 0)) 0 true topTriv solver junk) :
    ∃ v, S.overlapTangent solver junk B 0 topTriv = some v ∧
      IsTangentOverlap (S.AL 0) (S.AR 0) (S.lL 0) (S.rR 0) S.N S.A B (fun _ => 1) v := by
  obtain ⟨v, h1, h2⟩ := C61_phases_partial S B topTriv h solver junk 0 hsol
  refine ⟨v, h1, ?_⟩
  simpa using h2

/-- The inner product is determined. -/
theorem C61_determined {AL AR B : Ten ℂ q D D} {l r : Matrix (Fin D) (Fin D) ℂ} {N : ℕ} {A : ℕ → Ten ℂ q D D} {f : ℤ → ℂ} {a b : ℂ}
    (ha : IsTangentOverlap AL AR l r N A B f a) (hb : IsTangentOverlap AL AR l r N A B f b) : a = b := by
  obtain ⟨h, h1, h2⟩ := ha
  obtain ⟨h', h1', h2'⟩ := hb
  have e : h = h' := funext fun k => tendsto_nhds_unique (h1 k) (h1' k)
  subst e
  exact tendsto_nhds_unique h2 h2'

/-- The contributions that are returned on request add up to the result. -/
theorem C61_contributions (S : SwTan q D) (solver : Solver D) (junk : Matrix (Fin D) (Fin D) ℂ) (B : Ten ℂ q D D) (p : ℝ)
    (topTriv : Bool) {x : ℂ × List ℂ} (hx : S.overlapTangentParts solver junk B p topTriv = some x) (h : TangentSetting S B topTriv) :
    x.2.length = S.N ∧ S.overlapTangent solver junk B p topTriv = some (x.1 + x.2.sum) := by
  refine ⟨?_, by rw [SwTan.overlapTangent, hx]; rfl⟩
  unfold SwTan.overlapTangentParts at hx
  rw [if_neg (by simp [h.left_one, h.right_one])] at hx
  obtain ⟨M, -, h2⟩ := Option.map_eq_some_iff.1 hx
  rw [← h2]
  dsimp only
  rw [TanOv.lpart_fold S h.l_herm B p S.N le_rfl]
  simp

/-- Longer blocks are rejected. -/
theorem C61_block (S : SwTan q D) (solver : Solver D) (junk : Matrix (Fin D) (Fin D) ℂ) (B : Ten ℂ q D D) (p : ℝ) (topTriv : Bool)
    (h : S.LL ≠ 1 ∨ S.LR ≠ 1) : S.overlapTangent solver junk B p topTriv = none := by
  unfold SwTan.overlapTangent SwTan.overlapTangentParts
  rw [if_pos (by tauto)]
  rfl

/-! ### Cases that meet the hypotheses -/

/-- A number as a matrix. -/
def oneMat (z : ℂ) : Matrix (Fin 1) (Fin 1) ℂ := Matrix.of fun _ _ => z

/-- Spins that point up on the left, down on the right; one site in between. -/
noncomputable def demoKinkSw : SwTan 2 1 where
  N := 1
  A := fun _ _ => oneMat 1
  LL := 1
  LR := 1
  AL := fun _ s => oneMat (if s = 0 then 1 else 0)
  AR := fun _ s => oneMat (if s = 0 then 0 else 1)
  lL := fun _ => oneMat 1
  rR := fun _ => oneMat 1

/-- The replaced tensor: a spin that points up. -/
def demoKinkB : Ten ℂ 2 1 1 := fun s => oneMat (if s = 0 then 1 else 0)

theorem oneMat_conj (z : ℂ) : (oneMat z)ᴴ = oneMat (star z) := rfl

theorem oneMat_mul (z w : ℂ) : oneMat z * oneMat w = oneMat (z * w) := by
  ext i j
  simp [oneMat, Matrix.mul_apply]

theorem oneMat_add (z w : ℂ) : oneMat z + oneMat w = oneMat (z + w) := rfl

theorem oneMat_eta (x : Matrix (Fin 1) (Fin 1) ℂ) : x = oneMat (x 0 0) := by
  ext i j
  fin_cases i
  fin_cases j
  rfl

theorem oneMat_zero : oneMat 0 = 0 := rfl

theorem demoKink_decay (x : Matrix (Fin 1) (Fin 1) ℂ) :
    ∑ s, (demoKinkSw.AL 0 s) * x * (demoKinkSw.AR 0 s)ᴴ = 0 ∧ ∑ s, (demoKinkSw.AL 0 s)ᴴ * x * demoKinkSw.AR 0 s = 0 := by
  rw [oneMat_eta x]
  simp [demoKinkSw, Fin.sum_univ_two, oneMat_conj, oneMat_mul, oneMat_zero]

theorem demoKink_setting : TangentSetting demoKinkSw demoKinkB false where
  left_one := rfl
  right_one := rfl
  l_herm := by simp [demoKinkSw, oneMat_conj]
  left := by simp [demoKinkSw, Fin.sum_univ_two, oneMat_conj, oneMat_mul, oneMat_zero]
  right := by simp [demoKinkSw, Fin.sum_univ_two, oneMat_conj, oneMat_mul, oneMat_zero]
  gauge := by simp [demoKinkSw, demoKinkB, Fin.sum_univ_two, oneMat_conj, oneMat_mul, oneMat_zero]
  triv := by simp
  nontriv := by
    intro _ x
    refine tendsto_const_nhds.congr' ?_
    filter_upwards [eventually_ge_atTop 1] with n hn
    rw [Exc.chainTransfer_one]
    obtain ⟨n, rfl⟩ : ∃ m, n = m + 1 := ⟨n - 1, by omega⟩
    rw [Function.iterate_succ_apply', Exc.mapR]
    exact ((demoKink_decay _).1).symm

theorem demoKink_exact (p : ℝ) : ExactMomentum (demoKinkSw.AL 0) (demoKinkSw.AR 0) (some (demoKinkSw.lL 0)) (some (demoKinkSw.rR 0)) p
    true false (fun _ b _ => (b, 0)) 0 := by
  intro op x x0 hop
  dsimp only
  rw [C44_operator_left p [demoKinkSw.AL 0] [demoKinkSw.AR 0] rfl (by simp) _ _ false op hop, if_neg (by simp), sub_zero, Exc.blockMapL_one, Exc.mapL,
    (demoKink_decay x).2, smul_zero, sub_zero]

/-- The state is the sum of `|0⟩` and `|1⟩`. -/
theorem demoKink_value (f : ℤ → ℂ) : IsTangentOverlap (demoKinkSw.AL 0) (demoKinkSw.AR 0) (demoKinkSw.lL 0) (demoKinkSw.rR 0) 1
    demoKinkSw.A demoKinkB f (f 0 + f 1) := by
  have hS := demoKink_setting
  refine ⟨fun k => if k = 0 ∨ k = 1 then 1 else 0, fun k => ?_, ?_⟩
  · refine tendsto_const_nhds.congr' ?_
    filter_upwards [eventually_ge_atTop ((k.natAbs, k.natAbs) : ℕ × ℕ)] with ab hab
    have ha : k.natAbs ≤ ab.1 := hab.1
    have hb : k.natAbs ≤ ab.2 := hab.2
    by_cases h1 : k ≤ 0
    · obtain ⟨n, rfl⟩ : ∃ n : ℕ, k = -n := ⟨(-k).toNat, by omega⟩
      rw [TanOv.braket_neg hS.l_herm hS.left hS.right n _ _ (by omega)]
      cases n with
      | zero =>
        simp [TanOv.rpart, Exc.mapR, Exc.mapL, demoKinkSw, demoKinkB, Fin.sum_univ_two, oneMat_conj, oneMat_mul, oneMat_zero,
          Matrix.trace_fin_one]
        simp [oneMat]
      | succ n =>
        have e : ∀ x, Exc.mapL (demoKinkSw.AL 0) (demoKinkSw.AR 0) x = 0 := by
          intro x
          rw [oneMat_eta x]
          simp [Exc.mapL, demoKinkSw, Fin.sum_univ_two, oneMat_conj, oneMat_mul, oneMat_zero]
        rw [Function.iterate_succ_apply', e, Matrix.zero_mul, Matrix.trace_zero, if_neg (by omega)]
    · by_cases h2 : k = 1
      · subst h2
        have := TanOv.braket_mid (N := 1) (A := demoKinkSw.A) (B := demoKinkB) hS.l_herm hS.left hS.right 0 ab.1 ab.2 (by omega)
        rw [show ((0 + 1 : ℕ) : ℤ) = 1 by rfl] at this
        rw [this]
        simp [TanOv.rpart, TanOv.lpart, Exc.mapR, demoKinkSw, demoKinkB, Fin.sum_univ_two, oneMat_conj, oneMat_mul, oneMat_zero,
          Matrix.trace_fin_one]
        simp [oneMat]
      · rw [TanOv.braket_pos hS.l_herm hS.right hS.gauge _ _ (by push_cast; omega) (by push_cast; omega), if_neg (by omega)]
  · refine tendsto_const_nhds.congr' ?_
    filter_upwards [eventually_ge_atTop ((0, 1) : ℕ × ℕ)] with m hm
    have hm : 1 ≤ m.2 := hm.2
    simp only [mul_ite, mul_one, mul_zero]
    rw [← Finset.sum_filter, show Finset.filter (fun k : ℤ => k = 0 ∨ k = 1) (Finset.Icc (-m.1 : ℤ) m.2) = {0, 1} by
      ext k
      simp only [Finset.mem_filter, Finset.mem_Icc, Finset.mem_insert, Finset.mem_singleton]
      omega, Finset.sum_pair (by omega)]

/-- **C61**, violated: for momentum `π` the result is `-2`, although `∑ k, exp(±iπk) ⟨k|ψ⟩ = 0` for both
signs: the state is `|0⟩ + |1⟩`.  The left bulk is given the phases `exp(-ip(k+1))`, the window `exp(ipk)`; these do not
belong to one plane wave. -/
theorem C61_violated : ∃ (S : SwTan 2 1) (B : Ten ℂ 2 1 1) (solver : Solver 1) (junk : Matrix (Fin 1) (Fin 1) ℂ),
    TangentSetting S B false
    ∧ ExactMomentum (S.AL 0) (S.AR 0) (some (S.lL 0)) (some (S.rR 0)) Real.pi true false solver junk
    ∧ S.overlapTangent solver junk B Real.pi false = some (-2)
    ∧ IsTangentOverlap (S.AL 0) (S.AR 0) (S.lL 0) (S.rR 0) S.N S.A B (fun k => Complex.exp (Complex.I * Real.pi * k)) 0
    ∧ IsTangentOverlap (S.AL 0) (S.AR 0) (S.lL 0) (S.rR 0) S.N S.A B (fun k => Complex.exp (-Complex.I * Real.pi * k)) 0 := by
  have e1 : Complex.exp (Complex.I * Real.pi) = -1 := by rw [mul_comm]; exact Complex.exp_pi_mul_I
  have e2 : Complex.exp (-Complex.I * Real.pi) = -1 := by
    rw [neg_mul, Complex.exp_neg, e1]
    norm_num
  refine ⟨demoKinkSw, demoKinkB, _, 0, demoKink_setting, demoKink_exact Real.pi, ?_, ?_, ?_⟩
  · obtain ⟨v, h1, h2⟩ := C61_phases_partial demoKinkSw demoKinkB false demoKink_setting _ 0 Real.pi (demoKink_exact Real.pi)
    rw [show demoKinkSw.N = 1 from rfl] at h2
    rw [h1, C61_determined h2 (demoKink_value _)]
    simp only [le_refl, if_true, Int.cast_zero, zero_add, mul_one, Int.cast_one, if_neg (show ¬ (1 : ℤ) ≤ 0 by omega), e1, e2]
    norm_num
  · have := demoKink_value (fun k => Complex.exp (Complex.I * Real.pi * k))
    simp only [Int.cast_zero, mul_zero, Complex.exp_zero, Int.cast_one, mul_one, e1] at this
    rw [show (1 : ℂ) + -1 = 0 by norm_num] at this
    exact this
  · have := demoKink_value (fun k => Complex.exp (-Complex.I * Real.pi * k))
    simp only [Int.cast_zero, mul_zero, Complex.exp_zero, Int.cast_one, mul_one, e2] at this
    rw [show (1 : ℂ) + -1 = 0 by norm_num] at this
    exact this

/-- The hypotheses of `C61_phases_partial` and `C61_zero_partial`, for two different bulks. -/
example (p : ℝ) : ∃ v, demoKinkSw.overlapTangent (fun _ b _ => (b, 0)) 0 demoKinkB p false = some v :=
  (C61_phases_partial demoKinkSw demoKinkB false demoKink_setting _ 0 p (demoKink_exact p)).imp fun _ h => h.1

/-- Spins that point up; at one site in between the spin is turned. -/
noncomputable def demoFlipSw (z : ℂ) : SwTan 2 1 where
  N := 1
  A := fun _ s => oneMat (if s = 0 then 1 else z)
  LL := 1
  LR := 1
  AL := fun _ s => oneMat (if s = 0 then 1 else 0)
  AR := fun _ s => oneMat (if s = 0 then 1 else 0)
  lL := fun _ => oneMat 1
  rR := fun _ => oneMat 1

theorem demoFlip_map (z : ℂ) (x : Matrix (Fin 1) (Fin 1) ℂ) :
    ∑ s, (demoFlipSw z).AL 0 s * x * ((demoFlipSw z).AL 0 s)ᴴ = x ∧ ∑ s, ((demoFlipSw z).AL 0 s)ᴴ * x * (demoFlipSw z).AL 0 s = x
      ∧ ((oneMat 1)ᴴ * x).trace • oneMat 1 = x := by
  rw [oneMat_eta x]
  refine ⟨?_, ?_, ?_⟩
  · simp [demoFlipSw, Fin.sum_univ_two, oneMat_conj, oneMat_mul, oneMat_zero]
  · simp [demoFlipSw, Fin.sum_univ_two, oneMat_conj, oneMat_mul, oneMat_zero]
  · ext i j
    fin_cases i
    fin_cases j
    simp [oneMat_conj, oneMat_mul, Matrix.trace_fin_one]
    simp [oneMat]

/-- The hypotheses of `C61_phases_partial` and `C61_zero_partial`, for the same bulk on both sides. -/
example (z : ℂ) (p : ℝ) : TangentSetting (demoFlipSw z) (fun s => oneMat (if s = 0 then 0 else 1)) true
    ∧ ExactMomentum ((demoFlipSw z).AL 0) ((demoFlipSw z).AR 0) (some ((demoFlipSw z).lL 0)) (some ((demoFlipSw z).rR 0)) p
      true true (fun _ b _ => (b, 0)) 0 := by
  refine ⟨⟨rfl, rfl, by simp [demoFlipSw, oneMat_conj], (demoFlip_map z _).2.1, (demoFlip_map z _).1, ?_, fun _ => ⟨rfl, ?_, ?_⟩, ?_⟩, ?_⟩
  · simp [demoFlipSw, Fin.sum_univ_two, oneMat_conj, oneMat_mul, oneMat_zero]
  · simp [demoFlipSw, oneMat_conj, oneMat_mul, Matrix.trace_fin_one]
    simp [oneMat]
  · intro x
    have e : ((demoFlipSw z).lL 0)ᴴ = (oneMat 1)ᴴ := rfl
    refine tendsto_const_nhds.congr fun n => ?_
    rw [Exc.chainTransfer_one, Function.iterate_fixed]
    · exact (demoFlip_map z x).2.2
    · exact (demoFlip_map z x).1
  · simp
  · refine exact_left (fun x => ?_) p
    rw [(demoFlip_map z x).2.1]
    exact ((demoFlip_map z x).2.2).symm

end EvoMPS
