import Verif.ExciteBHB

/-!
# Excitations: preparing the operator (helper lemmas)
-/

set_option linter.unusedSectionVars false

namespace EvoMPS

open Matrix Filter Topology

namespace Exc

open Uni

variable {q D v : ℕ}

theorem mixing_iter {A : Ten ℂ q D D} {l r : Matrix (Fin D) (Fin D) ℂ} (h : Mixing A l r) (x) :
    Tendsto (fun n => (mapR A A)^[n] x) atTop (𝓝 ((lᴴ * x).trace • r)) := by
  refine (h x).congr fun n => ?_
  rw [chainTransfer_one]

theorem decays_iter {A A' : Ten ℂ q D D} (h : Decays A A') (x) : Tendsto (fun n => (mapR A A')^[n] x) atTop (𝓝 0) := by
  refine (h x).congr fun n => ?_
  rw [chainTransfer_one]

theorem decays_iter' {A A' : Ten ℂ q D D} (h : Decays A A') (x) : Tendsto (fun n => (mapR A' A)^[n] x) atTop (𝓝 0) := by
  have h1 := ((continuous_id.matrix_conjTranspose).tendsto _).comp (decays_iter h xᴴ)
  simp only [id, conjTranspose_zero] at h1
  refine h1.congr fun n => ?_
  simp only [Function.comp]
  rw [iter_mapR_conj, conjTranspose_conjTranspose]

theorem calcK_frame {T S1 : UTDVP q D} {solver : Solver D} {junk} (h : T.calcK solver junk = some S1) :
    S1 = { T with hExpect := S1.hExpect, K0init := S1.K0init, K := S1.K } := by
  unfold UTDVP.calcK at h
  dsimp only at h
  split_ifs at h
  obtain ⟨K0, -, rfl⟩ := Option.map_eq_some_iff.1 h
  rfl

theorem calcKl_one {T T' : UTDVP q D} (hL : T.L = 1) {solver : Solver D} {junk K1 : Matrix (Fin D) (Fin D) ℂ} {h : ℂ} (e : ℂ)
    (k0 : Option (Matrix (Fin D) (Fin D) ℂ)) (K : ℕ → Matrix (Fin D) (Fin D) ℂ)
    (h1 : T.calcKl solver junk = some (T', h)) (h2 : T'.Kl 0 = some K1) :
    UTDVP.calcKl { T with hExpect := e, K0init := k0, K := K } solver junk
      = some ({ T with hExpect := e, K0init := k0, K := K, Kl := Function.update T.Kl 0 (some K1) }, h) := by
  unfold UTDVP.calcKl at h1 ⊢
  dsimp only at h1 ⊢
  rw [if_neg (by omega)] at h1 ⊢
  obtain ⟨K1', h3, h4⟩ := Option.map_eq_some_iff.1 h1
  rw [Prod.mk.injEq] at h4
  obtain ⟨rfl, rfl⟩ := h4
  have h5 : K1' = K1 := by
    simp only [hL] at h2
    simpa using h2
  subst h5
  have e1 : UTDVP.calcPPinv { T with hExpect := e, K0init := k0, K := K } solver junk
      (UTDVP.lH { T with hExpect := e, K0init := k0, K := K }
        - adotNoconj (UTDVP.lH { T with hExpect := e, K0init := k0, K := K }) (T.r (T.L - 1)) • T.l (T.L - 1)) true (T.Kl (T.L - 1))
      = some K1' := h3
  rw [e1, Option.map_some]
  simp only [hL, Nat.sub_self, List.range_zero, List.foldl_nil]
  rfl

theorem calcC_AAA (S : UTDVP q D) (hL : S.L = 1) {h} (hham : S.ham = .three h) :
    S.calcC.AAA 0 = calcAAA (S.A 0) (S.A 0) (S.A 0) := by
  have hAA := calcAAs_AA S.toUMPS 0 (by omega)
  rw [Nat.mod_eq_zero_of_dvd (by rw [hL])] at hAA
  have e1 : S.toUMPS.calcAAs.L = 1 := hL
  have e2 : S.toUMPS.calcAAs.A = S.A := rfl
  unfold UTDVP.calcC
  simp only [hham, e1, e2, hAA, List.range_one, List.foldl_cons, List.foldl_nil, Nat.mod_one, Function.update_self]
  rfl

theorem chainExpect_real {L : ℕ} {A : ℕ → Ten ℂ q D D} {l r : ℕ → Matrix (Fin D) (Fin D) ℂ} {k n : ℕ}
    (hl : (l ((k + L - 1) % L))ᴴ = l ((k + L - 1) % L)) (hr : (r ((k + n + L - 1) % L))ᴴ = r ((k + n + L - 1) % L))
    {O : (Fin n → Fin q) → (Fin n → Fin q) → ℂ} (hO : ∀ s t, star (O s t) = O t s) :
    star (chainExpect L A l r k n O) = chainExpect L A l r k n O := by
  simp only [chainExpect, star_sum, star_mul']
  rw [Finset.sum_comm]
  refine Finset.sum_congr rfl fun s _ => Finset.sum_congr rfl fun t _ => ?_
  rw [hO, ← Matrix.trace_conjTranspose]
  simp only [conjTranspose_mul, conjTranspose_conjTranspose, hl, hr]
  congr 1
  rw [Matrix.trace_mul_comm]
  simp only [Matrix.mul_assoc]
  rw [Matrix.trace_mul_comm]
  simp only [Matrix.mul_assoc]
  rw [Matrix.trace_mul_comm]
  simp only [Matrix.mul_assoc]

/-- The left and right systems with projection. -/
theorem solves_same {E : ExcOp q D v} (hA : ArrOk E) (hsame : E.same = true) (hS : E.S2 = E.S)
    (Env : ChainEnv 1 E.S.A E.S.l E.S.r) (hmix : Mixing (E.S.A 0) (E.S.l 0) (E.S.r 0)) {solver : Solver D} {junk}
    (hl : ∀ op x x0, PinvOp.new (-E.p) [E.S.A 0] [E.S.A 0] (some (E.S.l 0)) (some (E.S.r 0)) true true = some op →
      op.matvec junk (solver (op.matvec junk) (ravel x) x0).1 = some (ravel x))
    (hr : ∀ op x x0, PinvOp.new E.p [E.S.A 0] [E.S.A 0] (some (E.S.l 0)) (some (E.S.r 0)) false true = some op →
      op.matvec junk (solver (op.matvec junk) (ravel x) x0).1 = some (ravel x)) : SolvesM E solver junk := by
  have hF : BiFixed [E.S.A 0] [E.S.A 0] (E.S.l 0) (E.S.r 0) :=
    ⟨rfl, by simp, by rw [blockMap_one]; exact env_right Env, by rw [blockMapL_one]; exact env_left Env, Env.norm 0 (by omega)⟩
  have hrr : (E.S.r 0)ᴴ = E.S.r 0 := by have := hA.roots.r_herm; rwa [hS] at this
  have hmi := mixing_iter hmix
  have hlm : E.lMix = some (E.S.l 0) := by simp [ExcOp.lMix, hsame]
  have hrm : E.rMix = some (E.S.r 0) := by simp [ExcOp.rMix, hsame]
  have hg := hA.gauge
  have hg' := hA.gauge'
  rw [hS] at hg hg'
  have hc : ∀ x', close (E.S.A 0) (E.S.l 0) (getBFromX x' E.Vsh E.l_si E.r_si) (E.S.r 0) = 0 := by
    intro x'
    rw [close, hg', Matrix.mul_zero, Matrix.trace_zero]
  refine ⟨fun x out => ?_, fun Y out => ?_, fun x' x => ?_⟩
  · rw [hlm, hrm, hsame, hS]
    obtain ⟨M, h1, -, h2, h3⟩ := C44_solution_left solver (-E.p) [E.S.A 0] [E.S.A 0] _ _ hF junk
      (epsL (E.S.l 0) (getBFromX x E.Vsh E.l_si E.r_si) (E.S.A 0)) out (fun op x0 h => hl op _ x0 h)
    have e0 : (epsL (E.S.l 0) (getBFromX x E.Vsh E.l_si E.r_si) (E.S.A 0))ᴴ
        = mapL (getBFromX x E.Vsh E.l_si E.r_si) (E.S.A 0) (E.S.l 0) := by
      rw [epsL_eq, mapL, conjTranspose_sum]
      refine Finset.sum_congr rfl fun s _ => ?_
      rw [conjTranspose_mul, conjTranspose_mul, conjTranspose_conjTranspose, hA.l_herm, Matrix.mul_assoc]
    have e1 : ((E.S.r 0)ᴴ * epsL (E.S.l 0) (getBFromX x E.Vsh E.l_si E.r_si) (E.S.A 0)).trace = 0 := by
      have : star ((E.S.r 0)ᴴ * epsL (E.S.l 0) (getBFromX x E.Vsh E.l_si E.r_si) (E.S.A 0)).trace = 0 := by
        rw [← Matrix.trace_conjTranspose, conjTranspose_mul, e0, conjTranspose_conjTranspose, ← trace_map, hg,
          Matrix.mul_zero, Matrix.trace_zero]
      rwa [star_eq_zero] at this
    refine ⟨M, h1, ?_, ?_⟩
    · rw [e1, mul_zero, zero_smul, sub_zero, blockMapL_one, sub_eq_iff_eq_add] at h3
      have h4 := congrArg conjTranspose h3
      rw [conjTranspose_add, e0, conjTranspose_smul, mapL_conj] at h4
      refine h4.trans ?_
      congr 2
      rw [← Complex.exp_neg, Complex.star_def, ← Complex.exp_conj]
      simp
    · have h4 : (Mᴴ * E.S.r 0).trace = 0 := by
        have : star (Mᴴ * E.S.r 0).trace = 0 := by
          rw [← Matrix.trace_conjTranspose, conjTranspose_mul, conjTranspose_conjTranspose, h2, e1]
        rwa [star_eq_zero] at this
      refine left_limit hmi fun x => ?_
      rw [Matrix.mul_smul, Matrix.trace_smul, h4, smul_zero, Matrix.zero_mul, Matrix.trace_zero]
  · rw [hlm, hrm, hsame, hS]
    obtain ⟨y, h1, -, h2, h3⟩ := C44_solution_right solver E.p [E.S.A 0] [E.S.A 0] _ _ hF junk Y out
      (fun op x0 h => hr op _ x0 h)
    refine ⟨y, h1, -((Complex.exp (Complex.I * E.p) * ((E.S.l 0)ᴴ * Y).trace) • E.S.r 0), ?_, fun x' j => ?_⟩
    · rw [← sub_eq_add_neg, ← blockMap_one]
      exact sub_eq_iff_eq_add.1 h3
    · rw [← neg_smul, iter_smul (mapR_smul _ _), Function.iterate_fixed (env_right Env), close_smul, hc, mul_zero]
  · rw [hS]
    have := ((continuous_close (E.S.A 0) (E.S.l 0) (getBFromX x' E.Vsh E.l_si E.r_si)).tendsto _).comp (hmi x)
    rw [close_smul, hc, mul_zero] at this
    exact this

/-- The left and right systems without projection. -/
theorem solves_mixed {E : ExcOp q D v} (hA : ArrOk E) (hsame : E.same = false)
    (hdec : Decays (E.S.A 0) (E.S2.A 0)) {solver : Solver D} {junk}
    (hl : ∀ op x x0, PinvOp.new (-E.p) [E.S2.A 0] [E.S.A 0] none none true false = some op →
      op.matvec junk (solver (op.matvec junk) (ravel x) x0).1 = some (ravel x))
    (hr : ∀ op x x0, PinvOp.new E.p [E.S.A 0] [E.S2.A 0] none none false false = some op →
      op.matvec junk (solver (op.matvec junk) (ravel x) x0).1 = some (ravel x)) : SolvesM E solver junk := by
  have hlm : E.lMix = none := by simp [ExcOp.lMix, hsame]
  have hrm : E.rMix = none := by simp [ExcOp.rMix, hsame]
  refine ⟨fun x out => ?_, fun Y out => ?_, fun x' x => ?_⟩
  · rw [hlm, hrm, hsame]
    obtain ⟨M, h1, h3⟩ := solve_left solver (-E.p) (E.S.A 0) (E.S2.A 0) junk
      (epsL (E.S.l 0) (getBFromX x E.Vsh E.l_si E.r_si) (E.S.A 0)) out (fun op x0 h => hl op _ x0 h)
    have e0 : (epsL (E.S.l 0) (getBFromX x E.Vsh E.l_si E.r_si) (E.S.A 0))ᴴ
        = mapL (getBFromX x E.Vsh E.l_si E.r_si) (E.S.A 0) (E.S.l 0) := by
      rw [epsL_eq, mapL, conjTranspose_sum]
      refine Finset.sum_congr rfl fun s _ => ?_
      rw [conjTranspose_mul, conjTranspose_mul, conjTranspose_conjTranspose, hA.l_herm, Matrix.mul_assoc]
    refine ⟨M, h1, ?_, ?_⟩
    · have h4 := congrArg conjTranspose h3
      rw [conjTranspose_add, e0, conjTranspose_smul, mapL_conj] at h4
      refine h4.trans ?_
      congr 2
      rw [← Complex.exp_neg, Complex.star_def, ← Complex.exp_conj]
      simp
    · refine left_limit (decays_iter' hdec) fun x => ?_
      rw [Matrix.mul_zero, Matrix.zero_mul]
  · rw [hlm, hrm, hsame]
    obtain ⟨y, h1, h3⟩ := solve_right solver E.p (E.S.A 0) (E.S2.A 0) junk Y out (fun op x0 h => hr op _ x0 h)
    refine ⟨y, h1, 0, by rwa [add_zero], fun x' j => ?_⟩
    rw [Function.iterate_fixed (mapR_zero _ _), close, mapR_zero, Matrix.mul_zero, Matrix.trace_zero]
  · have := ((continuous_close (E.S.A 0) (E.S.l 0) (getBFromX x' E.Vsh E.l_si E.r_si)).tendsto _).comp (decays_iter hdec x)
    rw [close, mapR_zero, Matrix.mul_zero, Matrix.trace_zero] at this
    exact this

/-- Building a matrix column by column. -/
theorem columns {n : ℕ} {m : Type*} (f : m → Fin n → Option ((Fin n → ℂ) × m)) (Good : Fin n → (Fin n → ℂ) → Prop)
    (hf : ∀ s c, ∃ y, f s c = some y ∧ Good c y.1) (l : List (Fin n)) (M0 : Matrix (Fin n) (Fin n) ℂ) (s0 : m)
    (done : Fin n → Prop) (h0 : ∀ c, done c → Good c fun b => M0 b c) :
    ∃ M s, l.foldl (fun a i => a.bind fun a => (f a.2 i).map fun y =>
      ((Matrix.of fun b c => if c = i then y.1 b else a.1 b c : Matrix (Fin n) (Fin n) ℂ), y.2)) (some (M0, s0)) = some (M, s) ∧
      ∀ c, done c ∨ c ∈ l → Good c fun b => M b c := by
  induction l generalizing M0 s0 done with
  | nil => exact ⟨M0, s0, rfl, fun c hc => h0 c (by simpa using hc)⟩
  | cons i l ih =>
    obtain ⟨y, hy, hg⟩ := hf s0 i
    rw [List.foldl_cons, Option.bind_some, hy, Option.map_some]
    obtain ⟨M, s, h1, h2⟩ := ih (Matrix.of fun b c => if c = i then y.1 b else M0 b c) y.2 (fun c => done c ∨ c = i) (by
      intro c hc
      by_cases h : c = i
      · subst h
        simpa using hg
      · simpa [h] using h0 c (hc.resolve_right h))
    refine ⟨M, s, h1, fun c hc => h2 c ?_⟩
    rcases hc with hc | hc
    · exact Or.inl (Or.inl hc)
    · rcases List.mem_cons.1 hc with h | h
      · exact Or.inl (Or.inr h)
      · exact Or.inr h

theorem adot_unit {a b : ℕ} (i : Fin (a * b)) (y : Matrix (Fin a) (Fin b) ℂ) :
    adot (reshape (Pi.single i (1 : ℂ))) y = ravel y i := by
  have h := sum_flat (fun k => star ((Pi.single i (1 : ℂ) : Fin (a * b) → ℂ) k) * ravel y k)
  rw [Finset.sum_eq_single i (fun k _ hk => by simp [hk]) (fun hi => absurd (Finset.mem_univ i) hi)] at h
  simp only [Pi.single_eq_same, star_one, one_mul] at h
  rw [h]
  simp only [adot, forSum_eq, reshape, Matrix.of_apply, ravel, flat_divNat, flat_modNat]

end Exc

end EvoMPS
