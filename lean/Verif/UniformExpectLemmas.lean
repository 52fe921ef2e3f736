import Verif.UniformExpect
import Verif.UniformEnvLemmas
import Verif.Measure
import Verif.TwoSiteLemmas

/-!
# Expectation values of the uniform chain (helper lemmas)
-/

set_option linter.unusedSectionVars false

namespace EvoMPS

open Matrix

section
variable {R : Type*} [CommRing R] [StarRing R] {q D : ℕ} (L : ℕ) (A : ℕ → Ten R q D D)

/-- An operator on `n` sites sandwiched between the tensors of these sites. -/
def chainOp (k n : ℕ) (O : (Fin n → Fin q) → (Fin n → Fin q) → R) (x : Matrix (Fin D) (Fin D) R) :
    Matrix (Fin D) (Fin D) R :=
  ∑ s, ∑ t, O s t • (chainProd L A k n t * x * (chainProd L A k n s)ᴴ)

theorem chainExpect_adot (l r : ℕ → Matrix (Fin D) (Fin D) R) (k n : ℕ)
    (O : (Fin n → Fin q) → (Fin n → Fin q) → R) :
    chainExpect L A l r k n O
      = adot (l ((k + L - 1) % L)) (chainOp L A k n O (r ((k + n + L - 1) % L))) := by
  rw [adot_eq_trace, chainOp, chainExpect, Matrix.mul_sum, Matrix.trace_sum]
  refine Finset.sum_congr rfl fun s _ => ?_
  rw [Matrix.mul_sum, Matrix.trace_sum]
  refine Finset.sum_congr rfl fun t _ => ?_
  rw [Matrix.mul_smul, Matrix.trace_smul, smul_eq_mul]
  simp only [Matrix.mul_assoc]

theorem tensorOp_snoc (n : ℕ) (o : ℕ → Fin q → Fin q → R) (s t : Fin n → Fin q) (a b : Fin q) :
    tensorOp (n + 1) o (Fin.snoc (α := fun _ => Fin q) s a) (Fin.snoc (α := fun _ => Fin q) t b)
      = tensorOp n o s t * o n a b := by
  rw [tensorOp, Fin.prod_univ_castSucc]
  simp [tensorOp]

theorem chainOp_zero (k : ℕ) (o : ℕ → Fin q → Fin q → R) (x : Matrix (Fin D) (Fin D) R) :
    chainOp L A k 0 (tensorOp 0 o) x = x := by
  simp [chainOp, tensorOp, chainProd_zero]

variable [DecidableEq R]

theorem chainOp_string_succ (k n : ℕ) (o : ℕ → Fin q → Fin q → R) (x : Matrix (Fin D) (Fin D) R) :
    chainOp L A k (n + 1) (tensorOp (n + 1) o) x
      = chainOp L A k n (tensorOp n o)
        (epsROp1 x (A ((k + n) % L)) (A ((k + n) % L)) (o n)) := by
  simp only [chainOp, sum_snoc, tensorOp_snoc, chainProd_snoc, epsROp1_eq, Matrix.conjTranspose_mul,
    Matrix.mul_sum, Matrix.sum_mul, Finset.smul_sum, Matrix.mul_smul, Matrix.smul_mul, smul_smul,
    Matrix.mul_assoc]
  refine Finset.sum_congr rfl fun s _ => ?_
  rw [Finset.sum_comm]

/-- The left environment with an operator inserted at every site. -/
def mixOp (x : Matrix (Fin D) (Fin D) R) (k : ℕ) (o : ℕ → Fin q → Fin q → R) :
    ℕ → Matrix (Fin D) (Fin D) R
  | 0 => x
  | n + 1 => epsLOp1 (mixOp x k o n) (A ((k + n) % L)) (A ((k + n) % L)) (o n)

theorem adot_epsLOp1 {a a' b b' : ℕ} (x : Matrix (Fin a) (Fin a') R) (y : Matrix (Fin b) (Fin b') R)
    (A1 : Ten R q a b) (A2 : Ten R q a' b') (op : Fin q → Fin q → R) :
    adot (epsLOp1 x A1 A2 op) y = adot x (epsROp1 y A1 A2 op) := by
  rw [epsLOp1_opSite, epsROp1_opSite, adot_epsL]

theorem adot_mixOp (x y : Matrix (Fin D) (Fin D) R) (k n : ℕ) (o : ℕ → Fin q → Fin q → R) :
    adot (mixOp L A x k o n) y = adot x (chainOp L A k n (tensorOp n o) y) := by
  induction n generalizing y with
  | zero => rw [chainOp_zero]; rfl
  | succ n ih => rw [mixOp, adot_epsLOp1, ih, chainOp_string_succ]

/-- The expectation value of a product of one-site operators. -/
theorem chainExpect_string (l r : ℕ → Matrix (Fin D) (Fin D) R) (k n : ℕ)
    (o : ℕ → Fin q → Fin q → R) :
    chainExpect L A l r k n (tensorOp n o)
      = adot (mixOp L A (l ((k + L - 1) % L)) k o n) (r ((k + n + L - 1) % L)) := by
  rw [chainExpect_adot, adot_mixOp]

theorem epsLOp1_id {a a' b b' : ℕ} (x : Matrix (Fin a) (Fin a') R) (A1 : Ten R q a b)
    (A2 : Ten R q a' b') : epsLOp1 x A1 A2 (fun s t => if s = t then 1 else 0) = epsL x A1 A2 := by
  rw [epsLOp1_eq, epsL_eq]
  refine Finset.sum_congr rfl fun s _ => ?_
  simp [apply_ite star, ite_smul]

theorem epsLOp1_siteId {a a' b b' : ℕ} (x : Matrix (Fin a) (Fin a') R) (A1 : Ten R q a b)
    (A2 : Ten R q a' b') : epsLOp1 x A1 A2 siteId = epsL x A1 A2 := epsLOp1_id x A1 A2

theorem mixOp_congr (x : Matrix (Fin D) (Fin D) R) (k n : ℕ) {o o' : ℕ → Fin q → Fin q → R}
    (h : ∀ i < n, o i = o' i) : mixOp L A x k o n = mixOp L A x k o' n := by
  induction n with
  | zero => rfl
  | succ n ih => rw [mixOp, mixOp, ih fun i hi => h i (by omega), h n (by omega)]

/-- The value written into `res[j]` of `expect_1s_1s`. -/
theorem chainExpect_pair (l r : ℕ → Matrix (Fin D) (Fin D) R) (k d : ℕ) (hd : 0 < d)
    (op1 op2 : Fin q → Fin q → R) :
    chainExpect L A l r k (d + 1) (tensorOp (d + 1) (pairFactors op1 op2 d))
      = adot (epsLOp1 (mixOp L A (l ((k + L - 1) % L)) k (fun i => if i = 0 then op1 else siteId) d)
        (A ((k + d) % L)) (A ((k + d) % L)) op2) (r ((k + d) % L)) := by
  rw [chainExpect_string, mixOp, show k + (d + 1) + L - 1 = k + d + L by omega, Nat.add_mod_right]
  congr 2
  · exact mixOp_congr L A _ k d fun i hi => by simp [pairFactors, hi.ne]
  · simp [pairFactors, hd.ne']

open Uni in
/-- The loop of `expect_1s_1s`. -/
theorem uniPair_loop (S : UMPS R q D) (x : Matrix (Fin D) (Fin D) R) (k d : ℕ)
    (op1 op2 : Fin q → Fin q → R) (retInt : Bool) (res0 : ℕ → R) (m : ℕ) (hm : m ≤ d)
    (hk : k < S.L) :
    let mix := mixOp S.L S.A x k (fun i => if i = 0 then op1 else siteId)
    let p := (List.range' 1 m).foldl (fun (p : Matrix (Fin D) (Fin D) R × (ℕ → R)) j =>
      let lj := p.1
      let res := if retInt = true ∨ j = d then
          let ljOp := epsLOp1 lj (S.A ((k + j) % S.L)) (S.A ((k + j) % S.L)) op2
          Function.update p.2 j (adot ljOp (S.r ((k + j) % S.L)))
        else p.2
      let lj := if j < d then epsL lj (S.A ((k + j) % S.L)) (S.A ((k + j) % S.L)) else lj
      (lj, res)) (epsLOp1 x (S.A k) (S.A k) op1, res0)
    (m < d → p.1 = mix (m + 1)) ∧
    (∀ j, p.2 j = if (1 ≤ j ∧ j ≤ m) ∧ (retInt = true ∨ j = d) then
      adot (epsLOp1 (mix j) (S.A ((k + j) % S.L)) (S.A ((k + j) % S.L)) op2) (S.r ((k + j) % S.L))
      else res0 j) := by
  intro mix
  have h1 : epsLOp1 x (S.A k) (S.A k) op1 = mix 1 := by
    simp only [mix, mixOp, Nat.add_zero, if_true, Nat.mod_eq_of_lt hk]
  have hstep : ∀ j, 0 < j → mix (j + 1) = epsL (mix j) (S.A ((k + j) % S.L)) (S.A ((k + j) % S.L)) :=
    fun j hj => by
      simp only [mix]
      rw [mixOp, if_neg hj.ne', epsLOp1_siteId]
  induction m with
  | zero => exact ⟨fun _ => h1, fun j => by rw [if_neg (by omega)]; rfl⟩
  | succ m ih =>
    specialize ih (by omega)
    rw [List.range'_concat, List.foldl_append]
    simp only [List.foldl_cons, List.foldl_nil, Nat.one_mul] at ih ⊢
    generalize (List.range' 1 m).foldl _ _ = p at ih ⊢
    obtain ⟨ih1, ih2⟩ := ih
    have e := ih1 (by omega)
    constructor
    · intro h
      rw [if_pos (by omega), e, show 1 + m = m + 1 by omega, hstep (m + 1) (by omega)]
    · intro j
      by_cases hc : retInt = true ∨ 1 + m = d
      · rw [if_pos hc]
        by_cases hj : j = 1 + m
        · subst hj
          rw [Function.update_self, if_pos ⟨by omega, hc⟩, e, show 1 + m = m + 1 by omega]
        · rw [Function.update_of_ne hj, ih2]
          refine if_congr ?_ rfl rfl
          constructor
          · rintro ⟨a, b⟩; exact ⟨by omega, b⟩
          · rintro ⟨a, b⟩; exact ⟨by omega, b⟩
      · rw [if_neg hc, ih2]
        refine if_congr ?_ rfl rfl
        constructor
        · rintro ⟨a, b⟩; exact ⟨by omega, b⟩
        · rintro ⟨a, b⟩
          refine ⟨?_, b⟩
          rcases b with b | b
          · exact absurd (Or.inl b) hc
          · subst b
            refine ⟨a.1, ?_⟩
            by_contra hlt
            exact hc (Or.inr (by omega))

omit [StarRing R] [CommRing R] [DecidableEq R] in
theorem sum_vecCons {M : Type*} [AddCommMonoid M] (n : ℕ) (f : (Fin (n + 1) → Fin q) → M) :
    ∑ s, f s = ∑ a, ∑ s : Fin n → Fin q, f (Matrix.vecCons a s) := by
  rw [← (Fin.consEquiv fun _ : Fin (n + 1) => Fin q).sum_comp, Fintype.sum_prod_type]
  rfl

omit [StarRing R] [CommRing R] [DecidableEq R] in
theorem sum_fin1 {M : Type*} [AddCommMonoid M] (f : (Fin 1 → Fin q) → M) :
    ∑ s, f s = ∑ a, f ![a] := by
  rw [sum_vecCons]
  refine Finset.sum_congr rfl fun a _ => ?_
  rw [Fintype.sum_unique]
  exact congrArg f (by congr 1)

omit [StarRing R] [CommRing R] [DecidableEq R] in
theorem sum_fin2 {M : Type*} [AddCommMonoid M] (f : (Fin 2 → Fin q) → M) :
    ∑ s, f s = ∑ a, ∑ b, f ![a, b] := by
  rw [sum_vecCons]
  exact Finset.sum_congr rfl fun a _ => sum_fin1 _

omit [StarRing R] [CommRing R] [DecidableEq R] in
theorem sum_fin3 {M : Type*} [AddCommMonoid M] (f : (Fin 3 → Fin q) → M) :
    ∑ s, f s = ∑ a, ∑ b, ∑ c, f ![a, b, c] := by
  rw [sum_vecCons]
  exact Finset.sum_congr rfl fun a _ => sum_fin2 _

theorem chainOp_one (k : ℕ) (op : Fin q → Fin q → R) (x : Matrix (Fin D) (Fin D) R) :
    chainOp L A k 1 (fun s t => op (s 0) (t 0)) x = epsROp1 x (A (k % L)) (A (k % L)) op := by
  simp only [chainOp, sum_fin1, chainProd_one, epsROp1_eq]
  rfl

omit [StarRing R] [DecidableEq R] in
theorem chainProd_two (k : ℕ) (a b : Fin q) :
    chainProd L A k 2 ![a, b] = A (k % L) a * A ((k + 1) % L) b := by
  simp [chainProd]

omit [StarRing R] [DecidableEq R] in
theorem chainProd_three (k : ℕ) (a b c : Fin q) :
    chainProd L A k 3 ![a, b, c] = A (k % L) a * (A ((k + 1) % L) b * A ((k + 2) % L) c) := by
  simp [chainProd]

omit [DecidableEq R] in
theorem chainOp_two (k : ℕ) (op : Fin q → Fin q → Fin q → Fin q → R) (x : Matrix (Fin D) (Fin D) R) :
    chainOp L A k 2 (fun s t => op (s 0) (s 1) (t 0) (t 1)) x
      = epsR2 x (calcC op (calcAA (A (k % L)) (A ((k + 1) % L))))
        (calcAA (A (k % L)) (A ((k + 1) % L))) := by
  simp only [chainOp, sum_fin2, chainProd_two, epsR2_eq, calcC_eq, calcAA]
  refine Finset.sum_congr rfl fun a _ => Finset.sum_congr rfl fun b _ => ?_
  simp only [Matrix.sum_mul, Matrix.smul_mul]
  rfl

omit [DecidableEq R] in
theorem chainOp_three (k : ℕ) (op : Fin q → Fin q → Fin q → Fin q → Fin q → Fin q → R)
    (x : Matrix (Fin D) (Fin D) R) :
    chainOp L A k 3 (fun s t => op (s 0) (s 1) (s 2) (t 0) (t 1) (t 2)) x
      = epsR3 x (calcC3 op (calcAAA (A (k % L)) (A ((k + 1) % L)) (A ((k + 2) % L))))
        (calcAAA (A (k % L)) (A ((k + 1) % L)) (A ((k + 2) % L))) := by
  simp only [chainOp, sum_fin3, chainProd_three, epsR3_eq, calcC3_eq, calcAAA]
  refine Finset.sum_congr rfl fun a _ => Finset.sum_congr rfl fun b _ => Finset.sum_congr rfl fun c _ => ?_
  simp only [Matrix.sum_mul, Matrix.smul_mul, Matrix.mul_assoc]
  rfl

end

end EvoMPS
