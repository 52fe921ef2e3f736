import Verif.TangentOverlap
import Verif.Tangent

/-!
# The energy gradient at one site (helper lemmas)

`gradR N ham S k` is the tensor `G` with `⟨Φ_k[b]|H|ψ⟩ = ∑_s tr (G[s] b[s]ᴴ)` for every right
gauge-fixed `b`.
-/

set_option linter.unusedSectionVars false

namespace EvoMPS

open Matrix

variable {R : Type*} [CommRing R] [StarRing R] {q D : ℕ → ℕ} {N : ℕ}

/-- The contribution of the term that starts at site `k`. -/
def gFirst (N : ℕ) (ham : Ham R q) (S : TDVP R q D) (k : ℕ) : Ten R (q k) (D k) (D (k + 1)) :=
  match ham with
  | .two _ => if k + 2 ≤ N then (S.C2 k).elim 0 fun C s =>
      S.l k * epsR (S.r (k + 1 + 1)) (C s) (S.A (k + 1)) else 0
  | .three _ => (S.c3 N k).elim 0 fun C s => S.l k * epsR2 (S.r (k + 2 + 1)) (C s) (S.AA (k + 1))

/-- The contribution of the terms behind site `k`. -/
def gBehind (N : ℕ) (ham : Ham R q) (S : TDVP R q D) (k : ℕ) : Ten R (q k) (D k) (D (k + 1)) :=
  if k + 1 + ham.sites ≤ N then fun s => S.l k * (S.A k s * S.K (k + 1)) else 0

/-- The contribution of the term that starts one site before `k`. -/
def gSecond (N : ℕ) (ham : Ham R q) (S : TDVP R q D) : ∀ k, Ten R (q k) (D k) (D (k + 1))
  | 0 => 0
  | k + 1 => match ham with
    | .two _ => (S.C2 k).elim 0 fun C s => epsL (S.l k) (S.A k) (fun t => C t s) * S.r (k + 1 + 1)
    | .three _ => (S.c3 N k).elim 0 fun C t =>
        ∑ s, (S.l k * S.A k s)ᴴ * epsR (S.r (k + 2 + 1)) (C s t) (S.A (k + 2))

/-- The contribution of the three-site term that starts two sites before `k`. -/
def gThird (N : ℕ) (ham : Ham R q) (S : TDVP R q D) : ∀ k, Ten R (q k) (D k) (D (k + 1))
  | 0 => 0
  | 1 => 0
  | k + 2 => match ham with
    | .two _ => 0
    | .three _ => (S.c3 N k).elim 0 fun C u =>
        epsL2 (S.l k) (S.AA k) (fun s t => C s t u) * S.r (k + 2 + 1)

/-- `∑_s tr (g[s] b[s]ᴴ)`. -/
def pair {p a b : ℕ} (g x : Fin p → Matrix (Fin a) (Fin b) R) : R := ∑ s, (g s * (x s)ᴴ).trace

theorem pair_zero {p a b : ℕ} (x : Fin p → Matrix (Fin a) (Fin b) R) : pair 0 x = 0 := by
  simp [pair]

theorem pair_add {p a b : ℕ} (g g' x : Fin p → Matrix (Fin a) (Fin b) R) :
    pair (g + g') x = pair g x + pair g' x := by
  simp [pair, Matrix.add_mul, Finset.sum_add_distrib]

theorem sum_rot3 {M α β γ : Type*} [AddCommMonoid M] [Fintype α] [Fintype β] [Fintype γ]
    (f : α → β → γ → M) : ∑ a, ∑ b, ∑ c, f a b c = ∑ c, ∑ a, ∑ b, f a b c := by
  rw [Finset.sum_comm' (t' := Finset.univ) (s' := fun _ => Finset.univ) (by simp)]
  rw [Finset.sum_congr rfl fun b _ => Finset.sum_comm]
  rw [Finset.sum_comm]
  exact Finset.sum_congr rfl fun c _ => Finset.sum_comm

/-! ## The terms behind a site -/

/-- The sum of the terms from site `m` on, between `A` and a chain that agrees with it there. -/
theorem tail_mixed (ham : Ham R q) (S : TDVP R q D) (K : Envs R D) (hC : CurrentC N ham S)
    (h : UpToDate N S.A S.l S.r) (h0 : D 0 = 1) (hN : D N = 1)
    (hK : ∀ k < N, K k = if k + ham.sites ≤ N then
      epsR (K (k + 1)) (S.A k) (S.A k) + hrOf ham S k else 0)
    (A' : Tensors R q D) (m : ℕ) (hm : m < N) (hA' : ∀ n, m ≤ n → n < N → A' n = S.A n) :
    adot (mixL S.A A' 1 m) (K m) = ∑ j ∈ Finset.Ico m N,
      matElem (psi A' h0 hN) (ham.term (N := N) j) (psi S.A h0 hN) := by
  obtain ⟨d, hd⟩ : ∃ d, N = m + 1 + d := ⟨N - (m + 1), by omega⟩
  have hs : 2 ≤ ham.sites := by cases ham <;> simp [Ham.sites]
  induction d generalizing m with
  | zero =>
    rw [hK m hm, if_neg (by omega), adot_zero_right]
    symm
    refine Finset.sum_eq_zero fun j hj => term_zero ham j ?_ _ _
    rw [Finset.mem_Ico] at hj
    omega
  | succ d ih =>
    rw [Finset.sum_eq_sum_Ico_succ_bot hm, ← ih (m + 1) (by omega) (fun n h1 h2 => hA' n (by omega) h2)
      (by omega), hK m hm]
    split
    · next hle =>
      have hterm : adot (mixL S.A A' 1 m) (hrOf ham S m)
          = matElem (psi A' h0 hN) (ham.term (N := N) m) (psi S.A h0 hN) := by
        cases ham with
        | two hmm =>
          simp only [Ham.sites] at hle
          rw [Ham.term, dif_pos (show m + 1 < N by omega)]
          simp only [hrOf]
          rw [hC.C2 hmm rfl m (by omega), hC.AA m (by omega)]
          cases hmm m with
          | none => simp [matElem, adot_zero_right]
          | some op =>
            simp only [Option.map_some, Option.elim_some]
            rw [matElem_two h A' h0 hN m (by omega) (fun n h1 h2 => hA' n (by omega) h2), bra2,
              hA' m le_rfl hm, hA' (m + 1) (by omega) (by omega), epsR2_eq]
            rfl
        | three hmm =>
          simp only [Ham.sites] at hle
          rw [Ham.term, dif_pos (show m + 2 < N by omega)]
          simp only [hrOf]
          rw [hC.C3 hmm rfl m (by omega), hC.AAA rfl m (by omega)]
          cases hmm m with
          | none => simp [matElem, adot_zero_right]
          | some op =>
            simp only [Option.map_some, Option.elim_some]
            rw [matElem_three h A' h0 hN m (by omega) (fun n h1 h2 => hA' n (by omega) h2), bra3,
              hA' m le_rfl hm, hA' (m + 1) (by omega) (by omega), hA' (m + 2) (by omega) (by omega),
              epsR3_eq]
            rfl
      rw [adot_add_right, hterm, adot_mixL_step, hA' m le_rfl hm, add_comm]
    · next hgt =>
      rw [term_zero ham m (by omega), adot_zero_right, zero_add]
      rw [hK (m + 1) (by omega), if_neg (by omega), adot_zero_right]

section
variable {S : TDVP R q D} {ham : Ham R q} (h : UpToDate N S.A S.l S.r) (h0 : D 0 = 1) (hN : D N = 1)
  (k : ℕ) (hk : k < N) (b : Fin (q k) → Matrix (Fin (D k)) (Fin (D (k + 1))) R)

include h hk in
theorem mixL_front : mixL S.A (Function.update S.A k b) 1 k = S.l k := by
  rw [h.l_eq k hk.le]
  exact mixL_congr (fun _ _ => rfl) fun m hm => Function.update_of_ne (by omega) _ _

include h hk in
theorem mixL_at : mixL S.A (Function.update S.A k b) 1 (k + 1) = ∑ s, (S.A k s)ᴴ * S.l k * b s := by
  rw [mixL_succ, mixL_front h k hk b, Function.update_self]

include h hk in
theorem pair_first (hC : CurrentC N ham S) :
    matElem (oneSite (N := N) S.A h0 hN k b) (ham.term (N := N) k) (psi S.A h0 hN)
      = pair (gFirst N ham S k) b := by
  have hl := h.l_herm k hk.le
  cases ham with
  | two hm =>
    rw [Ham.term, gFirst]
    by_cases hkN : k + 1 < N
    · simp only [dif_pos hkN, if_pos (show k + 2 ≤ N by omega)]
      rw [hC.C2 hm rfl k hkN]
      cases hm k with
      | none => simp [matElem, pair]
      | some op =>
        simp only [Option.map_some, Option.elim_some]
        rw [oneSite, matElem_two h _ h0 hN k hkN
          (fun n h1 _ => Function.update_of_ne (by omega) _ _), mixL_front h k hk b,
          Function.update_self, Function.update_of_ne (by omega), bra2, pair, adot_eq_trace, hl,
          Matrix.mul_sum, Matrix.trace_sum]
        refine Finset.sum_congr rfl fun s _ => ?_
        rw [epsR_eq]
        simp only [Matrix.conjTranspose_mul, Matrix.mul_sum, Matrix.sum_mul, Matrix.mul_assoc]
    · simp only [dif_neg hkN, if_neg (show ¬ k + 2 ≤ N by omega)]
      simp [matElem, pair]
  | three hm =>
    rw [Ham.term, gFirst]
    by_cases hkN : k + 2 < N
    · simp only [dif_pos hkN, TDVP.c3, if_pos (show k + 3 ≤ N by omega)]
      rw [hC.C3 hm rfl k hkN]
      cases hm k with
      | none => simp [matElem, pair]
      | some op =>
        simp only [Option.map_some, Option.elim_some]
        rw [oneSite, matElem_three h _ h0 hN k hkN
          (fun n h1 _ => Function.update_of_ne (by omega) _ _), mixL_front h k hk b,
          Function.update_self, Function.update_of_ne (by omega), Function.update_of_ne (by omega),
          bra3, pair, adot_eq_trace, hl,
          Matrix.mul_sum, Matrix.trace_sum, hC.AA (k + 1) (by omega)]
        refine Finset.sum_congr rfl fun s _ => ?_
        rw [epsR2_eq]
        simp only [Matrix.conjTranspose_mul, Matrix.mul_sum, Matrix.sum_mul, Matrix.mul_assoc, calcAA]
    · simp only [dif_neg hkN, TDVP.c3, if_neg (show ¬ k + 3 ≤ N by omega)]
      simp [matElem, pair]

include h hk in
theorem pair_behind (hC : CurrentC N ham S)
    (hK : ∀ k < N, S.K k = if k + ham.sites ≤ N then
      epsR (S.K (k + 1)) (S.A k) (S.A k) + hrOf ham S k else 0) :
    ∑ j ∈ Finset.Ico (k + 1) N,
      matElem (oneSite (N := N) S.A h0 hN k b) (ham.term (N := N) j) (psi S.A h0 hN)
      = pair (gBehind N ham S k) b := by
  have hs : 2 ≤ ham.sites := by cases ham <;> simp [Ham.sites]
  rcases Nat.lt_or_ge (k + 1) N with hlt | hge
  · rw [oneSite, ← tail_mixed ham S S.K hC h h0 hN hK _ (k + 1) hlt
      (fun n h1 _ => Function.update_of_ne (by omega) _ _), gBehind]
    by_cases hle : k + 1 + ham.sites ≤ N
    · rw [if_pos hle, mixL_at h k hk b, pair, adot_eq_trace]
      simp only [Matrix.conjTranspose_sum, Matrix.sum_mul, Matrix.trace_sum]
      refine Finset.sum_congr rfl fun s _ => ?_
      rw [Matrix.conjTranspose_mul, Matrix.conjTranspose_mul, Matrix.conjTranspose_conjTranspose,
        h.l_herm k hk.le, Matrix.mul_assoc, Matrix.trace_mul_comm]
      simp only [Matrix.mul_assoc]
    · rw [if_neg hle, hK (k + 1) hlt, if_neg hle, adot_zero_right, pair_zero]
  · rw [Finset.Ico_eq_empty (by omega), Finset.sum_empty, gBehind, if_neg (by omega), pair_zero]

end

section
variable {S : TDVP R q D} {ham : Ham R q} (h : UpToDate N S.A S.l S.r) (h0 : D 0 = 1) (hN : D N = 1)
  (k : ℕ)

include h in
theorem pair_second (hk : k + 1 < N)
    (b : Fin (q (k + 1)) → Matrix (Fin (D (k + 1))) (Fin (D (k + 1 + 1))) R) (hC : CurrentC N ham S) :
    matElem (oneSite (N := N) S.A h0 hN (k + 1) b) (ham.term (N := N) k) (psi S.A h0 hN)
      = pair (gSecond N ham S (k + 1)) b := by
  have hl := h.l_herm k (by omega)
  have hfr : mixL S.A (Function.update S.A (k + 1) b) 1 k = S.l k := by
    rw [h.l_eq k (by omega)]
    exact mixL_congr (fun _ _ => rfl) fun m hm => Function.update_of_ne (by omega) _ _
  cases ham with
  | two hm =>
    rw [Ham.term, gSecond]
    simp only [dif_pos hk]
    rw [hC.C2 hm rfl k hk]
    cases hm k with
    | none => simp [matElem, pair]
    | some op =>
      simp only [Option.map_some, Option.elim_some]
      rw [oneSite, matElem_two h _ h0 hN k hk
        (fun n h1 _ => Function.update_of_ne (by omega) _ _), hfr,
        Function.update_self, Function.update_of_ne (by omega), bra2, pair, adot_eq_trace, hl]
      simp only [epsL_eq, Matrix.mul_sum, Matrix.sum_mul, Matrix.trace_sum]
      rw [Finset.sum_comm]
      refine Finset.sum_congr rfl fun s _ => Finset.sum_congr rfl fun t _ => ?_
      simp only [Matrix.conjTranspose_mul, Matrix.mul_assoc]
      rw [Matrix.trace_mul_comm ((S.A k t)ᴴ)]
      simp only [Matrix.mul_assoc]
  | three hm =>
    rw [Ham.term, gSecond]
    by_cases hkN : k + 2 < N
    · simp only [dif_pos hkN, TDVP.c3, if_pos (show k + 3 ≤ N by omega)]
      rw [hC.C3 hm rfl k hkN]
      cases hm k with
      | none => simp [matElem, pair]
      | some op =>
        simp only [Option.map_some, Option.elim_some]
        rw [oneSite, matElem_three h _ h0 hN k hkN
          (fun n h1 _ => Function.update_of_ne (by omega) _ _), hfr,
          Function.update_self, Function.update_of_ne (by omega), Function.update_of_ne (by omega),
          bra3, pair, adot_eq_trace, hl]
        simp only [epsR_eq, Matrix.mul_sum, Matrix.sum_mul, Matrix.trace_sum]
        rw [Finset.sum_comm]
        refine Finset.sum_congr rfl fun s _ => Finset.sum_congr rfl fun t _ =>
          Finset.sum_congr rfl fun u _ => ?_
        rw [Matrix.conjTranspose_mul, Matrix.conjTranspose_mul, Matrix.conjTranspose_mul, hl,
          Matrix.mul_assoc, Matrix.mul_assoc, Matrix.mul_assoc, Matrix.trace_mul_comm ((S.A k t)ᴴ)]
        simp only [Matrix.mul_assoc]
    · simp only [dif_neg hkN, TDVP.c3, if_neg (show ¬ k + 3 ≤ N by omega)]
      simp [matElem, pair]

include h in
theorem pair_third (hk : k + 2 < N) (hm : ∀ k, Option (Fin (q k) → Fin (q (k + 1)) →
    Fin (q (k + 2)) → Fin (q k) → Fin (q (k + 1)) → Fin (q (k + 2)) → R))
    (b : Fin (q (k + 2)) → Matrix (Fin (D (k + 2))) (Fin (D (k + 2 + 1))) R)
    (hC : CurrentC N (.three hm) S) :
    matElem (oneSite (N := N) S.A h0 hN (k + 2) b) ((Ham.three hm).term (N := N) k) (psi S.A h0 hN)
      = pair (gThird N (.three hm) S (k + 2)) b := by
  have hl := h.l_herm k (by omega)
  have hfr : mixL S.A (Function.update S.A (k + 2) b) 1 k = S.l k := by
    rw [h.l_eq k (by omega)]
    exact mixL_congr (fun _ _ => rfl) fun m hm => Function.update_of_ne (by omega) _ _
  rw [Ham.term, gThird]
  simp only [dif_pos hk, TDVP.c3, if_pos (show k + 3 ≤ N by omega)]
  rw [hC.C3 hm rfl k hk]
  cases hm k with
  | none => simp [matElem, pair]
  | some op =>
    simp only [Option.map_some, Option.elim_some]
    rw [oneSite, matElem_three h _ h0 hN k hk
      (fun n h1 _ => Function.update_of_ne (by omega) _ _), hfr,
      Function.update_self, Function.update_of_ne (by omega), Function.update_of_ne (by omega),
      bra3, pair, adot_eq_trace, hl, hC.AA k (by omega)]
    simp only [epsL2_eq, Matrix.mul_sum, Matrix.sum_mul, Matrix.trace_sum, calcAA]
    rw [sum_rot3]
    refine Finset.sum_congr rfl fun u _ => Finset.sum_congr rfl fun s _ =>
      Finset.sum_congr rfl fun t _ => ?_
    simp only [Matrix.conjTranspose_mul, Matrix.mul_assoc]
    rw [Matrix.trace_mul_comm ((S.A (k + 1) t)ᴴ)]
    simp only [Matrix.mul_assoc]
    rw [Matrix.trace_mul_comm ((S.A k s)ᴴ)]
    simp only [Matrix.mul_assoc]

end

/-- The energy gradient at site `k`. -/
def gradR (N : ℕ) (ham : Ham R q) (S : TDVP R q D) (k : ℕ) : Ten R (q k) (D k) (D (k + 1)) :=
  gFirst N ham S k + gBehind N ham S k + gSecond N ham S k + gThird N ham S k

theorem sum_split_at (f : ℕ → R) {k N : ℕ} (hk : k < N) :
    ∑ j ∈ Finset.range N, f j
      = ∑ j ∈ Finset.range k, f j + f k + ∑ j ∈ Finset.Ico (k + 1) N, f j := by
  rw [← Finset.sum_range_succ, Finset.sum_range_add_sum_Ico f (show k + 1 ≤ N by omega)]

theorem matElem_grad {S : TDVP R q D} {ham : Ham R q} (h : UpToDate N S.A S.l S.r) (h0 : D 0 = 1)
    (hN : D N = 1) (hC : CurrentC N ham S)
    (hK : ∀ k < N, S.K k = if k + ham.sites ≤ N then
      epsR (S.K (k + 1)) (S.A k) (S.A k) + hrOf ham S k else 0)
    (k : ℕ) (hk : k < N) (b : Fin (q k) → Matrix (Fin (D k)) (Fin (D (k + 1))) R)
    (hb : RightGauge (S.A k) b (S.r (k + 1))) :
    matElem (oneSite (N := N) S.A h0 hN k b) (ham.total (N := N)) (psi S.A h0 hN)
      = pair (gradR N ham S k) b := by
  rw [matElem_total, sum_split_at _ hk, pair_first h h0 hN k hk b hC,
    pair_behind h h0 hN k hk b hC hK, gradR, pair_add, pair_add, pair_add]
  have hlow : ∑ j ∈ Finset.range k,
      matElem (oneSite (N := N) S.A h0 hN k b) (ham.term (N := N) j) (psi S.A h0 hN)
      = pair (gSecond N ham S k) b + pair (gThird N ham S k) b := by
    match k with
    | 0 => simp [gSecond, gThird, pair_zero]
    | 1 =>
      rw [Finset.sum_range_succ, Finset.sum_range_zero, zero_add, pair_second h h0 hN 0 hk b hC]
      simp [gThird, pair_zero]
    | k + 2 =>
      rw [Finset.sum_range_succ, pair_second h h0 hN (k + 1) hk b hC, add_comm]
      congr 1
      cases ham with
      | two hm =>
        rw [Finset.sum_eq_zero]
        · simp [gThird, pair_zero]
        · intro j hj
          rw [Finset.mem_range] at hj
          exact matElem_before h h0 hN _ (k + 2) hk b hb j (by simp only [Ham.sites]; omega)
      | three hm =>
        rw [Finset.sum_range_succ, Finset.sum_eq_zero, zero_add, pair_third h h0 hN k hk hm b hC]
        intro j hj
        rw [Finset.mem_range] at hj
        exact matElem_before h h0 hN _ (k + 2) hk b hb j (by simp only [Ham.sites]; omega)
  rw [hlow]
  ring

/-! ## The matrices `x` -/

section
variable {S : TDVP R q D} {v : ℕ}

/-- The result of `calc_x`. -/
theorem calcX_eq {pm p pp z a b c : ℕ} (Kp1 : Option (Matrix (Fin b) (Fin b) R))
    (C : Option (Ten2 R p pp a c)) (Cm1 : Option (Ten2 R pm p z b)) (rp1 : Matrix (Fin c) (Fin c) R)
    (lm2 : Matrix (Fin z) (Fin z) R) (Am1 : Ten R pm z a) (A : Ten R p a b) (Ap1 : Ten R pp b c)
    (l_s l_si : Matrix (Fin a) (Fin a) R) (r_s r_si : Matrix (Fin b) (Fin b) R)
    (Vsh : Fin p → Matrix (Fin b) (Fin v) R) :
    calcX Kp1 C Cm1 rp1 lm2 Am1 A Ap1 l_s l_si r_s r_si Vsh
      = ∑ s, l_s * (C.elim 0 (fun C s => epsR rp1 (C s) Ap1) s) * (r_si * Vsh s)
        + ∑ s, l_s * (Kp1.elim 0 fun K => A s * K) * (r_si * Vsh s)
        + ∑ s, l_si * (Cm1.elim 0 (fun C s => epsL lm2 Am1 fun t => C t s) s) * (r_s * Vsh s) := by
  unfold calcX
  cases C <;> cases Kp1 <;> cases Cm1 <;>
    simp [forSum_eq, Matrix.mul_sum, Matrix.add_mul, Matrix.mul_add, Finset.sum_add_distrib,
      Matrix.mul_assoc]

theorem calcX3_eq {pmm pm p pp ppp y z a b c d : ℕ} (Kp1 : Option (Matrix (Fin b) (Fin b) R))
    (C : Option (Ten3 R p pp ppp a d)) (Cm1 : Option (Ten3 R pm p pp z c))
    (Cm2 : Option (Ten3 R pmm pm p y b)) (rp1 : Matrix (Fin c) (Fin c) R)
    (rp2 : Matrix (Fin d) (Fin d) R) (lm2 : Option (Matrix (Fin z) (Fin z) R))
    (lm3 : Option (Matrix (Fin y) (Fin y) R)) (Am2Am1 : Ten2 R pmm pm y a) (Am1 : Ten R pm z a)
    (A : Ten R p a b) (Ap1 : Ten R pp b c) (Ap1Ap2 : Ten2 R pp ppp b d)
    (l_s l_si : Matrix (Fin a) (Fin a) R) (r_s r_si : Matrix (Fin b) (Fin b) R)
    (Vsh : Fin p → Matrix (Fin b) (Fin v) R) (hCK : C = none → Kp1 = none)
    (h3 : lm3.isSome → Cm2.isSome) :
    calcX3 Kp1 C Cm1 Cm2 rp1 rp2 lm2 lm3 Am2Am1 Am1 A Ap1 Ap1Ap2 l_s l_si r_s r_si Vsh
      = some (∑ s, l_s * (C.elim 0 (fun C s => epsR2 rp2 (C s) Ap1Ap2) s) * (r_si * Vsh s)
        + ∑ s, l_s * (Kp1.elim 0 fun K => A s * K) * (r_si * Vsh s)
        + ∑ t, l_si * (lm2.elim 0 (fun lm2 => Cm1.elim 0 (fun C t =>
            ∑ s, (lm2 * Am1 s)ᴴ * epsR rp1 (C s t) Ap1)) t) * (r_si * Vsh t)
        + ∑ u, l_si * (lm3.elim 0 (fun lm3 => Cm2.elim 0 (fun C u =>
            epsL2 lm3 Am2Am1 (fun s t => C s t u))) u) * (r_s * Vsh u)) := by
  unfold calcX3
  cases C <;> cases Kp1 <;> cases lm2 <;> cases Cm1 <;> cases lm3 <;> cases Cm2 <;>
    simp_all [forSum_eq, Matrix.mul_sum, Matrix.sum_mul, Matrix.add_mul, Matrix.mul_add, Finset.sum_add_distrib,
      Matrix.mul_assoc]

/-- The result of `calc_x_3s`, if there is one. -/
theorem calcX3_val {pmm pm p pp ppp y z a b c d : ℕ} (Kp1 : Option (Matrix (Fin b) (Fin b) R))
    (C : Option (Ten3 R p pp ppp a d)) (Cm1 : Option (Ten3 R pm p pp z c))
    (Cm2 : Option (Ten3 R pmm pm p y b)) (rp1 : Matrix (Fin c) (Fin c) R)
    (rp2 : Matrix (Fin d) (Fin d) R) (lm2 : Option (Matrix (Fin z) (Fin z) R))
    (lm3 : Option (Matrix (Fin y) (Fin y) R)) (Am2Am1 : Ten2 R pmm pm y a) (Am1 : Ten R pm z a)
    (A : Ten R p a b) (Ap1 : Ten R pp b c) (Ap1Ap2 : Ten2 R pp ppp b d)
    (l_s l_si : Matrix (Fin a) (Fin a) R) (r_s r_si : Matrix (Fin b) (Fin b) R)
    (Vsh : Fin p → Matrix (Fin b) (Fin v) R) {x}
    (h : calcX3 Kp1 C Cm1 Cm2 rp1 rp2 lm2 lm3 Am2Am1 Am1 A Ap1 Ap1Ap2 l_s l_si r_s r_si Vsh = some x) :
    (C = none → Kp1 = none) ∧ (lm3.isSome → Cm2.isSome) := by
  unfold calcX3 at h
  cases C <;> cases Kp1 <;> cases lm3 <;> cases Cm2 <;> simp_all

/-- No three-site term is missing. -/
def NoneMissing (N : ℕ) (ham : Ham R q) : Prop :=
  match ham with
  | .two _ => True
  | .three hm => ∀ k, k + 2 < N → hm k ≠ none

theorem c3_some {hm : ∀ k, Option (Fin (q k) → Fin (q (k + 1)) → Fin (q (k + 2)) →
    Fin (q k) → Fin (q (k + 1)) → Fin (q (k + 2)) → R)} (hC : CurrentC N (.three hm) S)
    (hall : NoneMissing N (.three hm)) (k : ℕ) (hk : k + 3 ≤ N) : (S.c3 N k).isSome := by
  rw [TDVP.c3, if_pos hk, hC.C3 hm rfl k (by omega), Option.isSome_map, Option.isSome_iff_ne_none]
  exact hall k (by omega)

theorem grad_expand (ham : Ham R q) (k : ℕ) (Vsh : Fin (q k) → Matrix (Fin (D (k + 1))) (Fin v) R)
    (l_si : Matrix (Fin (D k)) (Fin (D k)) R) :
    l_si * ∑ s, gradR N ham S k s * Vsh s
      = ∑ s, l_si * gFirst N ham S k s * Vsh s + ∑ s, l_si * gBehind N ham S k s * Vsh s
        + ∑ s, l_si * gSecond N ham S k s * Vsh s + ∑ s, l_si * gThird N ham S k s * Vsh s := by
  simp only [gradR, Pi.add_apply, Matrix.add_mul, Finset.sum_add_distrib, Matrix.mul_add,
    Matrix.mul_sum, Matrix.mul_assoc]

theorem gFirst_two (hm) (k : ℕ) (l_si : Matrix (Fin (D k)) (Fin (D k)) R) (s : Fin (q k)) :
    l_si * gFirst N (.two hm) S k s = l_si * S.l k * ((if k + 2 ≤ N then S.C2 k else none).elim 0
      (fun C s => epsR (S.r (k + 1 + 1)) (C s) (S.A (k + 1))) s) := by
  rw [gFirst]
  split
  · cases S.C2 k <;> simp [Matrix.mul_assoc]
  · simp

theorem gFirst_three (hm) (k : ℕ) (l_si : Matrix (Fin (D k)) (Fin (D k)) R) (s : Fin (q k)) :
    l_si * gFirst N (.three hm) S k s = l_si * S.l k * ((S.c3 N k).elim 0
      (fun C s => epsR2 (S.r (k + 2 + 1)) (C s) (S.AA (k + 1))) s) := by
  rw [gFirst]
  cases S.c3 N k <;> simp [Matrix.mul_assoc]

theorem gBehind_opt (ham : Ham R q) (k : ℕ) (l_si : Matrix (Fin (D k)) (Fin (D k)) R) (s : Fin (q k)) :
    l_si * gBehind N ham S k s = l_si * S.l k *
      ((if k + 1 + ham.sites ≤ N then some (S.K (k + 1)) else none).elim 0 fun K => S.A k s * K) := by
  rw [gBehind]
  split <;> simp [Matrix.mul_assoc]

theorem gSecond_two (hm) (k : ℕ) (l_si : Matrix (Fin (D (k + 1))) (Fin (D (k + 1))) R)
    (r_si : Matrix (Fin (D (k + 1 + 1))) (Fin v) R) (s : Fin (q (k + 1))) :
    l_si * gSecond N (.two hm) S (k + 1) s * r_si = l_si * ((S.C2 k).elim 0
      (fun C s => epsL (S.l k) (S.A k) fun t => C t s) s) * (S.r (k + 1 + 1) * r_si) := by
  rw [gSecond]
  cases S.C2 k <;> simp [Matrix.mul_assoc]

theorem gSecond_three (hm) (k : ℕ) (s : Fin (q (k + 1))) :
    gSecond N (.three hm) S (k + 1) s = (S.c3 N k).elim 0 (fun C t =>
      ∑ s, (S.l k * S.A k s)ᴴ * epsR (S.r (k + 2 + 1)) (C s t) (S.A (k + 2))) s := rfl

theorem gThird_three (hm) (k : ℕ) (l_si : Matrix (Fin (D (k + 2))) (Fin (D (k + 2))) R)
    (r_si : Matrix (Fin (D (k + 2 + 1))) (Fin v) R) (s : Fin (q (k + 2))) :
    l_si * gThird N (.three hm) S (k + 2) s * r_si = l_si * ((S.c3 N k).elim 0
      (fun C u => epsL2 (S.l k) (S.AA k) fun s t => C s t u) s) * (S.r (k + 2 + 1) * r_si) := by
  rw [gThird]
  cases S.c3 N k <;> simp [Matrix.mul_assoc]

theorem calcXn_eq {ham : Ham R q} (hC : CurrentC N ham S) (hall : NoneMissing N ham) (k : ℕ)
    (hk : k < N) (Vsh : Fin (q k) → Matrix (Fin (D (k + 1))) (Fin v) R)
    (l_s l_si : Matrix (Fin (D k)) (Fin (D k)) R)
    (r_s r_si : Matrix (Fin (D (k + 1))) (Fin (D (k + 1))) R) (hl : l_si * S.l k = l_s)
    (hr : S.r (k + 1) * r_si = r_s) :
    calcXn N ham S k Vsh l_s l_si r_s r_si
      = some (l_si * ∑ s, gradR N ham S k s * (r_si * Vsh s)) := by
  subst hl hr
  rw [grad_expand]
  simp only [gBehind_opt]
  have hK3 : ∀ hm, ham = .three hm → ∀ j, S.c3 N j = none →
      (if j + 1 + ham.sites ≤ N then some (S.K (j + 1)) else none) = none := by
    rintro hm rfl j hj
    rw [if_neg]
    intro hle
    have := c3_some hC hall j (by simp only [Ham.sites] at hle; omega)
    rw [hj] at this
    exact absurd this (by simp)
  match k with
  | 0 =>
    cases ham with
    | two hm =>
      simp only [calcXn, calcX_eq, gFirst_two, gSecond, gThird, Option.elim_none, Pi.zero_apply,
        Matrix.mul_zero, Matrix.zero_mul, Finset.sum_const_zero, add_zero]
    | three hm =>
      rw [calcXn, calcX3_eq _ _ _ _ _ _ _ _ _ _ _ _ _ _ _ _ _ _ (hK3 hm rfl 0) (by simp)]
      simp only [gFirst_three, gSecond, gThird, Option.elim_none, Pi.zero_apply,
        Matrix.mul_zero, Matrix.zero_mul, Finset.sum_const_zero, add_zero]
  | 1 =>
    cases ham with
    | two hm =>
      simp only [calcXn, calcX_eq, gFirst_two, gSecond_two, gThird, Pi.zero_apply,
        Matrix.mul_zero, Matrix.zero_mul, Finset.sum_const_zero, add_zero, Matrix.mul_assoc (S.r _)]
    | three hm =>
      rw [calcXn, calcX3_eq _ _ _ _ _ _ _ _ _ _ _ _ _ _ _ _ _ _ (hK3 hm rfl 1) (by simp)]
      simp only [gFirst_three, gSecond_three, gThird, Option.elim_none, Pi.zero_apply,
        Matrix.mul_zero, Matrix.zero_mul, Finset.sum_const_zero, add_zero]
      rfl
  | k + 2 =>
    cases ham with
    | two hm =>
      simp only [calcXn, calcX_eq, gFirst_two, gSecond_two, gThird, Pi.zero_apply,
        Matrix.mul_zero, Matrix.zero_mul, Finset.sum_const_zero, add_zero, Matrix.mul_assoc (S.r _)]
    | three hm =>
      rw [calcXn, calcX3_eq _ _ _ _ _ _ _ _ _ _ _ _ _ _ _ _ _ _ (hK3 hm rfl (k + 2))
        (fun _ => c3_some hC hall k (by omega))]
      simp only [gFirst_three, gSecond_three, gThird_three, Matrix.mul_assoc (S.r _)]
      rfl

/-- The result of `calc_x`, if there is one. -/
theorem calcXn_val {ham : Ham R q} (k : ℕ)
    (Vsh : Fin (q k) → Matrix (Fin (D (k + 1))) (Fin v) R)
    (l_s l_si : Matrix (Fin (D k)) (Fin (D k)) R)
    (r_s r_si : Matrix (Fin (D (k + 1))) (Fin (D (k + 1))) R) (hl : l_si * S.l k = l_s)
    (hr : S.r (k + 1) * r_si = r_s) {x} (hx : calcXn N ham S k Vsh l_s l_si r_s r_si = some x) :
    x = l_si * ∑ s, gradR N ham S k s * (r_si * Vsh s) := by
  subst hl hr
  refine Option.some.inj (hx.symm.trans ?_)
  rw [grad_expand]
  simp only [gBehind_opt]
  match k with
  | 0 =>
    cases ham with
    | two hm =>
      simp only [calcXn, calcX_eq, gFirst_two, gSecond, gThird, Option.elim_none, Pi.zero_apply,
        Matrix.mul_zero, Matrix.zero_mul, Finset.sum_const_zero, add_zero]
    | three hm =>
      rw [calcXn] at hx
      obtain ⟨h1, h2⟩ := calcX3_val _ _ _ _ _ _ _ _ _ _ _ _ _ _ _ _ _ _ hx
      rw [calcXn, calcX3_eq _ _ _ _ _ _ _ _ _ _ _ _ _ _ _ _ _ _ h1 h2]
      simp only [gFirst_three, gSecond, gThird, Option.elim_none, Pi.zero_apply,
        Matrix.mul_zero, Matrix.zero_mul, Finset.sum_const_zero, add_zero]
  | 1 =>
    cases ham with
    | two hm =>
      simp only [calcXn, calcX_eq, gFirst_two, gSecond_two, gThird, Pi.zero_apply,
        Matrix.mul_zero, Matrix.zero_mul, Finset.sum_const_zero, add_zero, Matrix.mul_assoc (S.r _)]
    | three hm =>
      rw [calcXn] at hx
      obtain ⟨h1, h2⟩ := calcX3_val _ _ _ _ _ _ _ _ _ _ _ _ _ _ _ _ _ _ hx
      rw [calcXn, calcX3_eq _ _ _ _ _ _ _ _ _ _ _ _ _ _ _ _ _ _ h1 h2]
      simp only [gFirst_three, gSecond_three, gThird, Option.elim_none, Pi.zero_apply,
        Matrix.mul_zero, Matrix.zero_mul, Finset.sum_const_zero, add_zero]
      rfl
  | k + 2 =>
    cases ham with
    | two hm =>
      simp only [calcXn, calcX_eq, gFirst_two, gSecond_two, gThird, Pi.zero_apply,
        Matrix.mul_zero, Matrix.zero_mul, Finset.sum_const_zero, add_zero, Matrix.mul_assoc (S.r _)]
    | three hm =>
      rw [calcXn] at hx
      obtain ⟨h1, h2⟩ := calcX3_val _ _ _ _ _ _ _ _ _ _ _ _ _ _ _ _ _ _ hx
      rw [calcXn, calcX3_eq _ _ _ _ _ _ _ _ _ _ _ _ _ _ _ _ _ _ h1 h2]
      simp only [gFirst_three, gSecond_three, gThird_three, Matrix.mul_assoc (S.r _)]
      rfl

end

end EvoMPS
