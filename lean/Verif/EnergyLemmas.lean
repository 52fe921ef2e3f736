import Verif.Energy
import Verif.Correl
import Mathlib.Algebra.BigOperators.Intervals

/-!
# Energy recursion (helper lemmas)
-/

set_option linter.unusedSectionVars false

namespace EvoMPS

open Matrix

variable {R : Type*} [CommRing R] [StarRing R] {q D : ℕ → ℕ} {N : ℕ}

/-! ## The loops of `calc_C` -/

theorem foldPoint_spec {X : ℕ → Type*} (f : ∀ n, X n) (x0 : ∀ n, X n) (a m : ℕ) :
    let y := (List.range' a m).foldl (fun x n => Function.update x n (f n)) x0
    (∀ n, n < a ∨ a + m ≤ n → y n = x0 n) ∧ ∀ n, a ≤ n → n < a + m → y n = f n := by
  induction m with
  | zero => exact ⟨fun n _ => rfl, fun n h1 h2 => by omega⟩
  | succ m ih =>
    obtain ⟨ih1, ih2⟩ := ih
    rw [List.range'_concat, List.foldl_append]
    simp only [List.foldl_cons, List.foldl_nil, Nat.one_mul]
    refine ⟨fun n hn => ?_, fun n h1 h2 => ?_⟩
    · rw [Function.update_of_ne (by omega), ih1 n (by omega)]
    · rcases Nat.lt_or_ge n (a + m) with h | h
      · rw [Function.update_of_ne (by omega), ih2 n h1 h]
      · obtain rfl : n = a + m := by omega
        rw [Function.update_self]

/-- A fold over a structure that only changes one field. -/
theorem foldl_field {σ τ ι : Type*} (set : σ → τ → σ) (get : σ → τ) (F : σ → ι → σ)
    (f : τ → ι → τ) (S0 : σ) (h : ∀ x i, F (set S0 x) i = set S0 (f x i))
    (hset : set S0 (get S0) = S0) (L : List ι) :
    L.foldl F S0 = set S0 (L.foldl f (get S0)) := by
  have : ∀ x, L.foldl F (set S0 x) = set S0 (L.foldl f x) := by
    induction L with
    | nil => intro x; rfl
    | cons i L ih => intro x; rw [List.foldl_cons, h, ih, List.foldl_cons]
  rw [← this, hset]

/-- Replace one field. -/
def TDVP.setAA (S : TDVP R q D) (x : ∀ k, Ten2 R (q k) (q (k + 1)) (D k) (D (k + 1 + 1))) :
    TDVP R q D := { S with AA := x }
/-- Replace one field. -/
def TDVP.setAAA (S : TDVP R q D)
    (x : ∀ k, Ten3 R (q k) (q (k + 1)) (q (k + 2)) (D k) (D (k + 2 + 1))) :
    TDVP R q D := { S with AAA := x }
/-- Replace one field. -/
def TDVP.setC2 (S : TDVP R q D)
    (x : ∀ k, Option (Ten2 R (q k) (q (k + 1)) (D k) (D (k + 1 + 1)))) :
    TDVP R q D := { S with C2 := x }
/-- Replace one field. -/
def TDVP.setC3 (S : TDVP R q D)
    (x : ∀ k, Option (Ten3 R (q k) (q (k + 1)) (q (k + 2)) (D k) (D (k + 2 + 1)))) :
    TDVP R q D := { S with C3 := x }
/-- Replace two fields. -/
def TDVP.setKh (S : TDVP R q D) (p : Envs R D × (ℕ → R)) : TDVP R q D :=
  { S with K := p.1, h := p.2 }
/-- Replace two fields. -/
def TDVP.setKlh (S : TDVP R q D) (p : Envs R D × (ℕ → R)) : TDVP R q D :=
  { S with Kl := p.1, h := p.2 }

theorem calcAAs_spec (ham : Ham R q) (S : TDVP R q D) :
    (calcAAs N ham S).toMPS = S.toMPS ∧
      (∀ k, k + 1 < N → (calcAAs N ham S).AA k = calcAA (S.A k) (S.A (k + 1))) ∧
      (ham.sites = 3 → ∀ k, k + 2 < N →
        (calcAAs N ham S).AAA k = calcAAA (S.A k) (S.A (k + 1)) (S.A (k + 2))) := by
  have e1 := foldl_field TDVP.setAA TDVP.AA (fun (S : TDVP R q D) k =>
      S.setAA (Function.update S.AA k (calcAA (S.A k) (S.A (k + 1)))))
      (fun AA k => Function.update AA k (calcAA (S.A k) (S.A (k + 1)))) S
      (fun _ _ => rfl) rfl (List.range' 0 (N - 1))
  have a2 := (foldPoint_spec (fun k => calcAA (S.A k) (S.A (k + 1))) S.AA 0 (N - 1)).2
  have e : calcAAs N ham S = if ham.sites = 3 then
    (List.range' 0 (N - 2)).foldl (fun S k =>
      S.setAAA (Function.update S.AAA k (calcAAA_AA (S.AA k) (S.A (k + 2)))))
      ((List.range' 0 (N - 1)).foldl (fun (S : TDVP R q D) k =>
      S.setAA (Function.update S.AA k (calcAA (S.A k) (S.A (k + 1))))) S)
    else (List.range' 0 (N - 1)).foldl (fun (S : TDVP R q D) k =>
      S.setAA (Function.update S.AA k (calcAA (S.A k) (S.A (k + 1))))) S := rfl
  rw [e1] at e
  rw [e]
  split
  · generalize hS1 : S.setAA _ = S1
    rw [foldl_field TDVP.setAAA TDVP.AAA _
      (fun AAA k => Function.update AAA k (calcAAA_AA (S1.AA k) (S1.A (k + 2)))) S1
        (fun _ _ => rfl) rfl]
    have b2 := (foldPoint_spec (fun k => calcAAA_AA (S1.AA k) (S1.A (k + 2))) S1.AAA 0 (N - 2)).2
    have hAA : ∀ k, k + 1 < N → S1.AA k = calcAA (S.A k) (S.A (k + 1)) := by
      subst hS1
      exact fun k hk => a2 k (by omega) (by omega)
    have hM : S1.toMPS = S.toMPS := by subst hS1; rfl
    refine ⟨hM, hAA, fun _ k hk => (b2 k (by omega) (by omega)).trans ?_⟩
    rw [hAA k (by omega), hM]; rfl
  · next h3 =>
    exact ⟨rfl, fun k hk => a2 k (by omega) (by omega), fun h => absurd h h3⟩

/-- The contribution of term `k` to `K[k]`. -/
def hrOf (ham : Ham R q) (S : TDVP R q D) (k : ℕ) : Matrix (Fin (D k)) (Fin (D k)) R :=
  match ham with
  | .two _ => (S.C2 k).elim 0 fun C => epsR2 (S.r (k + 1 + 1)) C (S.AA k)
  | .three _ => (S.C3 k).elim 0 fun C => epsR3 (S.r (k + 2 + 1)) C (S.AAA k)

/-- The `C` and product tensors belong to the site tensors. -/
structure CurrentC (N : ℕ) (ham : Ham R q) (S : TDVP R q D) : Prop where
  AA : ∀ k, k + 1 < N → S.AA k = calcAA (S.A k) (S.A (k + 1))
  AAA : ham.sites = 3 → ∀ k, k + 2 < N → S.AAA k = calcAAA (S.A k) (S.A (k + 1)) (S.A (k + 2))
  C2 : ∀ h, ham = .two h → ∀ k, k + 1 < N →
    S.C2 k = (h k).map fun op => calcC op (calcAA (S.A k) (S.A (k + 1)))
  C3 : ∀ h, ham = .three h → ∀ k, k + 2 < N →
    S.C3 k = (h k).map fun op => calcC3 op (calcAAA (S.A k) (S.A (k + 1)) (S.A (k + 2)))

theorem calcCs_spec (ham : Ham R q) (S : TDVP R q D) :
    (calcCs N ham S).toMPS = S.toMPS ∧ CurrentC N ham (calcCs N ham S) := by
  obtain ⟨h1, h7, h8⟩ := calcAAs_spec (N := N) ham S
  cases ham with
  | two h =>
    have e : calcCs N (.two h) S = (List.range' 0 (N + 1 - 2)).foldl (fun (S : TDVP R q D) k =>
        S.setC2 (Function.update S.C2 k ((h k).map fun op => calcC op (S.AA k))))
        (calcAAs N (.two h) S) := rfl
    rw [e]
    generalize calcAAs N (.two h) S = S1 at *
    rw [foldl_field TDVP.setC2 TDVP.C2 _ (fun C2 k =>
            Function.update C2 k ((h k).map fun op => calcC op (S1.AA k))) S1
        (fun _ _ => rfl) rfl]
    have a2 := (foldPoint_spec (fun k => (h k).map fun op => calcC op (S1.AA k)) S1.C2 0
      (N + 1 - 2)).2
    refine ⟨h1, ⟨fun k hk => ?_, fun h3 => absurd h3 (by simp [Ham.sites]), ?_, ?_⟩⟩
    · rw [← h1] at h7
      exact h7 k hk
    · rintro h' ⟨⟩ k hk
      rw [← h1] at h7
      refine (a2 k (by omega) (by omega)).trans ?_
      rw [h7 k hk]; rfl
    · rintro h' ⟨⟩
  | three h =>
    have e : calcCs N (.three h) S = (List.range' 0 (N + 1 - 3)).foldl (fun (S : TDVP R q D) k =>
        S.setC3 (Function.update S.C3 k ((h k).map fun op => calcC3 op (S.AAA k))))
        (calcAAs N (.three h) S) := rfl
    rw [e]
    generalize calcAAs N (.three h) S = S1 at *
    rw [foldl_field TDVP.setC3 TDVP.C3 _ (fun C3 k =>
            Function.update C3 k ((h k).map fun op => calcC3 op (S1.AAA k))) S1
        (fun _ _ => rfl) rfl]
    have a2 := (foldPoint_spec (fun k => (h k).map fun op => calcC3 op (S1.AAA k)) S1.C3 0
      (N + 1 - 3)).2
    rw [← h1] at h7 h8
    refine ⟨h1, ⟨fun k hk => h7 k hk, fun h3 k hk => h8 h3 k hk, ?_, ?_⟩⟩
    · rintro h' ⟨⟩
    · rintro h' ⟨⟩ k hk
      refine (a2 k (by omega) (by omega)).trans ?_
      rw [h8 rfl k hk]; rfl

/-! ## The loop of `calc_K` -/

theorem adot_zero_right {m n : ℕ} (x : Matrix (Fin m) (Fin n) R) : adot x 0 = 0 := by
  simp [adot_eq_trace]

theorem adot_add_right {m n : ℕ} (x y z : Matrix (Fin m) (Fin n) R) :
    adot x (y + z) = adot x y + adot x z := by
  simp [adot_eq_trace, Matrix.mul_add]

theorem calcKIter_eq (ham : Ham R q) (S : TDVP R q D) (k : ℕ) :
    calcKIter N ham S k = { S with
      K := Function.update S.K k (if k + ham.sites ≤ N then
        epsR (S.K (k + 1)) (S.A k) (S.A k) + hrOf ham S k else 0)
      h := if k + ham.sites ≤ N then Function.update S.h k (adot (S.l k) (hrOf ham S k))
        else S.h } := by
  unfold calcKIter
  split
  · cases ham with
    | two h =>
      simp only [hrOf]
      cases S.C2 k with
      | none => simp [adot_zero_right]
      | some C => simp [calcKSite2]
    | three h =>
      simp only [hrOf]
      cases S.C3 k with
      | none => simp [adot_zero_right]
      | some C => simp [calcKSite3]
  · rfl

theorem foldPointIf_spec {R : Type*} (f : ℕ → R) (p : ℕ → Prop) [DecidablePred p] (x0 : ℕ → R)
    (L : List ℕ) (n : ℕ) :
    (L.foldl (fun x n => if p n then Function.update x n (f n) else x) x0) n
      = if n ∈ L ∧ p n then f n else x0 n := by
  induction L generalizing x0 with
  | nil => simp
  | cons k L ih =>
    rw [List.foldl_cons, ih]
    by_cases hk : n = k
    · subst hk
      by_cases hp : p n <;> by_cases hL : n ∈ L <;> simp [hp, hL]
    · have : (if p k then Function.update x0 k (f k) else x0) n = x0 n := by
        split
        · rw [Function.update_of_ne hk]
        · rfl
      rw [this]
      simp [hk]

/-- A fold over pairs whose components do not interact. -/
theorem foldl_pair {α β ι : Type*} (f : α → ι → α) (g : β → ι → β) (a : α) (b : β) (L : List ι) :
    L.foldl (fun (p : α × β) i => (f p.1 i, g p.2 i)) (a, b) = (L.foldl f a, L.foldl g b) := by
  induction L generalizing a b with
  | nil => rfl
  | cons i L ih => simp only [List.foldl_cons]; exact ih _ _

theorem calcKs_spec (ham : Ham R q) (h0 : D 0 = 1) (S : TDVP R q D) :
    (calcKs N ham h0 S).toMPS = S.toMPS ∧
      (∀ k < N, (calcKs N ham h0 S).K k = if k + ham.sites ≤ N then
        epsR ((calcKs N ham h0 S).K (k + 1)) (S.A k) (S.A k) + hrOf ham S k else 0) ∧
      (∀ k, k + ham.sites ≤ N → (calcKs N ham h0 S).h k = adot (S.l k) (hrOf ham S k)) ∧
      (calcKs N ham h0 S).H
        = some ((calcKs N ham h0 S).K 0 ⟨0, by omega⟩ ⟨0, by omega⟩) := by
  have e := foldl_field TDVP.setKh (fun S => (S.K, S.h)) (calcKIter N ham)
      (fun p k => (Function.update p.1 k (if k + ham.sites ≤ N then
        epsR (p.1 (k + 1)) (S.A k) (S.A k) + hrOf ham S k else 0),
        if k + ham.sites ≤ N then
        Function.update p.2 k (adot (S.l k) (hrOf ham S k)) else p.2)) S
      (fun p k => by rw [calcKIter_eq]; cases ham <;> rfl) rfl (List.range' 0 N).reverse
  rw [foldl_pair (fun K k => Function.update K k (if k + ham.sites ≤ N then
        epsR (K (k + 1)) (S.A k) (S.A k) + hrOf ham S k else 0))
      (fun h k => if k + ham.sites ≤ N then
        Function.update h k (adot (S.l k) (hrOf ham S k)) else h)] at e
  have hK := (foldDown_spec (X := fun n => Matrix (Fin (D n)) (Fin (D n)) R)
    (fun k x => if k + ham.sites ≤ N then epsR x (S.A k) (S.A k) + hrOf ham S k else 0)
    S.K 0 N).2
  simp only [calcKs, e]
  refine ⟨rfl, fun k hk => hK k (by omega) (by omega), fun k hk => ?_, trivial⟩
  refine (foldPointIf_spec _ _ _ _ _).trans (if_pos ⟨?_, hk⟩)
  have : 0 < ham.sites := by cases ham <;> simp [Ham.sites]
  simp only [List.mem_reverse, List.mem_range'_1]
  omega

/-- Expectation value of one term as a contraction. -/
theorem term_value (ham : Ham R q) (S : TDVP R q D) (hC : CurrentC N ham S)
    (h : UpToDate N S.A S.l S.r) (h0 : D 0 = 1) (hN : D N = 1) (k : ℕ)
    (hk : k + ham.sites ≤ N) :
    adot (S.l k) (hrOf ham S k)
      = matElem (psi S.A h0 hN) (ham.term (N := N) k) (psi S.A h0 hN) := by
  cases ham with
  | two hm =>
    simp only [Ham.sites] at hk
    simp only [hrOf, Ham.term, dif_pos (show k + 1 < N by omega)]
    rw [hC.C2 hm rfl k (by omega), hC.AA k (by omega)]
    cases hm k with
    | none => simp [adot_zero_right, matElem]
    | some op =>
      simp only [Option.map_some, Option.elim_some]
      rw [expval_2 h h0 hN k (by omega) op]
      simp only [calcAA, epsR2_eq, calcC_eq, Matrix.sum_mul, adot_sum_right, Matrix.smul_mul,
        adot_smul_right, Matrix.conjTranspose_mul, Matrix.mul_assoc]
  | three hm =>
    simp only [Ham.sites] at hk
    simp only [hrOf, Ham.term, dif_pos (show k + 2 < N by omega)]
    rw [hC.C3 hm rfl k (by omega), hC.AAA rfl k (by omega)]
    cases hm k with
    | none => simp [adot_zero_right, matElem]
    | some op =>
      simp only [Option.map_some, Option.elim_some]
      rw [expval_3 h h0 hN k (by omega) op]
      simp only [calcAAA, epsR3_eq, calcC3_eq, Matrix.sum_mul, adot_sum_right, Matrix.smul_mul,
        adot_smul_right, Matrix.conjTranspose_mul, Matrix.mul_assoc]

theorem term_zero (ham : Ham R q) (k : ℕ) (hk : N < k + ham.sites) (φ ψ : Cfg q N → R) :
    matElem φ (ham.term (N := N) k) ψ = 0 := by
  cases ham with
  | two hm =>
    simp only [Ham.sites] at hk
    simp [Ham.term, dif_neg (show ¬ k + 1 < N by omega), matElem]
  | three hm =>
    simp only [Ham.sites] at hk
    simp [Ham.term, dif_neg (show ¬ k + 2 < N by omega), matElem]

theorem energy_tail (ham : Ham R q) (S : TDVP R q D) (K : Envs R D) (hC : CurrentC N ham S)
    (h : UpToDate N S.A S.l S.r) (h0 : D 0 = 1) (hN : D N = 1)
    (hK : ∀ k < N, K k = if k + ham.sites ≤ N then
      epsR (K (k + 1)) (S.A k) (S.A k) + hrOf ham S k else 0) (k : ℕ) (hk : k < N) :
    adot (S.l k) (K k) = ∑ j ∈ Finset.Ico k N,
      matElem (psi S.A h0 hN) (ham.term (N := N) j) (psi S.A h0 hN) := by
  obtain ⟨m, hm⟩ : ∃ m, N = k + 1 + m := ⟨N - (k + 1), by omega⟩
  have hs : 2 ≤ ham.sites := by cases ham <;> simp [Ham.sites]
  induction m generalizing k with
  | zero =>
    rw [hK k hk, if_neg (by omega), adot_zero_right]
    symm
    refine Finset.sum_eq_zero fun j hj => term_zero ham j ?_ _ _
    rw [Finset.mem_Ico] at hj
    omega
  | succ m ih =>
    rw [Finset.sum_eq_sum_Ico_succ_bot hk, ← ih (k + 1) (by omega) (by omega), hK k hk]
    split
    · next hle =>
      rw [adot_add_right, term_value ham S hC h h0 hN k hle, ← adot_epsL, epsL_eq,
        ← h.l_succ k hk, add_comm]
    · next hgt =>
      rw [term_zero ham k (by omega), adot_zero_right, zero_add]
      rw [hK (k + 1) (by omega), if_neg (by omega), adot_zero_right]

/-! ## The loop of `calc_K_l` -/

theorem foldUpOff_spec {X : ℕ → Type*} (c : ℕ) (f : ∀ j, X (j + c) → X (j + c + 1))
    (x0 : ∀ n, X n) (m : ℕ) :
    let y := (List.range' 0 m).foldl
      (fun x j => Function.update x (j + c + 1) (f j (x (j + c)))) x0
    (∀ n, n ≤ c ∨ c + m < n → y n = x0 n) ∧
      ∀ j < m, y (j + c + 1) = f j (y (j + c)) := by
  induction m with
  | zero => exact ⟨fun n _ => rfl, fun n h => by omega⟩
  | succ m ih =>
    obtain ⟨ih1, ih2⟩ := ih
    rw [List.range'_concat, List.foldl_append]
    simp only [List.foldl_cons, List.foldl_nil, Nat.one_mul, Nat.zero_add]
    refine ⟨fun n hn => ?_, fun j hj => ?_⟩
    · rw [Function.update_of_ne (by omega), ih1 n (by omega)]
    · rcases Nat.lt_or_ge j m with h | h
      · rw [Function.update_of_ne (by omega), Function.update_of_ne (by omega), ih2 j h]
      · obtain rfl : j = m := by omega
        rw [Function.update_self, Function.update_of_ne (by omega)]

theorem foldl_bind_some {σ ι : Type*} (F : σ → ι → Option σ) (G : σ → ι → σ) (L : List ι)
    (S : σ) (P : σ → Prop) (hS : P S) (hP : ∀ S i, i ∈ L → P S → P (G S i))
    (h : ∀ S i, i ∈ L → P S → F S i = some (G S i)) :
    L.foldl (fun (S : Option σ) j => S.bind fun S => F S j) (some S) = some (L.foldl G S) := by
  induction L generalizing S with
  | nil => rfl
  | cons i L ih =>
    rw [List.foldl_cons, Option.bind_some, h S i (by simp) hS, List.foldl_cons]
    exact ih (G S i) (hP S i (by simp) hS) (fun S j hj => hP S j (by simp [hj]))
      (fun S j hj => h S j (by simp [hj]))

theorem adotNoconj_epsL {p a b : ℕ} (K : Matrix (Fin a) (Fin a) R) (r : Matrix (Fin b) (Fin b) R)
    (A : Ten R p a b) : adotNoconj (epsL K A A) r = adotNoconj K (epsR r A A) := by
  simp only [adotNoconj_eq_trace, epsL_eq, epsR_eq, Matrix.sum_mul, Matrix.mul_sum,
    Matrix.trace_sum]
  refine Finset.sum_congr rfl fun s _ => ?_
  rw [Matrix.mul_assoc, Matrix.mul_assoc, Matrix.trace_mul_comm]
  simp only [Matrix.mul_assoc]

theorem adotNoconj_add {m n : ℕ} (x y : Matrix (Fin n) (Fin m) R) (z : Matrix (Fin m) (Fin n) R) :
    adotNoconj (x + y) z = adotNoconj x z + adotNoconj y z := by
  simp [adotNoconj_eq_trace, Matrix.add_mul]

theorem adotNoconj_zero {m n : ℕ} (z : Matrix (Fin m) (Fin n) R) :
    adotNoconj 0 z = 0 := by
  simp [adotNoconj_eq_trace]

theorem adotNoconj_herm {m : ℕ} (l x : Matrix (Fin m) (Fin m) R) (hl : lᴴ = l) :
    adotNoconj l x = adot l x := by
  rw [adotNoconj_eq_trace, adot_eq_trace, hl]

/-- The contribution of a two-site term to the left matrices. -/
def hl2 (S : TDVP R q D) (C : ∀ k, Ten2 R (q k) (q (k + 1)) (D k) (D (k + 1 + 1))) (j : ℕ) :
    Matrix (Fin (D (j + 1 + 1))) (Fin (D (j + 1 + 1))) R :=
  epsL2 (S.l j) (S.AA j) (C j)

/-- The contribution of a three-site term to the left matrices. -/
def hl3 (S : TDVP R q D) (C : ∀ k, Ten3 R (q k) (q (k + 1)) (q (k + 2)) (D k) (D (k + 2 + 1)))
    (j : ℕ) : Matrix (Fin (D (j + 2 + 1))) (Fin (D (j + 2 + 1))) R :=
  epsL3 (S.l j) (S.AAA j) (C j)

theorem adotNoconj_epsL2 {p p' a b : ℕ} (l : Matrix (Fin a) (Fin a) R) (hl : lᴴ = l)
    (B C : Ten2 R p p' a b) (r : Matrix (Fin b) (Fin b) R) :
    adotNoconj (epsL2 l B C) r = adot l (epsR2 r C B) := by
  rw [adot_eq_trace, hl, adotNoconj_eq_trace, epsL2_eq, epsR2_eq]
  simp only [Matrix.sum_mul, Matrix.mul_sum, Matrix.trace_sum]
  refine Finset.sum_congr rfl fun s _ => Finset.sum_congr rfl fun t _ => ?_
  rw [Matrix.mul_assoc, Matrix.mul_assoc, Matrix.trace_mul_comm]
  simp only [Matrix.mul_assoc]

theorem adotNoconj_epsL3 {p p' p'' a b : ℕ} (l : Matrix (Fin a) (Fin a) R) (hl : lᴴ = l)
    (B C : Ten3 R p p' p'' a b) (r : Matrix (Fin b) (Fin b) R) :
    adotNoconj (epsL3 l B C) r = adot l (epsR3 r C B) := by
  rw [adot_eq_trace, hl, adotNoconj_eq_trace, epsL3_eq, epsR3_eq]
  simp only [Matrix.sum_mul, Matrix.mul_sum, Matrix.trace_sum]
  refine Finset.sum_congr rfl fun s _ => Finset.sum_congr rfl fun t _ =>
    Finset.sum_congr rfl fun u _ => ?_
  rw [Matrix.mul_assoc, Matrix.mul_assoc, Matrix.trace_mul_comm]
  simp only [Matrix.mul_assoc]

theorem calcKls_two (hm : ∀ k, Option (Fin (q k) → Fin (q (k + 1)) → Fin (q k) →
    Fin (q (k + 1)) → R)) (hN : D N = 1) (hN2 : 2 ≤ N) (S : TDVP R q D)
    (C : ∀ k, Ten2 R (q k) (q (k + 1)) (D k) (D (k + 1 + 1)))
    (hC : ∀ k, k + 1 < N → S.C2 k = some (C k)) :
    ∃ S', calcKls N (.two hm) hN S = some S' ∧ S'.toMPS = S.toMPS ∧ S'.Kl 1 = 0 ∧
      (∀ j, j + 1 < N → S'.Kl (j + 1 + 1)
        = epsL (S'.Kl (j + 1)) (S.A (j + 1)) (S.A (j + 1)) + hl2 S C j) ∧
      (∀ j, j + 1 < N → S'.h j = adotNoconj (hl2 S C j) (S.r (j + 1 + 1))) ∧
      S'.H = some (S'.Kl N ⟨0, by omega⟩ ⟨0, by omega⟩) := by
  rw [calcKls, if_neg (by omega)]
  set S0 : TDVP R q D := { S with Kl := Function.update (Function.update S.Kl 1 0) 2 0 } with hS0
  have hG := foldl_bind_some (calcKlIter (.two hm))
    (fun (S' : TDVP R q D) j => S'.setKlh
      (Function.update S'.Kl (j + 1 + 1) (epsL (S'.Kl (j + 1)) (S.A (j + 1)) (S.A (j + 1))
        + hl2 S C j), Function.update S'.h j (adotNoconj (hl2 S C j) (S.r (j + 1 + 1)))))
    (List.range' 0 (N + 1 - 2)) S0
    (fun S' => S'.toMPS = S.toMPS ∧ S'.AA = S.AA ∧ S'.C2 = S.C2) ⟨rfl, rfl, rfl⟩
    (fun S' i _ h => h)
    (fun S' i hi h => by
      obtain ⟨h1, h2, h3⟩ := h
      simp only [List.mem_range'_1] at hi
      cases S'
      simp only at h1 h2 h3
      subst h1 h2 h3
      rw [calcKlIter]
      simp only [hC i (by omega)]
      rfl)
  simp only [Ham.sites]
  rw [hG, foldl_field TDVP.setKlh (fun S => (S.Kl, S.h)) _
    (fun p j => (Function.update p.1 (j + 1 + 1) (epsL (p.1 (j + 1)) (S.A (j + 1)) (S.A (j + 1))
        + hl2 S C j), Function.update p.2 j (adotNoconj (hl2 S C j) (S.r (j + 1 + 1))))) S0
    (fun _ _ => rfl) rfl,
    foldl_pair (fun (Kl : Envs R D) j => Function.update Kl (j + 1 + 1)
      (epsL (Kl (j + 1)) (S.A (j + 1)) (S.A (j + 1)) + hl2 S C j))
      (fun (h : ℕ → R) j => Function.update h j (adotNoconj (hl2 S C j) (S.r (j + 1 + 1))))]
  obtain ⟨y1, y2⟩ := foldUpOff_spec (X := fun n => Matrix (Fin (D n)) (Fin (D n)) R) 1
    (fun j x => epsL x (S.A (j + 1)) (S.A (j + 1)) + hl2 S C j) S0.Kl (N + 1 - 2)
  have z2 := (foldPoint_spec (X := fun _ => R)
    (fun j => adotNoconj (hl2 S C j) (S.r (j + 1 + 1))) S0.h 0 (N + 1 - 2)).2
  refine ⟨_, rfl, rfl, (y1 1 (by omega)).trans ?_, fun j hj => y2 j (by omega),
    fun j hj => z2 j (by omega) (by omega), rfl⟩
  rw [hS0]
  simp

theorem calcKls_three (hm : ∀ k, Option (Fin (q k) → Fin (q (k + 1)) → Fin (q (k + 2)) →
    Fin (q k) → Fin (q (k + 1)) → Fin (q (k + 2)) → R)) (hN : D N = 1) (hN2 : 2 ≤ N)
    (S : TDVP R q D)
    (C : ∀ k, Ten3 R (q k) (q (k + 1)) (q (k + 2)) (D k) (D (k + 2 + 1)))
    (hC : ∀ k, k + 2 < N → S.C3 k = some (C k)) :
    ∃ S', calcKls N (.three hm) hN S = some S' ∧ S'.toMPS = S.toMPS ∧ S'.Kl 1 = 0 ∧
      S'.Kl 2 = 0 ∧
      (∀ j, j + 2 < N → S'.Kl (j + 2 + 1)
        = epsL (S'.Kl (j + 2)) (S.A (j + 2)) (S.A (j + 2)) + hl3 S C j) ∧
      (∀ j, j + 2 < N → S'.h (j + 1) = adotNoconj (hl3 S C j) (S.r (j + 2 + 1))) ∧
      S'.h 0 = S.h 0 ∧
      S'.H = some (S'.Kl N ⟨0, by omega⟩ ⟨0, by omega⟩) := by
  rw [calcKls, if_neg (by omega)]
  set S0 : TDVP R q D := { S with Kl := Function.update (Function.update S.Kl 1 0) 2 0 } with hS0
  have hG := foldl_bind_some (calcKlIter (.three hm))
    (fun (S' : TDVP R q D) j => S'.setKlh
      (Function.update S'.Kl (j + 2 + 1) (epsL (S'.Kl (j + 2)) (S.A (j + 2)) (S.A (j + 2))
        + hl3 S C j), Function.update S'.h (j + 1) (adotNoconj (hl3 S C j) (S.r (j + 2 + 1)))))
    (List.range' 0 (N + 1 - 3)) S0
    (fun S' => S'.toMPS = S.toMPS ∧ S'.AAA = S.AAA ∧ S'.C3 = S.C3) ⟨rfl, rfl, rfl⟩
    (fun S' i _ h => h)
    (fun S' i hi h => by
      obtain ⟨h1, h2, h3⟩ := h
      simp only [List.mem_range'_1] at hi
      cases S'
      simp only at h1 h2 h3
      subst h1 h2 h3
      rw [calcKlIter]
      simp only [hC i (by omega)]
      rfl)
  simp only [Ham.sites]
  rw [hG, foldl_field TDVP.setKlh (fun S => (S.Kl, S.h)) _
    (fun p j => (Function.update p.1 (j + 2 + 1) (epsL (p.1 (j + 2)) (S.A (j + 2)) (S.A (j + 2))
        + hl3 S C j), Function.update p.2 (j + 1) (adotNoconj (hl3 S C j) (S.r (j + 2 + 1))))) S0
    (fun _ _ => rfl) rfl,
    foldl_pair (fun (Kl : Envs R D) j => Function.update Kl (j + 2 + 1)
      (epsL (Kl (j + 2)) (S.A (j + 2)) (S.A (j + 2)) + hl3 S C j))
      (fun (h : ℕ → R) j => Function.update h (j + 1) (adotNoconj (hl3 S C j) (S.r (j + 2 + 1))))]
  obtain ⟨y1, y2⟩ := foldUpOff_spec (X := fun n => Matrix (Fin (D n)) (Fin (D n)) R) 2
    (fun j x => epsL x (S.A (j + 2)) (S.A (j + 2)) + hl3 S C j) S0.Kl (N + 1 - 3)
  obtain ⟨z1, z2⟩ := foldUpOff_spec (X := fun _ => R) 0
    (fun j _ => adotNoconj (hl3 S C j) (S.r (j + 2 + 1))) S0.h (N + 1 - 3)
  refine ⟨_, rfl, rfl, (y1 1 (by omega)).trans ?_, (y1 2 (by omega)).trans ?_,
    fun j hj => y2 j (by omega), fun j hj => z2 j (by omega), z1 0 (by omega), rfl⟩
  · rw [hS0]
    simp
  · rw [hS0]
    simp

theorem energy_left_two (hm : ∀ k, Option (Fin (q k) → Fin (q (k + 1)) → Fin (q k) →
    Fin (q (k + 1)) → R)) (S : TDVP R q D) (hC : CurrentC N (.two hm) S)
    (h : UpToDate N S.A S.l S.r) (h0 : D 0 = 1) (hN : D N = 1)
    (C : ∀ k, Ten2 R (q k) (q (k + 1)) (D k) (D (k + 1 + 1)))
    (hCs : ∀ k, k + 1 < N → S.C2 k = some (C k)) (j : ℕ) (hj : j + 1 < N) :
    adotNoconj (hl2 S C j) (S.r (j + 1 + 1))
      = matElem (psi S.A h0 hN) ((Ham.two hm).term (N := N) j) (psi S.A h0 hN) := by
  rw [← term_value (.two hm) S hC h h0 hN j hj, hl2,
    adotNoconj_epsL2 _ (h.l_herm j (by omega))]
  simp only [hrOf, hCs j hj, Option.elim_some]

theorem energy_left_three (hm : ∀ k, Option (Fin (q k) → Fin (q (k + 1)) → Fin (q (k + 2)) →
    Fin (q k) → Fin (q (k + 1)) → Fin (q (k + 2)) → R)) (S : TDVP R q D)
    (hC : CurrentC N (.three hm) S) (h : UpToDate N S.A S.l S.r) (h0 : D 0 = 1) (hN : D N = 1)
    (C : ∀ k, Ten3 R (q k) (q (k + 1)) (q (k + 2)) (D k) (D (k + 2 + 1)))
    (hCs : ∀ k, k + 2 < N → S.C3 k = some (C k)) (j : ℕ) (hj : j + 2 < N) :
    adotNoconj (hl3 S C j) (S.r (j + 2 + 1))
      = matElem (psi S.A h0 hN) ((Ham.three hm).term (N := N) j) (psi S.A h0 hN) := by
  rw [← term_value (.three hm) S hC h h0 hN j hj, hl3,
    adotNoconj_epsL3 _ (h.l_herm j (by omega))]
  simp only [hrOf, hCs j hj, Option.elim_some]

/-- Summation of the left recursion with terms of `c + 1` sites. -/
theorem energy_left_sum (c : ℕ) {A : Tensors R q D} {l r : Envs R D} (h : UpToDate N A l r)
    (Kl : Envs R D) (g : ∀ j, Matrix (Fin (D (j + c + 1))) (Fin (D (j + c + 1))) R)
    (hz : Kl c = 0)
    (hK : ∀ j, j + c < N → Kl (j + c + 1) = epsL (Kl (j + c)) (A (j + c)) (A (j + c)) + g j)
    (m : ℕ) (hm : m + c ≤ N) :
    adotNoconj (Kl (m + c)) (r (m + c))
      = ∑ j ∈ Finset.range m, adotNoconj (g j) (r (j + c + 1)) := by
  induction m with
  | zero =>
    have : ∀ n, n = c → adotNoconj (Kl n) (r n) = 0 := by
      rintro n rfl; rw [hz, adotNoconj_zero]
    exact this _ (Nat.zero_add c)
  | succ m ih =>
    have e : ∀ n, n = m + c + 1 → adotNoconj (Kl n) (r n)
        = ∑ j ∈ Finset.range (m + 1), adotNoconj (g j) (r (j + c + 1)) := by
      rintro n rfl
      rw [hK m (by omega), adotNoconj_add, adotNoconj_epsL, Finset.sum_range_succ,
        ← ih (by omega), h.r_pred (m + c) (by omega), epsR_eq]
    exact e _ (by omega)

theorem adotNoconj_one_entry {m : ℕ} (hm : m = 1) (x y : Matrix (Fin m) (Fin m) R) (hy : y = 1) :
    adotNoconj x y = x ⟨0, by omega⟩ ⟨0, by omega⟩ := by
  subst hm hy
  simp [adotNoconj_eq_trace, Matrix.trace]

theorem adot_one_entry {m : ℕ} (hm : m = 1) (x y : Matrix (Fin m) (Fin m) R) (hx : x = 1) :
    adot x y = y ⟨0, by omega⟩ ⟨0, by omega⟩ := by
  subst hm hx
  simp [adot_eq_trace, Matrix.trace]

theorem matElem_total (ham : Ham R q) (φ ψ : Cfg q N → R) :
    matElem φ (ham.total (N := N)) ψ
      = ∑ k ∈ Finset.range N, matElem φ (ham.term (N := N) k) ψ := by
  have := matElem_sum (Finset.range N) (fun _ => (1 : R)) (fun k => ham.term (N := N) k) φ ψ
  simp only [one_mul] at this
  exact this

/-- Only the terms that fit contribute. -/
theorem sum_terms (ham : Ham R q) (φ ψ : Cfg q N → R) :
    ∑ k ∈ Finset.range (N + 1 - ham.sites), matElem φ (ham.term (N := N) k) ψ
      = ∑ k ∈ Finset.range N, matElem φ (ham.term (N := N) k) ψ := by
  have : 2 ≤ ham.sites := by cases ham <;> simp [Ham.sites]
  refine Finset.sum_subset (fun k hk => ?_) fun k _ hk => term_zero ham k ?_ _ _
  · rw [Finset.mem_range] at *; omega
  · rw [Finset.mem_range] at hk; omega

/-- A loop that meets an exception. -/
theorem foldl_bind_none {σ ι : Type*} (F : σ → ι → Option σ) (L : List ι)
    (S : σ) (P : σ → Prop) (hS : P S)
    (hP : ∀ S i, i ∈ L → P S → match F S i with | none => True | some S' => P S')
    (k : ι) (hk : k ∈ L) (h : ∀ S, P S → F S k = none) :
    L.foldl (fun (S : Option σ) j => S.bind fun S => F S j) (some S) = none := by
  have hnone : ∀ L : List ι,
      L.foldl (fun (S : Option σ) j => S.bind fun S => F S j) none = none := by
    intro L
    induction L with
    | nil => rfl
    | cons i L ih => rw [List.foldl_cons, Option.bind_none, ih]
  induction L generalizing S with
  | nil => simp at hk
  | cons i L ih =>
    rw [List.foldl_cons, Option.bind_some]
    rcases List.mem_cons.mp hk with rfl | hk'
    · rw [h S hS, hnone]
    · have := hP S i (by simp) hS
      cases hF : F S i with
      | none => exact hnone L
      | some S' =>
        rw [hF] at this
        exact ih S' this (fun S j hj => hP S j (by simp [hj])) hk'

end EvoMPS
