import Verif.Canon
import Verif.Loops
import Verif.RenormLemmas
import Verif.Correl
import Mathlib.LinearAlgebra.Matrix.NonsingularInverse
import Mathlib.LinearAlgebra.Matrix.IsDiag

/-!
# Canonical forms (helper lemmas)
-/

set_option linter.unusedSectionVars false

namespace EvoMPS

open Matrix

/-! ## Loops with an invariant -/

theorem foldUp_inv {σ : Type*} (F : σ → ℕ → σ) (P : ℕ → σ → Prop) (a m : ℕ) (S0 : σ)
    (h0 : P a S0) (h : ∀ n, a ≤ n → n < a + m → ∀ S, P n S → P (n + 1) (F S n)) :
    P (a + m) ((List.range' a m).foldl F S0) := by
  induction m with
  | zero => exact h0
  | succ m ih =>
    rw [List.range'_concat, List.foldl_append, Nat.one_mul]
    exact h (a + m) (by omega) (by omega) _ (ih fun n h1 h2 => h n h1 (by omega))

theorem foldDown_inv {σ : Type*} (F : σ → ℕ → σ) (P : ℕ → σ → Prop) (a m : ℕ) (S0 : σ)
    (h0 : P (a + m) S0) (h : ∀ n, a ≤ n → n < a + m → ∀ S, P (n + 1) S → P n (F S n)) :
    P a ((List.range' a m).reverse.foldl F S0) := by
  induction m generalizing a with
  | zero => exact h0
  | succ m ih =>
    rw [List.range'_succ, List.reverse_cons, List.foldl_append]
    refine h a le_rfl (by omega) _ (ih (a + 1) ?_ fun n h1 h2 => h n (by omega) (by omega))
    rwa [show a + 1 + m = a + (m + 1) by omega]

theorem foldFinDown_inv {σ : Type*} {N : ℕ} (F : σ → Fin N → σ) (P : ℕ → σ → Prop) (S0 : σ)
    (h0 : P N S0) (h : ∀ n : Fin N, ∀ S, P (n + 1) S → P n (F S n)) :
    P 0 ((List.finRange N).reverse.foldl F S0) := by
  induction N generalizing P with
  | zero => exact h0
  | succ N ih =>
    rw [List.finRange_succ, List.reverse_cons, List.foldl_append, ← List.map_reverse,
      List.foldl_map]
    exact h 0 _ (ih (fun S n => F S n.succ) (fun n => P (n + 1)) h0 fun n S => h n.succ S)

theorem foldFinUp_inv {σ : Type*} {N : ℕ} (F : σ → Fin N → σ) (P : ℕ → σ → Prop) (S0 : σ)
    (h0 : P 0 S0) (h : ∀ n : Fin N, ∀ S, P n S → P (n + 1) (F S n)) :
    P N ((List.finRange N).foldl F S0) := by
  induction N generalizing P S0 with
  | zero => exact h0
  | succ N ih =>
    rw [List.finRange_succ, List.foldl_cons, List.foldl_map]
    exact ih (fun S n => F S n.succ) (fun n => P (n + 1)) _ (h 0 _ h0) fun n S => h n.succ S

variable {R : Type*} [CommRing R] [StarRing R] {q D D' : ℕ → ℕ} {N : ℕ}

/-! ## Gauge transformations -/

theorem amp_gauge (A : Tensors R q D) (A' : Tensors R q D')
    (G : ∀ n, Matrix (Fin (D n)) (Fin (D' n)) R)
    (h : ∀ n < N, ∀ s, A n s * G (n + 1) = G n * A' n s) (s : Cfg q N) :
    amp A N s * G N = G 0 * amp A' N s := by
  induction N with
  | zero => simp [amp]
  | succ N ih =>
    rw [amp, amp, Matrix.mul_assoc, h N (by omega), ← Matrix.mul_assoc,
      ih (fun n hn => h n (by omega)), Matrix.mul_assoc]

theorem mul_entry_one {a m b : ℕ} (hm : m = 1) (x : Matrix (Fin a) (Fin m) R)
    (y : Matrix (Fin m) (Fin b) R) (i : Fin a) (j : Fin b) :
    (x * y) i j = x i ⟨0, by omega⟩ * y ⟨0, by omega⟩ j := by
  subst hm
  simp [Matrix.mul_apply]

theorem psi_gauge (A : Tensors R q D) (A' : Tensors R q D')
    (G : ∀ n, Matrix (Fin (D n)) (Fin (D' n)) R)
    (h : ∀ n < N, ∀ s, A n s * G (n + 1) = G n * A' n s)
    (h0 : D 0 = 1) (hN : D N = 1) (h0' : D' 0 = 1) (hN' : D' N = 1) (s : Cfg q N) :
    psi A h0 hN s * G N ⟨0, by omega⟩ ⟨0, by omega⟩
      = G 0 ⟨0, by omega⟩ ⟨0, by omega⟩ * psi A' h0' hN' s := by
  have := congrFun (congrFun (amp_gauge A A' G h s) ⟨0, by omega⟩) ⟨0, by omega⟩
  rwa [mul_entry_one hN, mul_entry_one h0'] at this

/-- Multiplying the first tensor by a number. -/
theorem psi_scaleFirst (hpos : 0 < N) (c : R) (A : Tensors R q D) (h0 : D 0 = 1) (hN : D N = 1)
    (s : Cfg q N) :
    psi (Function.update A 0 (fun s => c • A 0 s)) h0 hN s = c * psi A h0 hN s := by
  have key := amp_gauge (N := N) (A := Function.update A 0 (fun s => c • A 0 s)) (A' := A)
    (G := fun n => if n = 0 then c • 1 else 1) (fun n hn t => by
      rcases Nat.eq_zero_or_pos n with rfl | hp
      · simp
      · rw [Function.update_of_ne (by omega)]
        simp [hp.ne']) s
  simp only [if_neg hpos.ne', Matrix.mul_one, if_pos] at key
  rw [psi, key, psi]
  simp

/-! ## The right-orthonormalising sweep -/

theorem rcfD_le (n : ℕ) : rcfD q D N n ≤ D n := by
  rcases Nat.lt_or_ge n N with h | h
  · rw [rcfD_lt h]; exact min_le_right _ _
  · rw [rcfD_ge h]

theorem rcfD_pos (hq : ∀ n < N, 0 < q n) (hD : ∀ n ≤ N, 0 < D n) (n : ℕ) (hn : n ≤ N) :
    0 < rcfD q D N n := by
  obtain ⟨k, rfl⟩ := Nat.exists_eq_add_of_le hn
  induction k generalizing n with
  | zero => rw [rcfD_ge (by omega)]; exact hD _ hn
  | succ k ih =>
    rw [rcfD_lt (by omega)]
    have := ih (n + 1) (by rwa [show n + 1 + k = n + (k + 1) by omega])
      (by rwa [show n + 1 + k = n + (k + 1) by omega]) (by omega)
    rw [show n + 1 + k = n + (k + 1) by omega] at this
    exact lt_min (Nat.mul_pos (hq n (by omega)) this) (hD n hn)

/-- What the sweep has achieved when it has reached bond `n`. -/
structure RcfInv (N : ℕ) (A : Tensors R q D) (r : Envs R D) (n : ℕ)
    (S : RcfSt R q D (rcfD q D N)) : Prop where
  last : S.Gh N = (1 : Matrix (Fin (D N)) (Fin (D N)) R).submatrix
    (Fin.cast (rcfD_ge le_rfl)) id
  rlast : S.r N = castEnv (rcfD_ge le_rfl) (r N)
  gauge : ∀ m, n ≤ m → m < N → ∀ s, A m s * (S.Gh (m + 1))ᴴ = (S.Gh m)ᴴ * S.A m s
  orth : ∀ m, n ≤ m → m < N → ∑ s, S.A m s * (S.A m s)ᴴ = 1
  r_eq : ∀ m, n ≤ m → m < N → S.r m = 1

theorem rcfStep_inv (qr : QR R) (A : Tensors R q D) (r : Envs R D) (n : Fin N)
    (S : RcfSt R q D (rcfD q D N)) (h : RcfInv N A r (n + 1) S) :
    RcfInv N A r n (rcfStep qr A S n) := by
  obtain ⟨n, hn⟩ := n
  have e1 := h.last
  have e2 := h.rlast
  refine ⟨?_, ?_, fun m h1 h2 s => ?_, fun m h1 h2 => ?_, fun m h1 h2 => ?_⟩
  · simp only [rcfStep]
    rw [Function.update_of_ne (by omega), e1]
  · simp only [rcfStep]
    rw [Function.update_of_ne (by omega), e2]
  · rcases Nat.lt_or_ge n m with hm | hm
    · have := h.gauge m hm h2 s
      simp only [rcfStep]
      rwa [Function.update_of_ne (by omega), Function.update_of_ne (by omega),
        Function.update_of_ne (by omega)]
    · obtain rfl : m = n := by simp only at h1; omega
      simp only [rcfStep, Function.update_self]
      rw [Function.update_of_ne (by omega)]
      set AG : Matrix (Fin (q m * rcfD q D N (m + 1))) (Fin (D m)) R :=
        Matrix.of fun k j => (S.Gh (m + 1) * (A m k.divNat)ᴴ) k.modNat j with hAG
      ext i b
      have hq := congrFun (congrFun (qr.mul_eq AG) (flat s b)) i
      have hAGe : AG (flat s b) i = (S.Gh (m + 1) * (A m s)ᴴ) b i := by
        rw [hAG, Matrix.of_apply, flat_divNat, flat_modNat]
      rw [hAGe] at hq
      have e3 : (A m s * (S.Gh (m + 1))ᴴ) i b = star ((S.Gh (m + 1) * (A m s)ᴴ) b i) := by
        rw [← Matrix.conjTranspose_apply, Matrix.conjTranspose_mul,
          Matrix.conjTranspose_conjTranspose]
      rw [e3, ← hq, Matrix.mul_apply, star_sum, Matrix.mul_apply]
      rw [← Equiv.sum_comp (finCongr (rcfD_lt hn))]
      refine Finset.sum_congr rfl fun a _ => ?_
      simp only [Matrix.conjTranspose_apply, Matrix.submatrix_apply, Matrix.of_apply, star_mul,
        finCongr_apply, id]
  · rcases Nat.lt_or_ge n m with hm | hm
    · have := h.orth m hm h2
      simp only [rcfStep]
      rwa [Function.update_of_ne (by omega)]
    · obtain rfl : m = n := by simp only at h1; omega
      simp only [rcfStep, Function.update_self]
      set AG : Matrix (Fin (q m * rcfD q D N (m + 1))) (Fin (D m)) R :=
        Matrix.of fun k j => (S.Gh (m + 1) * (A m k.divNat)ᴴ) k.modNat j with hAG
      ext i j
      have hq := congrFun (congrFun (qr.iso AG) (Fin.cast (rcfD_lt hn) i)) (Fin.cast (rcfD_lt hn) j)
      rw [Matrix.mul_apply, sum_flat] at hq
      rw [Matrix.sum_apply]
      simp only [Matrix.mul_apply, Matrix.conjTranspose_apply, Matrix.of_apply, star_star] at hq ⊢
      rw [hq, Matrix.one_apply, Matrix.one_apply]
      simp only [Fin.ext_iff, Fin.val_cast]
  · rcases Nat.lt_or_ge n m with hm | hm
    · have := h.r_eq m hm h2
      simp only [rcfStep]
      rwa [Function.update_of_ne (by omega)]
    · obtain rfl : m = n := by simp only at h1; omega
      simp only [rcfStep, Function.update_self]

theorem restoreRCFrSeq_spec (qr : QR R) (A : Tensors R q D) (r : Envs R D) :
    RcfInv N A r 0 (restoreRCFrSeq qr N A r) := by
  refine foldFinDown_inv (P := RcfInv N A r) _ _ ⟨?_, ?_, ?_, ?_, ?_⟩ (rcfStep_inv qr A r)
  · exact dif_neg (lt_irrefl N)
  · exact dif_neg (lt_irrefl N)
  all_goals intro m h1 h2; omega

/-! ## The diagonalising sweep -/

/-- What the sweep has achieved when it has reached bond `n`. -/
structure DiagInv (eigh : Eigh R) (A : Tensors R q D) (n : ℕ) (S : DiagSt R q D) : Prop where
  G0 : S.G 0 = 1
  e0 : S.e 0 = 1
  rest : ∀ m, n ≤ m → S.A m = A m
  unit : ∀ m ≤ n, (S.G m)ᴴ * S.G m = 1
  herm : ∀ m ≤ n, (S.e m)ᴴ = S.e m
  gauge : ∀ m < n, ∀ s, S.A m s = S.G m * A m s * (S.G (m + 1))ᴴ
  e_succ : ∀ m < n, S.e (m + 1) = ∑ s, (S.A m s)ᴴ * S.e m * S.A m s
  diag : ∀ m < n, ∃ M : Matrix (Fin (D (m + 1))) (Fin (D (m + 1))) R,
    M.IsHermitian ∧ S.e (m + 1) = diagonal (eigh.ev M)
  one : ∀ m < n, D (m + 1) = 1 → S.G (m + 1) = 1

theorem rcfDiagStep_inv (eigh : Eigh R) (A : Tensors R q D) (n : ℕ) (S : DiagSt R q D)
    (h : DiagInv eigh A n S) : DiagInv eigh A (n + 1) (rcfDiagStep eigh S n) := by
  set M := epsL ((S.G n)ᴴ * (S.e n * S.G n)) (S.A n) (S.A n) with hM
  have hMsum : M = ∑ s, (A n s)ᴴ * ((S.G n)ᴴ * (S.e n * S.G n)) * A n s := by
    rw [hM, epsL_eq, h.rest n le_rfl]
  have hherm : M.IsHermitian := by
    rw [Matrix.IsHermitian, hMsum, Matrix.conjTranspose_sum]
    refine Finset.sum_congr rfl fun s _ => ?_
    simp only [Matrix.conjTranspose_mul, Matrix.conjTranspose_conjTranspose, h.herm n le_rfl,
      Matrix.mul_assoc]
  have hunit := eigh.unit M hherm
  have heig := eigh.eig M hherm
  have hU : eigh.vec M * (eigh.vec M)ᴴ = 1 := mul_eq_one_comm.mp hunit
  have hA : (rcfDiagStep eigh S n).A
    = Function.update S.A n (fun s => S.G n * (S.A n s * eigh.vec M)) := rfl
  have hG : (rcfDiagStep eigh S n).G = Function.update S.G (n + 1) (eigh.vec M)ᴴ := rfl
  have he : (rcfDiagStep eigh S n).e
    = Function.update S.e (n + 1) (diagonal (eigh.ev M)) := rfl
  have hdiag : (eigh.vec M)ᴴ * (M * eigh.vec M) = diagonal (eigh.ev M) := by
    rw [heig, ← Matrix.mul_assoc, hunit, Matrix.one_mul]
  refine ⟨?_, ?_, ?_, ?_, ?_, ?_, ?_, ?_, ?_⟩
  · rw [hG, Function.update_of_ne (by omega), h.G0]
  · rw [he, Function.update_of_ne (by omega), h.e0]
  · intro m hm
    rw [hA, Function.update_of_ne (by omega), h.rest m (by omega)]
  · intro m hm
    rcases Nat.lt_or_ge m (n + 1) with h1 | h1
    · rw [hG, Function.update_of_ne (by omega), h.unit m (by omega)]
    · obtain rfl : m = n + 1 := by omega
      rw [hG, Function.update_self, Matrix.conjTranspose_conjTranspose, hU]
  · intro m hm
    rcases Nat.lt_or_ge m (n + 1) with h1 | h1
    · rw [he, Function.update_of_ne (by omega), h.herm m (by omega)]
    · obtain rfl : m = n + 1 := by omega
      rw [he, Function.update_self, Matrix.diagonal_conjTranspose]
      congr 1
      exact funext fun i => eigh.real M hherm i
  · intro m hm s
    rcases Nat.lt_or_ge m n with h1 | h1
    · rw [hG, Function.update_of_ne (by omega), Function.update_of_ne (by omega), hA,
        Function.update_of_ne (by omega), h.gauge m h1 s]
    · obtain rfl : m = n := by omega
      rw [hG, Function.update_of_ne (by omega), Function.update_self, hA, Function.update_self,
        Matrix.conjTranspose_conjTranspose, h.rest m le_rfl, Matrix.mul_assoc]
  · intro m hm
    rcases Nat.lt_or_ge m n with h1 | h1
    · rw [he, Function.update_of_ne (by omega), Function.update_of_ne (by omega), hA,
        Function.update_of_ne (by omega), h.e_succ m h1]
    · obtain rfl : m = n := by omega
      rw [he, Function.update_self, Function.update_of_ne (by omega), hA, Function.update_self,
        ← hdiag, hMsum, Matrix.sum_mul, Matrix.mul_sum, h.rest m le_rfl]
      refine Finset.sum_congr rfl fun s _ => ?_
      simp only [Matrix.conjTranspose_mul, Matrix.mul_assoc]
  · intro m hm
    rcases Nat.lt_or_ge m n with h1 | h1
    · rw [he, Function.update_of_ne (by omega)]
      exact h.diag m h1
    · obtain rfl : m = n := by omega
      rw [he, Function.update_self]
      exact ⟨_, hherm, rfl⟩
  · intro m hm hD
    rcases Nat.lt_or_ge m n with h1 | h1
    · rw [hG, Function.update_of_ne (by omega)]
      exact h.one m h1 hD
    · obtain rfl : m = n := by omega
      rw [hG, Function.update_self, eigh.one M hD hherm, Matrix.conjTranspose_one]

theorem restoreRCFlSeq_spec (eigh : Eigh R) (A : Tensors R q D) (l : Envs R D) (hl : l 0 = 1) :
    DiagInv eigh A N (restoreRCFlSeq eigh N A l) := by
  have := foldUp_inv (rcfDiagStep eigh) (DiagInv eigh A) 0 N
    ⟨A, fun n => if n = 0 then 1 else 0, l⟩ ?_ (fun n _ _ S h => rcfDiagStep_inv eigh A n S h)
  · rwa [Nat.zero_add] at this
  · refine ⟨rfl, hl, fun _ _ => rfl, fun m hm => ?_, fun m hm => ?_, ?_, ?_, ?_, ?_⟩
    · obtain rfl : m = 0 := by omega
      simp
    · obtain rfl : m = 0 := by omega
      simp only [hl, Matrix.conjTranspose_one]
    all_goals intro m hm; omega

/-! ## `restore_RCF` -/

theorem UpToDate.norm_eq {A : Tensors R q D} {l r : Envs R D} (h : UpToDate N A l r)
    (h0 : D 0 = 1) (hN : D N = 1) (n : ℕ) (hn : n ≤ N) :
    adot (l n) (r n) = braket (psi (N := N) A h0 hN) (psi A h0 hN) := by
  rw [h.l_eq n hn, adot_mixL_last h _ n hn (fun _ _ _ => rfl), adot_mixL_one _ _ h0 hN]

/-- The right half of `UpToDate`. -/
structure ROk (N : ℕ) (A : Tensors R q D) (r : Envs R D) : Prop where
  r_last : r N = 1
  r_pred : ∀ n < N, r n = ∑ s, A n s * r (n + 1) * (A n s)ᴴ

/-- A right-orthonormal chain has norm 1. -/
theorem braket_of_orth {A : Tensors R q D} (h : ∀ n < N, ∑ s, A n s * (A n s)ᴴ = 1)
    (h0 : D 0 = 1) (hN : D N = 1) : braket (psi (N := N) A h0 hN) (psi A h0 hN) = 1 := by
  have hu : UpToDate N A (mixL A A 1) (fun _ => 1) := by
    refine ⟨rfl, fun n _ => rfl, rfl, fun n hn => ?_⟩
    simp only [Matrix.mul_one]
    exact (h n hn).symm
  rw [← hu.norm_eq h0 hN 0 (by omega), adot_eq_trace]
  have : (mixL A A (1 : Matrix (Fin (D 0)) (Fin (D 0)) R) 0) = 1 := rfl
  rw [this]
  simp [h0]

theorem calcL_spec (S : MPS R q D) (hl : S.l 0 = 1) (hr : ROk N S.A S.r) :
    (calcL N S).A = S.A ∧ (calcL N S).r = S.r ∧
      UpToDate N (calcL N S).A (calcL N S).l (calcL N S).r := by
  obtain ⟨a1, a2, a3, a4⟩ := calcL_default N S
  refine ⟨a1, a2, by rw [a3, hl], fun n hn => ?_, ?_, ?_⟩
  · rw [a1, a4 n hn, epsL_eq]
  · rw [a2]; exact hr.r_last
  · rw [a1, a2]; exact hr.r_pred

theorem conj_sum_unitary {p a b : ℕ} (U : Matrix (Fin a) (Fin a) R) (V : Matrix (Fin b) (Fin b) R)
    (hV : Vᴴ * V = 1) (B : Ten R p a b) :
    ∑ s, (U * B s * Vᴴ) * (U * B s * Vᴴ)ᴴ = U * (∑ s, B s * (B s)ᴴ) * Uᴴ := by
  rw [Matrix.mul_sum, Matrix.sum_mul]
  refine Finset.sum_congr rfl fun s _ => ?_
  simp only [Matrix.conjTranspose_mul, Matrix.conjTranspose_conjTranspose]
  calc U * B s * Vᴴ * (V * ((B s)ᴴ * Uᴴ)) = U * B s * (Vᴴ * V) * ((B s)ᴴ * Uᴴ) := by
        simp only [Matrix.mul_assoc]
    _ = _ := by rw [hV]; simp only [Matrix.mul_assoc, Matrix.mul_one]

/-- The diagonalising sweep applied to a right-orthonormal chain. -/
theorem diagL_spec (eigh : Eigh R) (A : Tensors R q D) (l r : Envs R D) (hl : l 0 = 1)
    (hr : ROk N A r) (hr1 : ∀ n, 1 ≤ n → n ≤ N → r n = 1) (h0 : D 0 = 1) (hN : D N = 1)
    (hpos : 0 < N) :
    let U := restoreRCFlSeq eigh N A l
    UpToDate N U.A U.e r ∧ (∀ s : Cfg q N, psi U.A h0 hN s = psi A h0 hN s) ∧
      ∀ n, 1 ≤ n → n ≤ N → ∃ M : Matrix (Fin (D n)) (Fin (D n)) R,
        M.IsHermitian ∧ U.e n = diagonal (eigh.ev M) := by
  intro U
  have hU : DiagInv eigh A N U := restoreRCFlSeq_spec eigh A l hl
  have hA : ∀ n < N, ∑ s, A n s * (A n s)ᴴ = r n := by
    intro n hn
    rw [hr.r_pred n hn, hr1 (n + 1) (by omega) (by omega)]
    simp only [Matrix.mul_one]
  refine ⟨⟨hU.e0, fun n hn => hU.e_succ n hn, hr.r_last, fun n hn => ?_⟩, fun s => ?_, ?_⟩
  · rw [hr1 (n + 1) (by omega) (by omega)]
    simp only [Matrix.mul_one]
    simp only [hU.gauge n hn]
    rw [conj_sum_unitary _ _ (hU.unit (n + 1) (by omega)), hA n hn]
    rcases Nat.eq_zero_or_pos n with rfl | hp
    · rw [hU.G0, Matrix.one_mul, Matrix.conjTranspose_one, Matrix.mul_one]
    · rw [hr1 n hp (by omega), Matrix.mul_one, mul_eq_one_comm.mp (hU.unit n (by omega))]
  · have := psi_gauge (N := N) U.A A U.G (fun n hn s => by
      rw [hU.gauge n hn, Matrix.mul_assoc, hU.unit (n + 1) (by omega), Matrix.mul_one])
      h0 hN h0 hN s
    obtain ⟨M, rfl⟩ : ∃ M, N = M + 1 := ⟨N - 1, by omega⟩
    rw [hU.one M (by omega) hN, hU.G0] at this
    simpa using this
  · intro n h1 h2
    obtain ⟨m, rfl⟩ : ∃ m, n = m + 1 := ⟨n - 1, by omega⟩
    exact hU.diag m (by omega)

theorem castEnv_one {m n : ℕ} (h : m = n) : castEnv h (1 : Matrix (Fin n) (Fin n) R) = 1 := by
  subst h; rfl

theorem restoreRCF_spec (qr : QR R) (eigh : Eigh R) (scaleA scaleR : R → R) (diagL : Bool)
    (S : MPS R q D) (l' : Envs R (rcfD q D N)) (hl : l' 0 = 1) (hr : S.r N = 1)
    (h0 : D 0 = 1) (hN : D N = 1) (h0' : rcfD q D N 0 = 1) (hN' : rcfD q D N N = 1)
    (hpos : 0 < N) :
    let S' := restoreRCF qr eigh N scaleA scaleR diagL (by omega) (by omega) S l'
    ∃ (g : R) (φ : Cfg q N → R), (∀ s, psi S.A h0 hN s = g * φ s) ∧ braket φ φ = 1 ∧
      (scaleR g = scaleA g * star (scaleA g) →
        (∀ s, psi S'.A h0' hN' s = scaleA g * φ s) ∧ UpToDate N S'.A S'.l S'.r ∧
        (∀ n, 1 ≤ n → n ≤ N → S'.r n = 1) ∧
        (diagL = true → ∀ n, 1 ≤ n → n ≤ N →
          ∃ M : Matrix (Fin (rcfD q D N n)) (Fin (rcfD q D N n)) R,
            M.IsHermitian ∧ S'.l n = diagonal (eigh.ev M))) := by
  intro S'
  have hT := restoreRCFrSeq_spec (N := N) qr S.A S.r
  set T := restoreRCFrSeq qr N S.A S.r with hTdef
  set g := ((T.Gh 0)ᴴ) ⟨0, by omega⟩ ⟨0, by omega⟩ with hg
  refine ⟨g, psi T.A h0' hN', fun s => ?_, braket_of_orth (fun n hn => hT.orth n (by omega) hn) _ _,
    fun hsc => ?_⟩
  · have := psi_gauge (N := N) S.A T.A (fun n => (T.Gh n)ᴴ)
      (fun n hn s => hT.gauge n (by omega) hn s) h0 hN h0' hN' s
    rw [hT.last, Matrix.conjTranspose_apply, Matrix.submatrix_apply] at this
    have e : (1 : Matrix (Fin (D N)) (Fin (D N)) R)
        (Fin.cast (rcfD_ge (q := q) (D := D) (N := N) le_rfl) ⟨0, by rw [hN']; omega⟩)
        (id ⟨0, by omega⟩) = 1 := Matrix.one_apply_eq _
    rw [e, star_one, mul_one] at this
    exact this
  set A1 : Tensors R q (rcfD q D N) := Function.update T.A 0 (fun s => scaleA g • T.A 0 s) with hA1
  set r1 : Envs R (rcfD q D N) := Function.update T.r 0 (scaleR g • T.r 0) with hr1
  have hr1N : r1 N = 1 := by
    rw [hr1, Function.update_of_ne (by omega), hT.rlast, hr, castEnv_one]
  have hr1n : ∀ n, 1 ≤ n → n ≤ N → r1 n = 1 := by
    intro n h1 h2
    rcases Nat.lt_or_ge n N with h | h
    · rw [hr1, Function.update_of_ne (by omega), hT.r_eq n (by omega) h]
    · obtain rfl : n = N := by omega
      exact hr1N
  have hR : ROk N A1 r1 := by
    refine ⟨hr1N, fun n hn => ?_⟩
    rw [hr1n (n + 1) (by omega) (by omega)]
    simp only [Matrix.mul_one]
    rcases Nat.eq_zero_or_pos n with rfl | hp
    · rw [hr1, Function.update_self, hA1, Function.update_self, hT.r_eq 0 le_rfl hpos, hsc,
        ← hT.orth 0 le_rfl hpos, Finset.smul_sum]
      refine Finset.sum_congr rfl fun s _ => ?_
      rw [Matrix.conjTranspose_smul, Matrix.smul_mul, Matrix.mul_smul, smul_smul]
    · rw [hr1n n hp (by omega), hA1, Function.update_of_ne (by omega), hT.orth n (by omega) hn]
  have hpsi : ∀ s : Cfg q N, psi A1 h0' hN' s = scaleA g * psi T.A h0' hN' s :=
    psi_scaleFirst hpos _ _ _ _
  cases diagL with
  | true =>
    obtain ⟨u1, u2, u3⟩ := diagL_spec eigh A1 l' r1 hl hR hr1n h0' hN' hpos
    exact ⟨fun s => (u2 s).trans (hpsi s), u1, hr1n, fun _ => u3⟩
  | false =>
    obtain ⟨c1, c2, c3⟩ := calcL_spec ⟨A1, l', r1⟩ hl hR
    refine ⟨fun s => ?_, c3, fun n h1 h2 => ?_, fun h => by simp at h⟩
    · have : S'.A = A1 := c1
      rw [this, hpsi]
    · have : S'.r = r1 := c2
      rw [this, hr1n n h1 h2]

theorem adot_one_entry' {m : ℕ} (hm : m = 1) (x y : Matrix (Fin m) (Fin m) R) (hx : x = 1) :
    adot x y = y ⟨0, by omega⟩ ⟨0, by omega⟩ := by
  subst hm hx
  simp [adot_eq_trace, Matrix.trace]

theorem eq_one_of_entry {m : ℕ} (hm : m = 1) (x : Matrix (Fin m) (Fin m) R)
    (hx : x ⟨0, by omega⟩ ⟨0, by omega⟩ = 1) : x = 1 := by
  subst hm
  ext i j
  rw [Subsingleton.elim i 0, Subsingleton.elim j 0]
  simpa using hx

/-- The diagonal entries of the left environments are sums of squared moduli. -/
theorem UpToDate.l_diag_nonneg {A : Tensors ℂ q D} {l r : Envs ℂ D} (h : UpToDate N A l r)
    (n : ℕ) (hn : n ≤ N) (i : Fin (D n)) : 0 ≤ (l n i i).re := by
  rw [h.l_eq n hn, mixL_amp, Matrix.sum_apply, Complex.re_sum]
  refine Finset.sum_nonneg fun s _ => ?_
  rw [Matrix.mul_one, Matrix.mul_apply, Complex.re_sum]
  refine Finset.sum_nonneg fun k _ => ?_
  have : star (amp A n s k i) * amp A n s k i = ((Complex.normSq (amp A n s k i) : ℝ) : ℂ) := by
    rw [Complex.normSq_eq_conj_mul_self]; rfl
  rw [Matrix.conjTranspose_apply, this, Complex.ofReal_re]
  exact Complex.normSq_nonneg _

end EvoMPS
