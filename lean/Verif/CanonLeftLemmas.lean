import Verif.CanonLeft
import Verif.CanonLemmas

/-!
# Left canonical form (helper lemmas)
-/

set_option linter.unusedSectionVars false

namespace EvoMPS

open Matrix

variable {R : Type*} [CommRing R] [StarRing R] {q D D' : ℕ → ℕ} {N : ℕ}

theorem lcfD_le (n : ℕ) (hn : n ≤ N) : lcfD q D N n ≤ D n := by
  cases n with
  | zero => exact le_rfl
  | succ n => rw [lcfD_succ (by omega)]; exact min_le_right _ _

theorem lcfD_pos (hq : ∀ n < N, 0 < q n) (hD : ∀ n ≤ N, 0 < D n) (n : ℕ) (hn : n ≤ N) :
    0 < lcfD q D N n := by
  induction n with
  | zero => exact hD 0 hn
  | succ n ih =>
    rw [lcfD_succ (by omega)]
    exact lt_min (Nat.mul_pos (hq n (by omega)) (ih (by omega))) (hD _ hn)

/-- What the sweep has achieved when it has reached bond `n`. -/
structure LcfInv (N : ℕ) (A : Tensors R q D) (l : Envs R D) (n : ℕ)
    (S : LcfSt R q D (lcfD q D N)) : Prop where
  first : S.G 0 = (1 : Matrix (Fin (D 0)) (Fin (D 0)) R)
  lfirst : S.l 0 = ⟨D 0, l 0⟩
  gauge : ∀ m < n, ∀ s, S.G m * A m s = S.A m s * S.G (m + 1)
  orth : ∀ m < n, ∑ s, (S.A m s)ᴴ * S.A m s = 1
  l_eq : ∀ m < n, S.l (m + 1) = ⟨D (m + 1), 1⟩

theorem lcfStep_inv (qr : QR R) (A : Tensors R q D) (l : Envs R D) (n : Fin N)
    (S : LcfSt R q D (lcfD q D N)) (h : LcfInv N A l n S) :
    LcfInv N A l (n + 1) (lcfStep qr A S n) := by
  obtain ⟨n, hn⟩ := n
  have e1 := h.first
  have e2 := h.lfirst
  refine ⟨?_, ?_, fun m h1 s => ?_, fun m h1 => ?_, fun m h1 => ?_⟩
  · simp only [lcfStep]
    rw [Function.update_of_ne (by omega), e1]
  · simp only [lcfStep]
    rw [Function.update_of_ne (by omega), e2]
  · simp only at h1
    rcases Nat.lt_or_ge m n with hm | hm
    · have := h.gauge m hm s
      simp only [lcfStep]
      rwa [Function.update_of_ne (by omega), Function.update_of_ne (by omega),
        Function.update_of_ne (by omega)]
    · obtain rfl : m = n := by omega
      simp only [lcfStep, Function.update_self]
      rw [Function.update_of_ne (by omega)]
      set GA : Matrix (Fin (q m * lcfD q D N m)) (Fin (D (m + 1))) R :=
        Matrix.of fun k j => (S.G m * A m k.divNat) k.modNat j with hGA
      ext i j
      have hq := congrFun (congrFun (qr.mul_eq GA) (flat s i)) j
      have hGAe : GA (flat s i) j = (S.G m * A m s) i j := by
        rw [hGA, Matrix.of_apply, flat_divNat, flat_modNat]
      rw [hGAe] at hq
      rw [← hq, Matrix.mul_apply, Matrix.mul_apply, ← Equiv.sum_comp (finCongr (lcfD_succ hn))]
      refine Finset.sum_congr rfl fun a _ => ?_
      simp only [Matrix.submatrix_apply, Matrix.of_apply, finCongr_apply, id]
  · simp only at h1
    rcases Nat.lt_or_ge m n with hm | hm
    · have := h.orth m hm
      simp only [lcfStep]
      rwa [Function.update_of_ne (by omega)]
    · obtain rfl : m = n := by omega
      simp only [lcfStep, Function.update_self]
      set GA : Matrix (Fin (q m * lcfD q D N m)) (Fin (D (m + 1))) R :=
        Matrix.of fun k j => (S.G m * A m k.divNat) k.modNat j with hGA
      ext i j
      have hq := congrFun (congrFun (qr.iso GA) (Fin.cast (lcfD_succ hn) i))
        (Fin.cast (lcfD_succ hn) j)
      rw [Matrix.mul_apply, sum_flat] at hq
      rw [Matrix.sum_apply]
      simp only [Matrix.mul_apply, Matrix.conjTranspose_apply, Matrix.of_apply] at hq ⊢
      rw [hq, Matrix.one_apply, Matrix.one_apply]
      simp only [Fin.ext_iff, Fin.val_cast]
  · simp only at h1
    rcases Nat.lt_or_ge m n with hm | hm
    · have := h.l_eq m hm
      simp only [lcfStep]
      rwa [Function.update_of_ne (by omega)]
    · obtain rfl : m = n := by omega
      simp only [lcfStep, Function.update_self]

theorem restoreLCFlSeq_spec (qr : QR R) (A : Tensors R q D) (l : Envs R D) :
    LcfInv N A l N (restoreLCFlSeq qr N A l) := by
  refine foldFinUp_inv (P := LcfInv N A l) _ _ ⟨?_, rfl, ?_, ?_, ?_⟩ (lcfStep_inv qr A l)
  · rfl
  all_goals intro m h1; omega

/-- What the diagonalising sweep has achieved when it has reached bond `n`. -/
structure DiagInvR (eigh : Eigh R) (A : Tensors R q D) (N n : ℕ) (S : DiagSt R q D) : Prop where
  GN : S.G N = 1
  eN : S.e N = 1
  rest : ∀ m < n, S.A m = A m
  unit : ∀ m, n ≤ m → m ≤ N → (S.G m)ᴴ * S.G m = 1
  herm : ∀ m, n ≤ m → m ≤ N → (S.e m)ᴴ = S.e m
  gauge : ∀ m, n ≤ m → m < N → ∀ s, S.A m s = (S.G m)ᴴ * A m s * S.G (m + 1)
  e_pred : ∀ m, n ≤ m → m < N → S.e m = ∑ s, S.A m s * S.e (m + 1) * (S.A m s)ᴴ
  diag : ∀ m, n ≤ m → m < N → ∃ M : Matrix (Fin (D m)) (Fin (D m)) R,
    M.IsHermitian ∧ S.e m = diagonal (eigh.ev M)
  one : ∀ m, n ≤ m → m < N → D m = 1 → S.G m = 1

theorem lcfDiagStep_inv (eigh : Eigh R) (A : Tensors R q D) (n : ℕ) (hn : n < N) (S : DiagSt R q D)
    (h : DiagInvR eigh A N (n + 1) S) : DiagInvR eigh A N n (lcfDiagStep eigh S n) := by
  set M := epsR (S.G (n + 1) * (S.e (n + 1) * (S.G (n + 1))ᴴ)) (S.A n) (S.A n) with hM
  have hMsum : M = ∑ s, A n s * (S.G (n + 1) * (S.e (n + 1) * (S.G (n + 1))ᴴ)) * (A n s)ᴴ := by
    rw [hM, epsR_eq, h.rest n (by omega)]
  have hherm : M.IsHermitian := by
    rw [Matrix.IsHermitian, hMsum, Matrix.conjTranspose_sum]
    refine Finset.sum_congr rfl fun s _ => ?_
    simp only [Matrix.conjTranspose_mul, Matrix.conjTranspose_conjTranspose,
      h.herm (n + 1) le_rfl (by omega), Matrix.mul_assoc]
  have hunit := eigh.unit M hherm
  have heig := eigh.eig M hherm
  have hA : (lcfDiagStep eigh S n).A
    = Function.update S.A n (fun s => (eigh.vec M)ᴴ * (S.A n s * S.G (n + 1))) := rfl
  have hG : (lcfDiagStep eigh S n).G = Function.update S.G n (eigh.vec M) := rfl
  have he : (lcfDiagStep eigh S n).e
    = Function.update S.e n (diagonal (eigh.ev M)) := rfl
  have hdiag : (eigh.vec M)ᴴ * (M * eigh.vec M) = diagonal (eigh.ev M) := by
    rw [heig, ← Matrix.mul_assoc, hunit, Matrix.one_mul]
  refine ⟨?_, ?_, ?_, ?_, ?_, ?_, ?_, ?_, ?_⟩
  · rw [hG, Function.update_of_ne (by omega), h.GN]
  · rw [he, Function.update_of_ne (by omega), h.eN]
  · intro m hm
    rw [hA, Function.update_of_ne (by omega), h.rest m (by omega)]
  · intro m hm hmN
    rcases Nat.lt_or_ge n m with h1 | h1
    · rw [hG, Function.update_of_ne (by omega), h.unit m h1 hmN]
    · obtain rfl : m = n := by omega
      rw [hG, Function.update_self, hunit]
  · intro m hm hmN
    rcases Nat.lt_or_ge n m with h1 | h1
    · rw [he, Function.update_of_ne (by omega), h.herm m h1 hmN]
    · obtain rfl : m = n := by omega
      rw [he, Function.update_self, Matrix.diagonal_conjTranspose]
      congr 1
      exact funext fun i => eigh.real M hherm i
  · intro m hm hmN s
    rcases Nat.lt_or_ge n m with h1 | h1
    · rw [hG, Function.update_of_ne (by omega), Function.update_of_ne (by omega), hA,
        Function.update_of_ne (by omega), h.gauge m h1 hmN s]
    · obtain rfl : m = n := by omega
      rw [hG, Function.update_self, Function.update_of_ne (by omega), hA, Function.update_self,
        h.rest m (by omega), Matrix.mul_assoc]
  · intro m hm hmN
    rcases Nat.lt_or_ge n m with h1 | h1
    · rw [he, Function.update_of_ne (by omega), Function.update_of_ne (by omega), hA,
        Function.update_of_ne (by omega), h.e_pred m h1 hmN]
    · obtain rfl : m = n := by omega
      rw [he, Function.update_self, Function.update_of_ne (by omega), hA, Function.update_self,
        ← hdiag, hMsum, Matrix.sum_mul, Matrix.mul_sum, h.rest m (by omega)]
      refine Finset.sum_congr rfl fun s _ => ?_
      simp only [Matrix.conjTranspose_mul, Matrix.conjTranspose_conjTranspose, Matrix.mul_assoc]
  · intro m hm hmN
    rcases Nat.lt_or_ge n m with h1 | h1
    · rw [he, Function.update_of_ne (by omega)]
      exact h.diag m h1 hmN
    · obtain rfl : m = n := by omega
      rw [he, Function.update_self]
      exact ⟨_, hherm, rfl⟩
  · intro m hm hmN hD
    rcases Nat.lt_or_ge n m with h1 | h1
    · rw [hG, Function.update_of_ne (by omega)]
      exact h.one m h1 hmN hD
    · obtain rfl : m = n := by omega
      rw [hG, Function.update_self, eigh.one M hD hherm]

theorem restoreLCFrSeq_spec (eigh : Eigh R) (A : Tensors R q D) (r : Envs R D) (hr : r N = 1) :
    DiagInvR eigh A N 0 (restoreLCFrSeq eigh N A r) := by
  refine foldDown_inv (lcfDiagStep eigh) (DiagInvR eigh A N) 0 N
    ⟨A, fun n => if n = N then 1 else 0, r⟩ ?_ (fun n _ h1 S h => lcfDiagStep_inv eigh A n
      (by omega) S h)
  rw [Nat.zero_add]
  refine ⟨if_pos rfl, hr, fun _ _ => rfl, fun m hm hm' => ?_, fun m hm hm' => ?_, ?_, ?_, ?_, ?_⟩
  · obtain rfl : m = N := by omega
    simp
  · obtain rfl : m = N := by omega
    simp only [hr, Matrix.conjTranspose_one]
  all_goals intro m hm hm'; omega

/-- A left-orthonormal chain has norm 1. -/
theorem braket_of_left_orth {A : Tensors R q D} (h : ∀ n < N, ∑ s, (A n s)ᴴ * A n s = 1)
    (h0 : D 0 = 1) (hN : D N = 1) : braket (psi (N := N) A h0 hN) (psi A h0 hN) = 1 := by
  have hl : LOk N A (fun _ => 1) := by
    refine ⟨rfl, fun n hn => ?_⟩
    simp only [Matrix.mul_one]
    exact (h n hn).symm
  rw [← hl.last_entry h0 hN, Matrix.one_apply_eq]

theorem calcR_spec (S : MPS R q D) (hr : S.r N = 1) :
    (calcR N S).A = S.A ∧ ROk N S.A (calcR N S).r := by
  obtain ⟨a1, a2, a3, a4⟩ := calcR_default N S
  refine ⟨a1, by rw [a3 N le_rfl, hr], fun n hn => ?_⟩
  rw [a4 n hn, epsR_eq]

/-- The diagonalising sweep applied to a left-orthonormal chain. -/
theorem diagR_spec (eigh : Eigh R) (A : Tensors R q D) (l r : Envs R D) (hr : r N = 1)
    (hl : LOk N A l) (hl1 : ∀ n < N, l n = 1) (h0 : D 0 = 1) (hN : D N = 1) (hpos : 0 < N) :
    let U := restoreLCFrSeq eigh N A r
    UpToDate N U.A l U.e ∧ (∀ s : Cfg q N, psi U.A h0 hN s = psi A h0 hN s) ∧
      ∀ n < N, ∃ M : Matrix (Fin (D n)) (Fin (D n)) R,
        M.IsHermitian ∧ U.e n = diagonal (eigh.ev M) := by
  intro U
  have hU : DiagInvR eigh A N 0 U := restoreLCFrSeq_spec eigh A r hr
  have hA : ∀ n < N, ∑ s, (A n s)ᴴ * A n s = l (n + 1) := by
    intro n hn
    rw [hl.l_succ n hn, hl1 n hn]
    simp only [Matrix.mul_one]
  refine ⟨⟨hl.l_zero, fun n hn => ?_, hU.eN, fun n hn => hU.e_pred n (by omega) hn⟩, fun s => ?_,
    fun n hn => hU.diag n (by omega) hn⟩
  · rw [hl1 n hn]
    simp only [Matrix.mul_one, hU.gauge n (by omega) hn]
    have e : ∀ s, ((U.G n)ᴴ * A n s * U.G (n + 1))ᴴ * ((U.G n)ᴴ * A n s * U.G (n + 1))
        = (U.G (n + 1))ᴴ * ((A n s)ᴴ * A n s) * U.G (n + 1) := by
      intro s
      simp only [Matrix.conjTranspose_mul, Matrix.conjTranspose_conjTranspose]
      calc (U.G (n + 1))ᴴ * ((A n s)ᴴ * U.G n) * ((U.G n)ᴴ * A n s * U.G (n + 1))
          = (U.G (n + 1))ᴴ * ((A n s)ᴴ * (U.G n * (U.G n)ᴴ) * A n s) * U.G (n + 1) := by
            simp only [Matrix.mul_assoc]
        _ = _ := by rw [mul_eq_one_comm.mp (hU.unit n (by omega) (by omega)), Matrix.mul_one]
    simp only [e]
    rw [← Matrix.sum_mul, ← Matrix.mul_sum, hA n hn]
    rcases Nat.lt_or_ge (n + 1) N with h | h
    · rw [hl1 _ h, Matrix.mul_one, hU.unit (n + 1) (by omega) (by omega)]
    · obtain rfl : N = n + 1 := by omega
      rw [hU.GN, Matrix.conjTranspose_one, Matrix.one_mul, Matrix.mul_one]
  · have := psi_gauge (N := N) A U.A U.G (fun n hn s => by
      rw [hU.gauge n (by omega) hn, ← Matrix.mul_assoc, ← Matrix.mul_assoc,
        mul_eq_one_comm.mp (hU.unit n (by omega) (by omega)), Matrix.one_mul])
      h0 hN h0 hN s
    rw [hU.one 0 le_rfl hpos h0, hU.GN] at this
    simpa using this.symm

theorem restoreLCF_spec (qr : QR R) (eigh : Eigh R) (scaleA scaleL : R → R) (diagR : Bool)
    (S : MPS R q D) (r' : Envs R (lcfD q D N)) (hl : S.l 0 = 1) (hr : r' N = 1)
    (h0 : D 0 = 1) (hN : D N = 1) (h0' : lcfD q D N 0 = 1) (hN' : lcfD q D N N = 1)
    (hpos : 0 < N) :
    let S' := restoreLCF qr eigh N scaleA scaleL diagR (by omega) (by omega) S r'
    ∃ (g : R) (φ : Cfg q N → R) (Λ : Envs R (lcfD q D N)),
      (∀ s, psi S.A h0 hN s = g * φ s) ∧ braket φ φ = 1 ∧
      (∀ n < N, Λ n = 1) ∧ (∀ n < N, S'.l n = ⟨D n, 1⟩) ∧
      Λ N = scaleL g • 1 ∧ S'.l N = ⟨D N, scaleL g • 1⟩ ∧
      (scaleL g = star (scaleA g) * scaleA g →
        (∀ s, psi S'.A h0' hN' s = scaleA g * φ s) ∧ UpToDate N S'.A Λ S'.r ∧
        (diagR = true → ∀ n < N,
          ∃ M : Matrix (Fin (lcfD q D N n)) (Fin (lcfD q D N n)) R,
            M.IsHermitian ∧ S'.r n = diagonal (eigh.ev M))) := by
  obtain ⟨M, rfl⟩ : ∃ M, N = M + 1 := ⟨N - 1, by omega⟩
  intro S'
  have hT := restoreLCFlSeq_spec (N := M + 1) qr S.A S.l
  set T := restoreLCFlSeq qr (M + 1) S.A S.l with hTdef
  set g := T.G (M + 1) ⟨0, by omega⟩ ⟨0, by omega⟩ with hg
  set A1 : Tensors R q (lcfD q D (M + 1)) := scaleLast M (scaleA g) T.A with hA1
  set Λ : Envs R (lcfD q D (M + 1)) := Function.update (fun _ => 1) (M + 1) (scaleL g • 1) with hΛ
  have hSl : S'.l = Function.update T.l (M + 1) ⟨(T.l (M + 1)).1, scaleL g • (T.l (M + 1)).2⟩ := by
    cases diagR <;> rfl
  refine ⟨g, psi T.A h0' hN', Λ, fun s => ?_, braket_of_left_orth (fun n hn => hT.orth n hn) _ _,
    fun n hn => by rw [hΛ, Function.update_of_ne (by omega)], fun n hn => ?_, by
      rw [hΛ, Function.update_self], ?_, fun hsc => ?_⟩
  · have := psi_gauge (N := M + 1) T.A S.A T.G
      (fun n hn s => (hT.gauge n hn s).symm) h0' hN' h0 hN s
    rw [hT.first] at this
    have e : (1 : Matrix (Fin (D 0)) (Fin (D 0)) R) ⟨0, by omega⟩ ⟨0, by omega⟩ = 1 :=
      Matrix.one_apply_eq _
    rw [mul_comm g]
    refine Eq.trans ?_ this.symm
    refine (one_mul _).symm.trans ?_
    exact congrArg (· * _) e.symm
  · rw [hSl, Function.update_of_ne (by omega)]
    cases n with
    | zero => rw [hT.lfirst, hl]
    | succ n => rw [hT.l_eq n (by omega)]
  · rw [hSl, Function.update_self, hT.l_eq M (by omega)]
  have hL : LOk (M + 1) A1 Λ := by
    refine ⟨by rw [hΛ, Function.update_of_ne (by omega)], fun n hn => ?_⟩
    have e : Λ n = 1 := by rw [hΛ, Function.update_of_ne (by omega)]
    rw [e]
    simp only [Matrix.mul_one]
    rcases Nat.lt_or_ge n M with h | h
    · rw [hΛ, Function.update_of_ne (by omega), hA1, scaleLast, Function.update_of_ne (by omega),
        hT.orth n hn]
    · obtain rfl : n = M := by omega
      rw [hΛ, Function.update_self, hA1, scaleLast, Function.update_self, hsc,
        ← hT.orth n hn, Finset.smul_sum]
      refine Finset.sum_congr rfl fun s _ => ?_
      rw [Matrix.conjTranspose_smul, Matrix.smul_mul, Matrix.mul_smul, smul_smul]
  have hΛ1 : ∀ n < M + 1, Λ n = 1 := fun n hn => by rw [hΛ, Function.update_of_ne (by omega)]
  have hpsi : ∀ s : Cfg q (M + 1), psi A1 h0' hN' s = scaleA g * psi T.A h0' hN' s :=
    psi_scaleLast M _ _ _ _
  cases diagR with
  | true =>
    obtain ⟨u1, u2, u3⟩ := diagR_spec eigh A1 Λ r' hr hL hΛ1 h0' hN' hpos
    exact ⟨fun s => (u2 s).trans (hpsi s), u1, fun _ => u3⟩
  | false =>
    obtain ⟨c1, c2⟩ := calcR_spec (N := M + 1) ⟨A1, 0, r'⟩ hr
    refine ⟨fun s => ?_, ?_, fun h => by simp at h⟩
    · have : S'.A = A1 := c1
      rw [this, hpsi]
    · have e1 : S'.A = A1 := c1
      have e2 : S'.r = (calcR (M + 1) ⟨A1, 0, r'⟩).r := rfl
      rw [e1, e2]
      exact ⟨hL.l_zero, hL.l_succ, c2.r_last, c2.r_pred⟩

end EvoMPS
