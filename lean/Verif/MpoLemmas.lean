import Verif.Mpo
import Verif.Inner

/-!
# Matrix product operators (helper lemmas)
-/

set_option linter.unusedSectionVars false

namespace EvoMPS

open Matrix

variable {R : Type*} [CommRing R] [StarRing R] {q D M : ℕ → ℕ} {N : ℕ}

theorem fin_sum_one' {m : ℕ} (hm : m = 1) (f : Fin m → R) : ∑ i, f i = f ⟨0, by omega⟩ := by
  subst hm; simp

theorem epsRMPO_apply {q a b a' b' m1 m2 : ℕ} (x : Fin m2 → Matrix (Fin b) (Fin b') R)
    (A1 : Ten R q a b) (A2 : Ten R q a' b') (op : Fin m1 → Fin m2 → Fin q → Fin q → R)
    (m : Fin m1) : epsRMPO x A1 A2 op m
      = ∑ p, ∑ n, ∑ t, op m n p t • (A1 t * x n * (A2 p)ᴴ) := by
  ext i i'
  simp only [epsRMPO, forSum_eq, Matrix.of_apply, Matrix.sum_apply, Matrix.smul_apply,
    Matrix.mul_apply, Matrix.conjTranspose_apply, smul_eq_mul, Finset.sum_mul, Finset.mul_sum]
  refine Finset.sum_congr rfl fun p _ => ?_
  rw [Finset.sum_comm]
  refine Finset.sum_congr rfl fun n _ => ?_
  rw [Finset.sum_comm]
  refine Finset.sum_congr rfl fun t _ => ?_
  refine Finset.sum_congr rfl fun j _ => Finset.sum_congr rfl fun d _ => ?_
  ring

theorem applyMPOLocal_apply {q a b m1 m2 : ℕ} (Mn : Fin m1 → Fin m2 → Fin q → Fin q → R)
    (An : Ten R q a b) (p : Fin q) (i : Fin a) (x : Fin m1) (j : Fin b) (y : Fin m2) :
    applyMPOLocal Mn An p (flat i x) (flat j y) = ∑ t, Mn x y p t * An t i j := by
  simp only [applyMPOLocal, Matrix.of_apply, flat_divNat, flat_modNat, forSum_eq]

/-- The tensors of `O|ψ⟩` with `W` applied on every site. -/
def mpoT (W : ∀ n, Fin (M n) → Fin (M (n + 1)) → Fin (q n) → Fin (q n) → R)
    (A : Tensors R q D) : Tensors R q (fun n => D n * M n) :=
  fun n => applyMPOLocal (W n) (A n)

theorem amp_mpoT (W : ∀ n, Fin (M n) → Fin (M (n + 1)) → Fin (q n) → Fin (q n) → R)
    (A : Tensors R q D) (n : ℕ) (s : Cfg q n) (i : Fin (D 0)) (x : Fin (M 0)) (j : Fin (D n))
    (y : Fin (M n)) :
    amp (mpoT W A) n s (flat i x) (flat j y)
      = ∑ t, mpoProd W n s t x y * amp A n t i j := by
  induction n with
  | zero =>
    simp only [amp, mpoProd, Matrix.one_apply]
    have : flat i x = flat j y ↔ x = y ∧ i = j := by
      constructor
      · intro h
        refine ⟨by simpa using congrArg Fin.modNat h, by simpa using congrArg Fin.divNat h⟩
      · rintro ⟨rfl, rfl⟩; rfl
    simp only [this]
    by_cases h1 : x = y <;> by_cases h2 : i = j <;> simp [h1, h2]
  | succ n ih =>
    rw [amp, Matrix.mul_apply, sum_flat]
    rw [sum_cfg_succ]
    simp only [amp_snoc, mpoProd, snocCfg_castSucc, snocCfg_last]
    simp only [mpoT] at ih ⊢
    simp only [ih, applyMPOLocal_apply, Matrix.mul_apply, Matrix.of_apply, Finset.sum_mul,
      Finset.mul_sum]
    rw [sum_comm4]
    refine Finset.sum_congr rfl fun t _ => Finset.sum_congr rfl fun u _ =>
      Finset.sum_congr rfl fun j' _ => Finset.sum_congr rfl fun y' _ => ?_
    ring

theorem fin_eq_flat {a m : ℕ} (hm : m = 1) (I : Fin (a * m)) :
    I = flat I.divNat (⟨0, by omega⟩ : Fin m) := by
  subst hm
  apply Fin.ext
  simp [flat, Fin.divNat]

theorem psi_mpoT (W : ∀ n, Fin (M n) → Fin (M (n + 1)) → Fin (q n) → Fin (q n) → R)
    (A : Tensors R q D) (h0 : D 0 = 1) (hN : D N = 1) (hM0 : M 0 = 1) (hMN : M N = 1)
    (s : Cfg q N) :
    psi (D := fun n => D n * M n) (mpoT W A) (by rw [h0, hM0]) (by rw [hN, hMN]) s
      = ∑ t, mpoProd W N s t ⟨0, by omega⟩ ⟨0, by omega⟩ * psi A h0 hN t := by
  rw [psi, fin_eq_flat (a := D 0) (m := M 0) hM0 ⟨0, _⟩,
    fin_eq_flat (a := D N) (m := M N) hMN ⟨0, _⟩, amp_mpoT]
  refine Finset.sum_congr rfl fun t _ => ?_
  rw [psi]
  congr 2 <;> exact Fin.ext (by simp [Fin.divNat])

/-- The vector of matrices `x` as one matrix with rows indexed by `(D, M)`. -/
def stackX {a b m : ℕ} (x : Fin m → Matrix (Fin a) (Fin b) R) :
    Matrix (Fin (a * m)) (Fin b) R :=
  Matrix.of fun I j => x I.modNat I.divNat j

theorem stackX_flat {a b m : ℕ} (x : Fin m → Matrix (Fin a) (Fin b) R) (i : Fin a) (y : Fin m)
    (j : Fin b) : stackX x (flat i y) j = x y i j := by
  simp [stackX]

/-- The MPO map is the plain map with the ket tensor modified. -/
theorem epsR_stackX {q a b a' b' m1 m2 : ℕ} (x : Fin m2 → Matrix (Fin b) (Fin b') R)
    (A1 : Ten R q a b) (A2 : Ten R q a' b') (op : Fin m1 → Fin m2 → Fin q → Fin q → R) :
    epsR (stackX x) (applyMPOLocal op A1) A2 = stackX (epsRMPO x A1 A2 op) := by
  ext I i'
  obtain ⟨i, y, rfl⟩ : ∃ (i : Fin a) (y : Fin m1), I = flat i y :=
    ⟨I.divNat, I.modNat, by rw [flat_eq]; exact (finProdFinEquiv.apply_symm_apply I).symm⟩
  rw [stackX_flat, epsRMPO_apply, epsR_eq]
  simp only [Matrix.sum_apply, Matrix.smul_apply, Matrix.mul_apply, Matrix.conjTranspose_apply,
    smul_eq_mul, sum_flat, applyMPOLocal_apply, stackX_flat, Finset.sum_mul, Finset.mul_sum]
  refine Finset.sum_congr rfl fun p _ => ?_
  rw [sum_comm4, Finset.sum_comm]
  refine Finset.sum_congr rfl fun n _ => Finset.sum_congr rfl fun t _ =>
    Finset.sum_congr rfl fun j _ => Finset.sum_congr rfl fun d _ => ?_
  ring

theorem down_unique {X : ℕ → Type*} (g : ∀ n, X (n + 1) → X n) (x y : ∀ n, X n) (a b : ℕ)
    (hab : a ≤ b) (h : x b = y b) (hx : ∀ n, a ≤ n → n < b → x n = g n (x (n + 1)))
    (hy : ∀ n, a ≤ n → n < b → y n = g n (y (n + 1))) : x a = y a := by
  obtain ⟨j, rfl⟩ := Nat.exists_eq_add_of_le hab
  clear hab
  induction j with
  | zero => exact h
  | succ j ih =>
    refine ih ?_ (fun n h1 h2 => hx n h1 (by omega)) (fun n h1 h2 => hy n h1 (by omega))
    rw [hx (a + j) (by omega) (by omega), hy (a + j) (by omega) (by omega)]
    exact congrArg _ h

theorem epsRMPO_id {q a b a' b' m1 m2 : ℕ} (h1 : m1 = 1) (h2 : m2 = 1)
    (x : Fin m2 → Matrix (Fin b) (Fin b') R)
    (A1 : Ten R q a b) (A2 : Ten R q a' b') (y : Fin m1) :
    epsRMPO x A1 A2 (fun (_ : Fin m1) _ s t => if s = t then 1 else 0) y
      = epsR (x ⟨0, by omega⟩) A1 A2 := by
  subst h1 h2
  rw [epsRMPO_apply, epsR_eq]
  refine Finset.sum_congr rfl fun p _ => ?_
  simp

/-- Value of `expect_MPO`. -/
theorem expectMPO_value (S : MPS R q D) (h : UpToDate N S.A S.l S.r) (h0 : D 0 = 1)
    (hN : D N = 1) (k m : ℕ) (hkm : k + m ≤ N) (hM : ∀ n, n ≤ k ∨ k + m ≤ n → M n = 1)
    (W : ∀ n, Fin (M n) → Fin (M (n + 1)) → Fin (q n) → Fin (q n) → R) :
    expectMPO N S k m W = some (matElem (psi S.A h0 hN)
      (mpoOp (N := N) k m (hM 0 (by omega)) (hM N (by omega)) W) (psi S.A h0 hN)) := by
  have hM0 : M 0 = 1 := hM 0 (by omega)
  have hMN : M N = 1 := hM N (by omega)
  have hMk : M k = 1 := hM k (by omega)
  have hMe : M (k + m) = 1 := hM (k + m) (by omega)
  set V := mpoWindow k m W with hV
  -- the array `x`, continued over the whole chain with trivial operators
  obtain ⟨y1, y2⟩ := foldDown_spec (X := fun n => Fin (M n) → Matrix (Fin (D n)) (Fin (D n)) R)
    (fun n x => epsRMPO x (S.A n) (S.A n) (V n)) (fun n _ => S.r n) 0 (k + m)
  set y := (List.range' 0 (k + m)).reverse.foldl (fun x n =>
    Function.update x n (epsRMPO (x (n + 1)) (S.A n) (S.A n) (V n)))
    (fun n (_ : Fin (M n)) => S.r n) with hy
  have ystep : ∀ n < N, y n = epsRMPO (y (n + 1)) (S.A n) (S.A n) (V n) := by
    intro n hn
    rcases Nat.lt_or_ge n (k + m) with hlt | hge
    · exact y2 n (by omega) (by omega)
    · funext z
      have hVn : V n = fun _ _ s t => if s = t then 1 else 0 := by
        funext a b s t
        rw [hV, mpoWindow, if_neg (by omega)]
      rw [hVn, epsRMPO_id (hM n (by omega)) (hM (n + 1) (by omega)), y1 n (by omega),
        y1 (n + 1) (by omega), h.r_pred n hn, epsR_eq]
  -- the overlap of the modified ket with the bra
  have hov := inner_value (D := fun n => D n * M n) (D' := D) (mpoT V S.A) S.A
    (by rw [h0, hM0]) h0 (by rw [hN, hMN]) hN (fun n => stackX (y n))
    (fun n hn => by rw [ystep n hn, ← epsR_stackX]; rfl)
    (by
      have e : (⟨0, by rw [hN, hMN]; omega⟩ : Fin (D N * M N))
          = flat (⟨0, by omega⟩ : Fin (D N)) (⟨0, by omega⟩ : Fin (M N)) :=
        Fin.ext (by simp [flat])
      rw [e, stackX_flat, y1 N (by omega), h.r_last]
      exact Matrix.one_apply_eq _)
  have e0 : (⟨0, by rw [h0, hM0]; omega⟩ : Fin (D 0 * M 0))
      = flat (⟨0, by omega⟩ : Fin (D 0)) (⟨0, by omega⟩ : Fin (M 0)) :=
    Fin.ext (by simp [flat])
  rw [e0, stackX_flat] at hov
  -- the left environment takes care of the sites before the window
  have hleft : ∀ n (hn : n ≤ k), adot (S.l n) (y n ⟨0, by rw [hM n (by omega)]; omega⟩)
      = y 0 ⟨0, by omega⟩ ⟨0, by omega⟩ ⟨0, by omega⟩ := by
    intro n
    induction n with
    | zero =>
      intro _
      rw [h.l_zero, adot, forSum_eq, fin_sum_one' h0, forSum_eq, fin_sum_one' h0,
        Matrix.one_apply_eq, star_one, one_mul]
    | succ n ih =>
      intro hn
      rw [← ih (by omega), h.l_succ n (by omega), ← epsL_eq, adot_epsL, ystep n (by omega)]
      have hVn : V n = fun _ _ s t => if s = t then 1 else 0 := by
        funext a b s t
        rw [hV, mpoWindow, if_neg (by omega)]
      rw [hVn, epsRMPO_id (hM n (by omega)) (hM (n + 1) (by omega))]
  -- the code's array agrees with `y` on the window
  obtain ⟨x1, x2⟩ := foldDown_spec (X := fun n => Fin (M n) → Matrix (Fin (D n)) (Fin (D n)) R)
    (fun n x => epsRMPO x (S.A n) (S.A n) (W n))
    (Function.update (fun _ _ => 0) (k + m) (fun _ => S.r (k + m))) k m
  have hx := down_unique (X := fun n => Fin (M n) → Matrix (Fin (D n)) (Fin (D n)) R)
    (fun n x => epsRMPO x (S.A n) (S.A n) (W n)) _ y k (k + m) (by omega)
    (by rw [x1 (k + m) (by omega), Function.update_self, y1 (k + m) (by omega)])
    x2 (fun n h1 h2 => by
      rw [ystep n (by omega)]
      congr 1
      funext a b s t
      rw [hV, mpoWindow, if_pos ⟨h1, h2⟩])
  rw [expectMPO, dif_pos ⟨hkm, hMk, hMe⟩]
  simp only [Option.some.injEq]
  rw [hx, hleft k le_rfl, hov, braket, matElem]
  refine Finset.sum_congr rfl fun s _ => ?_
  rw [psi_mpoT V S.A h0 hN hM0 hMN, Finset.mul_sum]
  refine Finset.sum_congr rfl fun t _ => ?_
  rw [mpoOp, ← mul_assoc]

theorem mpoProd_one (k m : ℕ) (op : ∀ n, Fin (q n) → Fin (q n) → R) (s t : Cfg q N) :
    mpoProd (M := fun _ => 1) (mpoWindow (M := fun _ => 1) k m (fun n _ _ => op n)) N s t 0 0
      = prodOp (fun n => if k ≤ n ∧ n < k + m then op n else fun s t => if s = t then 1 else 0)
        s t := by
  induction N with
  | zero => simp [mpoProd, prodOp]
  | succ N ih =>
    rw [mpoProd, Matrix.mul_apply, Fin.sum_univ_one, ih, prodOp, prodOp, Fin.prod_univ_castSucc]
    congr 1
    rw [Matrix.of_apply, mpoWindow]
    simp only [Fin.val_last]
    split <;> rfl

end EvoMPS
