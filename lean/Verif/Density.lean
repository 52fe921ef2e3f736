import Verif.Correl

/-!
# Density matrices (helper lemmas)
-/

set_option linter.unusedSectionVars false

namespace EvoMPS

open Matrix

variable {R : Type*} [CommRing R] [StarRing R] {q D : ℕ → ℕ} {N : ℕ}

/-- One write `rho[i, j] = v` with a range check. -/
def writeStep {ι : Type*} (dim : ℕ) (i j : ι → ℕ) (v : ι → R) (rho : Option (ℕ → ℕ → R)) (p : ι) :
    Option (ℕ → ℕ → R) :=
  rho.bind fun rho => if i p < dim ∧ j p < dim then
    some (Function.update rho (i p) (Function.update (rho (i p)) (j p) (v p))) else none

section writes
variable {ι : Type*} (dim : ℕ) (i j : ι → ℕ) (v : ι → R)

theorem writes_none (L : List ι) : L.foldl (writeStep dim i j v) none = none := by
  induction L with
  | nil => rfl
  | cons p L ih => rw [List.foldl_cons]; exact ih

theorem writes_raise (L : List ι) (p : ι) (hp : p ∈ L) (h : ¬ (i p < dim ∧ j p < dim))
    (rho : Option (ℕ → ℕ → R)) : L.foldl (writeStep dim i j v) rho = none := by
  induction L generalizing rho with
  | nil => simp at hp
  | cons p' L ih =>
    rw [List.foldl_cons]
    rcases List.mem_cons.1 hp with rfl | hp
    · have : writeStep dim i j v rho p = none := by
        cases rho with
        | none => rfl
        | some rho => exact if_neg h
      rw [this, writes_none]
    · exact ih hp _

theorem writes_some (L : List ι) (hr : ∀ p ∈ L, i p < dim ∧ j p < dim) (junk : ℕ → ℕ → R) :
    ∃ rho, L.foldl (writeStep dim i j v) (some junk) = some rho ∧
      (∀ a b, (∀ p ∈ L, ¬ (i p = a ∧ j p = b)) → rho a b = junk a b) ∧
      ∀ V : ℕ → ℕ → R, (∀ p ∈ L, v p = V (i p) (j p)) →
        ∀ p ∈ L, rho (i p) (j p) = v p := by
  induction L using List.reverseRecOn with
  | nil => exact ⟨junk, rfl, fun _ _ _ => rfl, fun _ _ p hp => by simp at hp⟩
  | append_singleton L p' ih =>
    obtain ⟨rho, h1, h2, h3⟩ := ih (fun p hp => hr p (by simp [hp]))
    refine ⟨Function.update rho (i p') (Function.update (rho (i p')) (j p') (v p')), ?_, ?_, ?_⟩
    · rw [List.foldl_append, h1, List.foldl_cons, List.foldl_nil, writeStep, Option.bind_some,
        if_pos (hr p' (by simp))]
    · intro a b hab
      have hp' := hab p' (by simp)
      rw [← h2 a b (fun p hp => hab p (by simp [hp]))]
      by_cases ha : a = i p'
      · subst ha
        rw [Function.update_self, Function.update_of_ne (by tauto)]
      · rw [Function.update_of_ne ha]
    · intro V hV p hp
      by_cases hpos : i p = i p' ∧ j p = j p'
      · rw [hpos.1, hpos.2, Function.update_self, Function.update_self, hV p hp,
          hV p' (by simp), hpos.1, hpos.2]
      · have hpL : p ∈ L := by
          rcases List.mem_append.1 hp with h | h
          · exact h
          · simp only [List.mem_singleton] at h
            subst h; simp at hpos
        rw [← h3 V (fun p hp => hV p (by simp [hp])) p hpL]
        by_cases ha : i p = i p'
        · rw [ha, Function.update_self, Function.update_of_ne (by tauto)]
        · rw [Function.update_of_ne ha]

end writes

/-- The list of loop indices `(s2, t2, s1, t1)` of `density_2s`. -/
def dens2Idx (q1 q2 : ℕ) : List (Fin q2 × Fin q2 × Fin q1 × Fin q1) :=
  (List.finRange q2).flatMap fun s2 => (List.finRange q2).flatMap fun t2 =>
    (List.finRange q1).flatMap fun s1 => (List.finRange q1).map fun t1 => (s2, t2, s1, t1)

theorem mem_dens2Idx {q1 q2 : ℕ} (p : Fin q2 × Fin q2 × Fin q1 × Fin q1) : p ∈ dens2Idx q1 q2 := by
  obtain ⟨s2, t2, s1, t1⟩ := p
  simp [dens2Idx, List.mem_flatMap, List.mem_finRange]

/-- The value `density_2s` writes for a tuple of basis states. -/
def dens2Val (S : MPS R q D) (k1 k2 : ℕ)
    (p : Fin (q k2) × Fin (q k2) × Fin (q k1) × Fin (q k1)) : R :=
  adot (S.l k1) (S.A k1 p.2.2.2 * density2sEnv S k1 k2 p.1 p.2.1 (k1 + 1) * (S.A k1 p.2.2.1)ᴴ)

theorem density2s_fold [DecidableEq R] (S : MPS R q D) (k1 k2 : ℕ) (hk : k1 < k2) (hN : k2 < N)
    (junk : ℕ → ℕ → R) :
    density2s N S k1 k2 junk = (dens2Idx (q k1) (q k2)).foldl
      (writeStep (q k1 * q k2) (fun p => p.2.2.1.val * q k1 + p.1.val)
        (fun p => p.2.2.2.val * q k1 + p.2.1.val) (dens2Val S k1 k2)) (some junk) := by
  rw [density2s, if_pos ⟨hk, hN⟩, dens2Idx]
  simp only [List.foldl_flatMap, List.foldl_map]
  rfl

theorem density2sEnv_spec (S : MPS R q D) (k1 k2 : ℕ) (hk : k1 < k2) (s2 t2 : Fin (q k2)) :
    density2sEnv S k1 k2 s2 t2 k2 = S.A k2 t2 * S.r (k2 + 1) * (S.A k2 s2)ᴴ ∧
    ∀ n, k1 + 1 ≤ n → n < k2 → density2sEnv S k1 k2 s2 t2 n
      = epsR (density2sEnv S k1 k2 s2 t2 (n + 1)) (S.A n) (S.A n) := by
  obtain ⟨h1, h2⟩ := foldDown_spec (X := fun n => Matrix (Fin (D n)) (Fin (D n)) R)
    (fun n x => epsR x (S.A n) (S.A n))
    (Function.update 0 k2 (S.A k2 t2 * S.r (k2 + 1) * (S.A k2 s2)ᴴ)) (k1 + 1) (k2 - (k1 + 1))
  refine ⟨?_, fun n hn1 hn2 => h2 n hn1 (by omega)⟩
  have := h1 k2 (by omega)
  rw [Function.update_self] at this
  exact this

theorem adot_mixL_transport (A B : Tensors R q D) (E : Envs R D) (a b : ℕ) (hab : a ≤ b)
    (hE : ∀ n, a ≤ n → n < b → E n = epsR (E (n + 1)) (A n) (A n))
    (hB : ∀ n, a ≤ n → n < b → B n = A n) :
    adot (mixL B A 1 a) (E a) = adot (mixL B A 1 b) (E b) := by
  obtain ⟨j, rfl⟩ := Nat.exists_eq_add_of_le hab
  clear hab
  induction j with
  | zero => rfl
  | succ j ih =>
    rw [ih (fun n h1 h2 => hE n h1 (by omega)) (fun n h1 h2 => hB n h1 (by omega)),
      hE (a + j) (by omega) (by omega)]
    conv_rhs => rw [show a + (j + 1) = a + j + 1 from rfl, adot_mixL_step,
      hB (a + j) (by omega) (by omega)]

theorem dens2Val_eq (S : MPS R q D) (h : UpToDate N S.A S.l S.r) (h0 : D 0 = 1)
    (hN : D N = 1) (k1 k2 : ℕ) (hk : k1 < k2) (hk2 : k2 < N) (s1 t1 : Fin (q k1))
    (s2 t2 : Fin (q k2)) :
    dens2Val S k1 k2 (s2, t2, s1, t1) = matElem (psi S.A h0 hN)
      (siteOpPair (N := N) k1 k2 (by omega) hk2 (unitOp s1 t1) (unitOp s2 t2))
      (psi S.A h0 hN) := by
  rw [siteOpPair_eq k1 k2 (by omega) hk2 (by omega)]
  set o := at1 k1 (unitOp (R := R) s1 t1) (at1 k2 (unitOp s2 t2) fun n => idOp (q n)) with ho
  have ho1 : ∀ n, n ≠ k1 → n ≠ k2 → o n = idOp (q n) := fun n h1 h2 => by
    rw [ho, at1, Function.update_of_ne h1, at1, Function.update_of_ne h2]
  have hok1 : o k1 = unitOp s1 t1 := by rw [ho, at1, Function.update_self]
  have hok2 : o k2 = unitOp s2 t2 := by
    rw [ho, at1, Function.update_of_ne (by omega), at1, Function.update_self]
  obtain ⟨e1, e2⟩ := density2sEnv_spec S k1 k2 hk s2 t2
  rw [matElem_window h h0 hN o (k2 + 1) hk2 (fun n h1 _ => ho1 n (by omega) (by omega)),
    adot_mixL_step, opT_at S.A hok2, epsR_opSite_unit, ← e1,
    ← adot_mixL_transport S.A (opT o S.A) (density2sEnv S k1 k2 s2 t2) (k1 + 1) k2 hk e2
      (fun n h1 h2 => opT_id S.A (ho1 n (by omega) (by omega))),
    adot_mixL_step, opT_at S.A hok1, epsR_opSite_unit,
    mixL_window h o k1 (by omega) (fun n hn => ho1 n (by omega) (by omega))]
  rfl

end EvoMPS
