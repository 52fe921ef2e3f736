import Verif.ExcitePrep

/-!
# Excitations: uniqueness and symmetry of the matrix elements, scalar products (helper lemmas)
-/

set_option linter.unusedSectionVars false

namespace EvoMPS

open Matrix Filter Topology

namespace Exc

open Uni

variable {q D : ℕ} {A A' B B' : Ten ℂ q D D} {l r : Matrix (Fin D) (Fin D) ℂ}

theorem elem_unique {n : ℕ} {O : (Fin n → Fin q) → (Fin n → Fin q) → ℂ} {p : ℝ} {a b : ℂ}
    (ha : IsExciteElem A A' l r O p B' B a) (hb : IsExciteElem A A' l r O p B' B b) : a = b := by
  obtain ⟨h, h1, h2⟩ := ha
  obtain ⟨h', h1', h2'⟩ := hb
  have e : h = h' := funext fun k => tendsto_nhds_unique (h1 k) (h1' k)
  subst e
  exact tendsto_nhds_unique h2 h2'

theorem windowElem_star (hl : lᴴ = l) (hr : rᴴ = r) (j n b : ℕ) {O : (Fin n → Fin q) → (Fin n → Fin q) → ℂ}
    (hO : ∀ s t, star (O s t) = O t s) (X Y : ℕ → Ten ℂ q D D) :
    star (windowElem 1 (fun _ => l) (fun _ => r) 0 j n b O Y X) = windowElem 1 (fun _ => l) (fun _ => r) 0 j n b O X Y := by
  simp only [windowElem, star_sum, star_mul']
  rw [Finset.sum_comm]
  refine Finset.sum_congr rfl fun s _ => Finset.sum_congr rfl fun t _ => ?_
  have h1 : star (padOp (a := j) (b := b) O t s) = padOp (a := j) (b := b) O s t := by
    simp only [padOp]
    by_cases h : (∀ i : Fin j, t ((i.castAdd n).castAdd b) = s ((i.castAdd n).castAdd b)) ∧
        (∀ i : Fin b, t (i.natAdd (j + n)) = s (i.natAdd (j + n)))
    · rw [if_pos h, if_pos ⟨fun i => (h.1 i).symm, fun i => (h.2 i).symm⟩, hO]
    · rw [if_neg h, if_neg (fun h' => h ⟨fun i => (h'.1 i).symm, fun i => (h'.2 i).symm⟩), star_zero]
  rw [h1, ← Matrix.trace_conjTranspose]
  simp only [conjTranspose_mul, conjTranspose_conjTranspose, hl, hr]
  congr 1
  rw [← Matrix.mul_assoc, ← Matrix.mul_assoc, Matrix.trace_mul_comm]
  simp only [Matrix.mul_assoc]

theorem fromSite_shift (k : ℤ) {a a' : ℕ} (h : (a' : ℤ) = a + k) (X : Ten ℂ q D D) (c : ℤ) :
    fromSite a (wall A A' (c + k) X) = fromSite a' (wall A A' c X) := by
  funext i
  simp only [fromSite, wall]
  have e1 : ((i : ℤ) - a < c + k) ↔ ((i : ℤ) - a' < c) := by omega
  have e2 : ((i : ℤ) - a = c + k) ↔ ((i : ℤ) - a' = c) := by omega
  simp only [e1, e2]

theorem wallHam_star (hl : lᴴ = l) (hr : rᴴ = r) {n : ℕ} {O : (Fin n → Fin q) → (Fin n → Fin q) → ℂ}
    (hO : ∀ s t, star (O s t) = O t s) (k : ℤ) {a b a' b' : ℕ} (ha : (a' : ℤ) = a + k) (hb : (b' : ℤ) = b - k) :
    wallHam A A' l r O B B' k a b = star (wallHam A A' l r O B' B (-k) a' b') := by
  simp only [wallHam, windowHam, star_sum, windowElem_star hl hr _ _ _ hO]
  rw [show a' + 1 + b' = a + 1 + b by omega]
  refine Finset.sum_congr rfl fun j _ => ?_
  have e1 := fromSite_shift (A := A) (A' := A') k ha B' 0
  have e2 := fromSite_shift (A := A) (A' := A') k ha B (-k)
  rw [zero_add] at e1
  rw [neg_add_cancel] at e2
  rw [e1, e2]

/-- For a Hermitian operator the matrix elements are Hermitian. -/
theorem elem_star (hl : lᴴ = l) (hr : rᴴ = r) {n : ℕ} {O : (Fin n → Fin q) → (Fin n → Fin q) → ℂ}
    (hO : ∀ s t, star (O s t) = O t s) {p : ℝ} {a : ℂ}
    (ha : IsExciteElem A A' l r O p B' B a) : IsExciteElem A A' l r O p B B' (star a) := by
  obtain ⟨h, h1, h2⟩ := ha
  refine ⟨fun k => star (h (-k)), fun k => ?_, ?_⟩
  · have ht : Tendsto (fun ab : ℕ × ℕ => (((ab.1 : ℤ) + k).toNat, ((ab.2 : ℤ) - k).toNat)) atTop atTop := by
      rw [← prod_atTop_atTop_eq]
      have t1 : Tendsto (fun a : ℕ => ((a : ℤ) + k).toNat) atTop atTop := by
        refine tendsto_atTop_atTop.2 fun b => ⟨b + k.natAbs, fun a ha => by omega⟩
      have t2 : Tendsto (fun a : ℕ => ((a : ℤ) - k).toNat) atTop atTop := by
        refine tendsto_atTop_atTop.2 fun b => ⟨b + k.natAbs, fun a ha => by omega⟩
      exact t1.prodMap t2
    have h3 := (Continuous.tendsto continuous_star _).comp ((h1 (-k)).comp ht)
    refine h3.congr' ?_
    filter_upwards [eventually_ge_atTop (k.natAbs, k.natAbs)] with ab hab
    have g1 : k.natAbs ≤ ab.1 := hab.1
    have g2 : k.natAbs ≤ ab.2 := hab.2
    simp only [Function.comp]
    exact (wallHam_star hl hr hO k (by omega) (by omega)).symm
  · have hsw : Tendsto (fun m : ℕ × ℕ => (m.2, m.1)) atTop atTop := by
      rw [← prod_atTop_atTop_eq]
      exact tendsto_snd.prodMk tendsto_fst
    have h3 := (Continuous.tendsto continuous_star _).comp (h2.comp hsw)
    refine h3.congr fun m => ?_
    simp only [Function.comp, star_sum, star_mul']
    refine Finset.sum_bij' (fun k _ => -k) (fun k _ => -k) ?_ ?_ ?_ ?_ ?_
    · intro k hk
      rw [Finset.mem_Icc] at hk ⊢
      omega
    · intro k hk
      rw [Finset.mem_Icc] at hk ⊢
      omega
    · intro k _
      exact neg_neg k
    · intro k _
      exact neg_neg k
    · intro k _
      rw [neg_neg, Complex.star_def, ← Complex.exp_conj]
      congr 2
      simp

theorem shiftOp_star {n : ℕ} {O : (Fin n → Fin q) → (Fin n → Fin q) → ℂ} (hO : ∀ s t, star (O s t) = O t s) {e : ℂ}
    (he : star e = e) (s t) : star (shiftOp O e s t) = shiftOp O e t s := by
  simp only [shiftOp, star_sub, hO]
  by_cases h : s = t
  · subst h
    simp [he]
  · rw [if_neg h, if_neg (Ne.symm h), star_zero]

theorem wallBraket_eq (hl : lᴴ = l) (k : ℤ) (a b : ℕ) :
    wallBraket A A' l r B' B k a b = (l * ZT (wall A A' k B) (wall A A' 0 B') (-a) (a + 1 + b) r).trace := by
  rw [wallBraket, windowBraket_eq, adot_eq_trace, hl]
  simp only [lineTransfer, ZT, fromSite, lineProd]
  congr 3
  funext s
  simp only [Nat.zero_add, sub_eq_neg_add]

/-- The scalar product with a state whose tensor is at another site vanishes; at the same site it is that of the tensors. -/
theorem wallBraket_val (hl : lᴴ = l) (hA : mapL A A l = l) (hA' : mapR A' A' r = r) (hB : mapR B A' r = 0)
    (hB' : mapR A' B' r = 0) (k : ℤ) {a b : ℕ} (ha : -(a : ℤ) ≤ k) (hb : k ≤ b) :
    wallBraket A A' l r B' B k a b = if k = 0 then (l * mapR B B' r).trace else 0 := by
  rw [wallBraket_eq hl]
  rcases lt_trichotomy k 0 with h | h | h
  · rw [right_zero_neg hA' hB' h (by omega) (by omega), if_neg (by omega), Matrix.mul_zero, Matrix.trace_zero]
  · subst h
    rw [if_pos rfl, show a + 1 + b = a + (1 + b) by omega, ZT_add, left_pure hA (by omega) (by omega), ZT_one_add,
      right_one hA' (by omega) (by omega), show -(a : ℤ) + a = 0 by omega, wall_at rfl, wall_at rfl]
  · rw [right_zero_pos hA' hB h (by omega) (by omega), if_neg (by omega), Matrix.mul_zero, Matrix.trace_zero]

end Exc

end EvoMPS
