import Verif.ExciteSpec
import Verif.UniformTangentLemmas

/-!
# Excitations: matrix elements between states with one tensor replaced (helper lemmas)
-/

set_option linter.unusedSectionVars false

namespace EvoMPS

open Matrix

namespace Exc

variable {q D : ℕ}

/-- The map of one site to the left of a matrix: `P` in the ket, `Q` in the bra. -/
def mapR (P Q : Ten ℂ q D D) (x : Matrix (Fin D) (Fin D) ℂ) : Matrix (Fin D) (Fin D) ℂ := ∑ s, P s * x * (Q s)ᴴ

/-- The map of one site to the right of a matrix. -/
def mapL (P Q : Ten ℂ q D D) (w : Matrix (Fin D) (Fin D) ℂ) : Matrix (Fin D) (Fin D) ℂ := ∑ s, (Q s)ᴴ * w * P s

theorem mapR_add (P Q : Ten ℂ q D D) (x y) : mapR P Q (x + y) = mapR P Q x + mapR P Q y := by
  simp only [mapR, Matrix.mul_add, Matrix.add_mul, Finset.sum_add_distrib]

theorem mapR_smul (P Q : Ten ℂ q D D) (c : ℂ) (x) : mapR P Q (c • x) = c • mapR P Q x := by
  simp only [mapR, Matrix.mul_smul, Matrix.smul_mul, Finset.smul_sum]

theorem mapR_sum {ι : Type*} (P Q : Ten ℂ q D D) (s : Finset ι) (f : ι → Matrix (Fin D) (Fin D) ℂ) :
    mapR P Q (∑ i ∈ s, f i) = ∑ i ∈ s, mapR P Q (f i) := by
  simp only [mapR, Matrix.mul_sum, Matrix.sum_mul]
  rw [Finset.sum_comm]

theorem mapR_zero (P Q : Ten ℂ q D D) : mapR P Q 0 = 0 := by simp [mapR]

theorem mapL_add (P Q : Ten ℂ q D D) (x y) : mapL P Q (x + y) = mapL P Q x + mapL P Q y := by
  simp only [mapL, Matrix.mul_add, Matrix.add_mul, Finset.sum_add_distrib]

theorem mapL_smul (P Q : Ten ℂ q D D) (c : ℂ) (x) : mapL P Q (c • x) = c • mapL P Q x := by
  simp only [mapL, Matrix.mul_smul, Matrix.smul_mul, Finset.smul_sum]

theorem iter_add {f : Matrix (Fin D) (Fin D) ℂ → Matrix (Fin D) (Fin D) ℂ} (hf : ∀ x y, f (x + y) = f x + f y) (n : ℕ) (x y) :
    f^[n] (x + y) = f^[n] x + f^[n] y := by
  induction n generalizing x y with
  | zero => rfl
  | succ n ih => rw [Function.iterate_succ_apply, Function.iterate_succ_apply, Function.iterate_succ_apply, hf, ih]

theorem iter_smul {f : Matrix (Fin D) (Fin D) ℂ → Matrix (Fin D) (Fin D) ℂ} (hf : ∀ (c : ℂ) x, f (c • x) = c • f x) (n : ℕ)
    (c : ℂ) (x) : f^[n] (c • x) = c • f^[n] x := by
  induction n generalizing x with
  | zero => rfl
  | succ n ih => rw [Function.iterate_succ_apply, Function.iterate_succ_apply, hf, ih]

theorem iter_sum {ι : Type*} {f : Matrix (Fin D) (Fin D) ℂ → Matrix (Fin D) (Fin D) ℂ}
    (hf : ∀ x y, f (x + y) = f x + f y) (hf0 : f 0 = 0) (n : ℕ) (s : Finset ι) (g : ι → Matrix (Fin D) (Fin D) ℂ) :
    f^[n] (∑ i ∈ s, g i) = ∑ i ∈ s, f^[n] (g i) := by
  classical
  induction s using Finset.induction_on with
  | empty => simpa using Function.iterate_fixed hf0 n
  | insert a s ha ih => rw [Finset.sum_insert ha, Finset.sum_insert ha, iter_add hf, ih]

/-- The maps are adjoint. -/
theorem trace_map (P Q : Ten ℂ q D D) (w x : Matrix (Fin D) (Fin D) ℂ) :
    (w * mapR P Q x).trace = (mapL P Q w * x).trace := by
  simp only [mapR, mapL, Matrix.mul_sum, Matrix.sum_mul, Matrix.trace_sum]
  refine Finset.sum_congr rfl fun s _ => ?_
  rw [← Matrix.mul_assoc, Matrix.trace_mul_comm]
  simp only [Matrix.mul_assoc]

/-- The transfer map of `n` sites of the infinite chain. -/
def ZT (X Y : ℤ → Ten ℂ q D D) (c : ℤ) (n : ℕ) (x : Matrix (Fin D) (Fin D) ℂ) : Matrix (Fin D) (Fin D) ℂ :=
  lineTransfer (fun i : ℕ => X (c + i)) (fun i => Y (c + i)) 0 n x

/-- An operator on `m` sites. -/
def ZO (X Y : ℤ → Ten ℂ q D D) (c : ℤ) (m : ℕ) (O : (Fin m → Fin q) → (Fin m → Fin q) → ℂ)
    (x : Matrix (Fin D) (Fin D) ℂ) : Matrix (Fin D) (Fin D) ℂ :=
  lineOp (fun i : ℕ => X (c + i)) (fun i => Y (c + i)) 0 m O x

theorem lineProd_shift (X : ℕ → Ten ℂ q D D) (c n : ℕ) (s) : lineProd X c n s = lineProd (fun i => X (c + i)) 0 n s := by
  simp [lineProd]

variable {X Y : ℤ → Ten ℂ q D D} {c : ℤ}

theorem ZT_zero (x : Matrix (Fin D) (Fin D) ℂ) : ZT X Y c 0 x = x := lineTransfer_zero _ _ _ _

theorem ZT_succ (n : ℕ) (x : Matrix (Fin D) (Fin D) ℂ) :
    ZT X Y c (n + 1) x = ZT X Y c n (mapR (X (c + n)) (Y (c + n)) x) := by
  rw [ZT, lineTransfer_succ, Nat.zero_add]
  rfl

theorem ZT_add (n n' : ℕ) (x : Matrix (Fin D) (Fin D) ℂ) : ZT X Y c (n + n') x = ZT X Y c n (ZT X Y (c + n) n' x) := by
  rw [ZT, lineTransfer_add, ZT, ZT]
  congr 1
  simp only [lineTransfer, Nat.zero_add]
  refine Finset.sum_congr rfl fun s _ => ?_
  rw [lineProd_shift, lineProd_shift (fun i : ℕ => Y (c + i))]
  simp only [Nat.cast_add, add_assoc]

theorem ZT_one_add (n : ℕ) (x : Matrix (Fin D) (Fin D) ℂ) :
    ZT X Y c (1 + n) x = mapR (X c) (Y c) (ZT X Y (c + 1) n x) := by
  rw [ZT_add, ZT_succ, ZT_zero]
  simp

theorem ZT_const {P Q : Ten ℂ q D D} {n : ℕ} (h : ∀ i < n, X (c + i) = P ∧ Y (c + i) = Q) (x : Matrix (Fin D) (Fin D) ℂ) :
    ZT X Y c n x = (mapR P Q)^[n] x := by
  induction n generalizing x with
  | zero => exact ZT_zero x
  | succ n ih =>
    rw [ZT_succ, ih fun i hi => h i (by omega), Function.iterate_succ_apply, (h n (by omega)).1, (h n (by omega)).2]

theorem trace_ZT {P Q : Ten ℂ q D D} {n : ℕ} (h : ∀ i < n, X (c + i) = P ∧ Y (c + i) = Q) (w x : Matrix (Fin D) (Fin D) ℂ) :
    (w * ZT X Y c n x).trace = ((mapL P Q)^[n] w * x).trace := by
  induction n generalizing x with
  | zero => rw [ZT_zero]; rfl
  | succ n ih =>
    rw [ZT_succ, ih fun i hi => h i (by omega), trace_map, Function.iterate_succ_apply', (h n (by omega)).1,
      (h n (by omega)).2]

theorem ZT_zero_right (n : ℕ) : ZT X Y c n 0 = 0 := lineTransfer_zero_right _ _ _ _

theorem ZO_zero_right (m : ℕ) (O) : ZO X Y c m O 0 = 0 := lineOp_zero_right _ _ _ _ _

theorem ZO_congr {X' Y' : ℤ → Ten ℂ q D D} {c' : ℤ} {m : ℕ} (h : ∀ i < m, X (c + i) = X' (c' + i) ∧ Y (c + i) = Y' (c' + i)) (O)
    (x : Matrix (Fin D) (Fin D) ℂ) : ZO X Y c m O x = ZO X' Y' c' m O x :=
  lineOp_congr (fun j _ hj => (h j (by omega)).1) (fun j _ hj => (h j (by omega)).2) O x

/-- A window with an operator on the sites `-a + j, ..., -a + j + m - 1`. -/
theorem elem_eq {l : Matrix (Fin D) (Fin D) ℂ} (hl : lᴴ = l) (r : Matrix (Fin D) (Fin D) ℂ) (a j m n' : ℕ) (O) :
    windowElem 1 (fun _ => l) (fun _ => r) 0 j m n' O (fromSite a Y) (fromSite a X)
      = (l * ZT X Y (-a) j (ZO X Y (-a + j) m O (ZT X Y (-a + j + m) n' r))).trace := by
  rw [windowElem_eq, adot_eq_trace, hl]
  congr 2
  have e1 : ∀ (X : ℤ → Ten ℂ q D D) (c : ℤ) (n d : ℕ), c = -a + d → ∀ s : Fin n → Fin q,
      lineProd (fromSite a X) d n s = lineProd (fun i : ℕ => X (c + i)) 0 n s := by
    intro X c n d h s
    rw [lineProd_shift]
    congr 1
    funext i
    rw [fromSite, h]
    congr 1
    push_cast
    ring
  simp only [ZT, ZO, lineTransfer, lineOp, e1 _ (-a) j 0 (by simp), e1 _ (-a + j) m (0 + j) (by simp),
    e1 _ (-a + j + m) n' (0 + j + m) (by push_cast; ring)]

end Exc

end EvoMPS
