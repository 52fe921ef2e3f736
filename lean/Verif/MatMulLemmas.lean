import Verif.MatMul

/-!
# Matrix objects (helper lemmas)
-/

namespace EvoMPS

open Matrix

section
variable {R : Type*} [CommRing R]

@[simp] theorem toArray_eye (n : ℕ) : (MM.eye n : MM R n n).toArray = 1 := by
  ext i j; simp [MM.toArray, one_apply]

@[simp] theorem toArray_diag {n : ℕ} (d : Fin n → R) : (MM.diag d).toArray = Matrix.diagonal d := by
  ext i j; simp [MM.toArray, diagonal_apply]

@[simp] theorem toArray_dense {m n : ℕ} (M : Matrix (Fin m) (Fin n) R) :
    (MM.dense M).toArray = M := rfl

theorem mmulDiagR_eq {m n : ℕ} (d : Fin m → R) (B : Matrix (Fin m) (Fin n) R) :
    mmulDiagR d B = Matrix.diagonal d * B := by
  ext i j; simp [mmulDiagR, diagonal_mul]

theorem mmulDiagL_eq {m n : ℕ} (d : Fin n → R) (B : Matrix (Fin m) (Fin n) R) :
    mmulDiagL d B = B * Matrix.diagonal d := by
  ext i j; simp [mmulDiagL, mul_diagonal, mul_comm]

theorem MM.dot_toArray {m n k : ℕ} (a : MM R m n) (b : MM R n k) :
    (a.dot b).toArray = a.toArray * b.toArray := by
  cases a with
  | eye => simp [MM.dot]
  | diag d =>
    cases b with
    | eye => simp [MM.dot]
    | diag e => simp [MM.dot]
    | dense B => simp [MM.dot, mmulDiagR_eq]
  | dense A => cases b <;> simp [MM.dot]

theorem MM.dotLeft_toArray {m n k : ℕ} (x : MM R n k) (a : MM R m n) :
    ∀ y, x.dotLeft a = some y → y.toArray = a.toArray * x.toArray := by
  intro y hy
  cases x with
  | eye => simp only [MM.dotLeft, Option.some.injEq] at hy; subst hy; simp
  | diag d =>
    cases a with
    | eye => simp only [MM.dotLeft, Option.some.injEq] at hy; subst hy; simp
    | diag e =>
      simp only [MM.dotLeft, Option.some.injEq] at hy; subst hy
      simp only [toArray_diag, diagonal_mul_diagonal]
      congr 1; funext i; exact mul_comm _ _
    | dense A =>
      simp only [MM.dotLeft, Option.some.injEq] at hy; subst hy
      simp [mmulDiagL_eq]
  | dense B => cases hy

/-- The plain matrix product of a chain. -/
def MChain.prod {m k : ℕ} : MChain R m k → Matrix (Fin m) (Fin k) R
  | .nil _ => 1
  | .cons x rest => x.toArray * rest.prod

theorem MM.mmul_toArray {m n k : ℕ} (c : MChain R n k) (res : MM R m n) :
    (res.mmul c).toArray = res.toArray * c.prod := by
  induction c generalizing m with
  | nil => simp [MM.mmul, MChain.prod]
  | cons x rest ih =>
    rw [MM.mmul, ih, MChain.prod, ← Matrix.mul_assoc]
    congr 1
    cases h : x.dotLeft res with
    | none => rw [Option.getD_none, MM.dot_toArray]
    | some y => rw [Option.getD_some]; exact MM.dotLeft_toArray x res y h

end

theorem eigh_spectral (eigh : Eigh ℂ) {n : ℕ} (A : Matrix (Fin n) (Fin n) ℂ)
    (hA : A.IsHermitian) :
    (eigh.vec A)ᴴ * eigh.vec A = 1 ∧ eigh.vec A * (eigh.vec A)ᴴ = 1 ∧
      A = eigh.vec A * (Matrix.diagonal (eigh.ev A) * (eigh.vec A)ᴴ) := by
  have h1 := eigh.unit A hA
  have h2 : eigh.vec A * (eigh.vec A)ᴴ = 1 := mul_eq_one_comm.mp h1
  refine ⟨h1, h2, ?_⟩
  rw [← Matrix.mul_assoc, ← eigh.eig A hA, Matrix.mul_assoc, h2, Matrix.mul_one]

theorem conj_diag_mul {n : ℕ} (V : Matrix (Fin n) (Fin n) ℂ) (d e : Fin n → ℂ) (h : Vᴴ * V = 1) :
    V * (Matrix.diagonal d * Vᴴ) * (V * (Matrix.diagonal e * Vᴴ)) =
      V * (Matrix.diagonal (fun i => d i * e i) * Vᴴ) := by
  calc V * (Matrix.diagonal d * Vᴴ) * (V * (Matrix.diagonal e * Vᴴ))
      = V * (Matrix.diagonal d * ((Vᴴ * V) * (Matrix.diagonal e * Vᴴ))) := by
        simp only [Matrix.mul_assoc]
    _ = V * ((Matrix.diagonal d * Matrix.diagonal e) * Vᴴ) := by
        rw [h, Matrix.one_mul, Matrix.mul_assoc]
    _ = _ := by rw [diagonal_mul_diagonal]

end EvoMPS
