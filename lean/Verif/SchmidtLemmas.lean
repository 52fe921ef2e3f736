import Verif.Schmidt
import Verif.MatMulLemmas
import Verif.CanonLemmas

/-!
# Splitting a chain at a bond (helper lemmas)
-/

namespace EvoMPS

open Matrix

section
variable {R : Type*} [CommRing R] {q D : ℕ → ℕ}

/-- The tensors to the right of bond `n`. -/
def shiftT (n : ℕ) (A : Tensors R q D) : Tensors R (fun k => q (n + k)) (fun k => D (n + k)) :=
  fun k => A (n + k)

/-- The configuration of `n + m` sites made of one for the first `n` and one for the last `m`. -/
def joinCfg {n m : ℕ} (s : Cfg q n) (t : Cfg (fun k => q (n + k)) m) : Cfg q (n + m) :=
  Fin.addCases (motive := fun i => Fin (q i)) (fun i => s i) (fun j => t j)

theorem joinCfg_left {n m : ℕ} (s : Cfg q n) (t : Cfg (fun k => q (n + k)) m) (i : Fin n) :
    joinCfg s t (Fin.castAdd m i) = s i := by
  exact Fin.addCases_left (motive := fun i => Fin (q i)) i

theorem joinCfg_right {n m : ℕ} (s : Cfg q n) (t : Cfg (fun k => q (n + k)) m) (j : Fin m) :
    joinCfg s t (Fin.natAdd n j) = t j := by
  exact Fin.addCases_right (motive := fun i => Fin (q i)) j

theorem joinCfg_castSucc {n m : ℕ} (s : Cfg q n) (t : Cfg (fun k => q (n + k)) (m + 1)) :
    (fun i : Fin (n + m) => joinCfg s t (Fin.castSucc (n := n + m) i)) =
      joinCfg s (fun j => t j.castSucc) := by
  funext i
  induction i using Fin.addCases with
  | left i => rw [joinCfg_left]; exact joinCfg_left s t i
  | right j => rw [joinCfg_right]; exact joinCfg_right s t j.castSucc

/-- All configurations of `n + m` sites. -/
def joinEquiv (q : ℕ → ℕ) (n m : ℕ) :
    (Cfg q n × Cfg (fun k => q (n + k)) m) ≃ Cfg q (n + m) where
  toFun p := joinCfg p.1 p.2
  invFun c := (fun i => c (Fin.castAdd m i), fun j => c (Fin.natAdd n j))
  left_inv p := by
    ext i
    · simp [joinCfg_left]
    · simp [joinCfg_right]
  right_inv c := by
    funext i
    induction i using Fin.addCases with
    | left i => exact joinCfg_left _ _ i
    | right j => exact joinCfg_right _ _ j

theorem sum_join {M : Type*} [AddCommMonoid M] {n m : ℕ} (f : Cfg q (n + m) → M) :
    ∑ c, f c = ∑ s : Cfg q n, ∑ t : Cfg (fun k => q (n + k)) m, f (joinCfg s t) := by
  rw [← (joinEquiv q n m).sum_comp f, Fintype.sum_prod_type]
  rfl

theorem amp_join (A : Tensors R q D) (n : ℕ) : ∀ (m : ℕ) (s : Cfg q n)
    (t : Cfg (fun k => q (n + k)) m),
    amp A (n + m) (joinCfg s t) = amp A n s * amp (shiftT n A) m t
  | 0, s, t => by
    have : joinCfg s t = s := by
      funext i
      exact joinCfg_left s t i
    rw [show amp (shiftT n A) 0 t = 1 from rfl, Matrix.mul_one]
    exact congrArg (amp A n) this
  | m + 1, s, t => by
    have h1 := joinCfg_castSucc s t
    have h2 : joinCfg s t (Fin.last (n + m)) = t (Fin.last m) := joinCfg_right s t (Fin.last m)
    have e1 : amp A (n + (m + 1)) (joinCfg s t) =
        amp A (n + m) (fun i => joinCfg s t (Fin.castSucc (n := n + m) i)) *
          A (n + m) (joinCfg s t (Fin.last (n + m))) := rfl
    have e2 : amp (shiftT n A) (m + 1) t =
        amp (shiftT n A) m (fun j => t j.castSucc) * A (n + m) (t (Fin.last m)) := rfl
    rw [e1, e2, h1, h2, amp_join A n m, Matrix.mul_assoc]

variable [StarRing R]

theorem r_amp (A : Tensors R q D) (r : Envs R D) : ∀ (m : ℕ),
    (∀ n < m, r n = ∑ s, A n s * r (n + 1) * (A n s)ᴴ) →
    r 0 = ∑ t : Cfg q m, amp A m t * r m * (amp A m t)ᴴ
  | 0, _ => by simp [amp]
  | m + 1, h => by
    rw [r_amp A r m (fun n hn => h n (by omega)), sum_cfg_succ]
    refine Finset.sum_congr rfl fun t _ => ?_
    rw [h m (by omega), Matrix.mul_sum, Matrix.sum_mul]
    refine Finset.sum_congr rfl fun u _ => ?_
    rw [amp_snoc, Matrix.conjTranspose_mul]
    simp only [Matrix.mul_assoc]

theorem UpToDate.r_amp {n m : ℕ} {A : Tensors R q D} {l r : Envs R D}
    (h : UpToDate (n + m) A l r) :
    r n = ∑ t : Cfg (fun k => q (n + k)) m,
      amp (shiftT n A) m t * (amp (shiftT n A) m t)ᴴ := by
  have := EvoMPS.r_amp (shiftT n A) (fun k => r (n + k)) m
    (fun k hk => h.r_pred (n + k) (by omega))
  have hl : r (n + m) = 1 := h.r_last
  rw [show r n = r (n + 0) from rfl, this]
  simp only [hl, Matrix.mul_one]

end

end EvoMPS
