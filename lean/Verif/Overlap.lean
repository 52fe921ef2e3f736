import Verif.Spec
import Verif.EpsMaps

/-!
# Overlaps of chains as sums over configurations (helper lemmas)
-/

namespace EvoMPS

open Matrix

section cfg

variable {q : ℕ → ℕ} {N : ℕ}

/-- Append one site to a configuration. -/
def snocCfg (s : Cfg q N) (t : Fin (q N)) : Cfg q (N + 1) :=
  Fin.snoc (α := fun i : Fin (N + 1) => Fin (q i)) s t

@[simp] theorem snocCfg_castSucc (s : Cfg q N) (t : Fin (q N)) (i : Fin N) :
    snocCfg s t i.castSucc = s i := by
  simp [snocCfg]

@[simp] theorem snocCfg_last (s : Cfg q N) (t : Fin (q N)) :
    snocCfg s t (Fin.last N) = t := by
  simp [snocCfg]

theorem snocCfg_init (s : Cfg q (N + 1)) :
    snocCfg (fun i => s i.castSucc) (s (Fin.last N)) = s := by
  exact Fin.snoc_init_self (α := fun i : Fin (N + 1) => Fin (q i)) s

/-- Splitting configurations of `N+1` sites into the first `N` sites and the last one. -/
def cfgSnocEquiv (q : ℕ → ℕ) (N : ℕ) : (Cfg q N × Fin (q N)) ≃ Cfg q (N + 1) where
  toFun p := snocCfg p.1 p.2
  invFun s := (fun i => s i.castSucc, s (Fin.last N))
  left_inv p := by simp
  right_inv s := snocCfg_init s

theorem sum_cfg_succ {M : Type*} [AddCommMonoid M] (f : Cfg q (N + 1) → M) :
    ∑ s, f s = ∑ s : Cfg q N, ∑ t : Fin (q N), f (snocCfg s t) := by
  rw [← (cfgSnocEquiv q N).sum_comp f, Fintype.sum_prod_type]
  rfl

end cfg

section

variable {R : Type*} [CommRing R]
variable {q D D' : ℕ → ℕ}

@[simp] theorem amp_snoc (A : Tensors R q D) (N : ℕ) (s : Cfg q N) (t : Fin (q N)) :
    amp A (N + 1) (snocCfg s t) = amp A N s * A N t := by
  simp [amp]

/-- Apply a product operator to the tensors. -/
def opT (o : ∀ n, Fin (q n) → Fin (q n) → R) (A : Tensors R q D) : Tensors R q D :=
  fun n s => ∑ t, o n s t • A n t

theorem amp_opT (o : ∀ n, Fin (q n) → Fin (q n) → R) (A : Tensors R q D) (N : ℕ)
    (s : Cfg q N) :
    amp (opT o A) N s = ∑ t : Cfg q N, (∏ i : Fin N, o i (s i) (t i)) • amp A N t := by
  induction N with
  | zero => simp [amp]
  | succ N ih =>
    rw [amp, ih, sum_cfg_succ, opT, Matrix.sum_mul]
    refine Finset.sum_congr rfl fun t _ => ?_
    rw [Matrix.mul_sum]
    refine Finset.sum_congr rfl fun u _ => ?_
    rw [Fin.prod_univ_castSucc, amp_snoc, Matrix.smul_mul, Matrix.mul_smul, smul_smul]
    simp [-Fin.prod_univ_castSucc]

theorem amp_congr {A B : Tensors R q D} {N : ℕ} (h : ∀ n < N, A n = B n) (s : Cfg q N) :
    amp A N s = amp B N s := by
  induction N with
  | zero => rfl
  | succ N ih =>
    rw [amp, amp, ih (fun n hn => h n (by omega)), h N (by omega)]

variable [StarRing R]

/-- The mixed left environment of a ket chain `A` and a bra chain `A'`. -/
def mixL (A : Tensors R q D) (A' : Tensors R q D') (x : Matrix (Fin (D 0)) (Fin (D' 0)) R) :
    ∀ n, Matrix (Fin (D n)) (Fin (D' n)) R
  | 0 => x
  | n + 1 => ∑ s, (A n s)ᴴ * mixL A A' x n * A' n s

theorem mixL_amp (A : Tensors R q D) (A' : Tensors R q D')
    (x : Matrix (Fin (D 0)) (Fin (D' 0)) R) (n : ℕ) :
    mixL A A' x n = ∑ s : Cfg q n, (amp A n s)ᴴ * x * amp A' n s := by
  induction n with
  | zero => simp [mixL, amp]
  | succ n ih =>
    rw [mixL, ih, sum_cfg_succ]
    simp only [Matrix.mul_sum, Matrix.sum_mul]
    rw [Finset.sum_comm]
    refine Finset.sum_congr rfl fun s _ => Finset.sum_congr rfl fun t _ => ?_
    rw [amp_snoc, amp_snoc, Matrix.conjTranspose_mul]
    simp only [Matrix.mul_assoc]

theorem mixL_congr {A B : Tensors R q D} {A' B' : Tensors R q D'}
    {x : Matrix (Fin (D 0)) (Fin (D' 0)) R} {n : ℕ} (h : ∀ m < n, A m = B m)
    (h' : ∀ m < n, A' m = B' m) : mixL A A' x n = mixL B B' x n := by
  rw [mixL_amp, mixL_amp]
  refine Finset.sum_congr rfl fun s _ => ?_
  rw [amp_congr h, amp_congr h']

theorem UpToDate.l_eq {N : ℕ} {A : Tensors R q D} {l r : Envs R D} (h : UpToDate N A l r) :
    ∀ n ≤ N, l n = mixL A A 1 n
  | 0, _ => h.l_zero
  | n + 1, hn => by rw [h.l_succ n (by omega), mixL, h.l_eq n (by omega)]

theorem UpToDate.l_amp {N : ℕ} {A : Tensors R q D} {l r : Envs R D} (h : UpToDate N A l r)
    {n : ℕ} (hn : n ≤ N) : l n = ∑ s : Cfg q n, (amp A n s)ᴴ * amp A n s := by
  rw [h.l_eq n hn, mixL_amp]; simp

/-- Moving a contraction across one site. -/
theorem adot_mixL_step (A : Tensors R q D) (A' : Tensors R q D')
    (x : Matrix (Fin (D 0)) (Fin (D' 0)) R) (n : ℕ)
    (y : Matrix (Fin (D (n + 1))) (Fin (D' (n + 1))) R) :
    adot (mixL A A' x (n + 1)) y = adot (mixL A A' x n) (epsR y (A n) (A' n)) := by
  rw [← adot_epsL, epsL_eq, mixL]

/-- If bra and ket agree on the sites `n..N-1` the right environment can be moved to the
end of the chain. -/
theorem adot_mixL_last {N : ℕ} {A : Tensors R q D} {l r : Envs R D} (h : UpToDate N A l r)
    (B : Tensors R q D) (n : ℕ) (hn : n ≤ N) (hB : ∀ m, n ≤ m → m < N → B m = A m) :
    adot (mixL B A 1 n) (r n) = adot (mixL B A 1 N) 1 := by
  obtain ⟨j, rfl⟩ := Nat.exists_eq_add_of_le hn
  clear hn
  induction j generalizing n with
  | zero => rw [← h.r_last]; rfl
  | succ j ih =>
    have h1 : n + 1 + j = n + (j + 1) := by omega
    rw [h.r_pred n (by omega)]
    have := ih (n + 1)
    rw [h1] at this
    rw [← this h (fun m h1 h2 => hB m (by omega) h2), adot_mixL_step, epsR_eq,
      hB n le_rfl (by omega)]

theorem adot_mixL_one {N : ℕ} (B A : Tensors R q D) (h0 : D 0 = 1) (hN : D N = 1) :
    adot (mixL B A 1 N) 1 = braket (psi A h0 hN) (psi B h0 hN) := by
  rw [mixL_amp, adot_eq_trace, Matrix.mul_one, Matrix.conjTranspose_sum, Matrix.trace_sum,
    braket]
  refine Finset.sum_congr rfl fun s _ => ?_
  have i0 : ∀ i : Fin (D 0), i = ⟨0, by omega⟩ := fun i => Fin.ext (by have := i.2; omega)
  have iN : ∀ i : Fin (D N), i = ⟨0, by omega⟩ := fun i => Fin.ext (by have := i.2; omega)
  simp only [Matrix.mul_one, Matrix.conjTranspose_mul, Matrix.conjTranspose_conjTranspose,
    Matrix.trace, Matrix.diag_apply, Matrix.mul_apply, Matrix.conjTranspose_apply]
  rw [Finset.sum_eq_single (⟨0, by omega⟩ : Fin (D N)) (fun i _ hi => absurd (iN i) hi) (by simp),
    Finset.sum_eq_single (⟨0, by omega⟩ : Fin (D 0)) (fun i _ hi => absurd (i0 i) hi) (by simp)]
  rfl

theorem psi_opT {N : ℕ} (o : ∀ n, Fin (q n) → Fin (q n) → R) (A : Tensors R q D)
    (h0 : D 0 = 1) (hN : D N = 1) (s : Cfg q N) :
    psi (opT o A) h0 hN s = ∑ t, prodOp o s t * psi A h0 hN t := by
  rw [psi, amp_opT, Matrix.sum_apply]
  rfl

theorem matElem_prodOp {N : ℕ} (o : ∀ n, Fin (q n) → Fin (q n) → R) (A : Tensors R q D)
    (h0 : D 0 = 1) (hN : D N = 1) (φ : Cfg q N → R) :
    matElem φ (prodOp o) (psi A h0 hN) = braket φ (psi (opT o A) h0 hN) := by
  rw [matElem, braket]
  refine Finset.sum_congr rfl fun s _ => ?_
  rw [psi_opT, Finset.mul_sum]
  exact Finset.sum_congr rfl fun t _ => by ring

/-- The identity operator on a site. -/
def idOp (n : ℕ) : Fin n → Fin n → R := fun s t => if s = t then 1 else 0

theorem opT_id {o : ∀ n, Fin (q n) → Fin (q n) → R} (A : Tensors R q D) {n : ℕ}
    (h : o n = idOp (q n)) : opT o A n = A n := by
  funext s
  rw [opT, h, Finset.sum_eq_single s] <;> simp +contextual [idOp, eq_comm]

/-- Expectation value of a product operator that is trivial outside the window of sites
`k ≤ n < e`, with up-to-date environments. -/
theorem matElem_window {N : ℕ} {A : Tensors R q D} {l r : Envs R D} (h : UpToDate N A l r)
    (h0 : D 0 = 1) (hN : D N = 1) (o : ∀ n, Fin (q n) → Fin (q n) → R) (e : ℕ) (he : e ≤ N)
    (ho : ∀ n, e ≤ n → n < N → o n = idOp (q n)) :
    matElem (psi A h0 hN) (prodOp o) (psi A h0 hN) = adot (mixL (opT o A) A 1 e) (r e) := by
  rw [matElem_prodOp, ← adot_mixL_one, adot_mixL_last h _ e he]
  intro m h1 h2
  exact opT_id A (ho m h1 h2)

theorem mixL_window {N : ℕ} {A : Tensors R q D} {l r : Envs R D} (h : UpToDate N A l r)
    (o : ∀ n, Fin (q n) → Fin (q n) → R) (k : ℕ) (hk : k ≤ N)
    (ho : ∀ n < k, o n = idOp (q n)) : mixL (opT o A) A 1 k = l k := by
  rw [h.l_eq k hk]
  exact mixL_congr (fun m hm => opT_id A (ho m hm)) fun _ _ => rfl

end

end EvoMPS
