import Verif.UniformBlock
import Verif.UniformLimit

/-!
# Blocking (helper lemmas)
-/

set_option linter.unusedSectionVars false

namespace EvoMPS

open Matrix

theorem rowEquiv_digit (n q : ℕ) (s : Fin n → Fin q) (k : ℕ) (hk : k < n) :
    (rowEquiv n q s : ℕ) / q ^ k % q = s ⟨n - k - 1, by omega⟩ := by
  have h := finFunctionFinEquiv_symm_apply_val (finFunctionFinEquiv fun i => s i.rev) ⟨k, hk⟩
  rw [Equiv.symm_apply_apply] at h
  rw [show rowEquiv n q s = finFunctionFinEquiv fun i => s i.rev from rfl]
  refine Eq.trans h.symm ?_
  congr 2

theorem rowEquiv_val (n q : ℕ) (s : Fin n → Fin q) :
    (rowEquiv n q s : ℕ) = ∑ i : Fin n, (s i : ℕ) * q ^ (n - 1 - i) := by
  rw [show rowEquiv n q s = finFunctionFinEquiv fun i => s i.rev from rfl, finFunctionFinEquiv_apply,
    ← Equiv.sum_comp Fin.revPerm]
  refine Finset.sum_congr rfl fun i _ => ?_
  rw [Fin.revPerm_apply, Fin.rev_rev, Fin.val_rev]
  congr 2
  omega

theorem rowEquiv_append (m n q : ℕ) (s : Fin m → Fin q) (t : Fin n → Fin q) :
    (rowEquiv (m + n) q (Fin.append s t) : ℕ) = rowEquiv m q s * q ^ n + rowEquiv n q t := by
  simp only [rowEquiv_val, Fin.sum_univ_add, Fin.append_left, Fin.append_right, Finset.sum_mul]
  congr 1
  · refine Finset.sum_congr rfl fun i _ => ?_
    rw [mul_assoc, ← pow_add]
    congr 2
    simp; omega
  · refine Finset.sum_congr rfl fun i _ => ?_
    congr 2
    simp; omega

section
variable {R : Type*} [CommRing R] [StarRing R] {q D : ℕ} (L : ℕ) (A : ℕ → Ten R q D D)

theorem chainProd_cons (k n : ℕ) (s : Fin (n + 1) → Fin q) :
    chainProd L A k (n + 1) s = A (k % L) (s 0) * chainProd L A (k + 1) n (fun i => s i.succ) := by
  simp only [chainProd]
  rw [List.ofFn_succ, List.prod_cons]
  simp [Nat.add_assoc, Nat.add_comm 1]

theorem blockTensor_row (s : Fin L → Fin q) :
    Uni.blockTensor L A (rowEquiv L q s) = chainProd L A 0 L s := by
  rcases Nat.eq_zero_or_pos L with rfl | hL
  · simp [Uni.blockTensor, chainProd_zero]
  have hq : 0 < q := (s ⟨0, hL⟩).pos
  let s' : ℕ → Fin q := fun n => if h : n < L then s ⟨n, h⟩ else ⟨0, hq⟩
  have h : ∀ m ≤ L, (List.range m).foldl (fun acc k =>
      if h : 0 < q then A (L - k - 1) ⟨(rowEquiv L q s : ℕ) / q ^ k % q, Nat.mod_lt _ h⟩ * acc else acc) 1
      = chainProd L A (L - m) m (fun i => s' (L - m + i)) := by
    intro m
    induction m with
    | zero => intro _; rw [chainProd_zero]; rfl
    | succ m ih =>
      intro hm
      rw [List.range_succ, List.foldl_append, ih (by omega), List.foldl_cons, List.foldl_nil, dif_pos hq,
        chainProd_cons]
      congr 1
      · rw [Nat.mod_eq_of_lt (show L - (m + 1) < L by omega)]
        congr 1
        apply Fin.ext
        refine (rowEquiv_digit L q s m (by omega)).trans ?_
        simp only [s']
        rw [dif_pos (by simp; omega)]
        congr 2
      · have e : L - (m + 1) + 1 = L - m := by omega
        rw [e]
        congr 1
        funext i
        congr 1
        simp; omega
  have h1 := h L le_rfl
  rw [Uni.blockTensor, h1, Nat.sub_self]
  congr 1
  funext i
  simp only [s', Nat.zero_add]
  rw [dif_pos i.2]

theorem chainProd_addf (k a b : ℕ) (f : ℕ → Fin q) :
    chainProd L A k (a + b) (fun i => f i)
      = chainProd L A k a (fun i => f i) * chainProd L A (k + a) b (fun i => f (a + i)) := by
  simp only [chainProd]
  rw [List.ofFn_add, List.prod_append]
  simp [Nat.add_assoc]

theorem chainProd_dim0 (k N : ℕ) (h : N = 0) (s : Fin N → Fin q) : chainProd L A k N s = 1 := by
  subst h; exact chainProd_zero L A k s

theorem chainProd_blocksf (j n : ℕ) (f : ℕ → Fin q) :
    chainProd 1 (fun _ => Uni.blockTensor L A) j n (fun i => rowEquiv L q fun t => f (t + L * i))
      = chainProd L A (j * L) (n * L) (fun i => f i) := by
  induction n with
  | zero => rw [chainProd_zero, chainProd_dim0 L A _ _ (Nat.zero_mul L)]
  | succ n ih =>
    have h : ∀ N, N = n * L + L → chainProd L A (j * L) N (fun i => f i)
        = chainProd L A (j * L) (n * L) (fun i => f i) * chainProd L A (j * L + n * L) L (fun i => f (n * L + i)) := by
      rintro _ rfl
      exact chainProd_addf L A _ _ _ f
    rw [h _ (Nat.succ_mul n L), ← ih]
    have h2 := chainProd_append 1 (fun _ => Uni.blockTensor L A) j n 1
      (fun i => rowEquiv L q fun t => f (t + L * i)) (fun _ => rowEquiv L q fun t => f (t + L * n))
    have e : Fin.append (fun i : Fin n => rowEquiv L q fun t => f (t + L * i))
        (fun _ : Fin 1 => rowEquiv L q fun t => f (t + L * n))
        = fun i : Fin (n + 1) => rowEquiv L q fun t => f (t + L * i) := by
      funext i
      refine Fin.addCases (fun i => ?_) (fun i => ?_) i
      · rw [Fin.append_left]; rfl
      · rw [Fin.append_right]
        have : (Fin.natAdd n i : ℕ) = n := by simp
        rw [this]
    rw [e] at h2
    rw [h2]
    congr 1
    rw [chainProd_one, blockTensor_row]
    refine Eq.trans ?_ (chainProd_shift L A (k := 0) (by simp) _ _)
    congr 1
    funext i
    congr 1
    rw [Nat.mul_comm n L, Nat.add_comm]

theorem chainProd_blocks (j n : ℕ) (s : Fin (n * L) → Fin q) :
    chainProd 1 (fun _ => Uni.blockTensor L A) j n (blocksOf q L n s) = chainProd L A (j * L) (n * L) s := by
  rcases Nat.eq_zero_or_pos L with rfl | hL
  · rw [chainProd_dim0 _ _ _ _ (Nat.mul_zero n)]
    have : ∀ x, Uni.blockTensor 0 A x = 1 := fun x => rfl
    simp [chainProd, this]
  rcases Nat.eq_zero_or_pos n with rfl | hn
  · rw [chainProd_dim0 _ _ _ _ (Nat.zero_mul L), chainProd_zero]
  have hq : 0 < q := (s ⟨0, Nat.mul_pos hn hL⟩).pos
  have h := chainProd_blocksf L A j n fun i => if hi : i < n * L then s ⟨i, hi⟩ else ⟨0, hq⟩
  refine Eq.trans (Eq.trans ?_ h) ?_
  · congr 1
    funext i
    rw [blocksOf]
    congr 1
    funext t
    have e : (finProdFinEquiv (i, t) : ℕ) = t + L * i := rfl
    have hlt : (t : ℕ) + L * i < n * L := e ▸ (finProdFinEquiv (i, t)).2
    rw [dif_pos hlt]
    rfl
  · congr 1
    funext i
    rw [dif_pos i.2]

def blocksEquiv (q L n : ℕ) : (Fin (n * L) → Fin q) ≃ (Fin n → Fin (q ^ L)) :=
  ((Equiv.arrowCongr finProdFinEquiv.symm (Equiv.refl _)).trans (Equiv.curry _ _ _)).trans
    (Equiv.piCongrRight fun _ => rowEquiv L q)

theorem blocksEquiv_apply (q L n : ℕ) (s : Fin (n * L) → Fin q) : blocksEquiv q L n s = blocksOf q L n s := rfl

theorem sandwich_blocks (j n : ℕ) (O : (Fin n → Fin (q ^ L)) → (Fin n → Fin (q ^ L)) → R)
    (X Y : Matrix (Fin D) (Fin D) R) :
    sandwich 1 (fun _ => Uni.blockTensor L A) j n O X Y
      = sandwich L A (j * L) (n * L) (fun s t => O (blocksOf q L n s) (blocksOf q L n t)) X Y := by
  rw [sandwich, ← (blocksEquiv q L n).sum_comp]
  refine Finset.sum_congr rfl fun s _ => ?_
  rw [← (blocksEquiv q L n).sum_comp]
  refine Finset.sum_congr rfl fun t _ => ?_
  rw [blocksEquiv_apply, blocksEquiv_apply, chainProd_blocks, chainProd_blocks]

theorem block_env {l r : ℕ → Matrix (Fin D) (Fin D) R} {L : ℕ} {A : ℕ → Ten R q D D} (hL : 0 < L)
    (E : ChainEnv L A l r) :
    ChainEnv 1 (fun _ => Uni.blockTensor L A) (fun _ => l (L - 1)) (fun _ => r (L - 1)) := by
  have e1 : (L - 1) % L = L - 1 := Nat.mod_eq_of_lt (by omega)
  refine ⟨fun k _ => ?_, fun k _ => ?_, fun k _ => E.norm _ (by omega)⟩
  · have h := E.transferL hL 0 L
    simp only [Nat.zero_add, Nat.add_sub_assoc hL, Nat.add_mod_left, e1] at h
    rw [← (rowEquiv L q).sum_comp]
    simp only [blockTensor_row]
    exact h.symm
  · have h := E.transferR hL 0 L
    simp only [Nat.zero_add, Nat.add_sub_assoc hL, Nat.add_mod_left, e1] at h
    rw [← (rowEquiv L q).sum_comp]
    simp only [blockTensor_row]
    exact h.symm

/-- The contraction of a padded operator. -/
theorem sandwich_pad (k a n b : ℕ) (O : (Fin n → Fin q) → (Fin n → Fin q) → R)
    (X Y : Matrix (Fin D) (Fin D) R) :
    sandwich L A k (a + n + b) (padOp (a := a) (b := b) O) X Y = sandwich L A (k + a) n O
      (chainTransferL L L A A k a X) (chainTransfer L L A A (k + a + n) b Y) := by
  simp only [sandwich, sum_append, padOp_append]
  have h1 : ∀ (s1 : Fin a → Fin q) (s2 : Fin n → Fin q) (s3 : Fin b → Fin q),
      (∑ t1, ∑ t2, ∑ t3, (if s1 = t1 ∧ s3 = t3 then O s2 t2 else 0)
        * (Xᴴ * chainProd L A k (a + n + b) (Fin.append (Fin.append t1 t2) t3) * Y
          * (chainProd L A k (a + n + b) (Fin.append (Fin.append s1 s2) s3))ᴴ).trace)
      = ∑ t2, O s2 t2 * (((chainProd L A k a s1)ᴴ * X * chainProd L A k a s1)ᴴ
        * chainProd L A (k + a) n t2 * (chainProd L A (k + a + n) b s3 * Y
        * (chainProd L A (k + a + n) b s3)ᴴ) * (chainProd L A (k + a) n s2)ᴴ).trace := by
    intro s1 s2 s3
    rw [Finset.sum_eq_single s1]
    · refine Finset.sum_congr rfl fun t2 _ => ?_
      rw [Finset.sum_eq_single s3]
      · rw [if_pos ⟨rfl, rfl⟩, chainProd_append, chainProd_append, chainProd_append, chainProd_append]
        congr 1
        simp only [Matrix.conjTranspose_mul, Matrix.mul_assoc, ← Nat.add_assoc,
          Matrix.conjTranspose_conjTranspose]
        rw [Matrix.trace_mul_comm (chainProd L A k a s1)ᴴ]
        simp only [Matrix.mul_assoc]
      · intro t3 _ h3
        rw [if_neg (fun h => h3 h.2.symm), zero_mul]
      · simp
    · intro t1 _ h1
      refine Finset.sum_eq_zero fun t2 _ => Finset.sum_eq_zero fun t3 _ => ?_
      rw [if_neg (fun h => h1 h.1.symm), zero_mul]
    · simp
  simp only [h1]
  rw [Finset.sum_comm]
  refine Finset.sum_congr rfl fun s2 _ => ?_
  symm
  have h2 : ∀ t2, O s2 t2 * ((chainTransferL L L A A k a X)ᴴ * chainProd L A (k + a) n t2
        * chainTransfer L L A A (k + a + n) b Y * (chainProd L A (k + a) n s2)ᴴ).trace
      = ∑ s1, ∑ s3, O s2 t2 * (((chainProd L A k a s1)ᴴ * X * chainProd L A k a s1)ᴴ
        * chainProd L A (k + a) n t2 * (chainProd L A (k + a + n) b s3 * Y
        * (chainProd L A (k + a + n) b s3)ᴴ) * (chainProd L A (k + a) n s2)ᴴ).trace := by
    intro t2
    simp only [chainTransfer, chainTransferL, Matrix.conjTranspose_sum, Matrix.sum_mul, Matrix.trace_sum, Finset.mul_sum]
    rw [Finset.sum_comm]
  simp only [h2]
  rw [Finset.sum_comm]
  refine Finset.sum_congr rfl fun s1 _ => ?_
  rw [Finset.sum_comm]

theorem windowOp_pad (a n b : ℕ) (O : (Fin n → Fin q) → (Fin n → Fin q) → R) :
    windowOp (a + n + b) a n (by omega) O = padOp (a := a) (b := b) O := by
  funext s t
  unfold windowOp padOp
  have e : (∀ i : Fin (a + n + b), (i : ℕ) < a ∨ a + n ≤ i → s i = t i) ↔
      (∀ i : Fin a, s ((i.castAdd n).castAdd b) = t ((i.castAdd n).castAdd b)) ∧
      (∀ i : Fin b, s (i.natAdd (a + n)) = t (i.natAdd (a + n))) := by
    constructor
    · intro h
      exact ⟨fun i => h _ (Or.inl i.2), fun i => h _ (Or.inr (by simp))⟩
    · rintro ⟨h1, h2⟩ i (hi | hi)
      · exact h1 ⟨i, hi⟩
      · have := h2 ⟨i - (a + n), by omega⟩
        have e : Fin.natAdd (a + n) (⟨i - (a + n), by omega⟩ : Fin b) = i := by
          apply Fin.ext; simp; omega
        rwa [e] at this
  by_cases h : ∀ i : Fin (a + n + b), (i : ℕ) < a ∨ a + n ≤ i → s i = t i
  · rw [if_pos h, if_pos (e.1 h)]; rfl
  · rw [if_neg h, if_neg (fun h' => h (e.2 h'))]

/-- The expectation value of an operator acting on a part of the sites. -/
theorem chainExpect_window {l r : ℕ → Matrix (Fin D) (Fin D) R} {L : ℕ} {A : ℕ → Ten R q D D} (hL : 0 < L)
    (E : ChainEnv L A l r) (j N k n : ℕ) (hk : k + n ≤ N) (O : (Fin n → Fin q) → (Fin n → Fin q) → R) :
    chainExpect L A l r j N (windowOp N k n hk O) = chainExpect L A l r (j + k) n O := by
  obtain ⟨b, rfl⟩ := Nat.exists_eq_add_of_le hk
  rw [windowOp_pad, chainExpect_sandwich, chainExpect_sandwich, sandwich_pad, E.transferL hL]
  have := E.transferR hL (j + k + n) b
  rw [← this, Nat.add_assoc j k n, Nat.add_assoc j (k + n) b]

theorem kron_one_row {a n b : ℕ} (h : (Fin n → Fin q) → (Fin n → Fin q) → R) (s1 t1 : Fin a → Fin q)
    (s2 t2 : Fin n → Fin q) (s3 t3 : Fin b → Fin q) (i j : Fin (q ^ a * q ^ n * q ^ b))
    (hi : (i : ℕ) = rowEquiv _ q (Fin.append (Fin.append s1 s2) s3))
    (hj : (j : ℕ) = rowEquiv _ q (Fin.append (Fin.append t1 t2) t3)) :
    Uni.kron (Uni.kron (1 : Matrix (Fin (q ^ a)) (Fin (q ^ a)) R) (Uni.hamMatrix h))
      (1 : Matrix (Fin (q ^ b)) (Fin (q ^ b)) R) i j
      = if s1 = t1 ∧ s3 = t3 then h s2 t2 else 0 := by
  have split : ∀ (x : Fin (q ^ a * q ^ n * q ^ b)) (u1 : Fin a → Fin q) (u2 : Fin n → Fin q) (u3 : Fin b → Fin q),
      (x : ℕ) = rowEquiv _ q (Fin.append (Fin.append u1 u2) u3) →
      x.divNat.divNat = rowEquiv a q u1 ∧ x.divNat.modNat = rowEquiv n q u2 ∧ x.modNat = rowEquiv b q u3 := by
    intro x u1 u2 u3 hx
    rw [rowEquiv_append, rowEquiv_append] at hx
    have h3 := (rowEquiv b q u3).2
    have h2 := (rowEquiv n q u2).2
    have hd : (x : ℕ) / q ^ b = rowEquiv a q u1 * q ^ n + rowEquiv n q u2 := by
      rw [hx, Nat.mul_comm, Nat.mul_add_div (by omega), Nat.div_eq_of_lt h3, Nat.add_zero]
    refine ⟨Fin.ext ?_, Fin.ext ?_, Fin.ext ?_⟩
    · rw [Fin.coe_divNat, Fin.coe_divNat, hd, Nat.mul_comm, Nat.mul_add_div (by omega), Nat.div_eq_of_lt h2,
        Nat.add_zero]
    · rw [Fin.coe_modNat, Fin.coe_divNat, hd, Nat.mul_comm, Nat.mul_add_mod, Nat.mod_eq_of_lt h2]
    · rw [Fin.coe_modNat, hx, Nat.mul_comm, Nat.mul_add_mod, Nat.mod_eq_of_lt h3]
  obtain ⟨i1, i2, i3⟩ := split i s1 s2 s3 hi
  obtain ⟨j1, j2, j3⟩ := split j t1 t2 t3 hj
  simp only [Uni.kron, Matrix.of_apply, i1, i2, i3, j1, j2, j3, Uni.hamMatrix, Equiv.symm_apply_apply,
    Matrix.one_apply, (rowEquiv a q).apply_eq_iff_eq, (rowEquiv b q).apply_eq_iff_eq]
  by_cases h1 : s1 = t1 <;> by_cases h3 : s3 = t3 <;> simp [h1, h3]

theorem rowEquiv_cast {m n : ℕ} (e : m = n) (s : Fin n → Fin q) :
    (rowEquiv m q (fun i => s (Fin.cast e i)) : ℕ) = rowEquiv n q s := by
  subst e; rfl

theorem windowOp_cast {M N k n : ℕ} (e : M = N) (hk : k + n ≤ N) (h : (Fin n → Fin q) → (Fin n → Fin q) → R)
    (s t : Fin N → Fin q) :
    windowOp M k n (e ▸ hk) h (fun i => s (Fin.cast e i)) (fun i => t (Fin.cast e i)) = windowOp N k n hk h s t := by
  subst e; rfl

theorem append_split {a n b : ℕ} (s : Fin (a + n + b) → Fin q) :
    Fin.append (Fin.append (fun i : Fin a => s ((i.castAdd n).castAdd b))
      (fun i : Fin n => s ((i.natAdd a).castAdd b))) (fun i : Fin b => s (i.natAdd (a + n))) = s := by
  funext i
  refine Fin.addCases (fun i => ?_) (fun i => ?_) i
  · rw [Fin.append_left]
    refine Fin.addCases (fun i => ?_) (fun i => ?_) i
    · rw [Fin.append_left]
    · rw [Fin.append_right]
  · rw [Fin.append_right]

theorem flat_blocks (s : Fin (2 * L) → Fin q) :
    (flat (blocksOf q L 2 s 0) (blocksOf q L 2 s 1) : ℕ) = rowEquiv (2 * L) q s := by
  rw [← rowEquiv_cast (Nat.two_mul L).symm s]
  have e : (fun i => s (Fin.cast (Nat.two_mul L).symm i))
      = Fin.append (fun i : Fin L => s (finProdFinEquiv (0, i))) (fun i : Fin L => s (finProdFinEquiv (1, i))) := by
    funext i
    refine Fin.addCases (fun i => ?_) (fun i => ?_) i
    · rw [Fin.append_left]
      congr 1
    · rw [Fin.append_right]
      congr 1
      apply Fin.ext; simp [finProdFinEquiv, Nat.add_comm]
  rw [e, rowEquiv_append]
  rfl

theorem blockHamTerm_eq (n k : ℕ) (hk : k + n ≤ 2 * L) (h : (Fin n → Fin q) → (Fin n → Fin q) → R) :
    ∃ m, Uni.blockHamTerm L n k (Uni.hamMatrix h) = some m ∧ ∀ s t : Fin (2 * L) → Fin q,
      m (flat (blocksOf q L 2 s 0) (blocksOf q L 2 s 1)) (flat (blocksOf q L 2 t 0) (blocksOf q L 2 t 1))
        = windowOp (2 * L) k n hk h s t := by
  rw [Uni.blockHamTerm, dif_pos hk]
  refine ⟨_, rfl, fun s t => ?_⟩
  have e : k + n + (2 * L - k - n) = 2 * L := by omega
  rw [← windowOp_cast e hk h s t, windowOp_pad, Matrix.of_apply]
  set s' := fun i => s (Fin.cast e i) with hs'
  set t' := fun i => t (Fin.cast e i) with ht'
  rw [kron_one_row h (fun i => s' ((i.castAdd n).castAdd _)) (fun i => t' ((i.castAdd n).castAdd _))
    (fun i => s' ((i.natAdd k).castAdd _)) (fun i => t' ((i.natAdd k).castAdd _))
    (fun i => s' (i.natAdd (k + n))) (fun i => t' (i.natAdd (k + n)))]
  · conv_rhs => rw [← append_split s', ← append_split t', padOp_append]
  · rw [append_split, hs', rowEquiv_cast e s, ← flat_blocks]; rfl
  · rw [append_split, ht', rowEquiv_cast e t, ← flat_blocks]; rfl

theorem blockHam_eq (n : ℕ) (hn : n ≤ L + 1) (h : (Fin n → Fin q) → (Fin n → Fin q) → R) :
    ∃ H, Uni.blockHam L n h = some H ∧ ∀ s t : Fin (2 * L) → Fin q,
      H (blocksOf q L 2 s 0) (blocksOf q L 2 s 1) (blocksOf q L 2 t 0) (blocksOf q L 2 t 1)
        = ∑ k : Fin L, windowOp (2 * L) k n (by omega) h s t := by
  have key : ∀ N, ∀ hN : N ≤ L, ∃ m, (List.range N).foldl (fun acc k => acc.bind fun acc =>
      (Uni.blockHamTerm L n k (Uni.hamMatrix h)).map fun m => acc + m) (some 0) = some m ∧
      ∀ s t : Fin (2 * L) → Fin q,
      m (flat (blocksOf q L 2 s 0) (blocksOf q L 2 s 1)) (flat (blocksOf q L 2 t 0) (blocksOf q L 2 t 1))
        = ∑ k : Fin N, windowOp (2 * L) k n (by omega) h s t := by
    intro N
    induction N with
    | zero => intro _; exact ⟨0, rfl, fun s t => by simp⟩
    | succ N ih =>
      intro hN
      obtain ⟨m, hm, hv⟩ := ih (by omega)
      obtain ⟨m', hm', hv'⟩ := blockHamTerm_eq L n N (by omega) h
      refine ⟨m + m', ?_, fun s t => ?_⟩
      · rw [List.range_succ, List.foldl_append, hm, List.foldl_cons, List.foldl_nil, Option.bind_some, hm',
          Option.map_some]
      · rw [Matrix.add_apply, hv, hv', Fin.sum_univ_castSucc]
        rfl
  obtain ⟨m, hm, hv⟩ := key L le_rfl
  refine ⟨_, by rw [Uni.blockHam, hm, Option.map_some], hv⟩

end

end EvoMPS
