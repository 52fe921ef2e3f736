import Verif.UniformBlockLemmas
import Verif.Props.UniformExpect

/-!
# C46: blocking the sites of a unit cell

`convert_to_TI_blocked` for every block length: the tensors, the environments, all expectation values of
operators on any number of blocks, and the Hamiltonian of the blocked chain.
-/

namespace EvoMPS

open Matrix Uni

section
variable {R : Type*} [CommRing R] [StarRing R] {q D : ℕ}

/-- The row-major index: the first site has the largest stride. -/
theorem C46_row_major (n q : ℕ) (s : Fin n → Fin q) :
    (rowEquiv n q s : ℕ) = ∑ i : Fin n, (s i : ℕ) * q ^ (n - 1 - i) :=
  rowEquiv_val n q s

/-- **C46.** The converted state has one site.  Its site index enumerates the `L`-site configurations in
row-major order and its tensor is the product of the `L` tensors. -/
theorem C46_tensor (S : UMPS R q D) (h1 : S.L ≠ 1) :
    ∃ T : UMPS R (q ^ S.L) D, S.convertBlocked = ⟨q ^ S.L, T⟩ ∧ T.L = 1 ∧
      (∀ s : Fin S.L → Fin q, T.A 0 (rowEquiv S.L q s) = (List.ofFn fun i => S.A i (s i)).prod) ∧
      T.lL = S.l (S.L - 1) ∧ T.rL = S.r (S.L - 1) := by
  refine ⟨_, by rw [UMPS.convertBlocked, if_neg h1], rfl, fun s => ?_, rfl, rfl⟩
  refine (blockTensor_row S.L S.A s).trans ?_
  simp only [chainProd, Nat.zero_add]
  congr 2
  funext i
  rw [Nat.mod_eq_of_lt i.2]

omit [StarRing R] in
/-- **C46.** A state with one site is left as it is. -/
theorem C46_single (S : UMPS R q D) (h1 : S.L = 1) : S.convertBlocked = ⟨q, S⟩ := by
  rw [UMPS.convertBlocked, if_pos h1]

/-- **C46.** The environments: the matrices stored as initial guesses are the environments of the blocked state
if the old ones were environments. -/
theorem C46_environments (S : UMPS R q D) (hL : 0 < S.L) (h1 : S.L ≠ 1) (E : ChainEnv S.L S.A S.l S.r)
    (T : UMPS R (q ^ S.L) D) (hT : S.convertBlocked = ⟨q ^ S.L, T⟩) :
    ChainEnv T.L T.A (fun _ => T.lL) (fun _ => T.rL) := by
  rw [UMPS.convertBlocked, if_neg h1] at hT
  obtain rfl := eq_of_heq (Sigma.mk.inj hT).2
  exact block_env hL E

/-- **C46.** Expectation values of operators on any number of blocks agree: on `n` blocks from block `j` on,
`O` acting on the block indices of the blocked state is the same operator on the `n * L` sites of the
original state. -/
theorem C46_expect (S : UMPS R q D) (hL : 0 < S.L) (h1 : S.L ≠ 1)
    (T : UMPS R (q ^ S.L) D) (hT : S.convertBlocked = ⟨q ^ S.L, T⟩) (j n : ℕ)
    (O : (Fin n → Fin (q ^ S.L)) → (Fin n → Fin (q ^ S.L)) → R) :
    chainExpect T.L T.A (fun _ => T.lL) (fun _ => T.rL) j n O
      = chainExpect S.L S.A S.l S.r (j * S.L) (n * S.L)
        (fun s t => O (blocksOf q S.L n s) (blocksOf q S.L n t)) := by
  rw [UMPS.convertBlocked, if_neg h1] at hT
  obtain rfl := eq_of_heq (Sigma.mk.inj hT).2
  rw [chainExpect_sandwich, chainExpect_sandwich]
  have e1 : (j * S.L + S.L - 1) % S.L = S.L - 1 := by
    rw [Nat.add_sub_assoc hL, Nat.mul_add_mod', Nat.mod_eq_of_lt (by omega)]
  have e2 : (j * S.L + n * S.L + S.L - 1) % S.L = S.L - 1 := by
    rw [← Nat.add_mul, Nat.add_sub_assoc hL, Nat.mul_add_mod', Nat.mod_eq_of_lt (by omega)]
  rw [e1, e2]
  exact sandwich_blocks S.L S.A j n O _ _

/-- **C46.** The finite pieces of the two chains have the same amplitudes. -/
theorem C46_amplitudes (S : UMPS R q D) (h1 : S.L ≠ 1)
    (T : UMPS R (q ^ S.L) D) (hT : S.convertBlocked = ⟨q ^ S.L, T⟩) (u v : Fin D → R) (j n : ℕ)
    (s : Fin (n * S.L) → Fin q) :
    pieceAmp T.L T.A u v j n (blocksOf q S.L n s) = pieceAmp S.L S.A u v (j * S.L) (n * S.L) s := by
  rw [UMPS.convertBlocked, if_neg h1] at hT
  obtain rfl := eq_of_heq (Sigma.mk.inj hT).2
  rw [pieceAmp, pieceAmp]
  congr 2
  exact chainProd_blocks S.L S.A j n s

/-- **C46.** The Hamiltonian of the blocked chain is the sum of the `L` terms that begin in the first of two
neighbouring blocks, for two-site terms and, if `L >= 2`, three-site terms (any range up to `L + 1`). -/
theorem C46_ham (L n : ℕ) (hn : n ≤ L + 1) (h : (Fin n → Fin q) → (Fin n → Fin q) → R) :
    ∃ H, blockHam L n h = some H ∧ ∀ s t : Fin (2 * L) → Fin q,
      H (blocksOf q L 2 s 0) (blocksOf q L 2 s 1) (blocksOf q L 2 t 0) (blocksOf q L 2 t 1)
        = ∑ k : Fin L, windowOp (2 * L) k n (by omega) h s t :=
  blockHam_eq L n hn h

/-- **C46.** The energy per block of the blocked chain is the sum of the `L` energies of the original chain. -/
theorem C46_energy (S : UMPS R q D) (hL : 0 < S.L) (h1 : S.L ≠ 1) (E : ChainEnv S.L S.A S.l S.r)
    (T : UMPS R (q ^ S.L) D) (hT : S.convertBlocked = ⟨q ^ S.L, T⟩)
    (n : ℕ) (hn : n ≤ S.L + 1) (h : (Fin n → Fin q) → (Fin n → Fin q) → R)
    (H : Fin (q ^ S.L) → Fin (q ^ S.L) → Fin (q ^ S.L) → Fin (q ^ S.L) → R) (hH : blockHam S.L n h = some H) :
    chainExpect T.L T.A (fun _ => T.lL) (fun _ => T.rL) 0 2 (fun s t => H (s 0) (s 1) (t 0) (t 1))
      = ∑ k : Fin S.L, chainExpect S.L S.A S.l S.r k n h := by
  rw [C46_expect S hL h1 T hT]
  obtain ⟨H', hH', hv⟩ := blockHam_eq S.L n hn h
  obtain rfl : H = H' := Option.some.inj (hH.symm.trans hH')
  simp only [hv]
  have hsum : ∀ F : Fin S.L → (Fin (2 * S.L) → Fin q) → (Fin (2 * S.L) → Fin q) → R,
      chainExpect S.L S.A S.l S.r (0 * S.L) (2 * S.L) (fun s t => ∑ k, F k s t)
        = ∑ k, chainExpect S.L S.A S.l S.r (0 * S.L) (2 * S.L) (F k) := by
    intro F
    simp only [chainExpect, Finset.sum_mul]
    symm
    rw [Finset.sum_comm]
    refine Finset.sum_congr rfl fun s _ => ?_
    rw [Finset.sum_comm]
  rw [hsum]
  refine Finset.sum_congr rfl fun k _ => ?_
  rw [chainExpect_window hL E, Nat.zero_mul, Nat.zero_add]

end

/-! ## A case -/

/-- The two-site unit cell `demoDimer` with the two-site Hamiltonian that counts equal neighbours, and with
a three-site one. -/
example : ∃ (T : UMPS ℂ (2 ^ 2) 2) (H2 H3 : Fin (2 ^ 2) → Fin (2 ^ 2) → Fin (2 ^ 2) → Fin (2 ^ 2) → ℂ),
    demoDimer.convertBlocked = ⟨2 ^ 2, T⟩ ∧
    blockHam 2 2 (fun s t => if s = t ∧ s 0 = s 1 then 1 else 0) = some H2 ∧
    blockHam 2 3 (fun s t => if s = t ∧ s 0 = s 2 then 1 else 0) = some H3 ∧
    (∀ s : Fin 2 → Fin 2, T.A 0 (rowEquiv 2 2 s) = demoDimer.A 0 (s 0) * demoDimer.A 1 (s 1)) ∧
    chainExpect T.L T.A (fun _ => T.lL) (fun _ => T.rL) 0 2 (fun s t => H3 (s 0) (s 1) (t 0) (t 1))
      = ∑ k : Fin 2, chainExpect 2 demoDimer.A demoDimer.l demoDimer.r k 3
        (fun s t => if s = t ∧ s 0 = s 2 then 1 else 0) := by
  obtain ⟨T, hT, -, hA, -, -⟩ := C46_tensor demoDimer (by simp [demoDimer])
  obtain ⟨H2, h2, -⟩ := C46_ham (R := ℂ) (q := 2) 2 2 (by omega) (fun s t => if s = t ∧ s 0 = s 1 then 1 else 0)
  obtain ⟨H3, h3, -⟩ := C46_ham (R := ℂ) (q := 2) 2 3 (by omega) (fun s t => if s = t ∧ s 0 = s 2 then 1 else 0)
  refine ⟨T, H2, H3, hT, h2, h3, fun s => (hA s).trans ?_,
    C46_energy demoDimer (by simp [demoDimer]) (by simp [demoDimer]) demoDimer_env T hT 3 (by simp [demoDimer]) _ H3 h3⟩
  show (List.ofFn fun i : Fin 2 => demoDimer.A i (s i)).prod = _
  simp [List.ofFn_succ]
end EvoMPS
