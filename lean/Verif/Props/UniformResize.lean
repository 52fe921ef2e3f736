import Verif.UniformResize
import Verif.UniformDynLemmas
import Verif.UniformTangentSpec
import Verif.DynExpLemmas

/-!
# C95: changing the dimensions of a uniform state

`set_q(newq, offset)` should embed the state into more levels (or restrict it to some of them), keep its environments, its `K`
and the number of sites of the Hamiltonian terms; `expand_D(newD)` should keep the tensors, environments and `K` in the upper left
blocks of the larger matrices.  The tensors are treated as they should be; the rest is not always.
-/

namespace EvoMPS

open Matrix Uni

variable {q D : ℕ}

namespace Uni

theorem setQSite_grow {newq o : ℕ} (hq : q < newq) (ho : o + q ≤ newq) (A : Ten ℂ q D D) :
    setQSite newq (o : ℤ) A = some fun s => if o ≤ s.val ∧ s.val < o + q then entry A (s.val - o) else 0 := by
  have h1 : sliceBound newq (o : ℤ) = o := by simp only [sliceBound]; split <;> omega
  have h2 : sliceBound newq ((q : ℤ) + (o : ℤ)) = o + q := by simp only [sliceBound]; split <;> omega
  simp only [setQSite, if_pos hq, h1, h2, Nat.add_sub_cancel_left, if_true]

theorem setQSite_shrink {newq o : ℕ} (ho : o + newq ≤ q) (A : Ten ℂ q D D) :
    setQSite newq (-(o : ℤ)) A = some fun s => entry A (o + s.val) := by
  have h1 : sliceBound q (- -(o : ℤ)) = o := by simp only [sliceBound]; split <;> omega
  have h2 : sliceBound q ((newq : ℤ) - -(o : ℤ)) = o + newq := by simp only [sliceBound]; split <;> omega
  simp only [setQSite, if_neg (show ¬ q < newq by omega), h1, h2, Nat.add_sub_cancel_left, if_true]

theorem setQ_some {S : Resizable q D} {newq : ℕ} {offset : ℤ} {sites : ℕ} {f : Ten ℂ q D D → Ten ℂ newq D D}
    (hs : setHamSites S.ham none = some sites) (hf : ∀ A : Ten ℂ q D D, setQSite newq offset A = some (f A)) :
    S.setQ newq offset = some ⟨S.L, fun k => f (S.A k), S.l, S.r, Matrix.of fun _ _ => 1, Matrix.of fun _ _ => 1, S.K,
      S.ham, sites⟩ := by
  unfold Resizable.setQ
  simp only [hs, Option.bind_some, hf, Option.isSome_some, implies_true, if_true, Option.getD_some]

theorem prod_ofFn_zero {n : ℕ} (f : Fin n → Matrix (Fin D) (Fin D) ℂ) (h : ∃ i, f i = 0) : (List.ofFn f).prod = 0 := by
  obtain ⟨i, hi⟩ := h
  exact List.prod_eq_zero ((List.mem_ofFn' f 0).2 ⟨i, hi⟩)

end Uni

/-- **C95** (`set_q`, more levels).  For a position at which the old levels fit, `set_q` returns; the old levels are now the levels
`offset, ..., offset + q - 1`.  The matrix products for configurations of these, over any sites, are those of before; the product
for every other configuration is zero.  Environments and `K` are kept.  Missing: `ham_sites` is counted anew, and the starting values of
the search for the fixed points are lost. -/
theorem C95_set_q_grow_partial (S : Resizable q D) (newq o : ℕ) (hq : q < newq) (ho : o + q ≤ newq) (sites : ℕ)
    (hs : setHamSites S.ham none = some sites) :
    ∃ T, S.setQ newq (o : ℤ) = some T ∧ T.L = S.L ∧ T.l = S.l ∧ T.r = S.r ∧ T.K = S.K ∧ T.hamSites = sites ∧
      (∀ (c n : ℕ) (s : Fin n → Fin q), lineProd (fun j => T.A (j % T.L)) c n (fun i => ⟨o + (s i).val, by omega⟩)
        = lineProd (fun j => S.A (j % S.L)) c n s) ∧
      ∀ (c n : ℕ) (s : Fin n → Fin newq), (∃ i, (s i).val < o ∨ o + q ≤ (s i).val) →
        lineProd (fun j => T.A (j % T.L)) c n s = 0 := by
  refine ⟨_, setQ_some hs (setQSite_grow hq ho), rfl, rfl, rfl, rfl, rfl, ?_, ?_⟩
  · intro c n s
    simp only [lineProd]
    congr 2
    funext i
    have hi := (s i).isLt
    rw [if_pos ⟨by omega, by omega⟩, Nat.add_sub_cancel_left]
    simp [entry]
  · rintro c n s ⟨i, hi⟩
    refine prod_ofFn_zero _ ⟨i, ?_⟩
    show (if o ≤ (s i).val ∧ (s i).val < o + q then _ else 0) = (0 : Matrix (Fin D) (Fin D) ℂ)
    rw [if_neg (by omega)]

/-- **C95** (`set_q`, fewer levels).  Only the levels from `-offset` on are kept. -/
theorem C95_set_q_shrink_partial (S : Resizable q D) (newq o : ℕ) (ho : o + newq ≤ q) (sites : ℕ)
    (hs : setHamSites S.ham none = some sites) :
    ∃ T, S.setQ newq (-(o : ℤ)) = some T ∧ T.L = S.L ∧ T.l = S.l ∧ T.r = S.r ∧ T.K = S.K ∧ T.hamSites = sites ∧
      ∀ (c n : ℕ) (s : Fin n → Fin newq), lineProd (fun j => T.A (j % T.L)) c n s
        = lineProd (fun j => S.A (j % S.L)) c n (fun i => ⟨o + (s i).val, by omega⟩) := by
  refine ⟨_, setQ_some hs (setQSite_shrink ho), rfl, rfl, rfl, rfl, rfl, ?_⟩
  intro c n s
  simp only [lineProd]
  congr 2
  funext i
  have hi := (s i).isLt
  simp only [entry]
  rw [dif_pos (by omega)]

/-- **C95** (`set_q`, errors).  With at least two old levels, more levels are accepted exactly at a position where the old ones fit;
positions below `-q` count from the end, as python's indices do. -/
theorem C95_set_q_raises (S : Resizable q D) (newq : ℕ) (offset : ℤ) (h2 : 2 ≤ q) (hq : q < newq) (hL : 0 < S.L)
    (hs : (setHamSites S.ham none).isSome) :
    (S.setQ newq offset).isSome ↔ (0 ≤ offset ∧ offset + q ≤ newq) ∨ (-(newq : ℤ) ≤ offset ∧ offset < -(q : ℤ)) := by
  obtain ⟨sites, hs⟩ := Option.isSome_iff_exists.1 hs
  have key : ∀ A : Ten ℂ q D D, (setQSite newq offset A).isSome ↔
      (0 ≤ offset ∧ offset + q ≤ newq) ∨ (-(newq : ℤ) ≤ offset ∧ offset < -(q : ℤ)) := by
    intro A
    simp only [setQSite, if_pos hq, if_neg (show ¬ q = 1 by omega)]
    have e : (sliceBound newq ((q : ℤ) + offset) - sliceBound newq offset = q) ↔
        (0 ≤ offset ∧ offset + q ≤ newq) ∨ (-(newq : ℤ) ≤ offset ∧ offset < -(q : ℤ)) := by
      simp only [sliceBound]
      split <;> split <;> omega
    rw [← e]
    by_cases hn : sliceBound newq ((q : ℤ) + offset) - sliceBound newq offset = q
    · simp [hn]
    · simp [hn]
  unfold Resizable.setQ
  simp only [hs, Option.bind_some]
  constructor
  · intro h
    by_cases ha : ∀ k < S.L, (setQSite newq offset (S.A k)).isSome
    · exact (key (S.A 0)).1 (ha 0 hL)
    · rw [if_neg ha] at h
      simp at h
  · intro h
    rw [if_pos fun k _ => (key (S.A k)).2 h]
    rfl

/-- **C95, violated** (`set_q`).  A state with one level is accepted at every position beyond the end; its tensors are then zero. -/
theorem C95_set_q_violated (S : Resizable 1 D) (newq o : ℕ) (hq : 1 < newq) (ho : newq ≤ o) (sites : ℕ)
    (hs : setHamSites S.ham none = some sites) :
    ∃ T, S.setQ newq (o : ℤ) = some T ∧ ∀ k s, T.A k s = 0 := by
  have hf : ∀ A : Ten ℂ 1 D D, setQSite newq (o : ℤ) A = some (fun _ => 0) := by
    intro A
    have h1 : sliceBound newq (o : ℤ) = newq := by simp only [sliceBound]; split <;> omega
    have h2 : sliceBound newq (((1 : ℕ) : ℤ) + (o : ℤ)) = newq := by simp only [sliceBound]; split <;> omega
    simp only [setQSite, if_pos hq, h1, h2, Nat.sub_self, if_true, Nat.add_zero]
    rw [if_neg (by omega)]
    congr 1
    funext s
    rw [if_neg (by omega)]
  exact ⟨_, setQ_some hs hf, fun _ _ => rfl⟩

/-- **C95, violated** (`ham_sites`).  For a Hamiltonian given as a function, the number of sites set with `set_ham(ham, 3)` does not survive
`set_q` or `expand_D`: afterwards it is two. -/
theorem C95_ham_sites_violated (S : Resizable q D) (hS : S.ham = .callable) (h3 : S.hamSites = 3) :
    setHamSites S.ham (some 3) = some S.hamSites ∧
    (∀ newq offset T, S.setQ newq offset = some T → T.hamSites = 2) ∧
    ∀ d a b rnd refac imfac T, S.expand d a b rnd refac imfac = some T → T.hamSites = 2 := by
  have hs : setHamSites S.ham none = some 2 := by rw [hS]; simp [setHamSites]
  refine ⟨by rw [h3]; simp [setHamSites], ?_, ?_⟩
  · intro newq offset T h
    unfold Resizable.setQ at h
    simp only [hs, Option.bind_some] at h
    split at h
    · cases h; rfl
    · cases h
  · intro d a b rnd refac imfac T h
    unfold Resizable.expand at h
    simp only [hs, Option.map_some] at h
    cases h; rfl

/-- **C95** (`ham_sites`).  For a Hamiltonian given as an array it does: if it was accepted, it is what the number of axes
says, before and after. -/
theorem C95_ham_sites_partial (S : Resizable q D) (n : ℕ) (hS : S.ham = .array (2 * n)) (hn : n = 2 ∨ n = 3) :
    setHamSites S.ham none = some n := by
  rw [hS]
  have : 2 * n / 2 = n := by omega
  simp [setHamSites, this, hn]

/-- **C95** (`expand_D`).  A smaller bond dimension changes nothing. -/
theorem C95_expand_smaller (S : Resizable q D) (newD : ℕ) (h : newD < D) (a b rnd refac imfac) :
    S.expandD newD a b rnd refac imfac = some ⟨D, S⟩ := if_pos h

/-- **C95** (`expand_D`).  The result has the new bond dimension; the old tensors are the upper left blocks of the new ones; the starting values
are the last environments.  Entry `(i, j)` of an old environment or of `K[0]` is still there, whatever the random numbers, if
`i * newD + j < D ^ 2`.  Missing: the other entries of the old matrices, see `C95_expand_violated`. -/
theorem C95_expand_partial (S : Resizable q D) (newD : ℕ) (h : D ≤ newD) (a b rnd refac imfac) (sites : ℕ)
    (hs : setHamSites S.ham none = some sites) :
    ∃ (d : ℕ) (T : Resizable q (D + d)), D + d = newD ∧ S.expandD newD a b rnd refac imfac = some ⟨D + d, T⟩ ∧
      T.L = S.L ∧ T.hamSites = sites ∧ T.lGuess = T.l (T.L - 1) ∧ T.rGuess = T.r (T.L - 1) ∧
      (∀ k s (i j : Fin D), T.A k s (Fin.castAdd d i) (Fin.castAdd d j) = S.A k s i j) ∧
      (∀ k s (i j : Fin d), T.A k s (Fin.natAdd D i) (Fin.natAdd D j) = 0) ∧
      ∀ i j : Fin D, i.val * newD + j.val < D ^ 2 →
        (∀ k, T.l k (Fin.castAdd d i) (Fin.castAdd d j) = S.l k i j) ∧
        (∀ k, T.r k (Fin.castAdd d i) (Fin.castAdd d j) = S.r k i j) ∧
        T.K 0 (Fin.castAdd d i) (Fin.castAdd d j) = S.K 0 i j := by
  have hE : S.expandD newD a b rnd refac imfac
      = (S.expand (newD - D) a b rnd refac imfac).map fun T => ⟨_, T⟩ := if_neg (by omega)
  have hT := show ∃ T, S.expand (newD - D) a b rnd refac imfac = some T from ⟨_, by
    unfold Resizable.expand
    rw [hs]
    rfl⟩
  obtain ⟨T, hT⟩ := hT
  refine ⟨newD - D, T, by omega, by rw [hE, hT]; rfl, ?_⟩
  unfold Resizable.expand at hT
  simp only [hs, Option.map_some, Option.some.injEq] at hT
  subst hT
  have corner : ∀ (rnd : ℕ → ℝ) (old : Matrix (Fin D) (Fin D) ℂ) (i j : Fin D), i.val * newD + j.val < D ^ 2 →
      growEnv (newD - D) rnd old (Fin.castAdd _ i) (Fin.castAdd _ j) = old i j := by
    intro rnd old i j hij
    have hD : D + (newD - D) = newD := by omega
    have hi := i.isLt
    have hj := j.isLt
    have h1 : (i.val * newD + j.val) / newD = i.val := by
      rw [Nat.mul_comm, Nat.mul_add_div (by omega), Nat.div_eq_of_lt (by omega)]; omega
    have h2 : (i.val * newD + j.val) % newD = j.val := by
      rw [Nat.mul_comm, Nat.mul_add_mod, Nat.mod_eq_of_lt (by omega)]
    simp only [growEnv, Matrix.of_apply, noiseTail, Fin.val_castAdd, hD, if_neg (not_le.2 hij), setCorner, h1, h2]
    rw [dif_pos ⟨hi, hj⟩]
  refine ⟨rfl, rfl, rfl, rfl, fun k s i j => ?_, fun k s i j => ?_, fun i j hij => ⟨fun k => corner _ _ i j hij,
    fun k => corner _ _ i j hij, ?_⟩⟩
  · simp only [expandA, blocks_11]
  · simp only [expandA, blocks_22, Matrix.zero_apply]
  · simp only [Function.update_self]
    exact corner _ _ i j hij

/-- **C95, violated** (`expand_D`).  The random numbers overwrite parts of the old matrices, because the tail of the flat array is not the part
outside the old block: for at least two old and one new bond index, an environment that was the identity has lost the last diagonal entry
if the random numbers are zero, and the entry next to the end of the first row, which is new, is always one. -/
theorem C95_expand_violated (S : Resizable q D) (newD : ℕ) (hD : 2 ≤ D) (h : D < newD) (a b) (rnd : ExpandRnd q) (refac imfac)
    (k : ℕ) (hl : S.l k = 1) (hr : ∀ f, rnd.l k f = 0) (d : ℕ) (hd : D + d = newD) (T : Resizable q (D + d))
    (hT : S.expandD newD a b rnd refac imfac = some ⟨D + d, T⟩) :
    S.l k ⟨D - 1, by omega⟩ ⟨D - 1, by omega⟩ = 1 ∧ T.l k ⟨D - 1, by omega⟩ ⟨D - 1, by omega⟩ = 0 ∧
      T.l k ⟨0, by omega⟩ ⟨D, by omega⟩ = 1 := by
  have hd' : newD - D = d := by omega
  unfold Resizable.expandD at hT
  rw [if_neg (by omega)] at hT
  rw [hd'] at hT
  simp only [Option.map_eq_some_iff] at hT
  obtain ⟨T', hT', he⟩ := hT
  have he := eq_of_heq (Sigma.mk.inj he).2
  subst he
  unfold Resizable.expand at hT'
  simp only [Option.map_eq_some_iff] at hT'
  obtain ⟨sites, -, hT'⟩ := hT'
  subst hT'
  refine ⟨by rw [hl, Matrix.one_apply_eq], ?_, ?_⟩
  · have hle : D ^ 2 ≤ (D - 1) * (D + d) + (D - 1) := by
      obtain ⟨e, rfl⟩ : ∃ e, D = e + 2 := ⟨D - 2, by omega⟩
      obtain ⟨d', rfl⟩ : ∃ d', d = d' + 1 := ⟨d - 1, by omega⟩
      simp only [show e + 2 - 1 = e + 1 by omega]
      nlinarith [Nat.zero_le (e * d')]
    simp only [growEnv, Matrix.of_apply, noiseTail, if_pos hle, hr, zero_mul, Complex.ofReal_zero]
  · have hlt : ¬ D ^ 2 ≤ 0 * (D + d) + D := by nlinarith
    simp only [growEnv, Matrix.of_apply, noiseTail, if_neg hlt, setCorner]
    rw [dif_neg]
    rintro ⟨-, h2⟩
    rw [Nat.zero_mul, Nat.zero_add, Nat.mod_eq_of_lt (by omega)] at h2
    omega

/-! ## The hypotheses are met -/

namespace Ex95

/-- A state of two sites with two levels and bond dimension two, with a function as Hamiltonian. -/
noncomputable def S : Resizable 2 2 where
  L := 2
  A k s := if k = 0 then 1 else if s = 0 then !![1, 2; 0, 1] else 0
  l _ := 1
  r _ := 1
  lGuess := 1
  rGuess := 1
  K _ := 0
  ham := .callable
  hamSites := 3

example : ∃ T, S.setQ 5 1 = some T ∧ T.hamSites = 2 ∧ T.l = S.l :=
  let ⟨T, h, _, hl, _, _, hs, _⟩ := C95_set_q_grow_partial S 5 1 (by norm_num) (by norm_num) 2 rfl
  ⟨T, h, hs, hl⟩

example : ∃ T, S.setQ 1 (-1) = some T ∧ T.r = S.r :=
  let ⟨T, h, _, _, hr, _⟩ := C95_set_q_shrink_partial S 1 1 (by norm_num) 2 rfl
  ⟨T, h, hr⟩

example : (S.setQ 5 (-4)).isSome ∧ ¬ (S.setQ 5 4).isSome :=
  ⟨(C95_set_q_raises S 5 (-4) le_rfl (by norm_num) (by norm_num [S]) rfl).2 (by norm_num),
   fun h => by have := (C95_set_q_raises S 5 4 le_rfl (by norm_num) (by norm_num [S]) rfl).1 h; norm_num at this⟩

example : S.ham = .callable ∧ S.hamSites = 3 := ⟨rfl, rfl⟩

noncomputable def rnd : ExpandRnd 2 := ⟨fun _ _ _ _ => (0, 0), fun _ _ => 0, fun _ _ => 0, fun _ => 0⟩

example : ∃ T : Resizable 2 (2 + 1), S.expandD 3 0 0 rnd 0 0 = some ⟨2 + 1, T⟩ ∧ T.l 0 1 1 = 0 := by
  obtain ⟨d, T, hd, hT, -⟩ := C95_expand_partial S 3 (by norm_num) 0 0 rnd 0 0 2 rfl
  obtain rfl : d = 1 := by omega
  exact ⟨T, hT, (C95_expand_violated S 3 le_rfl (by norm_num) 0 0 rnd 0 0 0 rfl (fun _ => rfl) 1 rfl T hT).2.1⟩

/-- A state with one level. -/
noncomputable def S1 : Resizable 1 2 := { S with A := fun _ _ => 1 }

example : ∃ T, S1.setQ 3 7 = some T ∧ ∀ k s, T.A k s = 0 := C95_set_q_violated S1 3 7 (by norm_num) (by norm_num) 2 rfl

end Ex95

end EvoMPS
