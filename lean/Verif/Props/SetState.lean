import Verif.SetStateLemmas
import Verif.BondDimLemmas
import Mathlib.Tactic.IntervalCases

/-!
# Properties C25 (product states) and C26 (given tensors, save and load)
-/

set_option linter.unusedSectionVars false

namespace EvoMPS

open Matrix

section
variable {R : Type*} [CommRing R] {N : ℕ}

/-- What `set_state_product` does: the amplitudes are products of the given entries, but entries
of vector `n` from index `q[n]` on (python's `q[n]`, the dimension of the site *before* the one
the vector belongs to) are replaced by zero. -/
theorem C25_product_actual {qPy D : ℕ → ℕ} (A : Tensors R (fun n => qPy (n + 1)) D)
    (ψ : ℕ → List R) (hψ : ∀ n < N, (ψ n).length = qPy (n + 1)) (h0 : D 0 = 1) (hN : D N = 1)
    (hD : ∀ n ≤ N, 0 < D n) (hle : ∀ n < N, qPy n ≤ qPy (n + 1)) :
    ∃ A', setStateProduct N qPy D A ψ = some A' ∧ ∀ s : Cfg (fun n => qPy (n + 1)) N,
      psi A' h0 hN s = ∏ n : Fin N, if (s n).val < qPy n then ((ψ n)[(s n).val]?).getD 0 else 0 := by
  obtain ⟨h1, h2⟩ := foldl_update_option
    (fun n => prodSite (qPy (n + 1)) (D n) (D (n + 1)) (qPy n) (ψ n)) N A
  have hs : ∀ n < N, _ := fun n hn => prodSite_spec (q := qPy (n + 1)) (a := D n) (b := D (n + 1))
    (qPy n) (ψ n) (hle n hn) (by rw [hψ n hn]; exact hle n hn) (hD n hn.le) (hD (n + 1) hn)
  obtain ⟨A', hA'⟩ := h2 fun n hn => (hs n hn).imp fun t ht => ht.1
  refine ⟨A', hA', fun s => ?_⟩
  rw [psi, amp_prod A' (fun n x => if x.val < qPy n then ((ψ n)[x.val]?).getD 0 else 0) N hD h0
    ?_ N le_rfl]
  · rw [if_pos rfl]
  · intro n hn x i j
    obtain ⟨t, ht, he⟩ := hs n hn
    have : A' n = t := Option.some.inj ((h1 A' hA' n hn).symm.trans ht)
    rw [this, he]
    by_cases hx : x.val < qPy n <;> simp [hx]

/-- C25, as claimed, if all entries of `q`, including the unused entry 0, are equal.  Missing:
other site dimensions, for which it is false (`C25_product_violated`, `C25_raises`). -/
theorem C25_product_partial {qPy D : ℕ → ℕ} (A : Tensors R (fun n => qPy (n + 1)) D)
    (ψ : ℕ → List R) (hψ : ∀ n < N, (ψ n).length = qPy (n + 1)) (h0 : D 0 = 1) (hN : D N = 1)
    (hD : ∀ n ≤ N, 0 < D n) (heq : ∀ n < N, qPy n = qPy (n + 1)) :
    ∃ A', setStateProduct N qPy D A ψ = some A' ∧ ∀ s : Cfg (fun n => qPy (n + 1)) N,
      psi A' h0 hN s = ∏ n : Fin N, ((ψ n)[(s n).val]?).getD 0 := by
  obtain ⟨A', h1, h2⟩ := C25_product_actual A ψ hψ h0 hN hD fun n hn => (heq n hn).le
  refine ⟨A', h1, fun s => ?_⟩
  rw [h2 s]
  refine Finset.prod_congr rfl fun n _ => if_pos ?_
  have := (s n).isLt
  rw [heq n n.isLt]
  exact this

/-- A site that is smaller than the one before it makes `set_state_product` raise. -/
theorem C25_raises {qPy D : ℕ → ℕ} (A : Tensors R (fun n => qPy (n + 1)) D) (ψ : ℕ → List R)
    (h : ∃ n < N, qPy (n + 1) < qPy n) : setStateProduct N qPy D A ψ = none := by
  obtain ⟨n, hn, hlt⟩ := h
  cases hS : setStateProduct N qPy D A ψ with
  | none => rfl
  | some A' =>
    have := (foldl_update_option
      (fun n => prodSite (qPy (n + 1)) (D n) (D (n + 1)) (qPy n) (ψ n)) N A).1 A' hS n hn
    simp only [prodSite_none _ _ hlt] at this
    cases this

end

/-- C25 fails for `q = [0, 2]`, although entry 0 is documented as ignored: the product state of the
single-site vector `(1, 0)` gets the amplitude 0. -/
theorem C25_product_violated : ∃ (N : ℕ) (qPy D : ℕ → ℕ) (h0 : D 0 = 1) (hN : D N = 1)
    (A A' : Tensors ℂ (fun n => qPy (n + 1)) D) (ψ : ℕ → List ℂ) (s : Cfg (fun n => qPy (n + 1)) N),
    (∀ n < N, 0 < qPy (n + 1)) ∧ (∀ n < N, (ψ n).length = qPy (n + 1)) ∧
      setStateProduct N qPy D A ψ = some A' ∧
      psi A' h0 hN s ≠ ∏ n : Fin N, ((ψ n)[(s n).val]?).getD 0 := by
  obtain ⟨A', h1, h2⟩ := C25_product_actual (N := 1) (R := ℂ)
    (qPy := fun n => if n = 0 then 0 else 2) (D := fun _ => 1) 0 (fun _ => [1, 0])
    (by intro n _; simp) rfl rfl (by simp) (by intro n hn; by_cases h : n = 0 <;> simp [h])
  refine ⟨1, fun n => if n = 0 then 0 else 2, fun _ => 1, rfl, rfl, 0, A', fun _ => [1, 0],
    fun _ => ⟨0, by simp⟩, by simp, by intro n _; simp, h1, ?_⟩
  rw [h2]
  simp

/-- The hypotheses of `C25_product_partial` hold for two sites of dimension 2 with a bond of
dimension 2. -/
example : (∀ n < 2, ((fun n => if n = 0 then [1, 0] else [3, 4] : ℕ → List ℂ) n).length = 2) ∧
    ∀ n ≤ 2, 0 < (fun n => if n = 1 then 2 else 1 : ℕ → ℕ) n := by
  constructor
  · intro n _; dsimp only; split_ifs <;> rfl
  · intro n _; dsimp only; split_ifs <;> simp

section
variable {R : Type*} [CommRing R] {N : ℕ} {q D : ℕ → ℕ}

theorem dimsOf_eq (D : ℕ → ℕ) (hN : 0 < N) (n : ℕ) (hn : n ≤ N) :
    dimsOf N D (fun n => D (n + 1)) n = D n := by
  unfold dimsOf
  split_ifs with h
  · rfl
  · have : N - 1 + 1 = n := by omega
    dsimp only; rw [this]

/-- C26, `set_state_from_tensors`: given `N` tensors with matching bonds, the bond dimensions and
all amplitudes become those of the given tensors. -/
theorem C26_from_tensors (A : Tensors R q D) (hpos : 0 < N) :
    ∃ A', setStateFromTensors N N A = some A' ∧
      (∀ n ≤ N, dimsOf N D (fun n => D (n + 1)) n = D n) ∧
      (∀ n < N, ∀ s i j i' j', i.val = i'.val → j.val = j'.val → A' n s i j = A n s i' j') ∧
      ∀ h0 hN h0' hN' s, psi (N := N) A' h0' hN' s = psi A h0 hN s := by
  have hd := dimsOf_eq D hpos
  obtain ⟨h1, h2⟩ := foldl_update_option
    (fun n => assignTen (dimsOf N D (fun n => D (n + 1)) n)
      (dimsOf N D (fun n => D (n + 1)) (n + 1)) (A n)) N 0
  have hs := fun n (hn : n < N) => assignTen_self (A n) (hd n hn.le).symm (hd (n + 1) hn).symm
  obtain ⟨A', hA'⟩ := h2 fun n hn => (hs n hn).imp fun t ht => ht.1
  have hent : ∀ n < N, ∀ s i j i' j', i.val = i'.val → j.val = j'.val →
      A' n s i j = A n s i' j' := by
    intro n hn
    obtain ⟨t, ht, he⟩ := hs n hn
    have : A' n = t := Option.some.inj ((h1 A' hA' n hn).symm.trans ht)
    rw [this]
    exact he
  refine ⟨A', ?_, hd, hent, fun h0 hN h0' hN' s => psi_reshape A' A hd hent _ _ _ _ s⟩
  rw [setStateFromTensors, if_neg (by simp), if_neg hpos.ne']
  exact hA'

/-- C26: a wrong number of tensors is rejected. -/
theorem C26_wrong_number {a b : ℕ → ℕ} (M : ℕ) (T : ∀ n, Ten R (q n) (a n) (b n)) (h : M ≠ N) :
    setStateFromTensors N M T = none := by
  rw [setStateFromTensors, if_pos h]

/-- C26: a right bond that does not match the left bond of the next tensor is rejected, unless it
has dimension one (numpy then repeats the entries). -/
theorem C26_mismatch {a b : ℕ → ℕ} (T : ∀ n, Ten R (q n) (a n) (b n)) (n : ℕ) (hn : n + 1 < N)
    (h : b n ≠ a (n + 1)) (h1 : b n ≠ 1) : setStateFromTensors N N T = none := by
  rw [setStateFromTensors, if_neg (by simp), if_neg (by omega)]
  cases hS : List.foldl _ _ (List.range' 0 N) with
  | none => rfl
  | some A' =>
    have := (foldl_update_option (fun n => assignTen (dimsOf N a b n) (dimsOf N a b (n + 1)) (T n))
      N 0).1 A' hS n (by omega)
    rw [assignTen_none _ (by rw [dimsOf, if_pos hn]; exact h) h1] at this
    cases this

/-- C26, `save_state` and `load_state`: loading a saved state into any object with the same number
of sites restores all bond dimensions and all tensors. -/
theorem C26_save_load (Dold : ℕ → ℕ) (A : Tensors R q D) (h0 : D 0 = 1) :
    ∃ D', loadState N Dold (saveState N A) = some (D', A) ∧ ∀ n ≤ N, D' n = D n := by
  refine ⟨_, by rw [loadState, if_neg (by simp [saveState])]; rfl, fun n hn => ?_⟩
  have := foldUp_inv (fun (D' : ℕ → ℕ) n => Function.update D' (n + 1) (D (n + 1)))
    (fun k D' => ∀ n ≤ k, D' n = D n) 0 N (Function.update Dold 0 1) ?_ ?_
  · exact this n (by omega)
  · intro n hn; obtain rfl : n = 0 := by omega
    rw [Function.update_self, h0]
  · intro k D' _ _ ih n hn
    by_cases h : n = k + 1
    · subst h; rw [Function.update_self]
    · rw [Function.update_of_ne h]; exact ih n (by omega)

/-- C26: loading from a file with fewer tensors than the object has sites raises. -/
theorem C26_load_short (Dold : ℕ → ℕ) (M : ℕ) (A : Tensors R q D) (h : M < N) :
    loadState N Dold (saveState M A) = none := by
  rw [loadState, if_pos (by exact h)]

end

section
variable {N : ℕ} {q D : ℕ → ℕ}

/-- C26, `mps_from_tensors_gen`: proved for tensors whose bond dimensions are left alone by the
constructor's correction and admit the initial state.  Missing: all other tensors, for which it
raises (`C26_mps_from_tensors_violated`). -/
theorem C26_mps_from_tensors_partial (A : Tensors ℂ q D) (hpos : 0 < N)
    (hq : ∀ n < N, 0 < q n) (hD : ∀ n ≤ N, 0 < D n)
    (hcorr : ∀ n ≤ N, correctBondDim N q D n = D n)
    (hnb : ∀ n < N, D (n + 1) ≤ q n * D n ∧ D n ≤ q n * D (n + 1)) :
    ∃ A', mpsFromTensors N A = some A' ∧
      ∀ h0 hN h0' hN' s, psi (N := N) A' h0' hN' s = psi A h0 hN s := by
  have hd := dimsOf_eq (N := N) D hpos
  have hc : ∀ n ≤ N, correctBondDim N q (dimsOf N D fun n => D (n + 1)) n = D n := by
    intro n hn
    rw [← hcorr n hn, correctBondDim_eq hq _ n hn, correctBondDim_eq hq _ n hn, hd n hn]
  obtain ⟨A0, hA0⟩ := (foldl_update_option (fun n => initSite (q n)
    (correctBondDim N q (dimsOf N D fun n => D (n + 1)) n)
    (correctBondDim N q (dimsOf N D fun n => D (n + 1)) (n + 1))) N 0).2 fun n hn => by
      rw [hc n hn.le, hc (n + 1) hn]
      exact (initSite_isSome (hq n hn) (hD n hn.le) (hD (n + 1) hn)).mpr (hnb n hn)
  obtain ⟨h1, h2⟩ := foldl_update_option
    (fun n => assignTen (correctBondDim N q (dimsOf N D fun n => D (n + 1)) n)
      (correctBondDim N q (dimsOf N D fun n => D (n + 1)) (n + 1)) (A n)) N A0
  have hs := fun n (hn : n < N) => assignTen_self (A n) (hc n hn.le).symm (hc (n + 1) hn).symm
  obtain ⟨A', hA'⟩ := h2 fun n hn => (hs n hn).imp fun t ht => ht.1
  refine ⟨A', ?_, fun h0 hN h0' hN' s => psi_reshape A' A hc (fun n hn => ?_) _ _ _ _ s⟩
  · rw [mpsFromTensors, if_neg hpos.ne']
    have : initState N q (correctBondDim N q (dimsOf N D fun n => D (n + 1))) = some A0 := hA0
    rw [this]
    exact hA'
  · obtain ⟨t, ht, he⟩ := hs n hn
    have : A' n = t := Option.some.inj ((h1 A' hA' n hn).symm.trans ht)
    rw [this]
    exact he

/-- C26: `mps_from_tensors_gen` raises for a valid list of tensors of shapes `(2, 1, 3)` and
`(2, 3, 1)`, because the constructor reduces the bond dimension to 2. -/
theorem C26_mps_from_tensors_violated : ∃ (N : ℕ) (q D : ℕ → ℕ), 0 < N ∧ (∀ n < N, 0 < q n) ∧
    (∀ n ≤ N, 0 < D n) ∧ D 0 = 1 ∧ D N = 1 ∧ ∀ A : Tensors ℂ q D, mpsFromTensors N A = none := by
  refine ⟨2, fun _ => 2, fun n => if n = 1 then 3 else 1, by norm_num, by simp,
    fun n _ => by dsimp only; split_ifs <;> simp, rfl, rfl, fun A => ?_⟩
  rw [mpsFromTensors, if_neg (by norm_num)]
  cases initState 2 (fun _ => 2) (correctBondDim 2 (fun _ => 2)
    (dimsOf 2 (fun n => if n = 1 then 3 else 1) fun n => if n + 1 = 1 then 3 else 1)) with
  | none => rfl
  | some A0 =>
    rw [Option.bind_some]
    cases hS : List.foldl _ _ (List.range' 0 2) with
    | none => rfl
    | some A' =>
      have h := (foldl_update_option (fun n => assignTen (correctBondDim 2 (fun _ => 2)
        (dimsOf 2 (fun n => if n = 1 then 3 else 1) fun n => if n + 1 = 1 then 3 else 1) n)
        (correctBondDim 2 (fun _ => 2) (dimsOf 2 (fun n => if n = 1 then 3 else 1)
          fun n => if n + 1 = 1 then 3 else 1) (n + 1)) (A n)) 2 A0).1 A' hS 0 (by norm_num)
      rw [assignTen_none _ ?_ (by simp)] at h
      · cases h
      · rw [correctBondDim_eq (by simp) _ _ (by norm_num)]
        simp [dimsOf]

/-- The hypotheses of `C26_mps_from_tensors_partial` hold for two sites of dimension 2 and a bond
of dimension 2. -/
example : (∀ n ≤ 2, correctBondDim 2 (fun _ => 2) (fun n => if n = 1 then 2 else 1) n
      = (fun n => if n = 1 then 2 else 1 : ℕ → ℕ) n) ∧
    ∀ n < 2, (fun n => if n = 1 then 2 else 1 : ℕ → ℕ) (n + 1)
        ≤ 2 * (fun n => if n = 1 then 2 else 1 : ℕ → ℕ) n ∧
      (fun n => if n = 1 then 2 else 1 : ℕ → ℕ) n
        ≤ 2 * (fun n => if n = 1 then 2 else 1 : ℕ → ℕ) (n + 1) := by
  constructor
  · intro n hn
    rw [correctBondDim_eq (by simp) _ _ hn]
    interval_cases n <;> simp
  · intro n hn
    interval_cases n <;> simp

end

end EvoMPS
