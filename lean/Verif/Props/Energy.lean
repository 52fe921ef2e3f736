import Verif.EnergyLemmas
import Verif.Props.Example

/-!
# Properties C27, C28: energies from the `K` matrices
-/

set_option linter.unusedSectionVars false

namespace EvoMPS

open Matrix

variable {R : Type*} [CommRing R] [StarRing R] {q D : ℕ → ℕ} {N : ℕ}

/-! ## C27 -/

/-- C27.  After `calc_C()` and `calc_K()` on an up-to-date state, `H_expect` is the
expectation value of the Hamiltonian, `h_expect` holds the expectation values of the terms
and `adot(l[n-1], K[n])` is the energy of the terms that start at site `n` or later.
Missing terms are allowed. -/
theorem C27_energy (ham : Ham R q) (S : TDVP R q D) (h : UpToDate N S.A S.l S.r)
    (h0 : D 0 = 1) (hN : D N = 1) (hpos : 0 < N) :
    let S' := calcKs N ham h0 (calcCs N ham S)
    let ψ := psi (N := N) S.A h0 hN
    S'.H = some (matElem ψ ham.total ψ) ∧
    (∀ k, k + ham.sites ≤ N → S'.h k = matElem ψ (ham.term k) ψ) ∧
    (∀ k < N, adot (S.l k) (S'.K k) = ∑ j ∈ Finset.Ico k N, matElem ψ (ham.term j) ψ) ∧
    S'.toMPS = S.toMPS := by
  obtain ⟨hM, hC⟩ := calcCs_spec (N := N) ham S
  rw [← hM] at h
  obtain ⟨k1, k2, k3, k4⟩ := calcKs_spec (N := N) ham h0 (calcCs N ham S)
  have htail := energy_tail ham _ _ hC h h0 hN k2
  have e : psi (N := N) (calcCs N ham S).A h0 hN = psi S.A h0 hN := by rw [hM]
  rw [e] at htail
  refine ⟨?_, fun k hk => ?_, fun k hk => ?_, k1.trans hM⟩
  · rw [k4, matElem_total, ← adot_one_entry h0 _ ((calcKs N ham h0 (calcCs N ham S)).K 0) h.l_zero, htail 0 hpos,
      Finset.range_eq_Ico]
  · rw [k3 k hk, term_value ham _ hC h h0 hN k hk, e]
  · rw [← htail k hk, hM]

/-- A three-site chain with two different terms, one of them missing. -/
example (op : ∀ k, Fin (Ex.q k) → Fin (Ex.q (k + 1)) → Fin (Ex.q k) → Fin (Ex.q (k + 1)) →
    GaussianInt) (S : TDVP GaussianInt Ex.q Ex.D) (hS : S.toMPS = Ex.S) :=
  C27_energy (N := 3) (.two fun k => if k = 1 then some (op k) else none) S
    (by rw [hS]; exact Ex.upToDate) rfl rfl (by omega)

/-! ## C28 -/

/-- C28, two-site terms.  If no term is missing and `N ≥ 2`, `calc_K_l()` gives the same
`H_expect` and `h_expect` as `calc_K()`, and the trace of `K_left[n] r[n]` is the energy of
the terms that end at site `n` or earlier. -/
theorem C28_energy_left_two_site (hm : ∀ k, Option (Fin (q k) → Fin (q (k + 1)) → Fin (q k) →
    Fin (q (k + 1)) → R)) (S : TDVP R q D) (h : UpToDate N S.A S.l S.r)
    (h0 : D 0 = 1) (hN : D N = 1) (hN2 : 2 ≤ N) (hall : ∀ k, k + 1 < N → hm k ≠ none) :
    ∃ S', calcKls N (.two hm) hN (calcCs N (.two hm) S) = some S' ∧
      let ψ := psi (N := N) S.A h0 hN
      S'.H = some (matElem ψ (Ham.two hm).total ψ) ∧
      (∀ k, k + 2 ≤ N → S'.h k = matElem ψ ((Ham.two hm).term k) ψ) ∧
      (∀ n, 1 ≤ n → n ≤ N → (S'.Kl n * S.r n).trace
        = ∑ k ∈ Finset.range (n - 1), matElem ψ ((Ham.two hm).term k) ψ) ∧
      S'.toMPS = S.toMPS := by
  obtain ⟨hM, hC⟩ := calcCs_spec (N := N) (.two hm) S
  rw [← hM] at h ⊢
  generalize calcCs N (.two hm) S = S1 at *
  have hex : ∀ k, ∃ C, k + 1 < N → S1.C2 k = some C := by
    intro k
    by_cases hk : k + 1 < N
    · obtain ⟨op, hop⟩ := Option.ne_none_iff_exists'.mp (hall k hk)
      exact ⟨_, fun _ => by rw [hC.C2 hm rfl k hk, hop, Option.map_some]⟩
    · exact ⟨0, fun h => absurd h hk⟩
  choose C hCs using hex
  obtain ⟨S', h1, h2, h3, h4, h5, h6⟩ := calcKls_two hm hN hN2 S1 C hCs
  have hv := energy_left_two hm S1 hC h h0 hN C hCs
  have hsum : ∀ n, 1 ≤ n → n ≤ N → adotNoconj (S'.Kl n) (S1.r n)
        = ∑ k ∈ Finset.range (n - 1), matElem (psi S1.A h0 hN) ((Ham.two hm).term (N := N) k)
          (psi S1.A h0 hN) := by
    intro n hn1 hnN
    obtain ⟨m, rfl⟩ : ∃ m, n = m + 1 := ⟨n - 1, by omega⟩
    rw [energy_left_sum 1 h S'.Kl (hl2 S1 C) h3 h4 m hnN]
    refine Finset.sum_congr rfl fun j hj => hv j ?_
    rw [Finset.mem_range] at hj; omega
  refine ⟨S', h1, ?_, fun k hk => ?_, fun n hn1 hnN => ?_, h2⟩
  · rw [h6, ← adotNoconj_one_entry hN (S'.Kl N) _ h.r_last, hsum N (by omega) le_rfl, matElem_total,
      ← sum_terms]
    rfl
  · rw [h5 k hk, hv k hk]
  · rw [← adotNoconj_eq_trace, hsum n hn1 hnN]

/-- C28, three-site terms: what the code does.  The energies are right, but the expectation
value of the term starting at site `k` is stored one place too far, and the first entry is
never written.  The statement asks for `h_expect[n] = ⟨h_n⟩`. -/
theorem C28_energy_left_three_site_partial (hm : ∀ k, Option (Fin (q k) → Fin (q (k + 1)) →
    Fin (q (k + 2)) → Fin (q k) → Fin (q (k + 1)) → Fin (q (k + 2)) → R)) (S : TDVP R q D)
    (h : UpToDate N S.A S.l S.r) (h0 : D 0 = 1) (hN : D N = 1) (hN2 : 2 ≤ N)
    (hall : ∀ k, k + 2 < N → hm k ≠ none) :
    ∃ S', calcKls N (.three hm) hN (calcCs N (.three hm) S) = some S' ∧
      let ψ := psi (N := N) S.A h0 hN
      S'.H = some (matElem ψ (Ham.three hm).total ψ) ∧
      (∀ k, k + 3 ≤ N → S'.h (k + 1) = matElem ψ ((Ham.three hm).term k) ψ) ∧
      S'.h 0 = (calcCs N (.three hm) S).h 0 ∧
      (∀ n, 1 ≤ n → n ≤ N → (S'.Kl n * S.r n).trace
        = ∑ k ∈ Finset.range (n - 2), matElem ψ ((Ham.three hm).term k) ψ) ∧
      S'.toMPS = S.toMPS := by
  obtain ⟨hM, hC⟩ := calcCs_spec (N := N) (.three hm) S
  rw [← hM] at h ⊢
  generalize calcCs N (.three hm) S = S1 at *
  have hex : ∀ k, ∃ C, k + 2 < N → S1.C3 k = some C := by
    intro k
    by_cases hk : k + 2 < N
    · obtain ⟨op, hop⟩ := Option.ne_none_iff_exists'.mp (hall k hk)
      exact ⟨_, fun _ => by rw [hC.C3 hm rfl k hk, hop, Option.map_some]⟩
    · exact ⟨0, fun h => absurd h hk⟩
  choose C hCs using hex
  obtain ⟨S', h1, h2, h31, h32, h4, h5, h50, h6⟩ := calcKls_three hm hN hN2 S1 C hCs
  have hv := energy_left_three hm S1 hC h h0 hN C hCs
  have hsum : ∀ n, 1 ≤ n → n ≤ N → adotNoconj (S'.Kl n) (S1.r n)
        = ∑ k ∈ Finset.range (n - 2), matElem (psi S1.A h0 hN) ((Ham.three hm).term (N := N) k)
          (psi S1.A h0 hN) := by
    intro n hn1 hnN
    rcases Nat.lt_or_ge n 2 with hlt | hge
    · obtain rfl : n = 1 := by omega
      rw [h31, adotNoconj_zero]
      rfl
    · obtain ⟨m, rfl⟩ : ∃ m, n = m + 2 := ⟨n - 2, by omega⟩
      rw [energy_left_sum 2 h S'.Kl (hl3 S1 C) h32 h4 m hnN]
      refine Finset.sum_congr rfl fun j hj => hv j ?_
      rw [Finset.mem_range] at hj; omega
  refine ⟨S', h1, ?_, fun k hk => ?_, h50, fun n hn1 hnN => ?_, h2⟩
  · rw [h6, ← adotNoconj_one_entry hN (S'.Kl N) _ h.r_last, hsum N (by omega) le_rfl, matElem_total,
      ← sum_terms]
    rfl
  · rw [h5 k hk, hv k hk]
  · rw [← adotNoconj_eq_trace, hsum n hn1 hnN]

/-- C28 is false for three-site terms: three spins in the state `|000⟩`, the term
`h_1 = 1`, a fresh `h_expect` array: `h_expect[1]` is not `⟨h_1⟩`. -/
theorem C28_energy_left_violated :
    ∃ (q D : ℕ → ℕ) (h0 : D 0 = 1) (hN : D 3 = 1)
      (hm : ∀ k, Option (Fin (q k) → Fin (q (k + 1)) → Fin (q (k + 2)) →
        Fin (q k) → Fin (q (k + 1)) → Fin (q (k + 2)) → GaussianInt))
      (S S' : TDVP GaussianInt q D), UpToDate 3 S.A S.l S.r ∧ (∀ k, hm k ≠ none) ∧
      calcKls 3 (.three hm) hN (calcCs 3 (.three hm) S) = some S' ∧
      S'.h 0 ≠ matElem (psi (N := 3) S.A h0 hN) ((Ham.three hm).term 0) (psi S.A h0 hN) := by
  let q : ℕ → ℕ := fun _ => 1
  let D : ℕ → ℕ := fun _ => 1
  let hm : ∀ k, Option (Fin (q k) → Fin (q (k + 1)) → Fin (q (k + 2)) →
        Fin (q k) → Fin (q (k + 1)) → Fin (q (k + 2)) → GaussianInt) :=
    fun _ => some fun _ _ _ _ _ _ => 1
  let S : TDVP GaussianInt q D := ⟨⟨fun _ _ => 1, fun _ => 1, fun _ => 1⟩, fun _ _ _ => 0,
    fun _ _ _ _ => 0, fun _ => none, fun _ => none, fun _ => 0, fun _ => 0, fun _ => 0, none⟩
  have hS : UpToDate 3 S.A S.l S.r := by
    refine ⟨rfl, fun n _ => ?_, rfl, fun n _ => ?_⟩ <;> simp [S, q]
  obtain ⟨S', h1, -, -, h3, -, -⟩ := C28_energy_left_three_site_partial (N := 3) hm S hS rfl rfl
    (by omega) (by simp [hm])
  refine ⟨q, D, rfl, rfl, hm, S, S', hS, by simp [hm], h1, ?_⟩
  rw [h3]
  decide

/-- C28: a missing term makes `calc_K_l` raise although `calc_K` accepts it. -/
theorem C28_missing_term_raises (hm : ∀ k, Option (Fin (q k) → Fin (q (k + 1)) → Fin (q k) →
    Fin (q (k + 1)) → R)) (S : TDVP R q D) (hN : D N = 1) (k : ℕ) (hk : k + 1 < N)
    (hnone : hm k = none) : calcKls N (.two hm) hN (calcCs N (.two hm) S) = none := by
  obtain ⟨hM, hC⟩ := calcCs_spec (N := N) (.two hm) S
  have hCk : (calcCs N (.two hm) S).C2 k = none := by
    rw [hC.C2 hm rfl k hk, hnone, Option.map_none]
  rw [calcKls]
  split
  · rfl
  · rw [Option.map_eq_none_iff]
    refine foldl_bind_none _ _ _ (fun S => S.C2 k = none) hCk (fun S i _ hS => ?_) k ?_
      (fun S hS => ?_)
    · simp only [calcKlIter]
      cases hc : S.C2 i with
      | none => trivial
      | some C => exact hS
    · simp only [List.mem_range'_1, Ham.sites]; omega
    · simp only [calcKlIter, hS, Option.map_none]

/-- C28: a chain of one site makes `calc_K_l` raise. -/
theorem C28_one_site_raises (ham : Ham R q) (S : TDVP R q D) (hN : D 1 = 1) :
    calcKls 1 ham hN S = none := by
  rw [calcKls, if_pos (by omega)]

example (op : ∀ k, Fin (Ex.q k) → Fin (Ex.q (k + 1)) → Fin (Ex.q k) → Fin (Ex.q (k + 1)) →
    GaussianInt) (S : TDVP GaussianInt Ex.q Ex.D) (hS : S.toMPS = Ex.S) :=
  C28_energy_left_two_site (N := 3) (fun k => some (op k)) S
    (by rw [hS]; exact Ex.upToDate) rfl rfl (by omega) (by simp)

end EvoMPS
