import Verif.Diss
import Verif.StepLemmas
import Verif.EnergyLemmas

/-!
# Lemmas on the stochastic steps
-/

set_option linter.unusedSectionVars false

namespace EvoMPS

open Matrix

variable {q D : ℕ → ℕ} {N : ℕ}

/-! ### Products of local operators -/

/-- A configuration with the entries of two neighbouring sites replaced. -/
def setTwo (k : ℕ) (hk : k + 1 < N) (s : Cfg q N) (x : Fin (q k) × Fin (q (k + 1))) : Cfg q N :=
  Function.update (Function.update s ⟨k, by omega⟩ x.1) ⟨k + 1, hk⟩ x.2

theorem setTwo_fst (k : ℕ) (hk : k + 1 < N) (s : Cfg q N) (x : Fin (q k) × Fin (q (k + 1))) :
    setTwo k hk s x ⟨k, by omega⟩ = x.1 := by
  rw [setTwo, Function.update_of_ne (by simp), Function.update_self]

theorem setTwo_snd (k : ℕ) (hk : k + 1 < N) (s : Cfg q N) (x : Fin (q k) × Fin (q (k + 1))) :
    setTwo k hk s x ⟨k + 1, hk⟩ = x.2 := by
  rw [setTwo, Function.update_self]

theorem setTwo_ne (k : ℕ) (hk : k + 1 < N) (s : Cfg q N) (x : Fin (q k) × Fin (q (k + 1))) (i : Fin N)
    (h1 : i.val ≠ k) (h2 : i.val ≠ k + 1) : setTwo k hk s x i = s i := by
  rw [setTwo, Function.update_of_ne (by rw [Ne, Fin.ext_iff]; exact h2),
    Function.update_of_ne (by rw [Ne, Fin.ext_iff]; exact h1)]

theorem setTwo_eta (k : ℕ) (hk : k + 1 < N) (s u : Cfg q N)
    (h : ∀ i : Fin N, i.val ≠ k → i.val ≠ k + 1 → u i = s i) :
    setTwo k hk s (u ⟨k, by omega⟩, u ⟨k + 1, hk⟩) = u := by
  funext i
  by_cases h1 : i.val = k
  · have hkN : k < N := by omega
    obtain rfl : i = ⟨k, hkN⟩ := Fin.ext h1
    rw [setTwo_fst]
  · by_cases h2 : i.val = k + 1
    · obtain rfl : i = ⟨k + 1, hk⟩ := Fin.ext h2
      rw [setTwo_snd]
    · rw [setTwo_ne k hk s _ i h1 h2, h i h1 h2]

theorem siteOp2_adjMul (k : ℕ) (hk : k + 1 < N)
    (op : Fin (q k) → Fin (q (k + 1)) → Fin (q k) → Fin (q (k + 1)) → ℂ) :
    adjMul (siteOp2 k hk op) = siteOp2 k hk (opSq2 op) := by
  funext s t
  rw [adjMul]
  have hinj : Function.Injective (setTwo k hk s) := by
    intro x y hxy
    have h1 := congrFun hxy ⟨k, by omega⟩
    have h2 := congrFun hxy ⟨k + 1, hk⟩
    rw [setTwo_fst, setTwo_fst] at h1
    rw [setTwo_snd, setTwo_snd] at h2
    exact Prod.ext h1 h2
  have key := Fintype.sum_of_injective (setTwo k hk s) hinj
    (fun x => star (siteOp2 k hk op (setTwo k hk s x) s) * siteOp2 k hk op (setTwo k hk s x) t)
    (fun u => star (siteOp2 k hk op u s) * siteOp2 k hk op u t) ?_ fun _ => rfl
  · rw [← key, siteOp2]
    by_cases hst : ∀ i : Fin N, i.val ≠ k → i.val ≠ k + 1 → s i = t i
    · rw [if_pos hst, opSq2, forSum_eq, Fintype.sum_prod_type]
      refine Finset.sum_congr rfl fun x _ => ?_
      rw [forSum_eq]
      refine Finset.sum_congr rfl fun y _ => ?_
      rw [siteOp2, if_pos fun i h1 h2 => setTwo_ne k hk s _ i h1 h2, siteOp2,
        if_pos fun i h1 h2 => (setTwo_ne k hk s _ i h1 h2).trans (hst i h1 h2), setTwo_fst, setTwo_snd]
    · rw [if_neg hst]
      refine Finset.sum_eq_zero fun x _ => ?_
      rw [siteOp2, siteOp2, if_neg (c := ∀ i : Fin N, i.val ≠ k → i.val ≠ k + 1 → setTwo k hk s x i = t i), mul_zero]
      intro h
      exact hst fun i h1 h2 => (setTwo_ne k hk s x i h1 h2).symm.trans (h i h1 h2)
  · intro u hu
    rw [siteOp2, if_neg, star_zero, zero_mul]
    intro h
    exact hu ⟨_, setTwo_eta k hk s u h⟩

/-- A configuration with the entries of three neighbouring sites replaced. -/
def setThree (k : ℕ) (hk : k + 2 < N) (s : Cfg q N) (x : Fin (q k) × Fin (q (k + 1)) × Fin (q (k + 2))) : Cfg q N :=
  Function.update (setTwo k (by omega) s (x.1, x.2.1)) ⟨k + 2, hk⟩ x.2.2

section
variable (k : ℕ) (hk : k + 2 < N) (s : Cfg q N) (x : Fin (q k) × Fin (q (k + 1)) × Fin (q (k + 2)))

theorem setThree_1 : setThree k hk s x ⟨k, by omega⟩ = x.1 := by
  rw [setThree, Function.update_of_ne (by simp), setTwo_fst]

theorem setThree_2 : setThree k hk s x ⟨k + 1, by omega⟩ = x.2.1 := by
  rw [setThree, Function.update_of_ne (by simp), setTwo_snd]

theorem setThree_3 : setThree k hk s x ⟨k + 2, hk⟩ = x.2.2 := by
  rw [setThree, Function.update_self]

theorem setThree_ne (i : Fin N) (h1 : i.val ≠ k) (h2 : i.val ≠ k + 1) (h3 : i.val ≠ k + 2) :
    setThree k hk s x i = s i := by
  rw [setThree, Function.update_of_ne (by rw [Ne, Fin.ext_iff]; exact h3), setTwo_ne _ _ _ _ i h1 h2]

end

theorem setThree_eta (k : ℕ) (hk : k + 2 < N) (s u : Cfg q N)
    (h : ∀ i : Fin N, i.val ≠ k → i.val ≠ k + 1 → i.val ≠ k + 2 → u i = s i) :
    setThree k hk s (u ⟨k, by omega⟩, u ⟨k + 1, by omega⟩, u ⟨k + 2, hk⟩) = u := by
  funext i
  by_cases h1 : i.val = k
  · have hkN : k < N := by omega
    obtain rfl : i = ⟨k, hkN⟩ := Fin.ext h1
    rw [setThree_1]
  · by_cases h2 : i.val = k + 1
    · have hkN : k + 1 < N := by omega
      obtain rfl : i = ⟨k + 1, hkN⟩ := Fin.ext h2
      rw [setThree_2]
    · by_cases h3 : i.val = k + 2
      · obtain rfl : i = ⟨k + 2, hk⟩ := Fin.ext h3
        rw [setThree_3]
      · rw [setThree_ne k hk s _ i h1 h2 h3, h i h1 h2 h3]

theorem siteOp3_adjMul (k : ℕ) (hk : k + 2 < N)
    (op : Fin (q k) → Fin (q (k + 1)) → Fin (q (k + 2)) → Fin (q k) → Fin (q (k + 1)) → Fin (q (k + 2)) → ℂ) :
    adjMul (siteOp3 k hk op) = siteOp3 k hk (opSq3 op) := by
  funext s t
  rw [adjMul]
  have hinj : Function.Injective (setThree k hk s) := by
    intro x y hxy
    have h1 := congrFun hxy ⟨k, by omega⟩
    have h2 := congrFun hxy ⟨k + 1, by omega⟩
    have h3 := congrFun hxy ⟨k + 2, hk⟩
    rw [setThree_1, setThree_1] at h1
    rw [setThree_2, setThree_2] at h2
    rw [setThree_3, setThree_3] at h3
    exact Prod.ext h1 (Prod.ext h2 h3)
  have key := Fintype.sum_of_injective (setThree k hk s) hinj
    (fun x => star (siteOp3 k hk op (setThree k hk s x) s) * siteOp3 k hk op (setThree k hk s x) t)
    (fun u => star (siteOp3 k hk op u s) * siteOp3 k hk op u t) ?_ fun _ => rfl
  · rw [← key, siteOp3]
    by_cases hst : ∀ i : Fin N, i.val ≠ k → i.val ≠ k + 1 → i.val ≠ k + 2 → s i = t i
    · rw [if_pos hst, opSq3, forSum_eq, Fintype.sum_prod_type]
      refine Finset.sum_congr rfl fun x _ => ?_
      rw [forSum_eq, Fintype.sum_prod_type]
      refine Finset.sum_congr rfl fun y _ => ?_
      rw [forSum_eq]
      refine Finset.sum_congr rfl fun z _ => ?_
      rw [siteOp3, if_pos fun i h1 h2 h3 => setThree_ne k hk s _ i h1 h2 h3, siteOp3,
        if_pos fun i h1 h2 h3 => (setThree_ne k hk s _ i h1 h2 h3).trans (hst i h1 h2 h3), setThree_1, setThree_2,
        setThree_3]
    · rw [if_neg hst]
      refine Finset.sum_eq_zero fun x _ => ?_
      rw [siteOp3, siteOp3, if_neg (c := ∀ i : Fin N, i.val ≠ k → i.val ≠ k + 1 → i.val ≠ k + 2 →
        setThree k hk s x i = t i), mul_zero]
      intro h
      exact hst fun i h1 h2 h3 => (setThree_ne k hk s x i h1 h2 h3).symm.trans (h i h1 h2 h3)
  · intro u hu
    rw [siteOp3, if_neg, star_zero, zero_mul]
    intro h
    exact hu ⟨_, setThree_eta k hk s u h⟩

/-! ### The effective Hamiltonian -/

/-- `-L†L/2 + (m* + w) L`. -/
noncomputable def effTerm (m w : ℂ) (L : Cfg q N → Cfg q N → ℂ) (s t : Cfg q N) : ℂ :=
  -(1 / 2) * adjMul L s t + (star m + w) * L s t

theorem siteOp2_lin (k : ℕ) (hk : k + 1 < N) (o1 o2 : Fin (q k) → Fin (q (k + 1)) → Fin (q k) → Fin (q (k + 1)) → ℂ)
    (a b : ℂ) (s t : Cfg q N) : siteOp2 k hk (fun s t u v => a * o1 s t u v + b * o2 s t u v) s t
      = a * siteOp2 k hk o1 s t + b * siteOp2 k hk o2 s t := by
  simp only [siteOp2]
  split <;> simp

theorem siteOp3_lin (k : ℕ) (hk : k + 2 < N)
    (o1 o2 : Fin (q k) → Fin (q (k + 1)) → Fin (q (k + 2)) → Fin (q k) → Fin (q (k + 1)) → Fin (q (k + 2)) → ℂ)
    (a b : ℂ) (s t : Cfg q N) :
    siteOp3 k hk (fun s t u s' t' u' => a * o1 s t u s' t' u' + b * o2 s t u s' t' u') s t
      = a * siteOp3 k hk o1 s t + b * siteOp3 k hk o2 s t := by
  simp only [siteOp3]
  split <;> simp

theorem leff2_chain (k : ℕ) (hk : k + 1 < N) (op : Fin (q k) → Fin (q (k + 1)) → Fin (q k) → Fin (q (k + 1)) → ℂ)
    (m W : ℂ) (dt : ℝ) (s t : Cfg q N) :
    siteOp2 k hk (leff2 op m W dt) s t = effTerm m (W / dt) (siteOp2 k hk op) s t := by
  rw [effTerm, siteOp2_adjMul, ← siteOp2_lin]
  rfl

theorem leff3_chain (k : ℕ) (hk : k + 2 < N)
    (op : Fin (q k) → Fin (q (k + 1)) → Fin (q (k + 2)) → Fin (q k) → Fin (q (k + 1)) → Fin (q (k + 2)) → ℂ)
    (m W : ℂ) (dt : ℝ) (s t : Cfg q N) :
    siteOp3 k hk (leff3 op m W dt) s t = effTerm m (W / dt) (siteOp3 k hk op) s t := by
  rw [effTerm, siteOp3_adjMul, ← siteOp3_lin]
  rfl

theorem total_update_of {h h' : Ham ℂ q} {k : ℕ} (hk : k < N) {x : Cfg q N → Cfg q N → ℂ}
    (hk' : ∀ s t, h'.term (N := N) k s t = h.term k s t + x s t)
    (hne : ∀ j, j ≠ k → h'.term (N := N) j = h.term j) (s t : Cfg q N) :
    h'.total s t = h.total s t + x s t := by
  rw [Ham.total, Ham.total, ← Finset.add_sum_erase _ _ (Finset.mem_range.mpr hk),
    ← Finset.add_sum_erase _ (fun k => h.term k s t) (Finset.mem_range.mpr hk), hk',
    Finset.sum_congr rfl fun j hj => by rw [hne j (Finset.ne_of_mem_erase hj)]]
  ring

/-- What `addJump` uses as the mean value. -/
def meanOf (N : ℕ) (X : Diss q D) : Jump q → Option ℂ
  | .two k op => X.expect2 N k op
  | .three k op => X.expect3 N k op

theorem addJump_total {X : Diss q D} {dt : ℝ} {HL HL' : Ham ℂ q} {j : Jump q × ℂ}
    (h : addJump N X dt HL j = some HL') : HL'.sites = HL.sites ∧ ∃ m, meanOf N X j.1 = some m ∧
      ∀ s t : Cfg q N, HL'.total s t = HL.total s t + effTerm m (j.2 / dt) j.1.onChain s t := by
  obtain ⟨j, W⟩ := j
  cases HL with
  | two h1 => cases j with
    | two k op =>
      obtain ⟨m, hm, rfl⟩ := Option.map_eq_some_iff.mp h
      refine ⟨rfl, m, hm, ?_⟩
      by_cases hk : k + 1 < N
      · rw [Jump.onChain, dif_pos hk]
        refine total_update_of (k := k) (by omega) ?_ ?_
        · intro s t
          simp only [Ham.term, dif_pos hk, Function.update_self, Option.elim_some]
          cases h1 k with
          | none => simp only [Option.elim_none, leff2_chain, zero_add]
          | some o =>
            simp only [Option.elim_some, ← leff2_chain]
            have := siteOp2_lin k hk o (leff2 op m W dt) 1 1 s t
            simpa only [one_mul] using this
        · intro i hi
          simp only [Ham.term, Function.update_of_ne hi]
      · rw [Diss.expect2, expect2s, if_neg hk] at hm
        cases hm
    | three k op => cases h
  | three h1 => cases j with
    | two k op => cases h
    | three k op =>
      obtain ⟨m, hm, rfl⟩ := Option.map_eq_some_iff.mp h
      refine ⟨rfl, m, hm, ?_⟩
      by_cases hk : k + 2 < N
      · rw [Jump.onChain, dif_pos hk]
        refine total_update_of (k := k) (by omega) ?_ ?_
        · intro s t
          simp only [Ham.term, dif_pos hk, Function.update_self, Option.elim_some]
          cases h1 k with
          | none => simp only [Option.elim_none, leff3_chain, zero_add]
          | some o =>
            simp only [Option.elim_some, ← leff3_chain]
            have := siteOp3_lin k hk o (leff3 op m W dt) 1 1 s t
            simpa only [one_mul] using this
        · intro i hi
          simp only [Ham.term, Function.update_of_ne hi]
      · have : ∀ A, expect3s N X.S.toMPS k op A = none := fun A => by rw [expect3s, if_neg hk]
        simp only [Diss.expect3, this, ite_self] at hm
        cases hm

theorem hamStart_total (ham : Ham ℂ q) (s t : Cfg q N) :
    (hamStart ham).total s t = -Complex.I * ham.total s t := by
  rw [Ham.total, Ham.total, Finset.mul_sum]
  refine Finset.sum_congr rfl fun k _ => ?_
  cases ham with
  | two h =>
    simp only [hamStart, Ham.term]
    split
    · cases h k with
      | none => simp
      | some o =>
        simp only [Option.map_some, Option.elim_some, siteOp2]
        split <;> simp
    · simp
  | three h =>
    simp only [hamStart, Ham.term]
    split
    · cases h k with
      | none => simp
      | some o =>
        simp only [Option.map_some, Option.elim_some, siteOp3]
        split <;> simp
    · simp

theorem hamStart_sites (ham : Ham ℂ q) : (hamStart ham).sites = ham.sites := by
  cases ham <;> rfl

/-- The effective Hamiltonian in terms of the mean values used. -/
theorem dissHam_total {ham HL : Ham ℂ q} {X : Diss q D} {jumps : List (Jump q × ℂ)} {dt : ℝ}
    (h : dissHam N ham X jumps dt = some HL) : 0 < dt ∧ HL.sites = ham.sites ∧
      (∀ j ∈ jumps, ∃ m, meanOf N X j.1 = some m) ∧
      ∀ s t : Cfg q N, HL.total s t = -Complex.I * ham.total s t
        + (jumps.map fun j => effTerm ((meanOf N X j.1).getD 0) (j.2 / dt) j.1.onChain s t).sum := by
  rw [dissHam] at h
  split at h
  · next hdt =>
    have key : ∀ (L : List (Jump q × ℂ)) (H0 : Ham ℂ q),
        L.foldl (fun (HL : Option (Ham ℂ q)) j => HL.bind fun HL => addJump N X dt HL j) (some H0) = some HL →
        HL.sites = H0.sites ∧ (∀ j ∈ L, ∃ m, meanOf N X j.1 = some m) ∧ ∀ s t : Cfg q N, HL.total s t = H0.total s t
          + (L.map fun j => effTerm ((meanOf N X j.1).getD 0) (j.2 / dt) j.1.onChain s t).sum := by
      intro L
      induction L with
      | nil =>
        intro H0 h
        cases h
        exact ⟨rfl, by simp, by simp⟩
      | cons j L ih =>
        intro H0 h
        rw [List.foldl_cons, Option.bind_some] at h
        cases h1 : addJump N X dt H0 j with
        | none =>
          rw [h1, foldl_bind_none'] at h
          cases h
        | some H1 =>
          rw [h1] at h
          obtain ⟨a1, m, a2, a3⟩ := addJump_total h1
          obtain ⟨b1, b2, b3⟩ := ih H1 h
          refine ⟨b1.trans a1, ?_, ?_⟩
          · intro i hi
            rcases List.mem_cons.mp hi with rfl | hi
            · exact ⟨m, a2⟩
            · exact b2 i hi
          · intro s t
            rw [b3, a3, List.map_cons, List.sum_cons, a2, Option.getD_some, add_assoc]
    obtain ⟨a, b, c⟩ := key jumps _ h
    refine ⟨hdt, a.trans (hamStart_sites ham), b, fun s t => ?_⟩
    rw [c, hamStart_total]
  · cases h

end EvoMPS
