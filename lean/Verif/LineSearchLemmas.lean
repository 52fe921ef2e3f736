import Verif.LineSearch
import Verif.LineSearchSpec
import Verif.EnergyLemmas
import Verif.RenormLemmas
import Verif.Props.Renorm
import Verif.Props.Energy

/-!
# The line search (helper lemmas)
-/

set_option linter.unusedSectionVars false

namespace EvoMPS

namespace LineSearch

open Matrix

variable {q D : ℕ → ℕ}

theorem trialTensors_spec (N : ℕ) (A0 : Tensors ℂ q D) (B : BList q D) (tau : ℝ) (A : Tensors ℂ q D)
    (k : ℕ) : trialTensors N A0 B tau A k
      = if k < N then (B k).elim (A k) fun b => A0 k - (tau : ℂ) • b else A k := by
  have key : ∀ (L : List ℕ) (A : Tensors ℂ q D), L.foldl (fun A k =>
      (B k).elim A fun b => Function.update A k (A0 k - (tau : ℂ) • b)) A k
      = if k ∈ L then (B k).elim (A k) fun b => A0 k - (tau : ℂ) • b else A k := by
    intro L
    induction L with
    | nil => intro A; simp
    | cons j L ih =>
      intro A
      rw [List.foldl_cons, ih]
      by_cases hj : k = j
      · subst hj
        cases h : B k <;> simp
      · have e : ((B j).elim A fun b => Function.update A j (A0 j - (tau : ℂ) • b)) k = A k := by
          cases B j with
          | none => rfl
          | some b => exact Function.update_of_ne hj _ _
        rw [e]
        simp [hj]
  rw [trialTensors, key]
  simp only [List.mem_range'_1, Nat.zero_le, true_and, Nat.zero_add]

/-- `psi` depends on the tensors of the chain only. -/
theorem psi_congr {N : ℕ} {A B : Tensors ℂ q D} (h : ∀ n < N, A n = B n) (h0 : D 0 = 1) (hN : D N = 1) :
    psi (N := N) A h0 hN = psi B h0 hN := by
  funext s
  rw [psi, psi, amp_congr h]

theorem matElem_scaled {N : ℕ} {ψ φ : Cfg q N → ℂ} {g : ℂ} (h : ∀ s, φ s = g * ψ s)
    (O : Cfg q N → Cfg q N → ℂ) : matElem φ O φ = (star g * g) * matElem ψ O ψ := by
  simp only [matElem, Finset.mul_sum]
  refine Finset.sum_congr rfl fun s _ => Finset.sum_congr rfl fun t _ => ?_
  rw [h s, h t, star_mul']
  ring

theorem star_mul_self_re (g : ℂ) : star g * g = ((Complex.normSq g : ℝ) : ℂ) :=
  Complex.normSq_eq_conj_mul_self.symm

theorem ratio_scaled {N : ℕ} {ψ φ : Cfg q N → ℂ} {g : ℂ} (h : ∀ s, φ s = g * ψ s)
    (h1 : braket φ φ = 1) (O : Cfg q N → Cfg q N → ℂ) :
    (matElem φ O φ).re = (matElem ψ O ψ).re / (braket ψ ψ).re := by
  have e1 := matElem_scaled h O
  have e2 : braket φ φ = (star g * g) * braket ψ ψ := by
    rw [show φ = fun s => g * ψ s from funext h]; exact braket_smul g ψ
  rw [star_mul_self_re] at e1 e2
  rw [h1] at e2
  have e3 : (1 : ℝ) = Complex.normSq g * (braket ψ ψ).re := by
    have := congrArg Complex.re e2
    rwa [Complex.re_ofReal_mul, Complex.one_re] at this
  have hne : (braket ψ ψ).re ≠ 0 := by
    intro h; rw [h, mul_zero] at e3; exact one_ne_zero e3
  rw [e1, Complex.re_ofReal_mul, eq_div_iff hne]
  calc _ = (Complex.normSq g * (braket ψ ψ).re) * (matElem ψ O ψ).re := by ring
    _ = _ := by rw [← e3, one_mul]

theorem complete_expect {N : ℕ} (ham : Ham ℂ q) (hc : ham.Complete N) (S : TDVP ℂ q D)
    (hC : CurrentC N ham S) (k : ℕ) (hk : k + ham.sites ≤ N) :
    expectTerm ham S k = some (adot (S.l k) (hrOf ham S k)) := by
  cases ham with
  | two h =>
    obtain ⟨op, hop⟩ := Option.ne_none_iff_exists'.mp (hc k (by simp only [Ham.sites] at hk; omega))
    have e := hC.C2 h rfl k (by simp only [Ham.sites] at hk; omega)
    rw [hop, Option.map_some] at e
    simp only [expectTerm, hrOf, hop, e, Option.bind_some, Option.map_some, Option.elim_some]
  | three h =>
    obtain ⟨op, hop⟩ := Option.ne_none_iff_exists'.mp (hc k (by simp only [Ham.sites] at hk; omega))
    have e := hC.C3 h rfl k (by simp only [Ham.sites] at hk; omega)
    rw [hop, Option.map_some] at e
    simp only [expectTerm, hrOf, hop, e, Option.bind_some, Option.map_some, Option.elim_some]

theorem fold_sum (L : List ℕ) (e : ℕ → Option ℂ) (v : ℕ → ℂ) (h : ∀ k ∈ L, e k = some (v k)) (x : ℝ) :
    L.foldl (fun (x : Option ℝ) k => x.bind fun x => (e k).map fun z => x + z.re) (some x)
      = some (x + (L.map fun k => (v k).re).sum) := by
  induction L generalizing x with
  | nil => simp
  | cons k L ih =>
    rw [List.foldl_cons, Option.bind_some, h k List.mem_cons_self, Option.map_some,
      ih (fun j hj => h j (List.mem_cons_of_mem _ hj)), List.map_cons, List.sum_cons, add_assoc]

theorem fold_none (L : List ℕ) (e : ℕ → Option ℂ) :
    L.foldl (fun (x : Option ℝ) k => x.bind fun x => (e k).map fun z => x + z.re) none = none := by
  induction L with
  | nil => rfl
  | cons k L ih => rw [List.foldl_cons]; exact ih

theorem fold_missing (L : List ℕ) (e : ℕ → Option ℂ) (k : ℕ) (hk : k ∈ L) (h : e k = none) (x : Option ℝ) :
    L.foldl (fun (x : Option ℝ) k => x.bind fun x => (e k).map fun z => x + z.re) x = none := by
  induction L generalizing x with
  | nil => exact absurd hk List.not_mem_nil
  | cons j L ih =>
    rw [List.foldl_cons]
    rcases List.mem_cons.1 hk with rfl | hk
    · rw [h]; cases x <;> exact fold_none L e
    · exact ih hk _

theorem sumTerms_value {N : ℕ} (ham : Ham ℂ q) (hc : ham.Complete N) (S : TDVP ℂ q D)
    (hC : CurrentC N ham S) (h : UpToDate N S.A S.l S.r) (h0 : D 0 = 1) (hN : D N = 1) :
    sumTerms N ham S = some (matElem (psi (N := N) S.A h0 hN) ham.total (psi S.A h0 hN)).re := by
  rw [sumTerms, fold_sum _ _ (fun k => matElem (psi (N := N) S.A h0 hN) (ham.term k) (psi S.A h0 hN))
    (fun k hk => ?_), zero_add, matElem_total, ← sum_terms, Complex.re_sum, List.range'_eq_map_range]
  · simp only [Nat.zero_add, List.map_map]
    rfl
  · rw [List.mem_range'_1] at hk
    have hk' : k + ham.sites ≤ N := by
      have : 2 ≤ ham.sites := by cases ham <;> simp [Ham.sites]
      omega
    rw [complete_expect ham hc S hC k hk', term_value ham S hC h h0 hN k hk']

/-- `calc_C` leaves `H_expect` alone. -/
theorem calcCs_H {N : ℕ} (ham : Ham ℂ q) (S : TDVP ℂ q D) : (calcCs N ham S).H = S.H := by
  have hAA : (calcAAs N ham S).H = S.H := by
    have h1 : ((List.range' 0 (N - 1)).foldl (fun (S : TDVP ℂ q D) k =>
        { S with AA := Function.update S.AA k (calcAA (S.A k) (S.A (k + 1))) }) S).H = S.H :=
      List.foldlRecOn (motive := fun X : TDVP ℂ q D => X.H = S.H) _ _ rfl (fun b hb k _ => hb)
    unfold calcAAs
    dsimp only
    split
    · exact List.foldlRecOn (motive := fun X : TDVP ℂ q D => X.H = S.H) _ _ h1 (fun b hb k _ => hb)
    · exact h1
  cases ham with
  | two h => exact List.foldlRecOn (motive := fun X : TDVP ℂ q D => X.H = S.H) _ _ hAA (fun b hb k _ => hb)
  | three h => exact List.foldlRecOn (motive := fun X : TDVP ℂ q D => X.H = S.H) _ _ hAA (fun b hb k _ => hb)

/-! ## One trial -/

variable {M : ℕ}

/-- What the sites without a direction look like at any time of the search. -/
def Kept (N : ℕ) (A0 : Tensors ℂ q D) (B : BList q D) (A : Tensors ℂ q D) : Prop :=
  ∃ c : ℝ, 0 < c ∧ ∀ k < N, B k = none → A k = if k + 1 = N then (c : ℂ) • A0 k else A0 k

theorem trial_psi {h0 : D 0 = 1} {hN : D (M + 1) = 1} {A0 A : Tensors ℂ q D} {B : BList q D}
    (hA : Kept (M + 1) A0 B A) (tau : ℝ) :
    ∃ c : ℝ, 0 < c ∧ ∀ s, psi (N := M + 1) (trialTensors (M + 1) A0 B tau A) h0 hN s
      = (c : ℂ) * psi (moved A0 (tau : ℂ) B) h0 hN s := by
  obtain ⟨c, hc, h⟩ := hA
  have key : ∀ c' : ℝ, (B M = none → c' = c) → (B M ≠ none → c' = 1) →
      psi (N := M + 1) (trialTensors (M + 1) A0 B tau A) h0 hN
        = psi (scaleLast M (c' : ℂ) (moved A0 (tau : ℂ) B)) h0 hN := by
    intro c' h1 h2
    refine psi_congr (fun n hn => ?_) h0 hN
    rw [trialTensors_spec, if_pos hn]
    by_cases hM : n = M
    · subst hM
      rw [scaleLast, Function.update_self]
      cases hB : B n with
      | none => rw [Option.elim_none, h n hn hB, if_pos rfl, h1 hB, moved, hB]; rfl
      | some b =>
        rw [Option.elim_some, h2 (by rw [hB]; simp), moved, hB]
        funext s
        simp
    · rw [scaleLast, Function.update_of_ne hM, moved]
      cases hB : B n with
      | none => rw [Option.elim_none, h n hn hB, if_neg (by omega)]; rfl
      | some b => rfl
  by_cases hB : B M = none
  · exact ⟨c, hc, fun s => by rw [key c (fun _ => rfl) (fun h => absurd hB h), psi_scaleLast]⟩
  · exact ⟨1, one_pos, fun s => by rw [key 1 (fun h => absurd h hB) (fun _ => rfl), psi_scaleLast]⟩

/-- Rescaling the last tensor keeps `Kept`. -/
theorem Kept.scale {A0 A : Tensors ℂ q D} {B : BList q D} (hA : Kept (M + 1) A0 B A) (tau : ℝ) {G : ℝ}
    (hG : 0 < G) : Kept (M + 1) A0 B (scaleLast M (G : ℂ) (trialTensors (M + 1) A0 B tau A)) := by
  obtain ⟨c, hc, h⟩ := hA
  refine ⟨G * c, mul_pos hG hc, fun k hk hB => ?_⟩
  by_cases hM : k = M
  · subst hM
    rw [scaleLast, Function.update_self, trialTensors_spec, if_pos hk, hB, Option.elim_none, h k hk hB,
      if_pos rfl, if_pos rfl]
    funext s
    rw [Pi.smul_apply, Pi.smul_apply, smul_smul, Complex.ofReal_mul]
  · rw [scaleLast, Function.update_of_ne hM, trialTensors_spec, if_pos hk, hB, Option.elim_none, h k hk hB,
      if_neg (by omega), if_neg (by omega)]

section
variable {N : ℕ} (h0 : D 0 = 1) (hN : D N = 1)

/-- The environments' ends and the tensors that the search never sets. -/
structure Good (A0 : Tensors ℂ q D) (B : BList q D) (S : TDVP ℂ q D) : Prop where
  l0 : S.l 0 = 1
  rN : S.r N = 1
  kept : Kept N A0 B S.A

end

/-- A state that is not zero has a positive squared norm. -/
theorem norm_pos {N : ℕ} {ψ φ : Cfg q N → ℂ} {c : ℝ} (hc : 0 < c) (h : ∀ s, φ s = (c : ℂ) * ψ s)
    (hne : braket ψ ψ ≠ 0) : 0 < (braket φ φ).re ∧ braket φ φ ≠ 0 := by
  have e : braket φ φ = ((c : ℂ) * c) * braket ψ ψ := by
    rw [show φ = fun s => (c : ℂ) * ψ s from funext h, braket_smul]
    congr 2
    exact Complex.conj_ofReal c
  have hne' : braket φ φ ≠ 0 := by
    rw [e]
    exact mul_ne_zero (mul_ne_zero (Complex.ofReal_ne_zero.2 hc.ne') (Complex.ofReal_ne_zero.2 hc.ne')) hne
  obtain ⟨e1, e2⟩ := braket_self_re φ
  exact ⟨lt_of_le_of_ne e2 fun h => hne' (by rw [e1, ← h, Complex.ofReal_zero]), hne'⟩

/-- The energy trial. -/
theorem trialEnergy_spec (W : Setup q D) (hpos : 0 < W.N) (hc : W.ham.Complete W.N) (A0 : Tensors ℂ q D) (tau : ℝ)
    (S : TDVP ℂ q D) (hS : Good (N := W.N) A0 W.B S)
    (hne : braket (psi (N := W.N) (moved A0 (tau : ℂ) W.B) W.h0 W.hN) (psi (moved A0 (tau : ℂ) W.B) W.h0 W.hN) ≠ 0) :
    ∃ S', trialEnergy W (S.setA (trialTensors W.N A0 W.B tau S.A))
        = some (S', rayleigh W.ham (moved A0 (tau : ℂ) W.B) W.h0 W.hN,
          rayleigh W.ham (moved A0 (tau : ℂ) W.B) W.h0 W.hN) ∧
      Good (N := W.N) A0 W.B S' ∧ CurrentC W.N W.ham S' ∧ S'.H = S.H ∧
      ∃ G : ℝ, 0 < G ∧ S'.A = scaleLast (W.N - 1) (G : ℂ) (trialTensors W.N A0 W.B tau S.A) := by
  obtain ⟨P, g, N, ham, h0, hN, lm, rm, eta, B, ov⟩ := W
  dsimp only at *
  obtain ⟨M, rfl⟩ : ∃ M, N = M + 1 := ⟨N - 1, by omega⟩
  set A1 := trialTensors (M + 1) A0 B tau S.A with hA1
  obtain ⟨c, hc0, hpsi⟩ := trial_psi (h0 := h0) (hN := hN) hS.kept tau
  rw [← hA1] at hpsi
  obtain ⟨hre, hne1⟩ := norm_pos hc0 hpsi hne
  obtain ⟨u1, u2⟩ := updateNoCF_upToDate (M + 1) (S.setA A1).toMPS hS.l0 hS.rN
  have hU : (S.setA A1).A = A1 := rfl
  rw [hU] at u1
  set S1 := updateNoCF (M + 1) (S.setA A1).toMPS with hS1
  have hne2 : braket (psi (N := M + 1) S1.A h0 hN) (psi S1.A h0 hN) ≠ 0 := by rw [u1]; exact hne1
  obtain ⟨⟨d, hd, hpsi2⟩, hn, hup⟩ := C16_simple_renorm S1 h0 hN (by omega) u2 hne2
  set S2 := simpleRenorm (M + 1) hN S1 true with hS2
  obtain ⟨c1, c2⟩ := calcCs_spec (N := M + 1) ham { (S.setA A1) with toMPS := S2 }
  set S3 := calcCs (M + 1) ham { (S.setA A1) with toMPS := S2 } with hS3
  have hup3 : UpToDate (M + 1) S3.A S3.l S3.r := by rw [c1]; exact hup
  have hv := sumTerms_value ham hc S3 c2 hup3 h0 hN
  have hA3 : S3.A = S2.A := by rw [c1]
  have hpsi3 : ∀ s, psi (N := M + 1) S3.A h0 hN s
      = ((d : ℂ) * c) * psi (moved A0 (tau : ℂ) B) h0 hN s := by
    intro s
    rw [hA3, hpsi2 s, u1, hpsi s, mul_assoc]
  have hval := ratio_scaled hpsi3 (by rw [hA3]; exact hn) ham.total
  have hG : 0 < 1 / Real.sqrt (S1.l (M + 1) ⟨0, by omega⟩ ⟨0, by omega⟩).re := by
    refine one_div_pos.2 (Real.sqrt_pos.2 ?_)
    have hL : LOk (M + 1) S1.A S1.l := ⟨u2.l_zero, u2.l_succ⟩
    rw [hL.last_entry h0 hN, u1]
    exact hre
  have hAs : S3.A = scaleLast M ((1 / Real.sqrt (S1.l (M + 1) ⟨0, by omega⟩ ⟨0, by omega⟩).re : ℝ) : ℂ) A1 := by
    rw [hA3, hS2, simpleRenorm_A, u1]
  refine ⟨S3, ?_, ⟨?_, ?_, ?_⟩, c2, ?_, _, hG, hAs⟩
  · have : trialEnergy ⟨P, g, M + 1, ham, h0, hN, lm, rm, eta, B, ov⟩ (S.setA A1)
        = (sumTerms (M + 1) ham S3).map fun h => (S3, h, h) := rfl
    rw [this, hv, hval]
    rfl
  · rw [c1]; exact hup.l_zero
  · rw [c1]; exact hup.r_last
  · rw [hAs]
    exact hS.kept.scale tau hG
  · exact calcCs_H ham _

/-- Missing terms make the energy trial raise. -/
theorem trialEnergy_missing (W : Setup q D) (hc : ¬ W.ham.Complete W.N) (S : TDVP ℂ q D) :
    trialEnergy W S = none := by
  unfold trialEnergy
  dsimp only
  rw [Option.map_eq_none_iff, sumTerms]
  obtain ⟨P, g, N, ham, h0, hN, lm, rm, eta, B, ov⟩ := W
  dsimp only at *
  cases ham with
  | two h =>
    simp only [Ham.Complete] at hc
    push Not at hc
    obtain ⟨k, hk, hn⟩ := hc
    exact fold_missing _ _ k (by simp only [List.mem_range'_1, Ham.sites]; omega)
      (by simp only [expectTerm, hn, Option.bind_none]) _
  | three h =>
    simp only [Ham.Complete] at hc
    push Not at hc
    obtain ⟨k, hk, hn⟩ := hc
    exact fold_missing _ _ k (by simp only [List.mem_range'_1, Ham.sites]; omega)
      (by simp only [expectTerm, hn, Option.bind_none]) _

/-- The energy after `update(restore_CF=False)`. -/
theorem updateNorm_spec (W : Setup q D) (hpos : 0 < W.N) (hc : W.ham.Complete W.N) (A0 : Tensors ℂ q D) (tau : ℝ)
    (S S' : TDVP ℂ q D) (hS : Good (N := W.N) A0 W.B S)
    (hne : braket (psi (N := W.N) (moved A0 (tau : ℂ) W.B) W.h0 W.hN) (psi (moved A0 (tau : ℂ) W.B) W.h0 W.hN) ≠ 0)
    (h : updateNorm W (S.setA (trialTensors W.N A0 W.B tau S.A)) = some S') :
    (∃ H : ℂ, S'.H = some H ∧ H.re = rayleigh W.ham (moved A0 (tau : ℂ) W.B) W.h0 W.hN) ∧
      Good (N := W.N) A0 W.B S' := by
  obtain ⟨P, g, N, ham, h0, hN, lm, rm, eta, B, ov⟩ := W
  dsimp only at *
  obtain ⟨M, rfl⟩ : ∃ M, N = M + 1 := ⟨N - 1, by omega⟩
  set A1 := trialTensors (M + 1) A0 B tau S.A with hA1
  obtain ⟨c, hc0, hpsi⟩ := trial_psi (h0 := h0) (hN := hN) hS.kept tau
  rw [← hA1] at hpsi
  obtain ⟨hre, hne1⟩ := norm_pos hc0 hpsi hne
  obtain ⟨⟨d, hd, hpsi2⟩, hn, hup⟩ := C16_update_normalize (S.setA A1).toMPS h0 hN (by omega)
    hS.l0 hS.rN hne1
  have hA2 : (updateNoCFNorm (M + 1) hN (S.setA A1).toMPS true).A
      = scaleLast M ((1 / Real.sqrt ((calcL (M + 1) (S.setA A1).toMPS).l (M + 1) ⟨0, by omega⟩
        ⟨0, by omega⟩).re : ℝ) : ℂ) A1 := by
    obtain ⟨b1, -, -, -⟩ := calcR_default (M + 1)
      (simpleRenorm (M + 1) hN (calcL (M + 1) (S.setA A1).toMPS) false)
    refine b1.trans ?_
    rw [simpleRenorm_A, (calcL_default (M + 1) (S.setA A1).toMPS).1]
    rfl
  have hxpos : 0 < ((calcL (M + 1) (S.setA A1).toMPS).l (M + 1) ⟨0, by omega⟩ ⟨0, by omega⟩).re := by
    obtain ⟨a1, a2, a3, a4⟩ := calcL_default (M + 1) (S.setA A1).toMPS
    have hL : LOk (M + 1) (calcL (M + 1) (S.setA A1).toMPS).A (calcL (M + 1) (S.setA A1).toMPS).l :=
      ⟨by rw [a3]; exact hS.l0, fun n hn => by rw [a4 n hn, epsL_eq, a1]⟩
    rw [hL.last_entry h0 hN, a1]
    exact hre
  set S2 := updateNoCFNorm (M + 1) hN (S.setA A1).toMPS true with hS2
  have hkept : Kept (M + 1) A0 B S2.A := by
    rw [hA2]; exact hS.kept.scale tau (one_div_pos.2 (Real.sqrt_pos.2 hxpos))
  have hpsi3 : ∀ s, psi (N := M + 1) S2.A h0 hN s
      = ((d : ℂ) * c) * psi (moved A0 (tau : ℂ) B) h0 hN s := by
    intro s
    rw [hpsi2 s, show (S.setA A1).A = A1 from rfl, hpsi s, mul_assoc]
  have hval := ratio_scaled hpsi3 hn ham.total
  have fin : ∀ S'' : TDVP ℂ q D, S''.toMPS = S2 →
      S''.H = some (matElem (psi (N := M + 1) S2.A h0 hN) ham.total (psi S2.A h0 hN)) →
      (∃ H : ℂ, S''.H = some H ∧ H.re = rayleigh ham (moved A0 (tau : ℂ) B) h0 hN) ∧
        Good (N := M + 1) A0 B S'' := by
    intro S'' e1 e2
    exact ⟨⟨_, e2, hval⟩, by rw [e1]; exact hup.l_zero, by rw [e1]; exact hup.r_last, by rw [e1]; exact hkept⟩
  have hdef : updateNorm ⟨P, g, M + 1, ham, h0, hN, lm, rm, eta, B, ov⟩ (S.setA A1)
      = match g with
        | .right => some (calcKs (M + 1) ham h0 (calcCs (M + 1) ham { (S.setA A1) with toMPS := S2 }))
        | .left => calcKls (M + 1) ham hN (calcCs (M + 1) ham { (S.setA A1) with toMPS := S2 }) := by
    cases g <;> rfl
  rw [hdef] at h
  cases g with
  | right =>
    dsimp only at h
    obtain ⟨k1, -, -, k4⟩ := C27_energy (N := M + 1) ham { (S.setA A1) with toMPS := S2 } hup h0 hN (by omega)
    rw [← Option.some.inj h]
    exact fin _ k4 k1
  | left =>
    dsimp only at h
    by_cases hM0 : M + 1 < 2
    · rw [calcKls, if_pos (by omega)] at h
      exact absurd h (by simp)
    · cases ham with
      | two hm =>
        obtain ⟨S'', e1, e2, -, -, e5⟩ := C28_energy_left_two_site (N := M + 1) hm
          { (S.setA A1) with toMPS := S2 } hup h0 hN (by omega) hc
        rw [e1] at h
        rw [← Option.some.inj h]
        exact fin _ e5 e2
      | three hm =>
        obtain ⟨S'', e1, e2, -, -, -, e5⟩ := C28_energy_left_three_site_partial (N := M + 1) hm
          { (S.setA A1) with toMPS := S2 } hup h0 hN (by omega) hc
        rw [e1] at h
        rw [← Option.some.inj h]
        exact fin _ e5 e2

/-! ## Histories -/

/-- An entry of the three lists is right. -/
def EntryOk (W : Setup q D) (A0 : Tensors ℂ q D) (H0 : ℂ) (e : ℝ × ℝ × ℝ) : Prop :=
  e.2.2 = (if 0 < e.1 then rayleigh W.ham (moved A0 (e.1 : ℂ) W.B) W.h0 W.hN else H0.re) ∧
    (W.overlap = false → 0 ≤ e.1 → e.2.1 = e.2.2)

/-- The invariant of the search. -/
structure Inv (W : Setup q D) (A0 : Tensors ℂ q D) (H0 : ℂ) (X : Search q D) : Prop where
  good : Good (N := W.N) A0 W.B X.S
  entries : ∃ E : List (ℝ × ℝ × ℝ), X.taus = E.map (fun e => e.1) ∧ X.ress = E.map (fun e => e.2.1) ∧
    X.hs = E.map (fun e => e.2.2) ∧ (∀ e ∈ E, EntryOk W A0 H0 e) ∧ ∃ E', E.map (fun e => e.1) = 0 :: E'

theorem Inv.push {W : Setup q D} {A0 : Tensors ℂ q D} {H0 : ℂ} {X : Search q D} (h : Inv W A0 H0 X)
    {S : TDVP ℂ q D} (hS : Good (N := W.N) A0 W.B S) {tau res e : ℝ} (he : EntryOk W A0 H0 (tau, res, e)) :
    Inv W A0 H0 ({ X with S := S }.push tau res e) := by
  obtain ⟨g, E, e1, e2, e3, e4, E', e5⟩ := h
  refine ⟨hS, E ++ [(tau, res, e)], ?_, ?_, ?_, ?_, E' ++ [tau], ?_⟩
  · simp only [Search.push, e1, List.map_append, List.map_cons, List.map_nil]
  · simp only [Search.push, e2, List.map_append, List.map_cons, List.map_nil]
  · simp only [Search.push, e3, List.map_append, List.map_cons, List.map_nil]
  · intro x hx
    rcases List.mem_append.1 hx with hx | hx
    · exact e4 x hx
    · rw [List.mem_singleton.1 hx]; exact he
  · rw [List.map_append, e5]; rfl

theorem Inv.zero_mem {W : Setup q D} {A0 : Tensors ℂ q D} {H0 : ℂ} {X : Search q D} (h : Inv W A0 H0 X) :
    (0 : ℝ) ∈ X.taus := by
  obtain ⟨-, E, e1, -, -, -, E', e5⟩ := h
  rw [e1, e5]; exact List.mem_cons_self

/-- Looking up a trial point. -/
theorem Inv.lookup {W : Setup q D} {A0 : Tensors ℂ q D} {H0 : ℂ} {X : Search q D} (h : Inv W A0 H0 X)
    {tau : ℝ} (ht : tau ∈ X.taus) :
    ∃ res e, X.ress[X.taus.idxOf tau]? = some res ∧ X.hs[X.taus.idxOf tau]? = some e ∧
      EntryOk W A0 H0 (tau, res, e) := by
  obtain ⟨g, E, e1, e2, e3, e4, -⟩ := h
  have hlt : X.taus.idxOf tau < X.taus.length := List.idxOf_lt_length_iff.2 ht
  have hE : X.taus.idxOf tau < E.length := by rwa [e1, List.length_map, ← e1] at hlt
  have ht' : (E[X.taus.idxOf tau]).1 = tau := by
    have := List.getElem_idxOf hlt
    simp only [e1, List.getElem_map] at this ⊢
    exact this
  refine ⟨(E[X.taus.idxOf tau]).2.1, (E[X.taus.idxOf tau]).2.2, ?_, ?_, ?_⟩
  · rw [e2, List.getElem?_map, List.getElem?_eq_getElem hE]; rfl
  · rw [e3, List.getElem?_map, List.getElem?_eq_getElem hE]; rfl
  · have := e4 _ (List.getElem_mem hE)
    rwa [show E[X.taus.idxOf tau] = (tau, (E[X.taus.idxOf tau]).2.1, (E[X.taus.idxOf tau]).2.2) from
      Prod.ext ht' rfl] at this

/-- The states of all trial points are not zero. -/
def NonZero (W : Setup q D) (A0 : Tensors ℂ q D) : Prop :=
  ∀ tau : ℝ, 0 < tau → braket (psi (N := W.N) (moved A0 (tau : ℂ) W.B) W.h0 W.hN)
    (psi (moved A0 (tau : ℂ) W.B) W.h0 W.hN) ≠ 0

theorem start_inv (W : Setup q D) (S : TDVP ℂ q D) (H0 : ℂ) (hl : S.l 0 = 1) (hr : S.r W.N = 1) :
    Inv W S.A H0 (start W S H0) := by
  refine ⟨⟨hl, hr, 1, one_pos, fun k _ _ => by simp [start]⟩,
    [(0, if W.overlap then W.etaSum.re else H0.re, H0.re)], rfl, rfl, rfl, ?_, [], rfl⟩
  intro e he
  rw [List.mem_singleton.1 he]
  refine ⟨by simp, fun ho _ => by simp [ho]⟩

/-- One call of the function. -/
theorem f_spec (W : Setup q D) (hpos : 0 < W.N) (hc : W.ham.Complete W.N) (A0 : Tensors ℂ q D) (H0 : ℂ)
    (hne : NonZero W A0) (tau : ℝ) (X : Search q D) (h : Inv W A0 H0 X) (Y : Search q D) (v : ℝ)
    (hf : f W A0 H0 tau X = some (Y, v)) :
    Inv W A0 H0 Y ∧ tau ∈ Y.taus ∧ (W.overlap = false → v = if 0 < tau then
      rayleigh W.ham (moved A0 (tau : ℂ) W.B) W.h0 W.hN else if tau < 0 then tau ^ 2 + H0.re else H0.re) := by
  unfold f at hf
  by_cases hneg : tau < 0
  · rw [if_pos hneg] at hf
    dsimp only at hf
    rw [Option.some.injEq, Prod.mk.injEq] at hf
    obtain ⟨rfl, rfl⟩ := hf
    refine ⟨h.push h.good ⟨by dsimp only; rw [if_neg (not_lt.2 hneg.le)], fun _ h0 => absurd h0 (not_le.2 hneg)⟩,
      by simp [Search.push], fun ho => ?_⟩
    rw [if_neg (not_lt.2 hneg.le), if_pos hneg, ho]
    simp
  · rw [if_neg hneg] at hf
    by_cases hm : tau ∈ X.taus
    · rw [if_pos hm] at hf
      obtain ⟨res, e, l1, l2, l3⟩ := h.lookup hm
      rw [l1, Option.map_some, Option.some.injEq, Prod.mk.injEq] at hf
      obtain ⟨rfl, rfl⟩ := hf
      refine ⟨h, hm, fun ho => ?_⟩
      rw [if_neg hneg, ← l3.1]
      exact l3.2 ho (not_lt.1 hneg)
    · rw [if_neg hm] at hf
      have h0 : 0 < tau := lt_of_le_of_ne (not_lt.1 hneg) fun h0 => hm (h0 ▸ h.zero_mem)
      dsimp only at hf
      cases ho : W.overlap with
      | false =>
        rw [ho] at hf
        simp only [Bool.false_eq_true, if_false] at hf
        obtain ⟨S', t1, t2, -⟩ := trialEnergy_spec W hpos hc A0 tau X.S h.good (hne tau h0)
        rw [t1, Option.map_some, Option.some.injEq, Prod.mk.injEq] at hf
        obtain ⟨rfl, rfl⟩ := hf
        exact ⟨h.push t2 ⟨by dsimp only; rw [if_pos h0], fun _ _ => rfl⟩, by simp [Search.push],
          fun _ => by rw [if_pos h0]⟩
      | true =>
        rw [ho] at hf
        simp only [if_true] at hf
        obtain ⟨⟨S', res, e⟩, t1, t2⟩ := Option.map_eq_some_iff.1 hf
        simp only [Prod.mk.injEq] at t2
        obtain ⟨rfl, rfl⟩ := t2
        rw [trialOverlap] at t1
        obtain ⟨S1, u1, u2⟩ := Option.bind_eq_some_iff.1 t1
        obtain ⟨T, u3, u4⟩ := Option.bind_eq_some_iff.1 u2
        obtain ⟨res', u5, u6⟩ := Option.bind_eq_some_iff.1 u4
        obtain ⟨H, u7, u8⟩ := Option.map_eq_some_iff.1 u6
        simp only [Prod.mk.injEq] at u8
        obtain ⟨rfl, rfl, rfl⟩ := u8
        obtain ⟨⟨H', v1, v2⟩, v3⟩ := updateNorm_spec W hpos hc A0 tau X.S S1 h.good (hne tau h0) u1
        rw [u7] at v1
        obtain rfl := Option.some.inj v1
        exact ⟨h.push v3 ⟨by dsimp only; rw [if_pos h0, v2], fun hf => by rw [ho] at hf; exact absurd hf (by simp)⟩,
          by simp [Search.push], fun hf => absurd hf (by simp)⟩

/-- With the energy as the function, a call never raises. -/
theorem f_total (W : Setup q D) (hpos : 0 < W.N) (hc : W.ham.Complete W.N) (A0 : Tensors ℂ q D) (H0 : ℂ)
    (hne : NonZero W A0) (ho : W.overlap = false) (tau : ℝ) (X : Search q D) (h : Inv W A0 H0 X) :
    ∃ Y v, f W A0 H0 tau X = some (Y, v) := by
  unfold f
  by_cases hneg : tau < 0
  · rw [if_pos hneg]; exact ⟨_, _, rfl⟩
  · rw [if_neg hneg]
    by_cases hm : tau ∈ X.taus
    · rw [if_pos hm]
      obtain ⟨res, e, l1, l2, l3⟩ := h.lookup hm
      rw [l1]; exact ⟨_, _, rfl⟩
    · rw [if_neg hm]
      have h0 : 0 < tau := lt_of_le_of_ne (not_lt.1 hneg) fun h0 => hm (h0 ▸ h.zero_mem)
      dsimp only
      rw [ho]
      simp only [Bool.false_eq_true, if_false]
      obtain ⟨S', t1, t2, -⟩ := trialEnergy_spec W hpos hc A0 tau X.S h.good (hne tau h0)
      rw [t1]
      exact ⟨_, _, rfl⟩

theorem run_inv {α : Type} {fn : ℝ → Search q D → Option (Search q D × ℝ)} {I : Search q D → Prop}
    (hI : ∀ tau X Y v, I X → fn tau X = some (Y, v) → I Y) (c : Client α) (X : Search q D) (hX : I X)
    (Y : Search q D) (a : Option α) (h : c.run fn X = some (Y, a)) : I Y := by
  induction c generalizing X with
  | ret b => simp only [Client.run, Option.some.injEq, Prod.mk.injEq] at h; exact h.1 ▸ hX
  | fail => simp only [Client.run, Option.some.injEq, Prod.mk.injEq] at h; exact h.1 ▸ hX
  | ask tau next ih =>
    rw [Client.run] at h
    obtain ⟨⟨Z, v⟩, h1, h2⟩ := Option.bind_eq_some_iff.1 h
    exact ih v Z (hI _ _ _ _ hX h1) h2

theorem run_total {α : Type} {fn : ℝ → Search q D → Option (Search q D × ℝ)} {I : Search q D → Prop}
    (hI : ∀ tau X, I X → ∃ Y v, fn tau X = some (Y, v) ∧ I Y) (c : Client α) (X : Search q D) (hX : I X) :
    ∃ Y a, c.run fn X = some (Y, a) ∧ I Y := by
  induction c generalizing X with
  | ret b => exact ⟨X, _, rfl, hX⟩
  | fail => exact ⟨X, _, rfl, hX⟩
  | ask tau next ih =>
    obtain ⟨Y, v, h1, h2⟩ := hI tau X hX
    obtain ⟨Z, a, h3, h4⟩ := ih v Y h2
    exact ⟨Z, a, by rw [Client.run, h1, Option.bind_some]; exact h3, h4⟩

theorem bracketLoop_inv {fn : ℝ → Search q D → Option (Search q D × ℝ)} {I : Search q D → Prop}
    (hI : ∀ tau X Y v, I X → fn tau X = some (Y, v) → I Y) (br : ℝ → ℝ → Client (ℝ × ℝ × ℝ)) (n : ℕ)
    (xa xb : ℝ) (X : Search q D) (hX : I X) (Y : Search q D × Option (ℝ × ℝ × ℝ))
    (h : bracketLoop fn br n xa xb X = some Y) : I Y.1 := by
  induction n generalizing xa xb X with
  | zero => rw [bracketLoop, Option.some.injEq] at h; rw [← h]; exact hX
  | succ n ih =>
    rw [bracketLoop] at h
    obtain ⟨⟨Z, a⟩, h1, h2⟩ := Option.bind_eq_some_iff.1 h
    have hZ := run_inv hI _ X hX Z a h1
    cases a with
    | none => exact ih _ _ Z hZ h2
    | some b =>
      rw [Option.elim_some, Option.some.injEq] at h2
      rw [← h2]; exact hZ

theorem bracketLoop_total {fn : ℝ → Search q D → Option (Search q D × ℝ)} {I : Search q D → Prop}
    (hI : ∀ tau X, I X → ∃ Y v, fn tau X = some (Y, v) ∧ I Y) (br : ℝ → ℝ → Client (ℝ × ℝ × ℝ)) (n : ℕ)
    (xa xb : ℝ) (X : Search q D) (hX : I X) : ∃ Y, bracketLoop fn br n xa xb X = some Y ∧ I Y.1 := by
  induction n generalizing xa xb X with
  | zero => exact ⟨_, rfl, hX⟩
  | succ n ih =>
    rw [bracketLoop]
    obtain ⟨Z, a, h1, h2⟩ := run_total hI (br xa xb) X hX
    rw [h1, Option.bind_some]
    cases a with
    | none => exact ih _ _ Z h2
    | some b => exact ⟨_, rfl, h2⟩

end LineSearch

end EvoMPS
