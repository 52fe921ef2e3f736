import Verif.SwFromMps
import Verif.Props.SwCF
import Verif.Props.UniformBuild

/-!
# C98: a sandwich with a Hamiltonian made from a sandwich
-/

namespace EvoMPS

open Matrix Uni SW

variable {q D : ℕ → ℕ} {qL qR N : ℕ}

/-- **C98** `from_mps`, partial.  Let the finite part have at least two sites and `N + 1` terms, and let the bulk Hamiltonians
be acceptable.  `l0`, `r0` are the environments of the given state and `ν > 0` its squared norm.  The new object has the tensors of the
given state, in the bulk chains with their environments and in the finite part, except for the factor `1/√ν` on the site `N // 2`
(if `ν` differs from one by more than `eps`); its environments are those of its tensors, and its norm is one.
Missing are the centre, the site dimensions, `ham_sites` and finite parts with one site, see below. -/
theorem C98_from_mps_partial (eps : ℝ) (S : Sw q D qL qR N) (hN : 2 ≤ N) (hamL hamR : HamArg) (hamSites : Option ℕ) (m m' : ℕ)
    (hL : setHamSites hamL none = some m) (hR : setHamSites hamR none = some m') {l0 r0 : Envs ℂ D}
    (hE : SwEnv N S.A (S.uniL.l (S.uniL.L - 1)) (S.uniR.r (S.uniR.L - 1)) l0 r0) {ν : ℝ} (hν : 0 < ν)
    (hn : ((l0 0)ᴴ * r0 0).trace = (ν : ℂ)) :
    ∃ T, swFromMps eps S hamL (.terms (N + 1)) hamR hamSites = some T ∧
      (T.st.uniL.L = S.uniL.L ∧ T.st.uniL.A = S.uniL.A ∧ T.st.uniL.AA = S.uniL.AA ∧ T.st.uniL.l = S.uniL.l ∧
        T.st.uniL.r = S.uniL.r) ∧
      (T.st.uniR.L = S.uniR.L ∧ T.st.uniR.A = S.uniR.A ∧ T.st.uniR.AA = S.uniR.AA ∧ T.st.uniR.l = S.uniR.l ∧
        T.st.uniR.r = S.uniR.r) ∧
      (∀ n s, T.st.A n s = if n = N / 2 - 1 ∧ eps < |1 - ν| then ((1 / Real.sqrt ν : ℝ) : ℂ) • S.A n s else S.A n s) ∧
      SwEnv N T.st.A (S.uniL.l (S.uniL.L - 1)) (S.uniR.r (S.uniR.L - 1)) T.st.l T.st.r ∧
      T.st.lEnd = ∑ s, (S.uniR.A 0 s)ᴴ * T.st.l N * S.uniR.A 0 s ∧ T.st.rEnd = S.rEnd ∧
      ∀ n ≤ N, ((T.st.l n)ᴴ * T.st.r n).trace = ((if eps < |1 - ν| then 1 else ν : ℝ) : ℂ) := by
  obtain ⟨uL, e1, a1, a2, a3, a4, a5⟩ := C96_from_mps_partial S.uniL hamL hamSites m hL
  obtain ⟨uR, e2, b1, b2, b3, b4, b5⟩ := C96_from_mps_partial S.uniR hamR hamSites m' hR
  set T : Sw q D qL qR N :=
    { nc := N / 2, A := S.A, l := S.l, r := S.r, lEnd := S.lEnd, rEnd := S.rEnd, uniL := uL, uniR := uR } with hT
  have hE' : SwEnv N T.A (T.uniL.l (T.uniL.L - 1)) (T.uniR.r (T.uniR.L - 1)) l0 r0 := by
    simp only [hT, a4, a1, b5, b1]
    exact hE
  obtain ⟨A, l, r, lEnd, h1, h2, h3, h4, h5⟩ := C62_update_normalized eps T (c := N / 2 - 1) (by simp only [hT]; omega) (by omega) hE'
    hν hn
  refine ⟨⟨{ T with A := A, l := l, r := r, lEnd := lEnd }, fun _ => qL, m⟩, ?_, ⟨a1, a2, a3, a4, a5⟩, ⟨b1, b2, b3, b4, b5⟩, ?_,
    ?_, ?_, rfl, h5⟩
  · simp only [swFromMps, CentreHam.len, Option.bind_some, ne_eq, not_true_eq_false, if_false]
    rw [e1, Option.bind_some, e2, Option.bind_some]
    rw [h1, Option.map_some]
  · intro n s
    show A n s = _
    rw [h2]
    by_cases hc : n = N / 2 - 1
    · subst hc
      rw [Function.update_self]
      by_cases h : eps < |1 - ν|
      · simp only [h, and_self, if_true, hT]
      · simp only [h, and_false, if_false, hT, Complex.ofReal_one, one_smul]
    · rw [Function.update_of_ne hc, if_neg (fun h => hc h.1)]
  · simp only [hT, a4, a1, b5, b1] at h3
    exact h3
  · show lEnd = _
    rw [h4]
    simp only [hT, b2]

/-- **C98** A list with a number of terms other than `N + 1` and bulk Hamiltonians that do not act on two or three sites are rejected. -/
theorem C98_rejected (eps : ℝ) (S : Sw q D qL qR N) (hamL hamR : HamArg) (hamC : CentreHam) (hamSites : Option ℕ)
    (h : (∃ n ≠ N + 1, hamC = .terms n) ∨ (∃ n, (n < 4 ∨ 7 < n) ∧ (hamL = .array n ∨ hamR = .array n))) :
    swFromMps eps S hamL hamC hamR hamSites = none := by
  have hb : ∀ n : ℕ, n < 4 ∨ 7 < n → setHamSites (.array n) none = none := by
    intro n hn
    simp only [setHamSites]
    rw [if_pos (by omega)]
  have hf : ∀ {p d : ℕ} (M : UMPS ℂ p d) (n : ℕ), n < 4 ∨ 7 < n → Uni.fromMps M (.array n) hamSites = none := by
    intro p d M n hn
    simp only [Uni.fromMps, newHamSites, hb n hn, Option.map_none]
  unfold swFromMps
  rcases h with ⟨n, hn, rfl⟩ | ⟨n, hn, h⟩
  · simp only [CentreHam.len, Option.bind_some, if_pos hn]
  · rcases hamC.len with _ | m
    · rfl
    simp only [Option.bind_some]
    split
    · rfl
    rcases h with rfl | rfl
    · rw [hf _ n hn]
      rfl
    · rw [hf _ n hn]
      cases Uni.fromMps S.uniL hamL hamSites <;> rfl

/-- **C98, violated** (functions).  A Hamiltonian of the finite part given as a function, which the attribute `ham` may be, is rejected. -/
theorem C98_function_violated (eps : ℝ) (S : Sw q D qL qR N) (hamL hamR : HamArg) (hamSites : Option ℕ) :
    swFromMps eps S hamL .function hamR hamSites = none := rfl

/-- **C98, violated** (one site).  A state whose finite part has one site (or none) cannot be copied, whatever the arguments. -/
theorem C98_single_site_violated (eps : ℝ) (S : Sw q D qL qR N) (hN : N ≤ 1) (hamL hamR : HamArg) (hamC : CentreHam)
    (hamSites : Option ℕ) : swFromMps eps S hamL hamC hamR hamSites = none := by
  unfold swFromMps
  rcases hamC.len with _ | m
  · rfl
  simp only [Option.bind_some]
  split
  · rfl
  rcases Uni.fromMps S.uniL hamL hamSites with _ | uL
  · rfl
  rcases Uni.fromMps S.uniR hamR hamSites with _ | uR
  · rfl
  have h0 : N / 2 = 0 := by omega
  simp only [Option.bind_some, updateSw, if_true, h0, Option.map_none]

/-- What the new object keeps of the constructor. -/
theorem swFromMps_kept {eps : ℝ} {S : Sw q D qL qR N} {hamL hamR : HamArg} {hamC : CentreHam} {hamSites : Option ℕ}
    {T : TdvpSw q D qL qR N} (h : swFromMps eps S hamL hamC hamR hamSites = some T) :
    T.st.nc = N / 2 ∧ (∀ n, T.qArr n = qL) ∧ setHamSites hamL none = some T.hamSites := by
  unfold swFromMps at h
  rcases eC : hamC.len with _ | m
  · simp [eC] at h
  rw [eC, Option.bind_some] at h
  split at h
  · simp at h
  rcases eL : Uni.fromMps S.uniL hamL hamSites with _ | uL
  · simp [eL] at h
  rcases eR : Uni.fromMps S.uniR hamR hamSites with _ | uR
  · simp [eL, eR] at h
  rw [eL, eR] at h
  simp only [Option.bind_some, Option.map_eq_some_iff] at h
  obtain ⟨T', h1, rfl⟩ := h
  refine ⟨?_, fun _ => rfl, ?_⟩
  · unfold updateSw at h1
    simp only [if_true] at h1
    split at h1
    · simp at h1
    · split at h1
      · rename_i hc _
        simp only [Option.some.injEq] at h1
        rw [← h1]
        simp [calcRSw, calcLSw, renormCentre]
      · simp at h1
  · simp only [Uni.fromMps, newHamSites, Option.map_eq_some_iff] at eL
    obtain ⟨k, hk, rfl⟩ := eL
    exact hk

/-- **C98, violated** (centre).  The centre of the new object is `N // 2` whatever that of the given state is. -/
theorem C98_centre_violated {eps : ℝ} {S : Sw q D qL qR N} {hamL hamR : HamArg} {hamC : CentreHam} {hamSites : Option ℕ}
    {T : TdvpSw q D qL qR N} (h : swFromMps eps S hamL hamC hamR hamSites = some T) (hc : S.nc ≠ N / 2) : T.st.nc ≠ S.nc := by
  rw [(swFromMps_kept h).1]
  exact hc.symm

/-- **C98, violated** (site dimensions).  `get_q` of the new object is the site dimension of the left chain in the whole finite part, so it is
wrong for a site with another dimension. -/
theorem C98_q_violated {eps : ℝ} {S : Sw q D qL qR N} {hamL hamR : HamArg} {hamC : CentreHam} {hamSites : Option ℕ}
    {T : TdvpSw q D qL qR N} (h : swFromMps eps S hamL hamC hamR hamSites = some T) {n : ℕ} (hn : n < N) (hq : q n ≠ qL) :
    T.getQ (n + 1) = qL ∧ T.getQ (n + 1) ≠ q n := by
  have e : T.getQ (n + 1) = qL := by
    rw [TdvpSw.getQ, if_neg (by omega), if_neg (by omega), (swFromMps_kept h).2.1]
  exact ⟨e, fun h => hq (h.symm.trans e)⟩

/-- **C98, violated** (`ham_sites`).  The argument `ham_sites` has no effect: the number of sites is that of `ham_L`, two for a function. -/
theorem C98_ham_sites_violated {eps : ℝ} {S : Sw q D qL qR N} {hamR : HamArg} {hamC : CentreHam} {T : TdvpSw q D qL qR N}
    (h : swFromMps eps S .callable hamC hamR (some 3) = some T) : T.hamSites = 2 := by
  have := (swFromMps_kept h).2.2
  simp only [setHamSites, true_or, not_true_eq_false, if_false, Option.some.injEq] at this
  exact this.symm

/-! ### The hypotheses can be met -/

/-- The demonstration state has squared norm 16 and can be copied. -/
theorem demoSw_copied : ∃ T, swFromMps (1/1000) demoSw (.array 4) (.terms 3) .callable (some 3) = some T ∧
    ∀ n ≤ 2, ((T.st.l n)ᴴ * T.st.r n).trace = 1 := by
  obtain ⟨T, h, -, -, -, -, -, -, hn⟩ := C98_from_mps_partial (1/1000) demoSw le_rfl (.array 4) .callable (some 3) 2 2
    (by simp [setHamSites]) (by simp [setHamSites]) demoSw_env (ν := 16) (by norm_num) demoSw_norm
  refine ⟨T, h, fun n hn' => ?_⟩
  rw [hn n hn', if_pos (by norm_num [abs_of_neg])]
  simp

/-- A state with another centre and three sites, the site in the middle having its own dimension. -/
example : ∃ (S : Sw (fun n => if n = 1 then 2 else 1) (fun _ => 1) 1 1 3) (T : _),
    swFromMps (1/1000) S .callable (.terms 4) .callable (some 3) = some T ∧ S.nc ≠ 3 / 2 ∧ T.getQ 2 = 1 := by
  let A : Tensors ℂ (fun n => if n = 1 then 2 else 1) (fun _ => 1) := fun n s => if s.val = 0 then 1 else 0
  let u : UMPS ℂ 1 1 := ⟨1, fun _ _ => 1, fun _ => 0, fun _ => 1, fun _ => 1, 1, 1⟩
  let S : Sw (fun n => if n = 1 then 2 else 1) (fun _ => 1) 1 1 3 := ⟨2, A, fun _ => 1, fun _ => 1, 1, 1, u, u⟩
  have hs : ∀ n, (∑ s, (A n s)ᴴ * 1 * A n s) = 1 ∧ (∑ s, A n s * 1 * (A n s)ᴴ) = 1 := by
    intro n
    by_cases h : n = 1
    · subst h
      constructor
      · show (∑ s : Fin 2, (A 1 s)ᴴ * 1 * A 1 s) = 1
        rw [Fin.sum_univ_two]
        simp [A]
      · show (∑ s : Fin 2, A 1 s * 1 * (A 1 s)ᴴ) = 1
        rw [Fin.sum_univ_two]
        simp [A]
    · constructor <;> simp [A]
  have hE : SwEnv 3 S.A (S.uniL.l (S.uniL.L - 1)) (S.uniR.r (S.uniR.L - 1)) (fun _ => 1) (fun _ => 1) :=
    { first := rfl
      l_succ := fun n _ => (hs n).1.symm
      last := rfl
      r_pred := fun n _ => (hs n).2.symm }
  obtain ⟨T, h, -⟩ := C98_from_mps_partial (1/1000) S (by omega) .callable .callable (some 3) 2 2
    (by simp [setHamSites]) (by simp [setHamSites]) hE (ν := 1) one_pos (by simp)
  exact ⟨S, T, h, by show 2 ≠ 3 / 2; omega, (C98_q_violated h (n := 1) (by omega) (by simp)).1⟩

end EvoMPS
