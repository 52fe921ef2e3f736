import Verif.TwoSplitState
import Verif.ContractsSvd
import Verif.ContractsSweep
import Verif.Props.Sweep

/-!
# C59: two-site steps

A two-site step evolves (or optimises) the tensor of two neighbouring sites and cuts it into two tensors again.  What the
step keeps is the best approximation with the number of Schmidt coefficients it keeps.
-/

namespace EvoMPS

open Matrix Eff Sweep TwoSplit

section
variable {p p' a c : ℕ}

/-- **C59** (cutting a two-site tensor).  The left factor is left orthonormal and the right one right orthonormal, the
matrix between them is diagonal with descending entries, none of them below `min_schmidt` and none below a discarded one.
At most `D_max` are kept; if there are fewer, all discarded ones are below `min_schmidt`.  The squared distance from
the tensor is the sum of the squares of the discarded values, and no product with the same number of terms is closer. -/
theorem C59_split (svd : Svd) (X : Fin p → Fin p' → Matrix (Fin a) (Fin c) ℂ) (Dmax : Option ℕ) (minS : Option ℝ)
    (P : Parts p p' a c) (h : splitTwosite svd X Dmax minS = some P) :
    LOrth P.A1 ∧ ROrth P.A2 ∧
    (∃ sv : Fin P.d → ℝ, P.G = Matrix.diagonal (fun l => (sv l : ℂ)) ∧ (∀ l l', l ≤ l' → sv l' ≤ sv l) ∧
      ∀ l, 0 ≤ sv l ∧ (∃ e, minS = some e ∧ e ≤ sv l) ∧ ∀ x ∈ P.rest, x ≤ sv l) ∧
    (∀ x ∈ P.rest, 0 ≤ x) ∧
    (∃ Dm, Dmax = some Dm ∧ P.d ≤ Dm ∧ (P.d < Dm → ∀ x ∈ P.rest, ∃ e, minS = some e ∧ x < e)) ∧
    P.d + P.rest.length = min (p * a) (p' * c) ∧
    (∑ s, ∑ t, ∑ i, ∑ j, ‖(X s t - P.A1 s * P.G * P.A2 t) i j‖ ^ 2 = (P.rest.map (· ^ 2)).sum) ∧
    ∀ (Y : Fin p → Matrix (Fin a) (Fin P.d) ℂ) (Z : Fin p' → Matrix (Fin P.d) (Fin c) ℂ),
      ∑ s, ∑ t, ∑ i, ∑ j, ‖(X s t - P.A1 s * P.G * P.A2 t) i j‖ ^ 2
        ≤ ∑ s, ∑ t, ∑ i, ∑ j, ‖(X s t - Y s * Z t) i j‖ ^ 2 := by
  obtain ⟨f, hf, hkeep, hd, hA1, hA2, hG, hmk, hrest⟩ := split_spec h
  obtain ⟨hdm, Dm, hDm, hle, hk1, hk2⟩ := keep_spec hkeep
  have hmem : ∀ x ∈ P.rest, ∃ i : Fin (min (p * a) (p' * c)), P.d ≤ (i : ℕ) ∧ x = f.sv i := by
    intro x hx
    rw [hrest] at hx
    obtain ⟨i, hi, rfl⟩ := List.getElem_of_mem hx
    rw [List.length_drop, List.length_ofFn] at hi
    refine ⟨⟨P.d + i, by omega⟩, by simp, ?_⟩
    rw [List.getElem_drop, List.getElem_ofFn]
  have hfro : ∀ W : Ten2 ℂ p p' a c, ∑ s, ∑ t, ∑ i, ∑ j, ‖W s t i j‖ ^ 2 = frobSq (aaMat W) := by
    intro W
    rw [frobSq_aaMat, dot_self, Complex.ofReal_re]
    simp only [Fintype.sum_prod_type, flat2]
  have hYZ : ∀ (Y : Ten ℂ p a P.d) (Z : Ten ℂ p' P.d c), aaMat (fun s t => X s t - Y s * Z t)
      = aaMat X - colMat Y * rowMat Z := by
    intro Y Z
    rw [← aaMat_mul]
    rfl
  have heq : ∑ s, ∑ t, ∑ i, ∑ j, ‖(X s t - P.A1 s * P.G * P.A2 t) i j‖ ^ 2 = (P.rest.map (· ^ 2)).sum := by
    rw [hfro fun s t => X s t - P.A1 s * P.G * P.A2 t, hYZ (fun s => P.A1 s * P.G) P.A2,
      show colMat (fun s => P.A1 s * P.G) = colMat P.A1 * P.G from rfl, hmk, frobSq_svdMk, hrest, sum_drop]
  refine ⟨hA1, hA2, ⟨fun l => f.sv ⟨l, by omega⟩, hG, fun l l' hl => f.desc _ _ (by simpa using hl), fun l =>
    ⟨f.nonneg _, hk1 _ l.2, fun x hx => ?_⟩⟩, fun x hx => ?_, ⟨Dm, hDm, hle, fun hlt x hx => ?_⟩, ?_, heq, fun Y Z => ?_⟩
  · obtain ⟨i, hi, rfl⟩ := hmem x hx
    exact f.desc _ _ (by rw [Fin.le_def]; simp only; omega)
  · obtain ⟨i, hi, rfl⟩ := hmem x hx
    exact f.nonneg i
  · obtain ⟨i, hi, rfl⟩ := hmem x hx
    obtain ⟨e, he, hs⟩ := hk2 ⟨P.d, by omega⟩ rfl hlt
    exact ⟨e, he, (f.desc _ _ (by rw [Fin.le_def]; exact hi)).trans_lt hs⟩
  · rw [hrest, List.length_drop, List.length_ofFn]
    omega
  · rw [heq, hfro fun s t => X s t - Y s * Z t, hYZ, hrest, sum_drop]
    exact low_rank f P.d _ _

end

section
variable {q D : ℕ → ℕ} {N : ℕ}

/-- **C59** (time evolution).  The sites in front of the pair are left orthonormal, those behind it right orthonormal.
Then the step evolves the state with the Hamiltonian projected on the states with an arbitrary two-site tensor, replaces
the result by the closest state with at most `D_max` Schmidt coefficients at the bond in the middle, and normalises it.
The returned error is the distance of the two.  Afterwards the sites up to the first one of the pair (moving right) or
behind it (moving left) are orthonormal as well.  No dimension but that of the middle bond changes.  For three-site
Hamiltonians the terms must have the symmetry explained at `C57_pair3_partial`. -/
theorem C59_evolve_partial (svd : Svd) (L : Solvers) (hL : L.Ok) (ham : Ham ℂ q) (h0 : D 0 = 1) (hN : D N = 1) (k : ℕ)
    (hk : k + 1 < N) (hD : 0 < D (k + 1))
    (hham : ∀ hm, ham = .three hm → (∀ j op, j + 1 = k → hm j = some op → FirstHerm op) ∧
      ∀ op, k + 3 < N → hm (k + 1) = some op → LastHerm op)
    (A : Tensors ℂ q D) (hAL : ∀ n < k, LOrth (A n)) (hAR : ∀ n, k + 1 < n → n < N → ROrth (A n)) (KL KR : OptEnvs ℂ D)
    (hKL : lefts ham A k = some KL) (hKR : rights N ham A (k + 2) = some KR) (fac : ℂ) (Dmax : Option ℕ)
    (minS : Option ℝ) (step : ℝ) (right : Bool) (R : Res q)
    (hR : evolveAA svd L N ham fac Dmax minS A KL KR k step right = some R) :
    (∀ n, n ≠ k + 1 → R.D n = D n) ∧ (∃ Dm, Dmax = some Dm ∧ R.D (k + 1) ≤ Dm) ∧
    (if right then Central N R.A (k + 1) else Central N R.A k) ∧
    ∃ (h0' : R.D 0 = 1) (hN' : R.D N = 1) (Pr : Matrix (Cfg q N) (Cfg q N) ℂ) (φ χ : Cfg q N → ℂ),
      IsProj Pr (pairSpace A h0 hN k) ∧
      φ = NormedSpace.exp (((step : ℂ) * fac) • (Pr * Matrix.of (ham.total (N := N)) * Pr)) *ᵥ psi A h0 hN ∧
      Truncated (k + 1) (R.D (k + 1)) φ χ R.err ∧ psi R.A h0' hN' = unitVec χ ∧
      (0 < R.D (k + 1) → braket (psi (N := N) R.A h0' hN') (psi R.A h0' hN') = 1) := by
  obtain ⟨w, hw, hfin⟩ := Option.bind_eq_some_iff.1 hR
  have hB : Beside N A k := ⟨hAL, hAR⟩
  obtain ⟨f1, f2, f3, h0', hN', χ, htr, hpsi, hne⟩ := finish_spec h0 hN hk hD hB hfin
  have hT := pairT_iso h0 hN k hk hD hB
  have hterms : Terms N ham k := by
    cases ham with
    | two _ => trivial
    | three hm => exact hham hm rfl
  rcases pair_op h0 hN k hk hD hB hterms (lefts_spec ham A k hKL).1 (rights_spec ham A (k + 2) (by omega) hKR).1 fac with
    hop | hop
  · rw [hL.expmv_none _ _ _ hop] at hw
    exact absurd hw (by simp)
  · have hw' := hL.expmv_eq _ _ _ _ _ hop hw
    have hpsiA := psi_eq_pairT A h0 hN k hk
    refine ⟨f1, f2, f3, h0', hN', _, _, χ, pairT_range A h0 hN k ▸ hT.proj, rfl, ?_, hpsi, fun hpos => ?_⟩
    · convert htr using 1
      rw [show flat2 (tens2 w) = w from rfl, hw', hpsiA]
      have e : (((step : ℂ) * fac) • (LinearMap.toMatrix' (pairT (N := N) A h0 hN k)
          * (LinearMap.toMatrix' (pairT (N := N) A h0 hN k))ᴴ * Matrix.of (ham.total (N := N))
          * (LinearMap.toMatrix' (pairT (N := N) A h0 hN k) * (LinearMap.toMatrix' (pairT (N := N) A h0 hN k))ᴴ)))
          * LinearMap.toMatrix' (pairT (N := N) A h0 hN k)
          = LinearMap.toMatrix' (pairT (N := N) A h0 hN k)
            * ((step : ℂ) • (fac • effM (pairT (N := N) A h0 hN k) (Matrix.of (ham.total (N := N))))) := by
        rw [effM, smul_smul, Matrix.smul_mul, Matrix.mul_smul]
        congr 1
        simp only [Matrix.mul_assoc, hT.mul, Matrix.mul_one]
      rw [← toM_mulVec, ← toM_mulVec, Matrix.mulVec_mulVec, Matrix.mulVec_mulVec, exp_intertwine e]
    · rw [hpsi]
      exact normed_dot (hne hpos)

/-- **C59** (optimisation).  As `C59_evolve_partial`, for a Hermitian Hamiltonian: the state before the truncation has the lowest
energy that is possible with an arbitrary two-site tensor. -/
theorem C59_optimise_partial (svd : Svd) (L : Solvers) (hL : L.Ok) (ham : Ham ℂ q) (h0 : D 0 = 1) (hN : D N = 1) (k : ℕ)
    (hk : k + 1 < N) (hD : 0 < D (k + 1)) (hherm : (Matrix.of (ham.total (N := N))).IsHermitian)
    (hham : ∀ hm, ham = .three hm → (∀ j op, j + 1 = k → hm j = some op → FirstHerm op) ∧
      ∀ op, k + 3 < N → hm (k + 1) = some op → LastHerm op)
    (A : Tensors ℂ q D) (hAL : ∀ n < k, LOrth (A n)) (hAR : ∀ n, k + 1 < n → n < N → ROrth (A n)) (KL KR : OptEnvs ℂ D)
    (hKL : lefts ham A k = some KL) (hKR : rights N ham A (k + 2) = some KR) (Dmax : Option ℕ)
    (minS : Option ℝ) (right : Bool) (R : Res q)
    (hR : optAA svd L N ham Dmax minS A KL KR k right = some R) :
    (∀ n, n ≠ k + 1 → R.D n = D n) ∧ (∃ Dm, Dmax = some Dm ∧ R.D (k + 1) ≤ Dm) ∧
    (if right then Central N R.A (k + 1) else Central N R.A k) ∧
    ∃ (h0' : R.D 0 = 1) (hN' : R.D N = 1) (φ χ : Cfg q N → ℂ),
      φ ≠ 0 ∧ Optimal (Matrix.of (ham.total (N := N))) (pairSpace A h0 hN k) (unitVec φ) ∧
      Truncated (k + 1) (R.D (k + 1)) φ χ R.err ∧ psi R.A h0' hN' = unitVec χ ∧
      (0 < R.D (k + 1) → braket (psi (N := N) R.A h0' hN') (psi R.A h0' hN') = 1) := by
  obtain ⟨w, hw, hfin⟩ := Option.bind_eq_some_iff.1 hR
  have hB : Beside N A k := ⟨hAL, hAR⟩
  obtain ⟨f1, f2, f3, h0', hN', χ, htr, hpsi, hne⟩ := finish_spec h0 hN hk hD hB hfin
  have hT := pairT_iso h0 hN k hk hD hB
  have hterms : Terms N ham k := by
    cases ham with
    | two _ => trivial
    | three hm => exact hham hm rfl
  rcases pair_op h0 hN k hk hD hB hterms (lefts_spec ham A k hKL).1 (rights_spec ham A (k + 2) (by omega) hKR).1 1 with
    hop | hop
  · rw [hL.eigsh_none _ _ hop] at hw
    exact absurd hw (by simp)
  · simp only [one_smul] at hop
    obtain ⟨hw0, ev, hev, hmin⟩ := hL.eigsh_eq _ _ _ _ (effM_herm _ hherm) hop hw
    refine ⟨f1, f2, f3, h0', hN', _, χ, ?_, ?_, htr, hpsi, fun hpos => ?_⟩
    · intro e
      have h1 := hT.iso w w
      rw [show flat2 (tens2 w) = w from rfl] at e
      rw [e] at h1
      have h2 := dot_self_pos hw0
      rw [← h1] at h2
      simp [braket] at h2
    · rw [show flat2 (tens2 w) = w from rfl, hT.unit, ← pairT_range]
      exact hT.optimal _ w hw0 ev hev hmin
    · rw [hpsi]
      exact normed_dot (hne hpos)

/-- **C59** (overlap).  The overlap of the truncated and normalised state with the state before. -/
theorem C59_overlap (n d : ℕ) (φ χ : Cfg q N → ℂ) (err : ℝ) (h : Truncated n d φ χ err) :
    normSq χ = normSq φ - err ^ 2 ∧ braket (unitVec χ) φ = Real.sqrt (normSq φ - err ^ 2) := by
  have h1 : braket χ φ = braket χ χ := by
    have := h.orth
    rw [braket_dot, dotProduct_sub, sub_eq_zero] at this
    exact this
  have h1' : braket φ χ = braket χ χ := by
    have : braket φ χ = star (braket χ φ) := by
      rw [braket_dot, braket_dot, Matrix.star_dotProduct]
    rw [this, h1, braket_dot, ← Matrix.star_dotProduct]
  have h2 : normSq χ = normSq φ - err ^ 2 := by
    rw [← h.dist]
    simp only [normSq]
    rw [braket_dot (φ - χ), star_sub, sub_dotProduct, dotProduct_sub, dotProduct_sub, ← braket_dot, ← braket_dot,
      ← braket_dot, ← braket_dot, h1, h1']
    simp
  refine ⟨h2, ?_⟩
  rw [← h2]
  have h3 : braket χ χ = (normSq χ : ℂ) := (dot_self_im χ).symm
  have h4 : 0 ≤ normSq χ := by
    rw [normSq, braket_dot, dot_self, Complex.ofReal_re]
    positivity
  rw [unitVec, braket_dot, star_smul, smul_dotProduct, ← braket_dot, h1, h3, Complex.ofReal_re, star_inv₀,
    Complex.star_def, Complex.conj_ofReal, smul_eq_mul]
  rcases h4.eq_or_lt with e | hpos
  · rw [← e]
    simp
  · have hs : Real.sqrt (normSq χ) ≠ 0 := (Real.sqrt_pos.2 hpos).ne'
    rw [← Complex.ofReal_inv, ← Complex.ofReal_mul]
    congr 1
    field_simp
    exact (Real.sq_sqrt h4).symm

/-- **C59** (without truncation).  If `D_max` is not less than the largest possible bond dimension and `min_schmidt` is
not positive, the error is 0, and the state is the one before the truncation. -/
theorem C59_exact (svd : Svd) (h0 : D 0 = 1) (hN : D N = 1) (k : ℕ) (hk : k + 1 < N) (hD : 0 < D (k + 1))
    (A : Tensors ℂ q D) (hAL : ∀ n < k, LOrth (A n)) (hAR : ∀ n, k + 1 < n → n < N → ROrth (A n))
    (Dm : ℕ) (e : ℝ) (hDm : min (q k * D k) (q (k + 1) * D (k + 2)) ≤ Dm) (he : e ≤ 0) (right : Bool)
    (X : Pairs ℂ q D) (R : Res q) (hR : finish svd A k (some Dm) (some e) right (X k) = some R) :
    R.err = 0 ∧ ∃ (h0' : R.D 0 = 1) (hN' : R.D N = 1), psi R.A h0' hN' = unitVec (twoSite A h0 hN X k) := by
  obtain ⟨P, hP, -, hRe⟩ := finish_cases hR
  obtain ⟨f1, f2, f3, h0', hN', χ, htr, hpsi, hne⟩ := finish_spec h0 hN hk hD ⟨hAL, hAR⟩ hR
  have hrest : P.rest = [] := by
    obtain ⟨-, -, -, hnn, ⟨Dm', hDm', hle, hcut⟩, hlen, -⟩ := C59_split svd _ _ _ P hP
    obtain rfl := Option.some.inj hDm'
    by_contra hne
    obtain ⟨x, hx⟩ := List.exists_mem_of_ne_nil _ hne
    have hpos := List.length_pos_of_mem hx
    obtain ⟨e', he', hxe⟩ := hcut (by omega) x hx
    obtain rfl := Option.some.inj he'
    have := hnn x hx
    linarith
  have herr : R.err = 0 := by
    rw [hRe, hrest]
    simp [truncErr]
  refine ⟨herr, h0', hN', ?_⟩
  rw [hpsi]
  congr 1
  have h1 := htr.dist
  rw [herr, pairT_flat] at h1
  by_contra hne
  have h2 : twoSite (N := N) A h0 hN X k - χ ≠ 0 := fun e => hne (sub_eq_zero.1 e).symm
  have h3 := dot_self_pos h2
  rw [normSq, braket_dot] at h1
  rw [h1] at h3
  norm_num at h3

/-! ## When the steps return -/

/-- **C59** (returns).  With numbers for `D_max` and `min_schmidt`, and if no term of the Hamiltonian is missing, the steps
return (if the numerical routines do). -/
theorem C59_returns_partial (svd : Svd) (hsvd : ∀ {m n : ℕ} (Y : Matrix (Fin m) (Fin n) ℂ), (svd Y).isSome) (L : Solvers)
    (hL : L.Ok) (hLr : L.Returns) (ham : Ham ℂ q) (h0 : D 0 = 1) (hN : D N = 1) (k : ℕ)
    (hk : k + 1 < N) (hD : 0 < D (k + 1)) (hdim : 2 ≤ q k * (q (k + 1) * (D k * D (k + 2))))
    (hham : ∀ hm, ham = .three hm → (∀ j op, j + 1 = k → hm j = some op → FirstHerm op) ∧
      ∀ op, k + 3 < N → hm (k + 1) = some op → LastHerm op)
    (hhas : ∀ j, j + ham.sites ≤ N → Has ham j)
    (A : Tensors ℂ q D) (hAL : ∀ n < k, LOrth (A n)) (hAR : ∀ n, k + 1 < n → n < N → ROrth (A n))
    (hA : psi (N := N) A h0 hN ≠ 0) (Dm : ℕ) (e : ℝ) (right : Bool) :
    ∃ KL KR, lefts ham A k = some KL ∧ rights N ham A (k + 2) = some KR ∧
      (∀ fac step, (evolveAA svd L N ham fac (some Dm) (some e) A KL KR k step right).isSome) ∧
      ((Matrix.of (ham.total (N := N))).IsHermitian → (optAA svd L N ham (some Dm) (some e) A KL KR k right).isSome) := by
  obtain ⟨KL, hKL⟩ := Option.isSome_iff_exists.1 ((lefts_isSome ham A k).2 fun j hj => hhas j (by omega))
  obtain ⟨KR, hKR⟩ := Option.isSome_iff_exists.1 ((rights_isSome ham A (k + 2) (N := N) (by omega)).2 fun j _ h => hhas j h)
  have hB : Beside N A k := ⟨hAL, hAR⟩
  have hterms : Terms N ham k := by
    cases ham with
    | two _ => trivial
    | three hm => exact hham hm rfl
  have hop : ∀ tau, ∀ v, (pairMatvec N ham A k (KL k) (KR (k + 2)) tau (tens2 v)).map flat2
      = some ((tau • effM (pairT (N := N) A h0 hN k) (Matrix.of (ham.total (N := N)))) *ᵥ v) := by
    intro tau
    rcases pair_op h0 hN k hk hD hB hterms (lefts_spec ham A k hKL).1 (rights_spec ham A (k + 2) (by omega) hKR).1 tau with
      hop | hop
    · have h1 := hop 0
      rw [Option.map_eq_none_iff, ← Option.not_isSome_iff_eq_none, pair_isSome ham A k hk] at h1
      exact absurd (fun j _ _ h => hhas j h) h1
    · exact hop
  have hv : flat2 (calcAA (A k) (A (k + 1))) ≠ 0 := by
    intro e
    refine hA ?_
    rw [psi_eq_pairT A h0 hN k hk, e, map_zero]
  refine ⟨KL, KR, hKL, hKR, fun fac step => ?_, fun hH => ?_⟩
  · obtain ⟨w, hw⟩ := Option.isSome_iff_exists.1 (hLr.expmv _ _ step _ (by simpa using hdim) hv (hop fac))
    rw [evolveAA, hw]
    refine finish_isSome A k right (hsvd _) fun e => ?_
    have hw' := hL.expmv_eq _ _ _ _ _ (hop fac) hw
    rw [show w = 0 from congrArg flat2 e] at hw'
    exact mulVec_exp_ne _ hv hw'.symm
  · have h1 : ∀ v, (pairMatvec N ham A k (KL k) (KR (k + 2)) 1 (tens2 v)).map flat2
        = some (effM (pairT (N := N) A h0 hN k) (Matrix.of (ham.total (N := N))) *ᵥ v) := by
      intro v
      rw [hop, one_smul]
    obtain ⟨w, hw⟩ := Option.isSome_iff_exists.1 (hLr.eigsh _ _ _ (by simpa using hdim) hv (effM_herm _ hH) h1)
    rw [optAA, hw]
    refine finish_isSome A k right (hsvd _) fun e => ?_
    exact (hL.eigsh_eq _ _ _ _ (effM_herm _ hH) h1 hw).1 (congrArg flat2 e)

/-- **C59** (default arguments).  With the default `D_max=None`, or with the default `min_schmidt=None` and a positive
`D_max`, the two-site steps raise. -/
theorem C59_default_raises (svd : Svd) (L : Solvers) (ham : Ham ℂ q) (fac : ℂ) (A : Tensors ℂ q D) (KL KR : OptEnvs ℂ D)
    (k : ℕ) (step : ℝ) (right : Bool) (hq : 0 < q k * D k ∧ 0 < q (k + 1) * D (k + 2)) (Dmax : Option ℕ)
    (minS : Option ℝ) (h : Dmax = none ∨ (Dmax ≠ some 0 ∧ minS = none)) :
    evolveAA svd L N ham fac Dmax minS A KL KR k step right = none ∧
      optAA svd L N ham Dmax minS A KL KR k right = none := by
  have key : ∀ X, finish svd A k Dmax minS right X = none := by
    intro X
    rw [Option.eq_none_iff_forall_ne_some]
    intro R hR
    obtain ⟨P, hP, -⟩ := finish_cases hR
    obtain ⟨-, -, ⟨sv, -, -, hsv⟩, -, ⟨Dm, hDm, hle, hcut⟩, hlen, -⟩ := C59_split svd X Dmax minS P hP
    rcases h with h | ⟨h1, h2⟩
    · rw [h] at hDm
      exact absurd hDm (by simp)
    · rcases Nat.eq_zero_or_pos P.d with hd | hd
      · have hne : P.rest ≠ [] := by
          intro hr
          rw [hr, hd] at hlen
          simp only [List.length_nil] at hlen
          omega
        obtain ⟨x, hx⟩ := List.exists_mem_of_ne_nil _ hne
        have : 0 < Dm := Nat.pos_of_ne_zero fun e => h1 (by rw [hDm, e])
        obtain ⟨e, he, -⟩ := hcut (by omega) x hx
        rw [h2] at he
        exact absurd he (by simp)
      · obtain ⟨-, ⟨e, he, -⟩, -⟩ := hsv ⟨0, hd⟩
        rw [h2] at he
        exact absurd he (by simp)
  rw [evolveAA, optAA]
  constructor <;>
  · rw [Option.bind_eq_none_iff]
    intro w _
    exact key _

/-- **C59** (too large a threshold).  If `min_schmidt` exceeds the norm of the state before the truncation, no Schmidt
coefficient is kept: the bond dimension becomes 0 and the state of the chain the zero vector, whatever the state was. -/
theorem C59_threshold (svd : Svd) (h0 : D 0 = 1) (hN : D N = 1) (k : ℕ) (hk : k + 1 < N) (hD : 0 < D (k + 1))
    (A : Tensors ℂ q D) (hAL : ∀ n < k, LOrth (A n)) (hAR : ∀ n, k + 1 < n → n < N → ROrth (A n))
    (Dm : ℕ) (e : ℝ) (right : Bool) (X : Pairs ℂ q D) (he : 0 ≤ e) (hX : normSq (twoSite (N := N) A h0 hN X k) < e ^ 2)
    (R : Res q) (hR : finish svd A k (some Dm) (some e) right (X k) = some R) :
    R.D (k + 1) = 0 ∧ ∃ (h0' : R.D 0 = 1) (hN' : R.D N = 1), psi (N := N) R.A h0' hN' = 0 := by
  obtain ⟨P, hP, -, hRe⟩ := finish_cases hR
  obtain ⟨f1, f2, f3, h0', hN', χ, htr, hpsi, hne⟩ := finish_spec h0 hN hk hD ⟨hAL, hAR⟩ hR
  have hd : P.d = 0 := by
    by_contra hd
    obtain ⟨-, -, ⟨sv, hG, -, hsv⟩, -⟩ := C59_split svd _ _ _ P hP
    obtain ⟨h1, ⟨e', he', h2⟩, -⟩ := hsv ⟨0, Nat.pos_of_ne_zero hd⟩
    obtain rfl := Option.some.inj he'
    obtain ⟨htr', hnorm⟩ := truncated h0 hN hk hD ⟨hAL, hAR⟩ hP
    have h3 := (C59_overlap _ _ _ _ _ htr').1
    rw [pairT_flat, normSq, hnorm, hG, adot_eq_trace, Matrix.diagonal_conjTranspose, Matrix.diagonal_mul_diagonal,
      Matrix.trace_diagonal, Complex.re_sum] at h3
    have h4 : e ^ 2 ≤ ∑ l : Fin P.d, ((star fun l => (sv l : ℂ)) l * (sv l : ℂ)).re := by
      refine le_trans ?_ (Finset.single_le_sum (f := fun l : Fin P.d => ((star fun l => (sv l : ℂ)) l * (sv l : ℂ)).re)
        (fun l _ => ?_) (Finset.mem_univ ⟨0, Nat.pos_of_ne_zero hd⟩))
      · simp only [Pi.star_apply, Complex.star_def, Complex.conj_ofReal, ← Complex.ofReal_mul, Complex.ofReal_re]
        nlinarith
      · simp only [Pi.star_apply, Complex.star_def, Complex.conj_ofReal, ← Complex.ofReal_mul, Complex.ofReal_re]
        exact mul_self_nonneg _
    nlinarith [sq_nonneg (truncErr P.rest)]
  have hRD : R.D (k + 1) = 0 := by
    rw [hRe]
    dsimp only
    rw [Function.update_self, hd]
  refine ⟨hRD, h0', hN', ?_⟩
  obtain ⟨u, v, -, -, h⟩ := psi_rank (N := N) R.A h0' hN' (k + 1) (by omega)
  funext s
  rw [h s]
  refine Finset.sum_eq_zero fun l _ => ?_
  exact absurd l.2 (by omega)

end

/-! ## Three spins -/

namespace Ex59

open Ex58

theorem returns (g : ℝ) (Dm : ℕ) (e : ℝ) (right : Bool) : ∃ KL KR, lefts (ising g) chain 0 = some KL ∧
    rights 3 (ising g) chain 2 = some KR ∧
    (∀ fac step, (evolveAA someSvd exactSolvers 3 (ising g) fac (some Dm) (some e) chain KL KR 0 step right).isSome) ∧
    (optAA someSvd exactSolvers 3 (ising g) (some Dm) (some e) chain KL KR 0 right).isSome := by
  obtain ⟨KL, KR, h1, h2, h3, h4⟩ := C59_returns_partial someSvd (fun _ => rfl) exactSolvers exactSolvers_ok
    exactSolvers_returns (ising g) (N := 3) rfl rfl 0 (by omega) (by decide) (by decide) (fun hm h => by cases h)
    (fun j _ => ising_has g j) chain (fun n hn => absurd hn (by omega)) (fun n h1 h2 => chain_R n (by omega) h2) chain_psi
    Dm e right
  exact ⟨KL, KR, h1, h2, h3, h4 (ising_herm g)⟩

/-- The first pair of three spins: both steps return a normalised chain if the dimension of the bond is not 0. -/
example (g step : ℝ) (fac : ℂ) (right : Bool) : ∃ (KL KR : OptEnvs ℂ dims) (R R' : Res fun _ => 2),
    evolveAA someSvd exactSolvers 3 (ising g) fac (some 2) (some 0) chain KL KR 0 step right = some R ∧
    optAA someSvd exactSolvers 3 (ising g) (some 2) (some 0) chain KL KR 0 right = some R' ∧
    R.err = 0 ∧ R'.err = 0 := by
  obtain ⟨KL, KR, h1, h2, h3, h4⟩ := returns g 2 0 right
  obtain ⟨R, hR⟩ := Option.isSome_iff_exists.1 (h3 fac step)
  obtain ⟨R', hR'⟩ := Option.isSome_iff_exists.1 h4
  refine ⟨KL, KR, R, R', hR, hR', ?_, ?_⟩
  · obtain ⟨w, hw, hf⟩ := Option.bind_eq_some_iff.1 hR
    exact (C59_exact someSvd (N := 3) rfl rfl 0 (by omega) (by decide) chain (fun n hn => absurd hn (by omega))
      (fun n h1 h2 => chain_R n (by omega) h2) 2 0 (by decide) le_rfl right (onlyAt 0 (tens2 w)) R
      (by rw [onlyAt_self]; exact hf)).1
  · obtain ⟨w, hw, hf⟩ := Option.bind_eq_some_iff.1 hR'
    exact (C59_exact someSvd (N := 3) rfl rfl 0 (by omega) (by decide) chain (fun n hn => absurd hn (by omega))
      (fun n h1 h2 => chain_R n (by omega) h2) 2 0 (by decide) le_rfl right (onlyAt 0 (tens2 w)) R'
      (by rw [onlyAt_self]; exact hf)).1

end Ex59

open Ex58 Ex59 in
/-- **C59** is false without the condition that a Schmidt coefficient is kept: the step returns, and the state, which was
not 0, has become the zero vector. -/
theorem C59_norm_violated : ∃ (svd : Svd) (L : Solvers) (ham : Ham ℂ fun _ => 2) (A : Tensors ℂ (fun _ => 2) dims)
    (KL KR : OptEnvs ℂ dims) (e : ℝ) (R : Res fun _ => 2) (h0 : R.D 0 = 1) (hN : R.D 3 = 1),
    L.Ok ∧ lefts ham A 0 = some KL ∧ rights 3 ham A 2 = some KR ∧ psi (N := 3) A rfl rfl ≠ 0 ∧
    evolveAA svd L 3 ham Complex.I (some 2) (some e) A KL KR 0 1 true = some R ∧
    R.D 1 = 0 ∧ psi (N := 3) R.A h0 hN = 0 := by
  obtain ⟨KL, KR, h1, h2, h3, -⟩ := returns 1 2 0 true
  obtain ⟨R0, hR0⟩ := Option.isSome_iff_exists.1 (h3 Complex.I 1)
  obtain ⟨w, hw, -⟩ := Option.bind_eq_some_iff.1 hR0
  have hn : 0 ≤ normSq (twoSite (N := 3) chain rfl rfl (onlyAt 0 (tens2 w)) 0) := by
    rw [normSq, braket_dot, dot_self, Complex.ofReal_re]
    positivity
  obtain ⟨KL', KR', h1', h2', h3', -⟩ := returns 1 2 (normSq (twoSite (N := 3) chain rfl rfl (onlyAt 0 (tens2 w)) 0) + 1)
    true
  obtain rfl := Option.some.inj (h1.symm.trans h1')
  obtain rfl := Option.some.inj (h2.symm.trans h2')
  obtain ⟨R, hR⟩ := Option.isSome_iff_exists.1 (h3' Complex.I 1)
  obtain ⟨w', hw', hf⟩ := Option.bind_eq_some_iff.1 hR
  obtain rfl := Option.some.inj (hw.symm.trans hw')
  obtain ⟨h4, h0, hN, h5⟩ := C59_threshold someSvd (N := 3) rfl rfl 0 (by omega) (by decide) chain
    (fun n hn => absurd hn (by omega)) (fun n h1 h2 => chain_R n (by omega) h2) 2
    (normSq (twoSite (N := 3) chain rfl rfl (onlyAt 0 (tens2 w)) 0) + 1) true (onlyAt 0 (tens2 w))
    (by linarith) (by nlinarith) R (by rw [onlyAt_self]; exact hf)
  exact ⟨someSvd, exactSolvers, ising 1, chain, KL, KR, _, R, h0, hN, exactSolvers_ok, h1, h2, chain_psi, hR, h4, h5⟩

end EvoMPS
