import Verif.SweepLin
import Verif.EffOpsMore
import Verif.SplitStepLemmas

/-!
# The sweep keeps the central gauge and the accumulated matrices (helper lemmas)
-/

set_option linter.unusedSectionVars false

namespace EvoMPS

open Matrix Split Eff

namespace Sweep

section
variable {q D : ℕ → ℕ} {N : ℕ}

/-! ## The isometries -/

theorem oneSite_smul (A : Tensors ℂ q D) (h0 : D 0 = 1) (hN : D N = 1) {k : ℕ} (hk : k < N) (c : ℂ)
    (b : Fin (q k) → Matrix (Fin (D k)) (Fin (D (k + 1))) ℂ)
    (s : Cfg q N) : oneSite A h0 hN k (c • b) s = c * oneSite A h0 hN k b s := by
  obtain ⟨j, rfl⟩ := Nat.exists_eq_add_of_lt hk
  obtain ⟨T, hT⟩ := amp_update A k j
  have e : k + j + 1 = k + 1 + j := by omega
  revert hN s hk
  rw [e]
  intro hN hk s
  simp only [oneSite, psi, hT, Pi.smul_apply, Matrix.mul_smul, Matrix.smul_mul, Matrix.smul_apply, smul_eq_mul]

theorem tens_flatT {p a b : ℕ} (X : Ten ℂ p a b) : tens (flatT X) = X := rfl
theorem flatT_tens {p a b : ℕ} (v : Fin p × Fin a × Fin b → ℂ) : flatT (tens v) = v := rfl
theorem mat_flatM {a b : ℕ} (X : Matrix (Fin a) (Fin b) ℂ) : mat (flatM X) = X := rfl
theorem flatM_mat {a b : ℕ} (v : Fin a × Fin b → ℂ) : flatM (mat v) = v := rfl

theorem pair_flat {p a b : ℕ} (X Y : Ten ℂ p a b) : pair X Y = star (flatT Y) ⬝ᵥ flatT X := by
  simp only [pair, Matrix.trace, Matrix.diag_apply, Matrix.mul_apply, Matrix.conjTranspose_apply, dotProduct,
    Fintype.sum_prod_type, flatT, Pi.star_apply]
  exact Finset.sum_congr rfl fun s _ => Finset.sum_congr rfl fun i _ => Finset.sum_congr rfl fun j _ => mul_comm _ _

theorem trace_flat {a b : ℕ} (X Y : Matrix (Fin a) (Fin b) ℂ) : (X * Yᴴ).trace = star (flatM Y) ⬝ᵥ flatM X := by
  simp only [Matrix.trace, Matrix.diag_apply, Matrix.mul_apply, Matrix.conjTranspose_apply, dotProduct,
    Fintype.sum_prod_type, flatM, Pi.star_apply]
  exact Finset.sum_congr rfl fun i _ => Finset.sum_congr rfl fun j _ => mul_comm _ _

/-- The state as a function of the tensor of site `k`. -/
noncomputable def siteT (A : Tensors ℂ q D) (h0 : D 0 = 1) (hN : D N = 1) (k : ℕ) (hk : k < N) :
    (Fin (q k) × Fin (D k) × Fin (D (k + 1)) → ℂ) →ₗ[ℂ] (Cfg q N → ℂ) where
  toFun v := oneSite A h0 hN k (tens v)
  map_add' x y := by
    funext s
    exact oneSite_add A h0 hN hk (tens x) (tens y) s
  map_smul' c x := by
    funext s
    exact oneSite_smul A h0 hN hk c (tens x) s

theorem siteT_range (A : Tensors ℂ q D) (h0 : D 0 = 1) (hN : D N = 1) (k : ℕ) (hk : k < N) :
    Set.range (siteT A h0 hN k hk) = siteSpace A h0 hN k := by
  ext ψ
  constructor
  · rintro ⟨v, rfl⟩
    exact ⟨tens v, rfl⟩
  · rintro ⟨X, rfl⟩
    exact ⟨flatT X, rfl⟩

theorem siteT_iso {A : Tensors ℂ q D} (h0 : D 0 = 1) (hN : D N = 1) (k : ℕ) (hk : k < N) (hA : Central N A k) :
    Iso (siteT A h0 hN k hk) :=
  ⟨fun x y => (site_inner h0 hN k hk (tens x) (tens y) hA.1 hA.2).trans (pair_flat _ _)⟩

/-- The state as a function of the matrix behind site `k`. -/
noncomputable def bondT (A : Tensors ℂ q D) (h0 : D 0 = 1) (hN : D N = 1) (k : ℕ) (hk : k < N) :
    (Fin (D (k + 1)) × Fin (D (k + 1)) → ℂ) →ₗ[ℂ] (Cfg q N → ℂ) where
  toFun v := oneSite A h0 hN k fun s => A k s * mat v
  map_add' x y := by
    funext s
    rw [show (fun s => A k s * mat (x + y)) = (fun s => A k s * mat x) + fun s => A k s * mat y from
      funext fun s => Matrix.mul_add (A k s) (mat x) (mat y)]
    exact oneSite_add A h0 hN hk _ _ s
  map_smul' c x := by
    funext s
    rw [show (fun s => A k s * mat (c • x)) = c • fun s => A k s * mat x from
      funext fun s => Matrix.mul_smul (A k s) c (mat x)]
    exact oneSite_smul A h0 hN hk c _ s

theorem bondT_range (A : Tensors ℂ q D) (h0 : D 0 = 1) (hN : D N = 1) (k : ℕ) (hk : k < N) :
    Set.range (bondT A h0 hN k hk) = bondSpace A h0 hN k := by
  ext ψ
  constructor
  · rintro ⟨v, rfl⟩
    exact ⟨mat v, rfl⟩
  · rintro ⟨X, rfl⟩
    exact ⟨flatM X, rfl⟩

theorem bondT_iso {A : Tensors ℂ q D} (h0 : D 0 = 1) (hN : D N = 1) (k : ℕ) (hk : k + 1 < N) (hA : Central N A k)
    (hk' : LOrth (A k)) : Iso (bondT A h0 hN k (by omega)) :=
  ⟨fun x y => (bond_inner h0 hN k hk (mat x) (mat y) (fun n hn => by
    rcases Nat.lt_or_ge n k with h | h
    · exact hA.1 n h
    · obtain rfl : n = k := by omega
      exact hk') hA.2).trans (trace_flat _ _)⟩

/-! ## Orthonormalisation of one tensor -/

theorem orthLeft_spec {qr : QR ℂ} {p a b : ℕ} {X : Ten ℂ p a b} {QG} (h : orthLeft qr X = some QG) :
    LOrth QG.1 ∧ ∀ s, QG.1 s * QG.2 = X s := by
  unfold orthLeft at h
  split at h
  · next hle =>
    obtain rfl := Option.some.inj h
    set GA : Matrix (Fin (p * a)) (Fin b) ℂ := Matrix.of fun i j => X i.divNat i.modNat j with hGA
    have e : b = min (p * a) b := (min_eq_right hle).symm
    refine ⟨?_, fun s => ?_⟩
    · have h1 := qr.iso GA
      rw [LOrth]
      ext i j
      have h2 := congrFun (congrFun h1 (Fin.cast e i)) (Fin.cast e j)
      rw [Matrix.mul_apply, ← finProdFinEquiv.sum_comp, Fintype.sum_prod_type] at h2
      rw [Matrix.sum_apply]
      simp only [Matrix.mul_apply, Matrix.conjTranspose_apply, Matrix.of_apply, flat_eq] at h2 ⊢
      rw [h2, Matrix.one_apply, Matrix.one_apply]
      simp only [Fin.ext_iff, Fin.val_cast]
    · have h1 := qr.mul_eq GA
      ext i j
      have h2 := congrFun (congrFun h1 (flat s i)) j
      rw [Matrix.mul_apply] at h2 ⊢
      rw [hGA, Matrix.of_apply, flat_divNat, flat_modNat, ← hGA] at h2
      rw [← h2]
      exact (finCongr e).sum_comp fun x => qr.Q GA (flat s i) x * qr.fac GA x j
  · exact absurd h (by simp)

theorem orthRight_spec {qr : QR ℂ} {p a b : ℕ} {X : Ten ℂ p a b} {QG} (h : orthRight qr X = some QG) :
    ROrth QG.1 ∧ ∀ s, QG.2 * QG.1 s = X s := by
  unfold orthRight at h
  split at h
  · next hle =>
    obtain rfl := Option.some.inj h
    set AG : Matrix (Fin (p * b)) (Fin a) ℂ := Matrix.of fun i j => (X i.divNat)ᴴ i.modNat j with hAG
    have e : a = min (p * b) a := (min_eq_right hle).symm
    refine ⟨?_, fun s => ?_⟩
    · have h1 := qr.iso AG
      rw [ROrth]
      ext i j
      have h2 := congrFun (congrFun h1 (Fin.cast e i)) (Fin.cast e j)
      rw [Matrix.mul_apply, ← finProdFinEquiv.sum_comp, Fintype.sum_prod_type] at h2
      rw [Matrix.sum_apply]
      simp only [Matrix.mul_apply, Matrix.conjTranspose_apply, Matrix.of_apply, flat_eq, star_star] at h2 ⊢
      rw [h2, Matrix.one_apply, Matrix.one_apply]
      simp only [Fin.ext_iff, Fin.val_cast]
    · have h1 := qr.mul_eq AG
      ext i j
      have h2 := congrFun (congrFun h1 (flat s j)) i
      rw [Matrix.mul_apply] at h2
      rw [hAG, Matrix.of_apply, flat_divNat, flat_modNat, ← hAG, Matrix.conjTranspose_apply] at h2
      have h3 := congrArg star h2
      rw [star_star, star_sum] at h3
      rw [← h3, Matrix.mul_apply]
      refine Eq.trans ?_ ((finCongr e).sum_comp fun x => star (qr.Q AG (flat s j) x * qr.fac AG x i))
      refine Finset.sum_congr rfl fun x _ => ?_
      rw [star_mul']
      simp only [Matrix.conjTranspose_apply, Matrix.submatrix_apply, Matrix.of_apply, id, finCongr_apply]
      exact mul_comm _ _
  · exact absurd h (by simp)

/-! ## The accumulated matrices -/

theorem hl_congr (ham : Ham ℂ q) {A B : Tensors ℂ q D} (i : ℕ) (h : ∀ n < i + ham.sites, B n = A n) :
    hl ham B i = hl ham A i := by
  cases ham with
  | two hm =>
    have h1 := h i (by simp only [Ham.sites]; omega)
    have h2 := h (i + 1) (by simp only [Ham.sites]; omega)
    unfold hl
    dsimp only
    rw [h1, h2]
  | three hm =>
    have h1 := h i (by simp only [Ham.sites]; omega)
    have h2 := h (i + 1) (by simp only [Ham.sites]; omega)
    have h3 := h (i + 2) (by simp only [Ham.sites]; omega)
    unfold hl
    dsimp only
    rw [h1, h2, h3]

theorem hr_congr (ham : Ham ℂ q) {A B : Tensors ℂ q D} (i : ℕ) (h : ∀ n, i ≤ n → n < i + ham.sites → B n = A n) :
    hr ham B i = hr ham A i := by
  cases ham with
  | two hm =>
    have h1 := h i le_rfl (by simp only [Ham.sites]; omega)
    have h2 := h (i + 1) (by omega) (by simp only [Ham.sites]; omega)
    unfold hr
    dsimp only
    rw [h1, h2]
  | three hm =>
    have h1 := h i le_rfl (by simp only [Ham.sites]; omega)
    have h2 := h (i + 1) (by omega) (by simp only [Ham.sites]; omega)
    have h3 := h (i + 2) (by omega) (by simp only [Ham.sites]; omega)
    unfold hr
    dsimp only
    rw [h1, h2, h3]

theorem IsLeft.congr {ham : Ham ℂ q} {A B : Tensors ℂ q D} {k j : ℕ} {K : Envs ℂ D} (h : IsLeft ham A k K) (hj : j ≤ k)
    (hAB : ∀ n < j, B n = A n) : IsLeft ham B j K := by
  refine ⟨h.small, fun i hi => ?_⟩
  have hs := sites_pos ham
  rw [h.step i (by omega), hAB _ (by omega), hl_congr ham i fun n hn => hAB n (by omega)]

theorem IsRight.congr {ham : Ham ℂ q} {A B : Tensors ℂ q D} {k j : ℕ} {K : Envs ℂ D} (h : IsRight N ham A k K)
    (hj : k ≤ j) (hAB : ∀ n, j ≤ n → n < N → B n = A n) : IsRight N ham B j K := by
  intro n h1 h2
  have hs := sites_pos ham
  rw [h n (by omega) h2]
  split
  · next hle =>
    rw [hAB n h1 (by omega), hr_congr ham n fun m a b => hAB m (by omega) (by omega)]
  · rfl

theorem heffLeft_val {ham : Ham ℂ q} {A : Tensors ℂ q D} {KL KL' : OptEnvs ℂ D} {k : ℕ}
    (h : heffLeft ham A KL k = some KL') :
    (∀ n, n ≠ k + 1 → KL' n = KL n) ∧ (k + 1 < ham.sites → KL' = KL) ∧
    ∀ j, j + (ham.sites - 1) = k → (KL' (j + (ham.sites - 1) + 1)).getD 0
      = epsL ((KL (j + (ham.sites - 1))).getD 0) (A (j + (ham.sites - 1))) (A (j + (ham.sites - 1))) + hl ham A j := by
  cases ham with
  | two hm =>
    cases k with
    | zero =>
      obtain rfl := Option.some.inj h
      exact ⟨fun _ _ => rfl, fun _ => rfl, fun j hj => by simp only [Ham.sites] at hj; omega⟩
    | succ k =>
      obtain ⟨op, ho, rfl⟩ := Option.map_eq_some_iff.1 h
      refine ⟨fun n hn => Function.update_of_ne hn _ _, fun hk => by simp only [Ham.sites] at hk; omega, fun j hj => ?_⟩
      simp only [Ham.sites] at hj ⊢
      obtain rfl : j = k := by omega
      rw [Function.update_self]
      simp only [hl, ho]
      rfl
  | three hm =>
    match k with
    | 0 =>
      obtain rfl := Option.some.inj h
      exact ⟨fun _ _ => rfl, fun _ => rfl, fun j hj => by simp only [Ham.sites] at hj; omega⟩
    | 1 =>
      obtain rfl := Option.some.inj h
      exact ⟨fun _ _ => rfl, fun _ => rfl, fun j hj => by simp only [Ham.sites] at hj; omega⟩
    | k + 2 =>
      obtain ⟨op, ho, rfl⟩ := Option.map_eq_some_iff.1 h
      refine ⟨fun n hn => Function.update_of_ne hn _ _, fun hk => by simp only [Ham.sites] at hk; omega, fun j hj => ?_⟩
      simp only [Ham.sites] at hj ⊢
      obtain rfl : j = k := by omega
      rw [Function.update_self]
      simp only [hl, ho]
      rfl

theorem heffRight_val {ham : Ham ℂ q} {A : Tensors ℂ q D} {KR KR' : OptEnvs ℂ D} {k : ℕ}
    (h : heffRight N ham A KR k = some KR') :
    (∀ n, n ≠ k → KR' n = KR n) ∧ (N < k + ham.sites → KR' = KR) ∧
    (k + ham.sites ≤ N → (KR' k).getD 0 = epsR ((KR (k + 1)).getD 0) (A k) (A k) + hr ham A k) := by
  cases ham with
  | two hm =>
    simp only [heffRight] at h
    simp only [Ham.sites]
    split at h
    · obtain ⟨op, ho, rfl⟩ := Option.map_eq_some_iff.1 h
      refine ⟨fun n hn => Function.update_of_ne hn _ _, fun hk => by omega, fun hj => ?_⟩
      rw [Function.update_self]
      simp only [hr, ho]
      rfl
    · obtain rfl := Option.some.inj h
      exact ⟨fun _ _ => rfl, fun _ => rfl, fun _ => by omega⟩
  | three hm =>
    simp only [heffRight] at h
    simp only [Ham.sites]
    split at h
    · obtain ⟨op, ho, rfl⟩ := Option.map_eq_some_iff.1 h
      refine ⟨fun n hn => Function.update_of_ne hn _ _, fun hk => by omega, fun hj => ?_⟩
      rw [Function.update_self]
      simp only [hr, ho]
      rfl
    · obtain rfl := Option.some.inj h
      exact ⟨fun _ _ => rfl, fun _ => rfl, fun _ => by omega⟩

theorem heffLeft_spec {ham : Ham ℂ q} {A : Tensors ℂ q D} {KL KL' : OptEnvs ℂ D} {k l : ℕ} (hkl : k ≤ l)
    (hK : IsLeft ham A l fun n => (KL n).getD 0) (h : heffLeft ham A KL k = some KL') :
    IsLeft ham A (max l (k + 1)) fun n => (KL' n).getD 0 := by
  have hs := sites_pos ham
  obtain ⟨v1, v2, v3⟩ := heffLeft_val h
  by_cases hsm : k + 1 < ham.sites
  · rw [v2 hsm]
    refine ⟨hK.small, fun j hj => hK.step j ?_⟩
    rcases le_max_iff.1 hj with h | h
    · exact h
    · omega
  rcases Nat.lt_or_ge k l with hlt | hge
  · rw [max_eq_left (by omega)]
    have : ∀ n, (KL' n).getD 0 = (KL n).getD 0 := by
      intro n
      by_cases hn : n = k + 1
      · subst hn
        obtain ⟨j, rfl⟩ : ∃ j, k = j + (ham.sites - 1) := ⟨k - (ham.sites - 1), by omega⟩
        rw [v3 j rfl]
        exact (hK.step j (by omega)).symm
      · rw [v1 n hn]
    simpa only [this] using hK
  · obtain rfl : k = l := by omega
    rw [max_eq_right (by omega)]
    refine ⟨fun n hn => ?_, fun j hj => ?_⟩
    · rw [v1 n (by omega)]
      exact hK.small n hn
    · rcases Nat.lt_or_ge (j + (ham.sites - 1)) k with hlt | hge
      · rw [v1 _ (by omega), v1 _ (by omega)]
        exact hK.step j (by omega)
      · obtain rfl : k = j + (ham.sites - 1) := by omega
        rw [v3 j rfl, v1 (j + (ham.sites - 1)) (by omega)]

theorem heffRight_spec {ham : Ham ℂ q} {A : Tensors ℂ q D} {KR KR' : OptEnvs ℂ D} {k l : ℕ} (hkl : l ≤ k + 1)
    (hK : IsRight N ham A l fun n => (KR n).getD 0) (hlast : ∀ n, N < n + ham.sites → (KR n).getD 0 = 0)
    (h : heffRight N ham A KR k = some KR') :
    IsRight N ham A (min l k) (fun n => (KR' n).getD 0) ∧ ∀ n, N < n + ham.sites → (KR' n).getD 0 = 0 := by
  have hs := sites_pos ham
  obtain ⟨v1, v2, v3⟩ := heffRight_val h
  by_cases hsm : N < k + ham.sites
  · rw [v2 hsm]
    refine ⟨fun n h1 h2 => ?_, hlast⟩
    rcases Nat.lt_or_ge n l with hlt | hge
    · dsimp only
      rw [if_neg (by omega), hlast n (by omega)]
    · exact hK n hge h2
  refine ⟨?_, fun n hn => by rw [v1 n (by omega)]; exact hlast n hn⟩
  rcases Nat.lt_or_ge k l with hlt | hge
  · rw [min_eq_right (by omega)]
    intro n h1 h2
    dsimp only
    rcases Nat.lt_or_ge k n with hlt' | hge'
    · rw [v1 n (by omega), v1 (n + 1) (by omega)]
      exact hK n (by omega) h2
    · obtain rfl : n = k := by omega
      rw [v1 (n + 1) (by omega), if_pos (by omega), v3 (by omega)]
  · rw [min_eq_left (by omega)]
    have : ∀ n, (KR' n).getD 0 = (KR n).getD 0 := by
      intro n
      by_cases hn : n = k
      · subst hn
        rw [v3 (by omega)]
        have := hK n hge (by omega)
        dsimp only at this
        rw [if_pos (by omega)] at this
        exact this.symm
      · rw [v1 n hn]
    simpa only [this] using hK

end

end Sweep

end EvoMPS
