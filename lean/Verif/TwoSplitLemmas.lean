import Verif.TwoSplit
import Verif.TwoSplitSpec
import Verif.LowRank
import Verif.SweepLemmas
import Verif.EffOpsPair
import Verif.SchmidtLemmas

/-!
# The two-site operations (helper lemmas)
-/

set_option linter.unusedSectionVars false

namespace EvoMPS

open Matrix Eff Sweep

namespace TwoSplit

/-! ## The number of singular values kept -/

theorem cutAt_spec (minS : Option ℝ) : ∀ (l : List ℝ) (d : ℕ), cutAt minS l = some d →
    d ≤ l.length ∧ (∀ i (_ : i < d) (hl : i < l.length), ∃ e, minS = some e ∧ e ≤ l[i]) ∧
      ∀ hd : d < l.length, ∃ e, minS = some e ∧ l[d] < e
  | [], d, h => by
    obtain rfl := Option.some.inj h
    simp
  | x :: xs, d, h => by
    rw [cutAt] at h
    obtain ⟨e, he, h⟩ := Option.bind_eq_some_iff.1 h
    split at h
    · next hx =>
      obtain rfl := Option.some.inj h
      exact ⟨by simp, by simp, fun _ => ⟨e, he, hx⟩⟩
    · next hx =>
      obtain ⟨d', h', rfl⟩ := Option.map_eq_some_iff.1 h
      obtain ⟨h1, h2, h3⟩ := cutAt_spec minS xs d' h'
      refine ⟨by simpa using h1, fun i hi hl => ?_, fun hd => ?_⟩
      · cases i with
        | zero => exact ⟨e, he, not_lt.1 hx⟩
        | succ i => exact h2 i (by omega) (by simpa using hl)
      · exact h3 (by simpa using hd)

theorem cutAt_isSome (e : ℝ) : ∀ l : List ℝ, (cutAt (some e) l).isSome
  | [] => rfl
  | x :: xs => by
    rw [cutAt, Option.bind_some]
    split
    · rfl
    · rw [Option.isSome_map]
      exact cutAt_isSome e xs

theorem keep_spec {m : ℕ} {Dmax : Option ℕ} {minS : Option ℝ} {s : Fin m → ℝ} {d : ℕ}
    (h : keep Dmax minS (List.ofFn s) = some d) :
    d ≤ m ∧ ∃ Dm, Dmax = some Dm ∧ d ≤ Dm ∧ (∀ i : Fin m, (i : ℕ) < d → ∃ e, minS = some e ∧ e ≤ s i) ∧
      ∀ i : Fin m, (i : ℕ) = d → d < Dm → ∃ e, minS = some e ∧ s i < e := by
  obtain ⟨Dm, hDm, h⟩ := Option.bind_eq_some_iff.1 h
  obtain ⟨h1, h2, h3⟩ := cutAt_spec minS _ d h
  simp only [List.length_take, List.length_ofFn] at h1 h2 h3
  refine ⟨by omega, Dm, hDm, by omega, fun i hi => ?_, fun i hi hd => ?_⟩
  · obtain ⟨e, he, hs⟩ := h2 i hi (by omega)
    refine ⟨e, he, ?_⟩
    rw [List.getElem_take, List.getElem_ofFn] at hs
    exact hs
  · subst hi
    obtain ⟨e, he, hs⟩ := h3 (by omega)
    refine ⟨e, he, ?_⟩
    rw [List.getElem_take, List.getElem_ofFn] at hs
    exact hs

/-! ## Matrices and two-site tensors -/

section
variable {p p' a c d : ℕ}

/-- A tensor as a matrix, the first site and the left bond together. -/
def colMat (X : Ten ℂ p a d) : Matrix (Fin (p * a)) (Fin d) ℂ := Matrix.of fun x l => X x.divNat x.modNat l

/-- A tensor as a matrix, the site and the right bond together. -/
def rowMat (X : Ten ℂ p' d c) : Matrix (Fin d) (Fin (p' * c)) ℂ := Matrix.of fun l y => X y.divNat l y.modNat

/-- The tensor for a matrix. -/
def unCol (Y : Matrix (Fin (p * a)) (Fin d) ℂ) : Ten ℂ p a d := fun s => Matrix.of fun i l => Y (flat s i) l
def unRow (Y : Matrix (Fin d) (Fin (p' * c)) ℂ) : Ten ℂ p' d c := fun t => Matrix.of fun l j => Y l (flat t j)

theorem flat_div_mod {m n : ℕ} (x : Fin (m * n)) : flat x.divNat x.modNat = x := by
  obtain ⟨⟨i, j⟩, rfl⟩ := finProdFinEquiv.surjective x
  rw [← flat_eq, flat_divNat, flat_modNat]

theorem colMat_unCol (Y : Matrix (Fin (p * a)) (Fin d) ℂ) : colMat (unCol Y) = Y := by
  ext x l
  simp [colMat, unCol, flat_div_mod]

theorem rowMat_unRow (Y : Matrix (Fin d) (Fin (p' * c)) ℂ) : rowMat (unRow Y) = Y := by
  ext x l
  simp [rowMat, unRow, flat_div_mod]

theorem aaMat_mul (X : Ten ℂ p a d) (Y : Ten ℂ p' d c) : aaMat (fun s t => X s * Y t) = colMat X * rowMat Y := by
  ext x y
  simp [aaMat, colMat, rowMat, Matrix.mul_apply]

theorem aaMat_inj {X Y : Ten2 ℂ p p' a c} (h : aaMat X = aaMat Y) : X = Y := by
  funext s t
  ext i j
  have := congrFun (congrFun h (flat s i)) (flat t j)
  simpa [aaMat] using this

theorem aaMat_sub (X Y : Ten2 ℂ p p' a c) : aaMat (X - Y) = aaMat X - aaMat Y := rfl

theorem adot_aaMat (X Y : Ten2 ℂ p p' a c) : adot (aaMat X) (aaMat Y) = star (flat2 X) ⬝ᵥ flat2 Y := by
  rw [adot_eq_trace, Matrix.trace]
  simp only [Matrix.diag_apply, Matrix.mul_apply, conjTranspose_apply, dotProduct, Fintype.sum_prod_type, sum_flat,
    aaMat, Matrix.of_apply, flat_divNat, flat_modNat, flat2, Pi.star_apply]
  refine (Finset.sum_congr rfl fun t _ => Finset.sum_comm).trans ?_
  rw [Finset.sum_comm]
  exact Finset.sum_congr rfl fun s _ => Finset.sum_congr rfl fun t _ => Finset.sum_comm

theorem LOrth_iff (X : Ten ℂ p a d) : LOrth X ↔ (colMat X)ᴴ * colMat X = 1 := by
  have : (colMat X)ᴴ * colMat X = ∑ s, (X s)ᴴ * X s := by
    ext l l'
    simp [Matrix.mul_apply, Matrix.sum_apply, colMat, sum_flat]
  rw [this, LOrth]

theorem ROrth_iff (X : Ten ℂ p' d c) : ROrth X ↔ rowMat X * (rowMat X)ᴴ = 1 := by
  have : rowMat X * (rowMat X)ᴴ = ∑ s, X s * (X s)ᴴ := by
    ext l l'
    simp [Matrix.mul_apply, Matrix.sum_apply, rowMat, sum_flat]
  rw [this, ROrth]

/-- What `split_twosite` returns. -/
theorem split_spec {svd : Svd} {X : Ten2 ℂ p p' a c} {Dmax : Option ℕ} {minS : Option ℝ} {P : Parts p p' a c}
    (h : splitTwosite svd X Dmax minS = some P) :
    ∃ f, svd (aaMat X) = some f ∧ keep Dmax minS (List.ofFn f.sv) = some P.d ∧
      ∃ hd : P.d ≤ min (p * a) (p' * c), LOrth P.A1 ∧ ROrth P.A2 ∧
        (P.G = Matrix.diagonal fun l : Fin P.d => (f.sv ⟨l, by omega⟩ : ℂ)) ∧
        colMat P.A1 * P.G * rowMat P.A2 = svdMk f (fun k => if (k : ℕ) < P.d then (f.sv k : ℂ) else 0) ∧
        P.rest = (List.ofFn f.sv).drop P.d := by
  obtain ⟨f, hf, h⟩ := Option.bind_eq_some_iff.1 h
  obtain ⟨d, hd, h⟩ := Option.bind_eq_some_iff.1 h
  split at h
  · next hle =>
    obtain rfl := Option.some.inj h
    refine ⟨f, hf, hd, hle, ?_, ?_, rfl, ?_, rfl⟩
    · rw [LOrth_iff]
      ext (l : Fin d) (l' : Fin d)
      have := congrFun (congrFun f.unitU ⟨l, by omega⟩) ⟨l', by omega⟩
      rw [Matrix.mul_apply, Matrix.one_apply] at this
      rw [Matrix.mul_apply, Matrix.one_apply]
      simpa [colMat, flat_div_mod, Fin.ext_iff] using this
    · rw [ROrth_iff]
      ext (l : Fin d) (l' : Fin d)
      have := congrFun (congrFun f.unitV ⟨l, by omega⟩) ⟨l', by omega⟩
      rw [Matrix.mul_apply, Matrix.one_apply] at this
      rw [Matrix.mul_apply, Matrix.one_apply]
      simpa [rowMat, flat_div_mod, Fin.ext_iff] using this
    · ext x y
      rw [Matrix.mul_apply, svdMk, Matrix.of_apply]
      have hsum : ∀ g : Fin (min (p * a) (p' * c)) → ℂ, (∀ k : Fin (min (p * a) (p' * c)), d ≤ (k : ℕ) → g k = 0) →
          ∑ k, g k = ∑ k : Fin d, g ⟨k, by omega⟩ := by
        intro g hg
        have : ∑ k, g k = ∑ k ∈ Finset.univ.filter (fun k : Fin (min (p * a) (p' * c)) => (k : ℕ) < d), g k := by
          rw [Finset.sum_filter]
          refine Finset.sum_congr rfl fun k _ => ?_
          split
          · rfl
          · exact hg k (by omega)
        rw [this]
        symm
        refine Finset.sum_bij (fun k _ => ⟨k, by omega⟩) (by simp) (by simp [Fin.ext_iff]) ?_ (by simp)
        intro b hb
        exact ⟨⟨b, (Finset.mem_filter.mp hb).2⟩, by simp, rfl⟩
      rw [hsum _ fun k hk => by rw [if_neg (not_lt.2 hk)]; ring]
      refine Finset.sum_congr rfl fun k _ => ?_
      rw [if_pos k.2, Matrix.mul_diagonal]
      simp [colMat, rowMat, flat_div_mod]
  · exact absurd h (by simp)

theorem sum_drop {m : ℕ} (s : Fin m → ℝ) (d : ℕ) :
    (((List.ofFn s).drop d).map (· ^ 2)).sum = ∑ i : Fin m, if (i : ℕ) < d then 0 else s i ^ 2 := by
  induction m generalizing d with
  | zero => simp
  | succ m ih =>
    rw [Fin.sum_univ_succ]
    cases d with
    | zero => simp [List.sum_ofFn]
    | succ d =>
      rw [List.ofFn_succ, List.drop_succ_cons, ih]
      simp

theorem truncErr_sq {m : ℕ} (s : Fin m → ℝ) (d : ℕ) :
    truncErr ((List.ofFn s).drop d) ^ 2 = ∑ i : Fin m, if (i : ℕ) < d then 0 else s i ^ 2 := by
  rw [← sum_drop, truncErr]
  split
  · rw [Real.sq_sqrt]
    refine List.sum_nonneg fun x hx => ?_
    obtain ⟨y, -, rfl⟩ := List.mem_map.1 hx
    exact sq_nonneg y
  · next h =>
    have e : (List.ofFn s).drop d = [] := List.length_eq_zero_iff.1 (by omega)
    rw [e]
    simp

theorem truncErr_nonneg (l : List ℝ) : 0 ≤ truncErr l := by
  rw [truncErr]
  split
  · exact Real.sqrt_nonneg _
  · exact le_rfl

end

/-! ## The states of a chain with a free two-site tensor -/

section
variable {q D : ℕ → ℕ} {N : ℕ}

theorem amp2_lin (A : Tensors ℂ q D) (k : ℕ) (X Y Z : Pairs ℂ q D) (b c : ℂ)
    (h : ∀ s t, Z k s t = b • X k s t + c • Y k s t) :
    ∀ n (s : Cfg q n), amp2 A Z k n s = b • amp2 A X k n s + c • amp2 A Y k n s
  | 0, _ => by simp [amp2]
  | 1, _ => by simp [amp2]
  | n + 2, s => by
    simp only [amp2]
    split
    · next hn =>
      subst hn
      rw [h, Matrix.mul_add, Matrix.mul_smul, Matrix.mul_smul]
    · rw [amp2_lin A k X Y Z b c h (n + 1), Matrix.add_mul, Matrix.smul_mul, Matrix.smul_mul]

/-- Two-site tensors of which only one matters. -/
def onlyAt (k : ℕ) (X : Ten2 ℂ (q k) (q (k + 1)) (D k) (D (k + 2))) : Pairs ℂ q D :=
  Function.update (0 : Pairs ℂ q D) k X

theorem onlyAt_self (k : ℕ) (X : Ten2 ℂ (q k) (q (k + 1)) (D k) (D (k + 2))) : onlyAt (q := q) (D := D) k X k = X :=
  Function.update_self _ _ _

theorem twoSite_congr (A : Tensors ℂ q D) (h0 : D 0 = 1) (hN : D N = 1) (k : ℕ) (X Y : Pairs ℂ q D) (h : X k = Y k) :
    twoSite (N := N) A h0 hN X k = twoSite A h0 hN Y k := by
  funext s
  have := amp2_lin A k Y 0 X 1 0 (fun s t => by rw [h]; simp) N s
  rw [twoSite, this]
  simp [twoSite]

/-- The state as a function of the tensor of the sites `k` and `k + 1`. -/
noncomputable def pairT (A : Tensors ℂ q D) (h0 : D 0 = 1) (hN : D N = 1) (k : ℕ) :
    (Fin (q k) × Fin (q (k + 1)) × Fin (D k) × Fin (D (k + 2)) → ℂ) →ₗ[ℂ] (Cfg q N → ℂ) where
  toFun v := twoSite A h0 hN (onlyAt k (tens2 v)) k
  map_add' x y := by
    funext s
    have := amp2_lin A k (onlyAt k (tens2 x)) (onlyAt k (tens2 y)) (onlyAt k (tens2 (x + y))) 1 1
      (fun s t => by
        rw [onlyAt_self, onlyAt_self, onlyAt_self, one_smul, one_smul]
        rfl) N s
    rw [Pi.add_apply, twoSite, this]
    simp [twoSite]
  map_smul' c x := by
    funext s
    have := amp2_lin A k (onlyAt k (tens2 x)) 0 (onlyAt k (tens2 (c • x))) c 0
      (fun s t => by
        rw [onlyAt_self, onlyAt_self, zero_smul, add_zero]
        rfl) N s
    rw [twoSite, this]
    simp [twoSite]

theorem pairT_apply (A : Tensors ℂ q D) (h0 : D 0 = 1) (hN : D N = 1) (k : ℕ) (v) :
    pairT (N := N) A h0 hN k v = twoSite A h0 hN (onlyAt k (tens2 v)) k := rfl

theorem pairT_flat (A : Tensors ℂ q D) (h0 : D 0 = 1) (hN : D N = 1) (k : ℕ) (X : Pairs ℂ q D) :
    pairT (N := N) A h0 hN k (flat2 (X k)) = twoSite A h0 hN X k :=
  twoSite_congr A h0 hN k _ _ (onlyAt_self k _)

theorem pairT_range (A : Tensors ℂ q D) (h0 : D 0 = 1) (hN : D N = 1) (k : ℕ) :
    Set.range (pairT (N := N) A h0 hN k) = pairSpace A h0 hN k := by
  ext ψ
  constructor
  · rintro ⟨v, rfl⟩
    exact ⟨_, rfl⟩
  · rintro ⟨X, rfl⟩
    exact ⟨_, pairT_flat A h0 hN k X⟩

theorem pair2_flat {p p' a c : ℕ} (X Y : Ten2 ℂ p p' a c) : pair2 X Y = star (flat2 Y) ⬝ᵥ flat2 X := by
  simp only [pair2, Matrix.trace, Matrix.diag_apply, Matrix.mul_apply, Matrix.conjTranspose_apply, dotProduct,
    Fintype.sum_prod_type, flat2, Pi.star_apply]
  exact Finset.sum_congr rfl fun s _ => Finset.sum_congr rfl fun t _ => Finset.sum_congr rfl fun i _ =>
    Finset.sum_congr rfl fun j _ => mul_comm _ _

/-- The gauge conditions on the sites beside the pair. -/
def Beside (N : ℕ) (A : Tensors ℂ q D) (k : ℕ) : Prop :=
  (∀ n < k, LOrth (A n)) ∧ ∀ n, k + 1 < n → n < N → ROrth (A n)

theorem pairT_iso {A : Tensors ℂ q D} (h0 : D 0 = 1) (hN : D N = 1) (k : ℕ) (hk : k + 1 < N) (hD : 0 < D (k + 1))
    (hA : Beside N A k) : Iso (pairT (N := N) A h0 hN k) := by
  refine ⟨fun x y => ?_⟩
  rw [pairT_apply, pairT_apply, pair_inner h0 hN k hk hD _ _ hA.1 hA.2, pair2_flat, onlyAt_self, onlyAt_self]
  rfl

/-- The operator of the pair. -/
theorem pair_op {A : Tensors ℂ q D} (h0 : D 0 = 1) (hN : D N = 1) (k : ℕ) (hk : k + 1 < N) (hD : 0 < D (k + 1))
    (hA : Beside N A k) {ham : Ham ℂ q} (hT : Terms N ham k) {KL KR : OptEnvs ℂ D}
    (hKL : IsLeft ham A k fun n => (KL n).getD 0) (hKR : IsRight N ham A (k + 2) fun n => (KR n).getD 0) (tau : ℂ) :
    (∀ v, (pairMatvec N ham A k (KL k) (KR (k + 2)) tau (tens2 v)).map flat2 = none) ∨
    ∀ v, (pairMatvec N ham A k (KL k) (KR (k + 2)) tau (tens2 v)).map flat2
      = some ((tau • effM (pairT (N := N) A h0 hN k) (Matrix.of (ham.total (N := N)))) *ᵥ v) := by
  by_cases hex : ∀ j, j ≤ k + 1 → k < j + ham.sites → j + ham.sites ≤ N → Has ham j
  · right
    refine op_eq _ tau _ (fun x => ?_) fun x y r hr => ?_
    · rw [Option.isSome_map]
      exact (pair_isSome ham A k hk _ _ tau _).2 hex
    · obtain ⟨res, hres, rfl⟩ := Option.map_eq_some_iff.1 hr
      obtain ⟨r, hr', rfl⟩ := Option.map_eq_some_iff.1 hres
      have := pairLocal_eq h0 hN ham k hk hD (onlyAt k (tens2 x)) (onlyAt k (tens2 y)) hT hA.1 hA.2 hKL hKR
        (by rw [onlyAt_self]; exact hr')
      rw [elem2, onlyAt_self, pair2_flat] at this
      change star y ⬝ᵥ (tau • flat2 r) = tau * matElem (twoSite A h0 hN (onlyAt k (tens2 y)) k) ham.total
        (twoSite A h0 hN (onlyAt k (tens2 x)) k)
      rw [this, dotProduct_smul, smul_eq_mul]
      rfl
  · left
    intro v
    rw [Option.map_eq_none_iff, ← Option.not_isSome_iff_eq_none, pair_isSome ham A k hk]
    exact hex

end

end TwoSplit

end EvoMPS
