import Verif.TwoSplitLemmas

/-!
# The truncation as an approximation of the state (helper lemmas)
-/

set_option linter.unusedSectionVars false

namespace EvoMPS

open Matrix Eff Sweep

namespace TwoSplit

section
variable {ι : Type} [Fintype ι] [DecidableEq ι] {q D : ℕ → ℕ} {N : ℕ} {T : (ι → ℂ) →ₗ[ℂ] (Cfg q N → ℂ)}

/-- The adjoint of an isometry does not increase the norm. -/
theorem adj_le (hT : Iso T) (w : Cfg q N → ℂ) :
    (star ((LinearMap.toMatrix' T)ᴴ *ᵥ w) ⬝ᵥ ((LinearMap.toMatrix' T)ᴴ *ᵥ w)).re ≤ normSq w := by
  set W := LinearMap.toMatrix' T with hW
  have hm : Wᴴ * W = 1 := hT.mul
  have h1 : star (Wᴴ *ᵥ w) ⬝ᵥ (Wᴴ *ᵥ w) = star w ⬝ᵥ ((W * Wᴴ) *ᵥ w) := by
    rw [star_mulVec, Matrix.conjTranspose_conjTranspose, ← Matrix.dotProduct_mulVec, Matrix.mulVec_mulVec]
  have h2 : star (w - (W * Wᴴ) *ᵥ w) ⬝ᵥ (w - (W * Wᴴ) *ᵥ w) = star w ⬝ᵥ w - star w ⬝ᵥ ((W * Wᴴ) *ᵥ w) := by
    have hh : (W * Wᴴ)ᴴ = W * Wᴴ := (Matrix.isHermitian_mul_conjTranspose_self W).eq
    have e : star ((W * Wᴴ) *ᵥ w) ⬝ᵥ ((W * Wᴴ) *ᵥ w) = star w ⬝ᵥ ((W * Wᴴ) *ᵥ w) := by
      rw [star_mulVec, hh, ← Matrix.dotProduct_mulVec, Matrix.mulVec_mulVec, Matrix.mul_assoc, ← Matrix.mul_assoc Wᴴ, hm,
        Matrix.one_mul]
    have e' : star ((W * Wᴴ) *ᵥ w) ⬝ᵥ w = star w ⬝ᵥ ((W * Wᴴ) *ᵥ w) := by
      rw [star_mulVec, hh, ← Matrix.dotProduct_mulVec]
    rw [star_sub, sub_dotProduct, dotProduct_sub, dotProduct_sub, e, e']
    ring
  have h3 : 0 ≤ (star (w - (W * Wᴴ) *ᵥ w) ⬝ᵥ (w - (W * Wᴴ) *ᵥ w)).re := by
    rw [dot_self, Complex.ofReal_re]
    positivity
  rw [h2, Complex.sub_re] at h3
  rw [h1, normSq, braket_dot]
  linarith

theorem adj_apply (χ : Cfg q N → ℂ) (i : ι) : ((LinearMap.toMatrix' T)ᴴ *ᵥ χ) i = braket (T (Pi.single i 1)) χ := by
  rw [braket, Matrix.mulVec, dotProduct]
  refine Finset.sum_congr rfl fun s _ => ?_
  rw [Matrix.conjTranspose_apply, LinearMap.toMatrix'_apply]

end

section
variable {q D : ℕ → ℕ} {N : ℕ}

/-- The components of a sum of products form a product of matrices. -/
theorem adj_rank (A : Tensors ℂ q D) (h0 : D 0 = 1) (hN : D N = 1) (k : ℕ) (hk : k + 1 < N) (hD : 0 < D (k + 1)) (d : ℕ)
    (χ : Cfg q N → ℂ) (hχ : CutRank (k + 1) d χ) :
    ∃ (Y : Matrix (Fin (q k * D k)) (Fin d) ℂ) (Z : Matrix (Fin d) (Fin (q (k + 1) * D (k + 2))) ℂ),
      aaMat (tens2 ((LinearMap.toMatrix' (pairT (N := N) A h0 hN k))ᴴ *ᵥ χ)) = Y * Z := by
  classical
  obtain ⟨u, v, hu, hv, hχ⟩ := hχ
  obtain ⟨m, rfl⟩ : ∃ m, N = (k + 1) + m := ⟨N - (k + 1), by omega⟩
  rcases isEmpty_or_nonempty (Cfg q (k + 1 + m)) with hemp | ⟨⟨c0⟩⟩
  · refine ⟨0, 0, ?_⟩
    ext x y
    simp only [aaMat, tens2, Matrix.of_apply, Matrix.zero_mul, Matrix.zero_apply]
    rw [adj_apply, braket]
    simp
  -- the tensors with one nonzero entry
  let x : Fin (q k) → Fin (D k) → Ten ℂ (q k) (D k) (D (k + 1)) := fun σ i s =>
    Matrix.of fun i' l => if s = σ ∧ i' = i ∧ l = ⟨0, hD⟩ then 1 else 0
  let y : Fin (q (k + 1)) → Fin (D (k + 2)) → Ten ℂ (q (k + 1)) (D (k + 1)) (D (k + 2)) := fun τ j t =>
    Matrix.of fun l j' => if t = τ ∧ l = ⟨0, hD⟩ ∧ j' = j then 1 else 0
  let F : Fin (q k) → Fin (D k) → Cfg q (k + 1) → ℂ := fun σ i s =>
    (amp A k (fun r => s r.castSucc) * x σ i (s (Fin.last k))) ⟨0, by omega⟩ ⟨0, hD⟩
  let G : Fin (q (k + 1)) → Fin (D (k + 2)) → Cfg (fun r => q (k + 1 + r)) m → ℂ := fun τ j t =>
    amp (shiftT (k + 1) (upd2 A k 0 (y τ j))) m t ⟨0, hD⟩ ⟨0, by omega⟩
  let cR : Cfg (fun r => q (k + 1 + r)) m := fun j => c0 (Fin.natAdd (k + 1) j)
  let cL : Cfg q (k + 1) := fun j => c0 (Fin.castAdd m j)
  have hU : ∀ l s t, u l (joinCfg s t) = u l (joinCfg s cR) := by
    intro l s t
    refine hu l _ _ fun i hi => ?_
    obtain ⟨i', rfl⟩ : ∃ i' : Fin (k + 1), i = Fin.castAdd m i' := ⟨⟨i, hi⟩, rfl⟩
    rw [joinCfg_left, joinCfg_left]
  have hV : ∀ l s t, v l (joinCfg s t) = v l (joinCfg cL t) := by
    intro l s t
    refine hv l _ _ fun i hi => ?_
    obtain ⟨i', rfl⟩ : ∃ i' : Fin m, i = Fin.natAdd (k + 1) i' :=
      ⟨⟨i - (k + 1), by omega⟩, Fin.ext (by simp only [Fin.natAdd_mk]; omega)⟩
    rw [joinCfg_right, joinCfg_right]
  have hT : ∀ σ τ i j s t, pairT (N := k + 1 + m) A h0 hN k (Pi.single (σ, τ, i, j) 1) (joinCfg s t)
      = F σ i s * G τ j t := by
    intro σ τ i j s t
    have e : onlyAt (q := q) (D := D) k (tens2 (Pi.single (σ, τ, i, j) 1)) k
        = ∑ _z : Unit, calcAA (x σ i) (y τ j) := by
      rw [onlyAt_self, Finset.univ_unique, Finset.sum_singleton]
      funext s t
      ext i' j'
      simp only [tens2, Matrix.of_apply, calcAA, Matrix.mul_apply, x, y]
      rw [Finset.sum_eq_single ⟨0, hD⟩ (fun l _ hl => by simp [hl]) (by simp)]
      simp only [Pi.single_apply, Prod.mk.injEq, and_true, true_and]
      by_cases h1 : s = σ <;> by_cases h2 : t = τ <;> by_cases h3 : i' = i <;> by_cases h4 : j' = j <;>
        simp [h1, h2, h3, h4]
    rw [pairT_apply, twoSite_sum A h0 hN k hk _ _ _ e]
    dsimp only
    rw [Finset.univ_unique, Finset.sum_singleton, psi, amp_join, Matrix.mul_apply, Finset.sum_eq_single ⟨0, hD⟩]
    · congr 1
      · show (amp (upd2 A k (x σ i) (y τ j)) k (fun r => s r.castSucc)
          * upd2 A k (x σ i) (y τ j) k (s (Fin.last k))) _ _ = _
        rw [upd2_fst, amp_congr (A := upd2 A k (x σ i) (y τ j)) (B := A)
          (fun m hm => upd2_ne A k _ _ (by omega) (by omega))]
      · have : shiftT (k + 1) (upd2 A k (x σ i) (y τ j)) = shiftT (k + 1) (upd2 A k 0 (y τ j)) := by
          funext r
          show upd2 A k (x σ i) (y τ j) (k + 1 + r) = upd2 A k 0 (y τ j) (k + 1 + r)
          cases r with
          | zero => exact (upd2_snd A k _ _).trans (upd2_snd A k _ _).symm
          | succ r => rw [upd2_ne A k _ _ (by omega) (by omega), upd2_ne A k _ _ (by omega) (by omega)]
        rw [this]
    · intro l _ hl
      have : amp (upd2 A k (x σ i) (y τ j)) (k + 1) s ⟨0, by omega⟩ l = 0 := by
        show (amp (upd2 A k (x σ i) (y τ j)) k (fun r => s r.castSucc)
          * upd2 A k (x σ i) (y τ j) k (s (Fin.last k))) _ _ = _
        rw [upd2_fst, Matrix.mul_apply]
        refine Finset.sum_eq_zero fun i' _ => ?_
        simp [x, hl]
      rw [this, zero_mul]
    · simp
  refine ⟨Matrix.of fun z l => ∑ s, star (F z.divNat z.modNat s) * u l (joinCfg s cR),
    Matrix.of fun l z => ∑ t, star (G z.divNat z.modNat t) * v l (joinCfg cL t), ?_⟩
  ext z z'
  simp only [aaMat, tens2, Matrix.of_apply, Matrix.mul_apply]
  rw [adj_apply, braket, sum_join]
  simp only [hT, hχ, hU, hV]
  simp only [Finset.mul_sum, Finset.sum_mul]
  rw [Finset.sum_congr rfl fun s _ => Finset.sum_comm, Finset.sum_comm]
  refine Finset.sum_congr rfl fun l _ => ?_
  rw [Finset.sum_comm]
  refine Finset.sum_congr rfl fun t _ => Finset.sum_congr rfl fun s _ => ?_
  rw [star_mul']
  ring

/-- The state of a chain is a sum of products at each bond. -/
theorem psi_rank {D' : ℕ → ℕ} (B : Tensors ℂ q D') (h0 : D' 0 = 1) (hN : D' N = 1) (n : ℕ) (hn : n ≤ N) :
    CutRank n (D' n) (psi (N := N) B h0 hN) := by
  obtain ⟨m, rfl⟩ : ∃ m, N = n + m := ⟨N - n, by omega⟩
  refine ⟨fun l c => amp B n (fun i => c (Fin.castAdd m i)) ⟨0, by omega⟩ l,
    fun l c => amp (shiftT n B) m (fun j => c (Fin.natAdd n j)) l ⟨0, by omega⟩, fun l s s' h => ?_, fun l s s' h => ?_,
    fun s => ?_⟩
  · have : (fun i => s (Fin.castAdd m i)) = fun i : Fin n => s' (Fin.castAdd m i) :=
      funext fun i => h _ (by simp)
    dsimp only
    exact congrArg (fun z => amp B n z ⟨0, by omega⟩ l) this
  · have : (fun i => s (Fin.natAdd n i)) = fun i : Fin m => s' (Fin.natAdd n i) :=
      funext fun i => h _ (by simp)
    dsimp only
    exact congrArg (fun z => amp (shiftT n B) m z l ⟨0, by omega⟩) this
  · have e := (joinEquiv q n m).right_inv s
    have : psi B h0 hN s = psi B h0 hN (joinCfg (fun i => s (Fin.castAdd m i)) fun j => s (Fin.natAdd n j)) :=
      congrArg _ e.symm
    rw [this, psi, amp_join, Matrix.mul_apply]

/-! ## The chain with a changed bond dimension -/

theorem recast_apply {p p' a a' b b' : ℕ} (hp : p' = p) (ha : a' = a) (hb : b' = b) (X : Ten ℂ p a b) (s i j) :
    recast hp ha hb X s i j = X (Fin.cast hp s) (Fin.cast ha i) (Fin.cast hb j) := rfl

theorem recast_LOrth {p p' a a' b b' : ℕ} (hp : p' = p) (ha : a' = a) (hb : b' = b) {X : Ten ℂ p a b} (h : LOrth X) :
    LOrth (recast hp ha hb X) := by
  subst hp ha hb
  exact h

theorem recast_ROrth {p p' a a' b b' : ℕ} (hp : p' = p) (ha : a' = a) (hb : b' = b) {X : Ten ℂ p a b} (h : ROrth X) :
    ROrth (recast hp ha hb X) := by
  subst hp ha hb
  exact h

variable (A : Tensors ℂ q D) (k d : ℕ) (A1 : Ten ℂ (q k) (D k) d) (A2 : Ten ℂ (q (k + 1)) d (D (k + 2)))

theorem replace_fst : replace A k d A1 A2 k = recast rfl (Function.update_of_ne (by omega) _ _)
    (Function.update_self _ _ _) A1 := by
  rw [replace, dif_pos rfl]

theorem replace_snd : replace A k d A1 A2 (k + 1) = recast rfl (Function.update_self _ _ _)
    (Function.update_of_ne (by omega) _ _) A2 := by
  rw [replace, dif_neg (by omega), dif_pos rfl]

theorem replace_ne {n : ℕ} (h : n ≠ k) (h' : n ≠ k + 1) : replace A k d A1 A2 n = recast rfl
    (Function.update_of_ne h' _ _) (Function.update_of_ne (by omega) _ _) (A n) := by
  rw [replace, dif_neg h, dif_neg h']

theorem amp_replace_front : ∀ n (hn : n ≤ k) (s : Cfg q n) (i j),
    amp (replace A k d A1 A2) n s i j
      = amp A n s (Fin.cast (Function.update_of_ne (by omega) _ _) i) (Fin.cast (Function.update_of_ne (by omega) _ _) j)
  | 0, _, s, i, j => by
    simp [amp, Matrix.one_apply, Fin.ext_iff]
  | n + 1, hn, s, i, j => by
    simp only [amp, Matrix.mul_apply]
    refine Fintype.sum_equiv (finCongr (Function.update_of_ne (by omega) _ _)) _ _ fun l => ?_
    rw [amp_replace_front n (by omega), replace_ne _ _ _ _ _ (by omega) (by omega), recast_apply]
    rfl

theorem amp_replace : ∀ n (hn : k + 1 < n) (s : Cfg q n) (i j),
    amp (replace A k d A1 A2) n s i j = amp2 A (onlyAt k fun s t => A1 s * A2 t) k n s
      (Fin.cast (Function.update_of_ne (by omega) _ _) i) (Fin.cast (Function.update_of_ne (by omega) _ _) j) := by
  intro n hn
  obtain ⟨m, rfl⟩ : ∃ m, n = k + 2 + m := ⟨n - (k + 2), by omega⟩
  induction m with
  | zero =>
    intro s i j
    rw [show amp (replace A k d A1 A2) (k + 2 + 0) s = amp (replace A k d A1 A2) k (fun i => s i.castSucc.castSucc)
        * replace A k d A1 A2 k (s (Fin.last k).castSucc) * replace A k d A1 A2 (k + 1) (s (Fin.last (k + 1))) from rfl,
      show amp2 A (onlyAt k fun s t => A1 s * A2 t) k (k + 2 + 0) s = _ from amp2_at A _ k s, onlyAt_self,
      Matrix.mul_assoc, Matrix.mul_apply, Matrix.mul_apply]
    refine Fintype.sum_equiv (finCongr (Function.update_of_ne (by omega) _ _)) _ _ fun l => ?_
    rw [amp_replace_front _ _ _ _ _ k le_rfl]
    congr 1
    rw [Matrix.mul_apply, Matrix.mul_apply]
    refine Fintype.sum_equiv (finCongr (Function.update_self _ _ _)) _ _ fun l' => ?_
    rw [replace_fst, replace_snd, recast_apply, recast_apply]
    rfl
  | succ m ih =>
    intro s i j
    rw [show amp (replace A k d A1 A2) (k + 2 + (m + 1)) s = amp (replace A k d A1 A2) (k + 2 + m) (fun i => s i.castSucc)
        * replace A k d A1 A2 (k + 2 + m) (s (Fin.last (k + 2 + m))) from rfl,
      show amp2 A (onlyAt k fun s t => A1 s * A2 t) k (k + 2 + (m + 1)) s = _ from
        amp2_steps A _ k (k + 2 + m) (by omega) s, Matrix.mul_apply, Matrix.mul_apply]
    refine Fintype.sum_equiv (finCongr (Function.update_of_ne (by omega) _ _)) _ _ fun l => ?_
    rw [ih (by omega), replace_ne _ _ _ _ _ (by omega) (by omega), recast_apply]
    rfl

theorem psi_replace (h0 : D 0 = 1) (hN : D N = 1) (hk : k + 1 < N) (h0' : Function.update D (k + 1) d 0 = 1)
    (hN' : Function.update D (k + 1) d N = 1) :
    psi (N := N) (replace A k d A1 A2) h0' hN' = pairT A h0 hN k (flat2 fun s t => A1 s * A2 t) := by
  funext s
  rw [psi, amp_replace _ _ _ _ _ N hk, pairT_apply]
  rfl

end

section
variable {q D : ℕ → ℕ} {N : ℕ}

theorem frobSq_aaMat {p p' a c : ℕ} (X : Ten2 ℂ p p' a c) : frobSq (aaMat X) = (star (flat2 X) ⬝ᵥ flat2 X).re := by
  rw [← adot_aaMat, adot_self_frob, Complex.ofReal_re]

/-- What `finish` does. -/
theorem finish_cases {svd : Svd} {A : Tensors ℂ q D} {k : ℕ} {Dmax : Option ℕ} {minS : Option ℝ} {right : Bool}
    {X : Ten2 ℂ (q k) (q (k + 1)) (D k) (D (k + 2))} {R : Res q} (h : finish svd A k Dmax minS right X = some R) :
    ∃ P, splitTwosite svd X Dmax minS = some P ∧ (0 < P.d → Real.sqrt (adot P.G P.G).re ≠ 0) ∧
      R = ⟨Function.update D (k + 1) P.d,
        if right then replace A k P.d P.A1 fun t => (((Real.sqrt (adot P.G P.G).re : ℝ) : ℂ)⁻¹ • P.G) * P.A2 t
        else replace A k P.d (fun s => P.A1 s * (((Real.sqrt (adot P.G P.G).re : ℝ) : ℂ)⁻¹ • P.G)) P.A2,
        truncErr P.rest⟩ := by
  obtain ⟨P, hP, h⟩ := Option.bind_eq_some_iff.1 h
  refine ⟨P, hP, ?_⟩
  dsimp only at h
  split at h
  · exact absurd h (by simp)
  · next hn => exact ⟨fun hd e => hn ⟨e, hd⟩, (Option.some.inj h).symm⟩

/-- The truncated two-site tensor. -/
theorem truncated {A : Tensors ℂ q D} (h0 : D 0 = 1) (hN : D N = 1) {k : ℕ} (hk : k + 1 < N) (hD : 0 < D (k + 1))
    (hA : Beside N A k) {svd : Svd} {X : Ten2 ℂ (q k) (q (k + 1)) (D k) (D (k + 2))} {Dmax : Option ℕ} {minS : Option ℝ}
    {P : Parts (q k) (q (k + 1)) (D k) (D (k + 2))} (hP : splitTwosite svd X Dmax minS = some P) :
    Truncated (k + 1) P.d (pairT (N := N) A h0 hN k (flat2 X))
      (pairT A h0 hN k (flat2 fun s t => P.A1 s * (P.G * P.A2 t))) (truncErr P.rest) ∧
    braket (pairT (N := N) A h0 hN k (flat2 fun s t => P.A1 s * (P.G * P.A2 t)))
      (pairT A h0 hN k (flat2 fun s t => P.A1 s * (P.G * P.A2 t))) = adot P.G P.G := by
  obtain ⟨f, hf, hkeep, hd, hA1, hA2, hG, hmk, hrest⟩ := split_spec hP
  have hT := pairT_iso h0 hN k hk hD hA
  set Y : Ten2 ℂ (q k) (q (k + 1)) (D k) (D (k + 2)) := fun s t => P.A1 s * (P.G * P.A2 t) with hY
  have haa : aaMat Y = svdMk f (fun k => if (k : ℕ) < P.d then (f.sv k : ℂ) else 0) := by
    rw [← hmk, hY, aaMat_mul P.A1 (fun t => P.G * P.A2 t), Matrix.mul_assoc]
    congr 1
  have hsub : pairT (N := N) A h0 hN k (flat2 X) - pairT A h0 hN k (flat2 Y) = pairT A h0 hN k (flat2 (X - Y)) := by
    rw [← map_sub]
    rfl
  have hX : aaMat X = svdMk f (fun k => (f.sv k : ℂ)) := (svdMk_sv f).symm
  have hdist : normSq (pairT (N := N) A h0 hN k (flat2 X) - pairT A h0 hN k (flat2 Y)) = truncErr P.rest ^ 2 := by
    rw [hsub, normSq, hT.iso, ← frobSq_aaMat, aaMat_sub, haa, frobSq_svdMk, hrest, truncErr_sq]
  refine ⟨⟨?_, truncErr_nonneg _, hdist, ?_, ?_⟩, ?_⟩
  · have := psi_rank (N := N) (replace A k P.d P.A1 fun t => P.G * P.A2 t)
      (by rw [Function.update_of_ne (by omega)]; exact h0) (by rw [Function.update_of_ne (by omega)]; exact hN)
      (k + 1) (by omega)
    rw [psi_replace A k P.d P.A1 _ h0 hN hk, Function.update_self] at this
    exact this
  · intro χ' hχ'
    obtain ⟨Y', Z', hYZ⟩ := adj_rank A h0 hN k hk hD P.d χ' hχ'
    have h1 := adj_le hT (pairT (N := N) A h0 hN k (flat2 X) - χ')
    refine le_trans ?_ h1
    rw [hdist, hrest, truncErr_sq]
    refine (low_rank f P.d Y' Z').trans (le_of_eq ?_)
    rw [← hYZ, ← aaMat_sub, frobSq_aaMat]
    have e : flat2 (X - tens2 ((LinearMap.toMatrix' (pairT (N := N) A h0 hN k))ᴴ *ᵥ χ'))
        = (LinearMap.toMatrix' (pairT (N := N) A h0 hN k))ᴴ *ᵥ (pairT (N := N) A h0 hN k (flat2 X) - χ') := by
      rw [Matrix.mulVec_sub, ← toM_mulVec (T := pairT (N := N) A h0 hN k), Matrix.mulVec_mulVec, hT.mul, Matrix.one_mulVec]
      rfl
    rw [e]
  · have hXY : aaMat (X - Y) = svdMk f ((fun k => (f.sv k : ℂ))
        - fun k : Fin (min _ _) => if (k : ℕ) < P.d then (f.sv k : ℂ) else 0) := by
      rw [aaMat_sub, haa, ← svdMk_sub, ← hX]
    rw [hsub, hT.iso, ← adot_aaMat, hXY, haa, adot_svdMk]
    refine Finset.sum_eq_zero fun i _ => ?_
    simp only [Pi.sub_apply]
    split <;> simp
  · rw [hT.iso, ← adot_aaMat, haa, adot_svdMk, hG, adot_eq_trace, Matrix.diagonal_conjTranspose,
      Matrix.diagonal_mul_diagonal, Matrix.trace_diagonal]
    have : ∀ i : Fin (min (q k * D k) (q (k + 1) * D (k + 2))),
        star (if (i : ℕ) < P.d then (f.sv i : ℂ) else 0) * (if (i : ℕ) < P.d then (f.sv i : ℂ) else 0)
        = if (i : ℕ) < P.d then star (f.sv i : ℂ) * f.sv i else 0 := fun i => by split <;> simp
    rw [Finset.sum_congr rfl fun i _ => this i, ← Finset.sum_filter]
    symm
    refine Finset.sum_bij (fun (l : Fin P.d) _ => (⟨l, by omega⟩ : Fin (min (q k * D k) (q (k + 1) * D (k + 2)))))
      (fun l _ => by simp) (by simp [Fin.ext_iff]) ?_ (fun l _ => rfl)
    intro b hb
    exact ⟨⟨b, (Finset.mem_filter.1 hb).2⟩, Finset.mem_univ _, rfl⟩

/-- The chain that results. -/
theorem finish_spec {A : Tensors ℂ q D} (h0 : D 0 = 1) (hN : D N = 1) {k : ℕ} (hk : k + 1 < N) (hD : 0 < D (k + 1))
    (hA : Beside N A k) {svd : Svd} {X : Ten2 ℂ (q k) (q (k + 1)) (D k) (D (k + 2))} {Dmax : Option ℕ} {minS : Option ℝ}
    {right : Bool} {R : Res q} (h : finish svd A k Dmax minS right X = some R) :
    (∀ n, n ≠ k + 1 → R.D n = D n) ∧ (∃ Dm, Dmax = some Dm ∧ R.D (k + 1) ≤ Dm) ∧
      (if right then (∀ n < k + 1, LOrth (R.A n)) ∧ ∀ n, k + 1 < n → n < N → ROrth (R.A n)
        else (∀ n < k, LOrth (R.A n)) ∧ ∀ n, k < n → n < N → ROrth (R.A n)) ∧
      ∃ (h0' : R.D 0 = 1) (hN' : R.D N = 1) (χ : Cfg q N → ℂ),
        Truncated (k + 1) (R.D (k + 1)) (pairT (N := N) A h0 hN k (flat2 X)) χ R.err ∧
        psi R.A h0' hN' = unitVec χ ∧ (0 < R.D (k + 1) → χ ≠ 0) := by
  obtain ⟨P, hP, hnz, rfl⟩ := finish_cases h
  obtain ⟨f, hf, hkeep, hd, hA1, hA2, -⟩ := split_spec hP
  obtain ⟨-, Dm, hDm, hdm, -⟩ := keep_spec hkeep
  obtain ⟨htr, hnorm⟩ := truncated h0 hN hk hD hA hP
  set c : ℂ := (((Real.sqrt (adot P.G P.G).re : ℝ) : ℂ))⁻¹ with hc
  have h0' : Function.update D (k + 1) P.d 0 = 1 := by rw [Function.update_of_ne (by omega)]; exact h0
  have hN' : Function.update D (k + 1) P.d N = 1 := by rw [Function.update_of_ne (by omega)]; exact hN
  refine ⟨fun n hn => Function.update_of_ne hn _ _, ⟨Dm, hDm, by dsimp only; rw [Function.update_self]; exact hdm⟩, ?_, h0', hN',
    pairT A h0 hN k (flat2 fun s t => P.A1 s * (P.G * P.A2 t)), ?_, ?_, ?_⟩
  · cases right with
    | true =>
      simp only [if_true]
      refine ⟨fun n hn => ?_, fun n h1 h2 => ?_⟩
      · rcases Nat.lt_or_ge n k with hlt | hge
        · rw [replace_ne _ _ _ _ _ (by omega) (by omega)]
          exact recast_LOrth _ _ _ (hA.1 n hlt)
        · obtain rfl : n = k := by omega
          rw [replace_fst]
          exact recast_LOrth _ _ _ hA1
      · rw [replace_ne _ _ _ _ _ (by omega) (by omega)]
        exact recast_ROrth _ _ _ (hA.2 n h1 h2)
    | false =>
      simp only [Bool.false_eq_true, if_false]
      refine ⟨fun n hn => ?_, fun n h1 h2 => ?_⟩
      · rw [replace_ne _ _ _ _ _ (by omega) (by omega)]
        exact recast_LOrth _ _ _ (hA.1 n hn)
      · rcases Nat.lt_or_ge (k + 1) n with hlt | hge
        · rw [replace_ne _ _ _ _ _ (by omega) (by omega)]
          exact recast_ROrth _ _ _ (hA.2 n hlt h2)
        · obtain rfl : n = k + 1 := by omega
          rw [replace_snd]
          exact recast_ROrth _ _ _ hA2
  · dsimp only
    rw [Function.update_self]
    exact htr
  · have e1 : (fun s t => P.A1 s * (c • P.G * P.A2 t)) = c • fun s t => P.A1 s * (P.G * P.A2 t) := by
      funext s t
      simp
    have e2 : (fun s t => P.A1 s * (c • P.G) * P.A2 t) = c • fun s t => P.A1 s * (P.G * P.A2 t) := by
      funext s t
      simp [Matrix.mul_assoc]
    have e3 : ∀ Z : Ten2 ℂ (q k) (q (k + 1)) (D k) (D (k + 2)), flat2 (c • Z) = c • flat2 Z := fun Z => rfl
    rw [unitVec, hnorm]
    cases right with
    | true =>
      simp only [if_true]
      rw [psi_replace A k P.d P.A1 _ h0 hN hk, e1, e3, map_smul]
    | false =>
      simp only [Bool.false_eq_true, if_false]
      rw [psi_replace A k P.d _ P.A2 h0 hN hk, e2, e3, map_smul]
  · intro hpos e
    dsimp only at hpos
    rw [Function.update_self] at hpos
    refine hnz hpos ?_
    rw [← hnorm, e]
    simp [braket]

theorem psi_eq_pairT (A : Tensors ℂ q D) (h0 : D 0 = 1) (hN : D N = 1) (k : ℕ) (hk : k + 1 < N) :
    psi (N := N) A h0 hN = pairT A h0 hN k (flat2 (calcAA (A k) (A (k + 1)))) := by
  rw [pairT_apply, twoSite_sum A h0 hN k hk _ (fun _ : Unit => A k) (fun _ => A (k + 1))
    (by rw [onlyAt_self, Finset.univ_unique, Finset.sum_singleton]; rfl)]
  funext s
  rw [Finset.univ_unique, Finset.sum_singleton, upd2, Function.update_eq_self, Function.update_eq_self]

theorem mulVec_exp_ne {ι : Type} [Fintype ι] [DecidableEq ι] (M : Matrix ι ι ℂ) {v : ι → ℂ} (h : v ≠ 0) :
    NormedSpace.exp M *ᵥ v ≠ 0 := by
  intro e
  refine h ?_
  have h1 : NormedSpace.exp (-M) * NormedSpace.exp M = 1 := by
    rw [← Matrix.exp_add_of_commute _ _ (Commute.neg_left (Commute.refl M)), neg_add_cancel, NormedSpace.exp_zero]
  have := congrArg (NormedSpace.exp (-M) *ᵥ ·) e
  simpa [Matrix.mulVec_mulVec, h1] using this

theorem finish_isSome {svd : Svd} (A : Tensors ℂ q D) (k : ℕ) {Dm : ℕ} {e : ℝ} (right : Bool)
    {X : Ten2 ℂ (q k) (q (k + 1)) (D k) (D (k + 2))} (hs : (svd (aaMat X)).isSome) (hX : X ≠ 0) :
    (finish svd A k (some Dm) (some e) right X).isSome := by
  obtain ⟨f, hf⟩ := Option.isSome_iff_exists.1 hs
  obtain ⟨d, hd⟩ := Option.isSome_iff_exists.1 (cutAt_isSome e ((List.ofFn f.sv).take (min Dm (List.ofFn f.sv).length)))
  have hkeep : keep (some Dm) (some e) (List.ofFn f.sv) = some d := hd
  have hle := (keep_spec hkeep).1
  have hsp : ∃ P, splitTwosite svd X (some Dm) (some e) = some P := by
    rw [splitTwosite, hf, Option.bind_some, hkeep, Option.bind_some, dif_pos hle]
    exact ⟨_, rfl⟩
  obtain ⟨P, hP⟩ := hsp
  obtain ⟨f', hf', -, hd', -, -, hG, -⟩ := split_spec hP
  obtain rfl := Option.some.inj (hf.symm.trans hf')
  rw [finish, hP, Option.bind_some]
  dsimp only
  rw [if_neg]
  · rfl
  · rintro ⟨h0, hpos⟩
    have h1 : (adot P.G P.G).re = ∑ l : Fin P.d, f.sv ⟨l, by omega⟩ ^ 2 := by
      rw [hG, adot_eq_trace, Matrix.diagonal_conjTranspose, Matrix.diagonal_mul_diagonal, Matrix.trace_diagonal,
        Complex.re_sum]
      refine Finset.sum_congr rfl fun l _ => ?_
      simp only [Pi.star_apply, Complex.star_def, Complex.conj_ofReal, ← Complex.ofReal_mul, Complex.ofReal_re]
      ring
    rw [h1, Real.sqrt_eq_zero (Finset.sum_nonneg fun _ _ => sq_nonneg _),
      Finset.sum_eq_zero_iff_of_nonneg fun _ _ => sq_nonneg _] at h0
    have h2 := h0 ⟨0, hpos⟩ (Finset.mem_univ _)
    have h3 : ∀ i, f.sv i = 0 := fun i => le_antisymm
      ((f.desc ⟨0, by omega⟩ i (by rw [Fin.le_def]; exact Nat.zero_le _)).trans (pow_eq_zero_iff (by norm_num) |>.1 h2).le)
      (f.nonneg i)
    refine hX (aaMat_inj ?_)
    ext x y
    rw [f.eq]
    simp [h3, aaMat]

end

end TwoSplit

end EvoMPS
