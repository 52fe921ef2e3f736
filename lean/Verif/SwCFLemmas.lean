import Verif.SwCF
import Verif.SwCFSpec
import Verif.UniformCFLemmas
import Verif.CanonLeftLemmas

/-!
# The sandwich state: canonical form (helper lemmas)
-/

set_option linter.unusedSectionVars false

namespace EvoMPS.SW

open Matrix Uni
open scoped ComplexOrder

variable {q D : ℕ → ℕ} {qL qR N : ℕ}

/-! ## The bulk chains -/

theorem bulkR (P : HermLib) {tol : ℝ} (h0 : 0 ≤ tol) {p d : ℕ} (S : UMPS ℂ p d)
    (hks : ∀ k < S.L, AboveTol tol (S.r k) ∧ (S.l k).PosSemidef) :
    ∃ S' G Gi g gi, Uni.restoreRCF P tol false (List.range S.L) S = some (S', G, Gi) ∧ S'.L = S.L
      ∧ GaugeRel S.L g gi S.A S.l S.r S'.A S'.l S'.r
      ∧ ∀ k < S.L, S'.r k = 1 ∧ G k = some (g k) := by
  unfold Uni.restoreRCF
  rw [foldl_guard (rcfCut P tol false) S.L _ fun k hk => List.mem_range.mp hk]
  obtain ⟨⟨S', Gs, Gis⟩, g, gi, h1, h2, _, _, _, h3, h4, h5, h6⟩ := cuts_fold
    (fun s : UMPS ℂ p d × GList d × GList d => s.1) (rcfCut P tol false) True
    (fun _ _ r => r = 1)
    (fun s k g gi => s.2.1 k = some g ∧ s.2.2 k = some gi)
    (S, fun _ => none, fun _ => none) (List.range S.L) (by
      rintro ⟨s, Gs, Gis⟩ k hk hsL hsl hsr
      simp only at hsL hsl hsr
      obtain ⟨hr, hl⟩ := hks k (List.mem_range.mp hk)
      obtain ⟨G, Gi, lk, i1, i2, i3, i4, i5⟩ := rcfCut_spec P h0 false s Gs Gis k (hsr ▸ hr) (hsl ▸ hl)
      refine ⟨_, G, Gi, lk, 1, i1, rfl, i2, fun _ => ⟨i3, i4⟩, rfl, ⟨by simp, by simp⟩, ?_⟩
      intro k' hk' g gi hr
      simp only [Function.update_of_ne hk']
      exact hr) List.nodup_range (fun k hk => List.mem_range.mp hk)
  simp only at h1 h2 h3 h4 h5 h6
  exact ⟨S', Gs, Gis, g, gi, h1, h2, h4 trivial, fun k hk =>
    ⟨(h5 k (List.mem_range.mpr hk)).1, (h5 k (List.mem_range.mpr hk)).2.1⟩⟩

theorem bulkL (P : HermLib) {tol : ℝ} (h0 : 0 ≤ tol) {p d : ℕ} (S : UMPS ℂ p d)
    (hks : ∀ k < S.L, AboveTol tol (S.l k) ∧ (S.r k).PosSemidef) :
    ∃ S' G Gi g gi, Uni.restoreLCF P tol false (List.range S.L) S = some (S', G, Gi) ∧ S'.L = S.L
      ∧ GaugeRel S.L g gi S.A S.l S.r S'.A S'.l S'.r
      ∧ ∀ k < S.L, S'.l k = 1 ∧ Gi k = some (gi k) := by
  unfold Uni.restoreLCF
  rw [foldl_guard (lcfCut P tol false) S.L _ fun k hk => List.mem_range.mp hk]
  obtain ⟨⟨S', Gs, Gis⟩, g, gi, h1, h2, _, _, _, h3, h4, h5, h6⟩ := cuts_fold
    (fun s : UMPS ℂ p d × GList d × GList d => s.1) (lcfCut P tol false) True
    (fun _ l _ => l = 1)
    (fun s k g gi => s.2.1 k = some g ∧ s.2.2 k = some gi)
    (S, fun _ => none, fun _ => none) (List.range S.L) (by
      rintro ⟨s, Gs, Gis⟩ k hk hsL hsl hsr
      simp only at hsL hsl hsr
      obtain ⟨hl, hr⟩ := hks k (List.mem_range.mp hk)
      obtain ⟨G, Gi, rk, i1, i2, i3⟩ := lcfCut_spec P h0 false s Gs Gis k (hsl ▸ hl) (hsr ▸ hr)
      refine ⟨_, G, Gi, 1, rk, i1, rfl, i2, fun _ => i3 rfl, rfl, ⟨by simp, by simp⟩, ?_⟩
      intro k' hk' g gi hr
      simp only [Function.update_of_ne hk']
      exact hr) List.nodup_range (fun k hk => List.mem_range.mp hk)
  simp only at h1 h2 h3 h4 h5 h6
  exact ⟨S', Gs, Gis, g, gi, h1, h2, h4 trivial, fun k hk =>
    ⟨(h5 k (List.mem_range.mpr hk)).1, (h5 k (List.mem_range.mpr hk)).2.2⟩⟩

theorem gaugeEnds_full {p d m L : ℕ} (hL : 0 < L) (hm : m = p) (U Ui : Matrix (Fin d) (Fin d) ℂ) (A : ℕ → Ten ℂ p d d) :
    gaugeEnds m L U Ui A = some (gaugeCut L (L - 1) Ui U A) := by
  subst hm
  simp only [gaugeEnds, le_refl, if_true, gaugeCut, Fin.is_lt, show (L - 1 + 1) % L = 0 by
    rw [Nat.sub_add_cancel hL, Nat.mod_self]]

/-! ## The sweeps of `_restore_CF_ONR` -/

/-- What the sweep from the right has achieved when it has reached bond `n`. -/
structure OnrR (r0 : Envs ℂ D) (A : Tensors ℂ q D) (N : ℕ) (GN : Matrix (Fin (D N)) (Fin (D N)) ℂ) (n : ℕ) (S : DiagSt ℂ q D) : Prop where
  rest : ∀ m < n, S.A m = A m
  gg : ∀ m, n ≤ m → m ≤ N → S.G m * (S.G m)ᴴ = r0 m
  inv : ∀ m, n ≤ m → m ≤ N → S.G m * (S.G m)⁻¹ = 1
  gauge : ∀ m, n ≤ m → m < N → ∀ s, S.A m s = (S.G m)⁻¹ * A m s * S.G (m + 1)
  one : ∀ m, n ≤ m → m ≤ N → S.e m = 1
  last : S.G N = GN

theorem onrRStep_inv (P : HermLib) {tol : ℝ} (h0 : 0 ≤ tol) {GN : Matrix (Fin (D N)) (Fin (D N)) ℂ} {r0 : Envs ℂ D} {A : Tensors ℂ q D} {n : ℕ} (hn : n < N)
    (hr : r0 n = ∑ s, A n s * r0 (n + 1) * (A n s)ᴴ) (ha : AboveTol tol (r0 n)) {S : DiagSt ℂ q D}
    (h : OnrR r0 A N GN (n + 1) S) : ∃ S', onrRStep P tol S n = some S' ∧ OnrR r0 A N GN n S' := by
  have hM : epsR (S.G (n + 1) * (S.e (n + 1) * (S.G (n + 1))ᴴ)) (S.A n) (S.A n) = r0 n := by
    rw [epsR_eq, h.one _ le_rfl (by omega), Matrix.one_mul, h.gg _ le_rfl (by omega), h.rest n (by omega), ← hr]
  obtain ⟨f, hf, hF⟩ := hermFac_full P false true false h0 ha
  have hx : f.x * f.xi = 1 := hF.inv rfl
  have hfac : f.xᴴ * f.x = r0 n := hF.fac
  have hi : f.xiᴴ * f.xᴴ = 1 := inv_star hx
  have hinv : (f.xᴴ)⁻¹ = f.xiᴴ := Matrix.inv_eq_left_inv hi
  simp only [onrRStep, hM, hf, Option.bind_some]
  refine ⟨_, rfl, ?_, ?_, ?_, ?_, ?_, ?_⟩
  · intro m hm
    simp only
    rw [Function.update_of_ne (by omega), h.rest m (by omega)]
  · intro m hm hmN
    rcases Nat.lt_or_ge n m with h1 | h1
    · simp only [Function.update_of_ne (show m ≠ n by omega)]
      exact h.gg m h1 hmN
    · obtain rfl : m = n := by omega
      simp only [Function.update_self, Matrix.conjTranspose_conjTranspose, hfac]
  · intro m hm hmN
    rcases Nat.lt_or_ge n m with h1 | h1
    · simp only [Function.update_of_ne (show m ≠ n by omega)]
      exact h.inv m h1 hmN
    · obtain rfl : m = n := by omega
      simp only [Function.update_self, hinv]
      exact mul_eq_one_comm.mp hi
  · intro m hm hmN s
    rcases Nat.lt_or_ge n m with h1 | h1
    · simp only [Function.update_of_ne (show m ≠ n by omega), Function.update_of_ne (show m + 1 ≠ n by omega)]
      exact h.gauge m h1 hmN s
    · obtain rfl : m = n := by omega
      simp only [Function.update_self, hinv, Function.update_of_ne (show m + 1 ≠ m by omega)]
      rw [h.rest m (by omega)]
  · intro m hm hmN
    rcases Nat.lt_or_ge n m with h1 | h1
    · simp only [Function.update_of_ne (show m ≠ n by omega)]
      exact h.one m h1 hmN
    · obtain rfl : m = n := by omega
      simp only [Function.update_self, hF.rank, rankEye_full]
  · simp only
    rw [Function.update_of_ne (by omega), h.last]

theorem onrR_loop (P : HermLib) {tol : ℝ} (h0 : 0 ≤ tol) {GN : Matrix (Fin (D N)) (Fin (D N)) ℂ} {r0 : Envs ℂ D} {A : Tensors ℂ q D} {c : ℕ} (hc : c < N)
    (hr : ∀ n, c < n → n < N → r0 n = ∑ s, A n s * r0 (n + 1) * (A n s)ᴴ)
    (ha : ∀ n, c < n → n < N → AboveTol tol (r0 n)) {S : DiagSt ℂ q D} (h : OnrR r0 A N GN N S) :
    ∃ S', (List.range' (c + 1) (N - (c + 1))).reverse.foldl (fun st n => st.bind fun st => onrRStep P tol st n) (some S)
      = some S' ∧ OnrR r0 A N GN (c + 1) S' := by
  refine foldDown_inv _ (fun n st => ∃ S', st = some S' ∧ OnrR r0 A N GN n S') (c + 1) (N - (c + 1)) (some S)
    ⟨S, rfl, by rwa [show c + 1 + (N - (c + 1)) = N by omega]⟩ ?_
  rintro n h1 h2 _ ⟨S', rfl, hS⟩
  exact onrRStep_inv P h0 (by omega) (hr n h1 (by omega)) (ha n h1 (by omega)) hS

/-- What the sweep from the left has achieved when it has reached bond `n`. -/
structure OnrL (l0 : Envs ℂ D) (A : Tensors ℂ q D) (G0 : Matrix (Fin (D 0)) (Fin (D 0)) ℂ) (n : ℕ) (S : DiagSt ℂ q D) : Prop where
  rest : ∀ m, n ≤ m → S.A m = A m
  gg : ∀ m ≤ n, (S.G m)ᴴ * S.G m = l0 m
  inv : ∀ m ≤ n, S.G m * (S.G m)⁻¹ = 1
  gauge : ∀ m < n, ∀ s, S.A m s = S.G m * A m s * (S.G (m + 1))⁻¹
  one : ∀ m ≤ n, S.e m = 1
  first : S.G 0 = G0

theorem lastOnes_full (D : ℕ) : lastOnes D D = 1 := if_pos rfl

theorem onrLStep_inv (P : HermLib) {tol : ℝ} (h0 : 0 ≤ tol) {G0 : Matrix (Fin (D 0)) (Fin (D 0)) ℂ} {l0 : Envs ℂ D} {A : Tensors ℂ q D} {n : ℕ}
    (hl : l0 (n + 1) = ∑ s, (A n s)ᴴ * l0 n * A n s) (ha : AboveTol tol (l0 (n + 1))) {S : DiagSt ℂ q D}
    (h : OnrL l0 A G0 n S) : ∃ S', onrLStep P tol S n = some S' ∧ OnrL l0 A G0 (n + 1) S' := by
  have hM : epsL ((S.G n)ᴴ * (S.e n * S.G n)) (S.A n) (S.A n) = l0 (n + 1) := by
    rw [epsL_eq, h.one _ le_rfl, Matrix.one_mul, h.gg _ le_rfl, h.rest n le_rfl, ← hl]
  obtain ⟨f, hf, hF⟩ := hermFac_full P false true false h0 ha
  have hx : f.x * f.xi = 1 := hF.inv rfl
  have hfac : f.xᴴ * f.x = l0 (n + 1) := hF.fac
  have hinv : (f.x)⁻¹ = f.xi := Matrix.inv_eq_right_inv hx
  simp only [onrLStep, hM, hf, Option.bind_some]
  refine ⟨_, rfl, ?_, ?_, ?_, ?_, ?_, ?_⟩
  · intro m hm
    simp only
    rw [Function.update_of_ne (by omega), h.rest m (by omega)]
  · intro m hm
    rcases Nat.lt_or_ge m (n + 1) with h1 | h1
    · simp only [Function.update_of_ne (show m ≠ n + 1 by omega)]
      exact h.gg m (by omega)
    · obtain rfl : m = n + 1 := by omega
      simp only [Function.update_self, hfac]
  · intro m hm
    rcases Nat.lt_or_ge m (n + 1) with h1 | h1
    · simp only [Function.update_of_ne (show m ≠ n + 1 by omega)]
      exact h.inv m (by omega)
    · obtain rfl : m = n + 1 := by omega
      simp only [Function.update_self, hinv, hx]
  · intro m hm s
    rcases Nat.lt_or_ge m n with h1 | h1
    · simp only [Function.update_of_ne (show m ≠ n by omega), Function.update_of_ne (show m ≠ n + 1 by omega),
        Function.update_of_ne (show m + 1 ≠ n + 1 by omega)]
      exact h.gauge m h1 s
    · obtain rfl : m = n := by omega
      simp only [Function.update_self, hinv, Function.update_of_ne (show m ≠ m + 1 by omega)]
      rw [h.rest m le_rfl]
  · intro m hm
    rcases Nat.lt_or_ge m (n + 1) with h1 | h1
    · simp only [Function.update_of_ne (show m ≠ n + 1 by omega)]
      exact h.one m (by omega)
    · obtain rfl : m = n + 1 := by omega
      simp only [Function.update_self, hF.rank, lastOnes_full]
  · simp only
    rw [Function.update_of_ne (by omega), h.first]

theorem onrL_loop (P : HermLib) {tol : ℝ} (h0 : 0 ≤ tol) {G0 : Matrix (Fin (D 0)) (Fin (D 0)) ℂ} {l0 : Envs ℂ D} {A : Tensors ℂ q D} {c : ℕ}
    (hl : ∀ n < c, l0 (n + 1) = ∑ s, (A n s)ᴴ * l0 n * A n s)
    (ha : ∀ n < c, AboveTol tol (l0 (n + 1))) {S : DiagSt ℂ q D} (h : OnrL l0 A G0 0 S) :
    ∃ S', (List.range' 0 c).foldl (fun st n => st.bind fun st => onrLStep P tol st n) (some S)
      = some S' ∧ OnrL l0 A G0 c S' := by
  have := foldUp_inv (fun st n => st.bind fun st => onrLStep P tol st n)
    (fun n st => ∃ S', st = some S' ∧ OnrL l0 A G0 n S') 0 c (some S) ⟨S, rfl, h⟩ (by
      rintro n h1 h2 _ ⟨S', rfl, hS⟩
      exact onrLStep_inv P h0 (hl n (by omega)) (ha n (by omega)) hS)
  rwa [Nat.zero_add] at this

/-! ## The sweeps of `_restore_CF_diag` -/

/-- What the sweep to the right that starts at bond `c` has achieved when it has reached bond `n`. -/
structure DiagInvC (eigh : Eigh ℂ) (A : Tensors ℂ q D) (e0 : Envs ℂ D) (c n : ℕ) (S : DiagSt ℂ q D) : Prop where
  G0 : S.G c = 1
  old : ∀ m ≤ c, S.e m = e0 m
  restLt : ∀ m < c, S.A m = A m
  rest : ∀ m, n ≤ m → S.A m = A m
  unit : ∀ m, c ≤ m → m ≤ n → S.G m * (S.G m)ᴴ = 1
  psd : ∀ m, c ≤ m → m ≤ n → (S.e m).PosSemidef
  gauge : ∀ m, c ≤ m → m < n → ∀ s, S.A m s = S.G m * A m s * (S.G (m + 1))ᴴ
  e_succ : ∀ m, c ≤ m → m < n → S.e (m + 1) = ∑ s, (S.A m s)ᴴ * S.e m * S.A m s
  diag : ∀ m, c ≤ m → m < n → ∃ M : Matrix (Fin (D (m + 1))) (Fin (D (m + 1))) ℂ,
    M.IsHermitian ∧ S.e (m + 1) = diagonal (eigh.ev M)

theorem rcfDiagStep_invC (eigh : Eigh ℂ) {A : Tensors ℂ q D} {e0 : Envs ℂ D} {c n : ℕ} (hn : c ≤ n) {S : DiagSt ℂ q D}
    (h : DiagInvC eigh A e0 c n S) : DiagInvC eigh A e0 c (n + 1) (rcfDiagStep eigh S n) := by
  set M := epsL ((S.G n)ᴴ * (S.e n * S.G n)) (S.A n) (S.A n) with hM
  have hMsum : M = ∑ s, (A n s)ᴴ * ((S.G n)ᴴ * (S.e n * S.G n)) * A n s := by
    rw [hM, epsL_eq, h.rest n le_rfl]
  have hpsd : M.PosSemidef := by
    rw [hMsum]
    refine Matrix.posSemidef_sum _ fun s _ => ?_
    have h1 := ((h.psd n hn le_rfl).conjTranspose_mul_mul_same (S.G n)).conjTranspose_mul_mul_same (A n s)
    simpa only [Matrix.mul_assoc] using h1
  have hherm : M.IsHermitian := hpsd.isHermitian
  have hunit := eigh.unit M hherm
  have heig := eigh.eig M hherm
  have hA : (rcfDiagStep eigh S n).A
    = Function.update S.A n (fun s => S.G n * (S.A n s * eigh.vec M)) := rfl
  have hG : (rcfDiagStep eigh S n).G = Function.update S.G (n + 1) (eigh.vec M)ᴴ := rfl
  have he : (rcfDiagStep eigh S n).e
    = Function.update S.e (n + 1) (diagonal (eigh.ev M)) := rfl
  have hdiag : (eigh.vec M)ᴴ * (M * eigh.vec M) = diagonal (eigh.ev M) := by
    rw [heig, ← Matrix.mul_assoc, hunit, Matrix.one_mul]
  refine ⟨?_, ?_, ?_, ?_, ?_, ?_, ?_, ?_, ?_⟩
  · rw [hG, Function.update_of_ne (by omega), h.G0]
  · intro m hm
    rw [he, Function.update_of_ne (by omega), h.old m hm]
  · intro m hm
    rw [hA, Function.update_of_ne (by omega), h.restLt m hm]
  · intro m hm
    rw [hA, Function.update_of_ne (by omega), h.rest m (by omega)]
  · intro m hc hm
    rcases Nat.lt_or_ge m (n + 1) with h1 | h1
    · rw [hG, Function.update_of_ne (by omega), h.unit m hc (by omega)]
    · obtain rfl : m = n + 1 := by omega
      rw [hG, Function.update_self, Matrix.conjTranspose_conjTranspose, hunit]
  · intro m hc hm
    rcases Nat.lt_or_ge m (n + 1) with h1 | h1
    · rw [he, Function.update_of_ne (by omega)]
      exact h.psd m hc (by omega)
    · obtain rfl : m = n + 1 := by omega
      rw [he, Function.update_self, ← hdiag, ← Matrix.mul_assoc]
      exact hpsd.conjTranspose_mul_mul_same _
  · intro m hc hm s
    rcases Nat.lt_or_ge m n with h1 | h1
    · rw [hG, Function.update_of_ne (by omega), Function.update_of_ne (by omega), hA,
        Function.update_of_ne (by omega), h.gauge m hc h1 s]
    · obtain rfl : m = n := by omega
      rw [hG, Function.update_of_ne (by omega), Function.update_self, hA, Function.update_self,
        Matrix.conjTranspose_conjTranspose, h.rest m le_rfl, Matrix.mul_assoc]
  · intro m hc hm
    rcases Nat.lt_or_ge m n with h1 | h1
    · rw [he, Function.update_of_ne (by omega), Function.update_of_ne (by omega), hA,
        Function.update_of_ne (by omega), h.e_succ m hc h1]
    · obtain rfl : m = n := by omega
      rw [he, Function.update_self, Function.update_of_ne (by omega), hA, Function.update_self,
        ← hdiag, hMsum, Matrix.sum_mul, Matrix.mul_sum, h.rest m le_rfl]
      refine Finset.sum_congr rfl fun s _ => ?_
      simp only [Matrix.conjTranspose_mul, Matrix.mul_assoc]
  · intro m hc hm
    rcases Nat.lt_or_ge m n with h1 | h1
    · rw [he, Function.update_of_ne (by omega)]
      exact h.diag m hc h1
    · obtain rfl : m = n := by omega
      rw [he, Function.update_self]
      exact ⟨_, hherm, rfl⟩

theorem diagC_loop (eigh : Eigh ℂ) (A : Tensors ℂ q D) {l : Envs ℂ D} {c : ℕ} (hc : c ≤ N) (hl : (l c).PosSemidef) :
    DiagInvC eigh A l c N
      ((List.range' c (N - c)).foldl (rcfDiagStep eigh) ⟨A, fun n => if n = c then 1 else 0, l⟩) := by
  have := foldUp_inv (rcfDiagStep eigh) (DiagInvC eigh A l c) c (N - c)
    ⟨A, fun n => if n = c then 1 else 0, l⟩ ?_ (fun n h1 _ S h => rcfDiagStep_invC eigh h1 h)
  · rwa [show c + (N - c) = N by omega] at this
  · refine ⟨if_pos rfl, fun _ _ => rfl, fun _ _ => rfl, fun _ _ => rfl, fun m h1 h2 => ?_, fun m h1 h2 => ?_, ?_, ?_, ?_⟩
    · obtain rfl : m = c := by omega
      simp
    · obtain rfl : m = c := by omega
      exact hl
    all_goals intro m h1 h2; omega

theorem ascDiag_of (P : HermLib) {n : ℕ} {e M : Matrix (Fin n) (Fin n) ℂ} (hM : M.IsHermitian)
    (h : e = diagonal (P.eigh.ev M)) (hp : e.PosSemidef) : AscendingDiag e := by
  refine ⟨fun i => (P.eigh.ev M i).re, fun i => ?_, P.asc M hM, ?_⟩
  · rw [h] at hp
    have := hp.diag_nonneg (i := i)
    rw [Matrix.diagonal_apply_eq] at this
    exact (Complex.le_def.mp this).1
  · rw [h]
    congr 1
    funext i
    exact ev_real P.eigh hM i

/-! ## `_restore_CF_ONR` -/

theorem _root_.EvoMPS.GaugeRel.right_one {R : Type*} [CommRing R] [StarRing R] {p d L : ℕ} {g gi : ℕ → Matrix (Fin d) (Fin d) R}
    {A A' : ℕ → Fin p → Matrix (Fin d) (Fin d) R} {l r l' r' : ℕ → Matrix (Fin d) (Fin d) R}
    (h : GaugeRel L g gi A l r A' l' r') {k : ℕ} (hk : k < L) (h1 : r' k = 1) : g k * (g k)ᴴ = r k := by
  have h2 := h.right k hk
  rw [h1] at h2
  have h3 := (h.by_.inv k hk).1
  calc g k * (g k)ᴴ = g k * (gi k * r k * (gi k)ᴴ) * (g k)ᴴ := by rw [← h2, Matrix.mul_one]
    _ = (g k * gi k) * r k * ((gi k)ᴴ * (g k)ᴴ) := by simp only [Matrix.mul_assoc]
    _ = r k := by rw [h3, inv_star h3, Matrix.one_mul, Matrix.mul_one]

theorem _root_.EvoMPS.GaugeRel.left_one {R : Type*} [CommRing R] [StarRing R] {p d L : ℕ} {g gi : ℕ → Matrix (Fin d) (Fin d) R}
    {A A' : ℕ → Fin p → Matrix (Fin d) (Fin d) R} {l r l' r' : ℕ → Matrix (Fin d) (Fin d) R}
    (h : GaugeRel L g gi A l r A' l' r') {k : ℕ} (hk : k < L) (h1 : l' k = 1) : (gi k)ᴴ * gi k = l k := by
  have h2 := h.left k hk
  rw [h1] at h2
  have h3 := (h.by_.inv k hk).1
  calc (gi k)ᴴ * gi k = (gi k)ᴴ * ((g k)ᴴ * l k * g k) * gi k := by rw [← h2, Matrix.mul_one]
    _ = ((gi k)ᴴ * (g k)ᴴ) * l k * (g k * gi k) := by simp only [Matrix.mul_assoc]
    _ = l k := by rw [h3, inv_star h3, Matrix.one_mul, Matrix.mul_one]

/-- The conditions under which the canonical form can be restored: `S` has bulk environments, `l0`, `r0` are the environments of
the finite part, and those that are made identities have full rank. -/
structure CanCF (tol : ℝ) (c : ℕ) (S : Sw q D qL qR N) (l0 r0 : Envs ℂ D) : Prop where
  posL : 0 < S.uniL.L
  posR : 0 < S.uniR.L
  envL : ChainEnv S.uniL.L S.uniL.A S.uniL.l S.uniL.r
  envR : ChainEnv S.uniR.L S.uniR.A S.uniR.l S.uniR.r
  env : SwEnv N S.A (S.uniL.l (S.uniL.L - 1)) (S.uniR.r (S.uniR.L - 1)) l0 r0
  bulkL : ∀ k < S.uniL.L, AboveTol tol (S.uniL.l k) ∧ (S.uniL.r k).PosSemidef
  bulkR : ∀ k < S.uniR.L, AboveTol tol (S.uniR.r k) ∧ (S.uniR.l k).PosSemidef
  left : ∀ n ≤ c, AboveTol tol (l0 n)
  right : ∀ n, c < n → n ≤ N → AboveTol tol (r0 n)

/-- What `_restore_CF_ONR` has achieved. -/
structure OnrDone (c : ℕ) (S S' : Sw q D qL qR N) (l0 r0 : Envs ℂ D)
    (gL giL : ℕ → Matrix (Fin (D 0)) (Fin (D 0)) ℂ) (gR giR : ℕ → Matrix (Fin (D N)) (Fin (D N)) ℂ) (g gi : Envs ℂ D) :
    Prop where
  nc : S'.nc = S.nc
  LL : S'.uniL.L = S.uniL.L
  LR : S'.uniR.L = S.uniR.L
  relL : GaugeRel S.uniL.L gL giL S.uniL.A S.uniL.l S.uniL.r S'.uniL.A S'.uniL.l S'.uniL.r
  relR : GaugeRel S.uniR.L gR giR S.uniR.A S.uniR.l S.uniR.r S'.uniR.A S'.uniR.l S'.uniR.r
  oneL : ∀ k < S.uniL.L, S'.uniL.l k = 1
  oneR : ∀ k < S.uniR.L, S'.uniR.r k = 1
  gauge : SwGauge N c 1 g gi S.A S'.A
  g0 : g 0 = gL (S.uniL.L - 1) ∧ gi 0 = giL (S.uniL.L - 1)
  gN : g N = gR (S.uniR.L - 1) ∧ gi N = giR (S.uniR.L - 1)
  left : ∀ n ≤ c, (gi n)ᴴ * gi n = l0 n ∧ S'.l n = 1
  right : ∀ n, c < n → n ≤ N → g n * (g n)ᴴ = r0 n ∧ S'.r n = 1
  rEnd : S'.rEnd = 1

theorem restoreONR_spec (P : HermLib) {tol : ℝ} (h0 : 0 ≤ tol) {c : ℕ} (hc : c < N) (S : Sw q D qL qR N) (l0 r0 : Envs ℂ D)
    (H : CanCF tol c S l0 r0) :
    ∃ S' gL giL gR giR g gi, restoreONR P tol c S = some S' ∧ OnrDone c S S' l0 r0 gL giL gR giR g gi := by
  obtain ⟨uR, HR, HiR, gR, giR, a1, a2, a3, a4⟩ := SW.bulkR P h0 S.uniR H.bulkR
  obtain ⟨uL, HL, HiL, gL, giL, b1, b2, b3, b4⟩ := SW.bulkL P h0 S.uniL H.bulkL
  have hkR : S.uniR.L - 1 < S.uniR.L := by have := H.posR; omega
  have hkL : S.uniL.L - 1 < S.uniL.L := by have := H.posL; omega
  have hgR := (a3.by_.inv _ hkR).1
  have hgL := (b3.by_.inv _ hkL).1
  have iR : (gR (S.uniR.L - 1))⁻¹ = giR (S.uniR.L - 1) := Matrix.inv_eq_right_inv hgR
  have iL : (giL (S.uniL.L - 1))⁻¹ = gL (S.uniL.L - 1) := Matrix.inv_eq_left_inv hgL
  obtain ⟨TR, c1, c2⟩ := onrR_loop P h0 (GN := gR (S.uniR.L - 1)) (r0 := r0) (A := S.A) hc (fun n _ h => H.env.r_pred n h)
    (fun n h1 h2 => H.right n h1 (by omega))
    (S := ⟨S.A, Function.update 0 N (gR (S.uniR.L - 1)), Function.update S.r N (uR.r (S.uniR.L - 1))⟩) (by
      refine ⟨fun _ _ => rfl, fun m h1 h2 => ?_, fun m h1 h2 => ?_, fun m h1 h2 => ?_, fun m h1 h2 => ?_, ?_⟩
      · obtain rfl : m = N := by omega
        simp only [Function.update_self]
        rw [a3.right_one hkR (a4 _ hkR).1, H.env.last]
      · obtain rfl : m = N := by omega
        simp only [Function.update_self]
        rw [iR, hgR]
      · omega
      · obtain rfl : m = N := by omega
        simp only [Function.update_self]
        exact (a4 _ hkR).1
      · simp only [Function.update_self])
  set A1 : Tensors ℂ q D := Function.update TR.A c fun s => TR.A c s * TR.G (c + 1) with hA1
  have hA1lt : ∀ m < c, A1 m = S.A m := by
    intro m hm
    rw [hA1, Function.update_of_ne (by omega), c2.rest m (by omega)]
  obtain ⟨TL, d1, d2⟩ := onrL_loop P h0 (G0 := giL (S.uniL.L - 1)) (l0 := l0) (A := A1) (c := c)
    (fun n h => by rw [hA1lt n h]; exact H.env.l_succ n (by omega)) (fun n h => H.left (n + 1) h)
    (S := ⟨A1, Function.update 0 0 (giL (S.uniL.L - 1)), Function.update S.l 0 (uL.l (S.uniL.L - 1))⟩) (by
      refine ⟨fun _ _ => rfl, fun m h1 => ?_, fun m h1 => ?_, fun m h1 => ?_, fun m h1 => ?_, ?_⟩
      · obtain rfl : m = 0 := by omega
        simp only [Function.update_self]
        rw [b3.left_one hkL (b4 _ hkL).1, H.env.first]
      · obtain rfl : m = 0 := by omega
        simp only [Function.update_self]
        rw [iL, mul_eq_one_comm.mp hgL]
      · omega
      · obtain rfl : m = 0 := by omega
        simp only [Function.update_self]
        exact (b4 _ hkL).1
      · simp only [Function.update_self])
  refine ⟨{ S with
      A := Function.update TL.A c fun s => TL.G c * TL.A c s
      l := TL.e, r := TR.e, rEnd := TR.e N, uniL := uL, uniR := uR }, gL, giL, gR, giR, fun n => if n ≤ c then (TL.G n)⁻¹ else TR.G n,
    fun n => if n ≤ c then TL.G n else (TR.G n)⁻¹, ?_, ?_⟩
  · simp only [restoreONR, a1, Option.bind_some, (a4 _ hkR).2, c1, if_pos hc, b1, (b4 _ hkL).2, ← hA1, d1]
  · refine ⟨rfl, b2, a2, b3, a3, fun k hk => (b4 k hk).1, fun k hk => (a4 k hk).1, ?_, ?_, ?_, ?_, ?_, ?_⟩
    · refine ⟨fun n hn => ?_, fun n hn s => ?_⟩
      · by_cases h : n ≤ c
        · simp only [h, if_true]
          have := d2.inv n h
          exact ⟨mul_eq_one_comm.mp this, this⟩
        · simp only [h, if_false]
          have := c2.inv n (by omega) hn
          exact ⟨this, mul_eq_one_comm.mp this⟩
      · rw [ite_self, one_smul]
        simp only
        rcases Nat.lt_trichotomy n c with h | h | h
        · rw [if_pos (by omega), if_pos (by omega), Function.update_of_ne (by omega), d2.gauge n h, hA1lt n h]
        · subst h
          rw [if_pos le_rfl, if_neg (by omega), Function.update_self, d2.rest n le_rfl, hA1, Function.update_self,
            c2.rest n (by omega), Matrix.mul_assoc]
        · rw [if_neg (by omega), if_neg (by omega), Function.update_of_ne (by omega), d2.rest n (by omega), hA1,
            Function.update_of_ne (by omega), c2.gauge n (by omega) hn]
    · simp only [Nat.zero_le, if_true]
      rw [d2.first, iL]
      exact ⟨rfl, rfl⟩
    · simp only [show ¬ N ≤ c by omega, if_false]
      rw [c2.last, iR]
      exact ⟨rfl, rfl⟩
    · intro n hn
      simp only [hn, if_true]
      exact ⟨d2.gg n hn, d2.one n hn⟩
    · intro n hn hnN
      simp only [show ¬ n ≤ c by omega, if_false]
      exact ⟨c2.gg n (by omega) hnN, c2.one n (by omega) hnN⟩
    · exact c2.one N (by omega) le_rfl

end EvoMPS.SW
