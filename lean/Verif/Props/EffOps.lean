import Verif.EffOpsMore
import Mathlib.Analysis.Complex.Basic

/-!
# C57: the effective operators of the split-step integrator

`Vari_Opt_Single_Site_Op`, `Vari_Opt_SC_op` and `Vari_Opt_Two_Site_Op` are the operators whose exponential is applied by
`evolve_split`, and whose lowest eigenvector is taken for DMRG.  With the accumulated matrices of `update_Heff_left` and
`update_Heff_right`, and in the central gauge, they are the Hamiltonian between states that differ in the tensor of one
site, in the matrix of one bond, or in the tensor of a pair of sites.
-/

namespace EvoMPS

open Matrix Eff

section
variable {R : Type*} [CommRing R] [StarRing R] {q D : ℕ → ℕ} {N : ℕ}

/-- **C57** (one site).  `tau ⟨Y|H|X⟩ = ⟨Y, matvec(X)⟩`, where `|X⟩` is the state with the tensor of site `k` replaced by
`X`. -/
theorem C57_site (ham : Ham R q) (A : Tensors R q D) (h0 : D 0 = 1) (hN : D N = 1) (k : ℕ) (hk : k < N)
    (hL : ∀ n < k, LOrth (A n)) (hR : ∀ n, k < n → n < N → ROrth (A n)) (KL KR : OptEnvs R D)
    (hKL : lefts ham A k = some KL) (hKR : rights N ham A (k + 1) = some KR) (tau : R)
    (X Y res : Fin (q k) → Matrix (Fin (D k)) (Fin (D (k + 1))) R)
    (hres : siteMatvec N ham A k (KL k) (KR (k + 1)) tau X = some res) :
    ∑ s, (res s * (Y s)ᴴ).trace
      = tau * matElem (oneSite (N := N) A h0 hN k Y) (ham.total (N := N)) (oneSite A h0 hN k X) := by
  obtain ⟨r, hr, rfl⟩ := Option.map_eq_some_iff.1 hres
  have := siteLocal_eq h0 hN ham k hk X Y hL hR (lefts_spec ham A k hKL).1 (rights_spec ham A (k + 1) hk hKR).1 hr
  rw [elem1] at this
  rw [this, pair, Finset.mul_sum]
  simp only [Matrix.smul_mul, Matrix.trace_smul, smul_eq_mul]

/-- In the central gauge the inner product of the states is the inner product of the tensors. -/
theorem C57_site_isometry (A : Tensors R q D) (h0 : D 0 = 1) (hN : D N = 1) (k : ℕ) (hk : k < N)
    (hL : ∀ n < k, LOrth (A n)) (hR : ∀ n, k < n → n < N → ROrth (A n))
    (X Y : Fin (q k) → Matrix (Fin (D k)) (Fin (D (k + 1))) R) :
    braket (oneSite (N := N) A h0 hN k Y) (oneSite A h0 hN k X) = ∑ s, (X s * (Y s)ᴴ).trace :=
  site_inner h0 hN k hk X Y hL hR

/-- **C57** (bond).  `tau ⟨G'|H|G⟩ = ⟨G', matvec(G)⟩`, where `|G⟩` is the state with the matrix `G` between the tensors
of the sites `k` and `k + 1`. -/
theorem C57_bond (ham : Ham R q) (A : Tensors R q D) (h0 : D 0 = 1) (hN : D N = 1) (k : ℕ) (hk : k + 1 < N)
    (hL : ∀ n ≤ k, LOrth (A n)) (hR : ∀ n, k < n → n < N → ROrth (A n)) (KL KR : OptEnvs R D)
    (hKL : lefts ham A (k + 1) = some KL) (hKR : rights N ham A (k + 1) = some KR) (tau : R)
    (G G' res : Matrix (Fin (D (k + 1))) (Fin (D (k + 1))) R)
    (hres : bondMatvec N ham A k (KL (k + 1)) (KR (k + 1)) tau G = some res) :
    (res * G'ᴴ).trace = tau * matElem (oneSite (N := N) A h0 hN k fun s => A k s * G') (ham.total (N := N))
      (oneSite A h0 hN k fun s => A k s * G) := by
  obtain ⟨r, hr, rfl⟩ := Option.map_eq_some_iff.1 hres
  have := bondLocal_eq h0 hN ham k hk G G' (fun n hn => hL n (by omega)) hR (lefts_spec ham A (k + 1) hKL).1
    (rights_spec ham A (k + 1) hk.le hKR).1 hr
  rw [elem1] at this
  rw [this, Matrix.smul_mul, Matrix.trace_smul, smul_eq_mul]

/-- In the central gauge the inner product of the states is the inner product of the matrices. -/
theorem C57_bond_isometry (A : Tensors R q D) (h0 : D 0 = 1) (hN : D N = 1) (k : ℕ) (hk : k + 1 < N)
    (hL : ∀ n ≤ k, LOrth (A n)) (hR : ∀ n, k < n → n < N → ROrth (A n))
    (G G' : Matrix (Fin (D (k + 1))) (Fin (D (k + 1))) R) :
    braket (oneSite (N := N) A h0 hN k fun s => A k s * G') (oneSite A h0 hN k fun s => A k s * G)
      = (G * G'ᴴ).trace :=
  bond_inner h0 hN k hk G G' (fun n hn => hL n (by omega)) hR

/-- The matrix may as well be multiplied into the tensor behind the bond. -/
theorem C57_bond_move (A : Tensors R q D) (h0 : D 0 = 1) (hN : D N = 1) (k : ℕ) (hk : k + 1 < N)
    (G : Matrix (Fin (D (k + 1))) (Fin (D (k + 1))) R) :
    oneSite (N := N) A h0 hN k (fun s => A k s * G) = oneSite A h0 hN (k + 1) (fun s => G * A (k + 1) s) :=
  oneSite_move A h0 hN k hk G

section
variable [DecidableEq R]

/-- **C57** (pair of sites, two-site Hamiltonians).  `tau ⟨Y|H|X⟩ = ⟨Y, matvec(X)⟩`, where `|X⟩` is the state with the
tensors of the sites `k` and `k + 1` replaced by the two-site tensor `X k`. -/
theorem C57_pair (hm : Ham2 R q) (A : Tensors R q D) (h0 : D 0 = 1) (hN : D N = 1) (k : ℕ) (hk : k + 1 < N)
    (hD : 0 < D (k + 1)) (hL : ∀ n < k, LOrth (A n)) (hR : ∀ n, k + 1 < n → n < N → ROrth (A n)) (KL KR : OptEnvs R D)
    (hKL : lefts (.two hm) A k = some KL) (hKR : rights N (.two hm) A (k + 2) = some KR) (tau : R)
    (X Y : Pairs R q D) (res : Fin (q k) → Fin (q (k + 1)) → Matrix (Fin (D k)) (Fin (D (k + 2))) R)
    (hres : pairMatvec N (.two hm) A k (KL k) (KR (k + 2)) tau (X k) = some res) :
    ∑ s, ∑ t, (res s t * (Y k s t)ᴴ).trace
      = tau * matElem (twoSite (N := N) A h0 hN Y k) ((Ham.two hm).total (N := N)) (twoSite A h0 hN X k) := by
  obtain ⟨r, hr, rfl⟩ := Option.map_eq_some_iff.1 hres
  have := pairLocal_eq h0 hN (.two hm) k hk hD X Y trivial hL hR (lefts_spec _ A k hKL).1
    (rights_spec _ A (k + 2) (by omega) hKR).1 hr
  rw [elem2] at this
  rw [this, pair2]
  simp only [Finset.mul_sum]
  refine Finset.sum_congr rfl fun s _ => Finset.sum_congr rfl fun t _ => ?_
  rw [Matrix.smul_mul, Matrix.trace_smul, smul_eq_mul]

/-- **C57** (pair of sites, three-site Hamiltonians).  Full claim: as `C57_pair`, for all terms.  Proved for terms with
the additional symmetry that the code takes for granted: the term that begins one site in front of the pair is Hermitian
in its first site alone, the term that ends two sites behind the pair is Hermitian in its last two sites alone.  Without
this the claim is false, see `C57_pair3_left_violated` and `C57_pair3_right_violated`. -/
theorem C57_pair3_partial (hm : Ham3 R q) (A : Tensors R q D) (h0 : D 0 = 1) (hN : D N = 1) (k : ℕ) (hk : k + 1 < N)
    (hD : 0 < D (k + 1)) (hfirst : ∀ j op, j + 1 = k → hm j = some op → FirstHerm op)
    (hlast : ∀ op, k + 3 < N → hm (k + 1) = some op → LastHerm op)
    (hL : ∀ n < k, LOrth (A n)) (hR : ∀ n, k + 1 < n → n < N → ROrth (A n)) (KL KR : OptEnvs R D)
    (hKL : lefts (.three hm) A k = some KL) (hKR : rights N (.three hm) A (k + 2) = some KR) (tau : R)
    (X Y : Pairs R q D) (res : Fin (q k) → Fin (q (k + 1)) → Matrix (Fin (D k)) (Fin (D (k + 2))) R)
    (hres : pairMatvec N (.three hm) A k (KL k) (KR (k + 2)) tau (X k) = some res) :
    ∑ s, ∑ t, (res s t * (Y k s t)ᴴ).trace
      = tau * matElem (twoSite (N := N) A h0 hN Y k) ((Ham.three hm).total (N := N)) (twoSite A h0 hN X k) := by
  obtain ⟨r, hr, rfl⟩ := Option.map_eq_some_iff.1 hres
  have := pairLocal_eq h0 hN (.three hm) k hk hD X Y ⟨hfirst, hlast⟩ hL hR (lefts_spec _ A k hKL).1
    (rights_spec _ A (k + 2) (by omega) hKR).1 hr
  rw [elem2] at this
  rw [this, pair2]
  simp only [Finset.mul_sum]
  refine Finset.sum_congr rfl fun s _ => Finset.sum_congr rfl fun t _ => ?_
  rw [Matrix.smul_mul, Matrix.trace_smul, smul_eq_mul]

omit [DecidableEq R] in
/-- In the central gauge the inner product of the states is the inner product of the two-site tensors. -/
theorem C57_pair_isometry (A : Tensors R q D) (h0 : D 0 = 1) (hN : D N = 1) (k : ℕ) (hk : k + 1 < N)
    (hD : 0 < D (k + 1)) (hL : ∀ n < k, LOrth (A n)) (hR : ∀ n, k + 1 < n → n < N → ROrth (A n)) (X Y : Pairs R q D) :
    braket (twoSite (N := N) A h0 hN Y k) (twoSite A h0 hN X k) = ∑ s, ∑ t, (X k s t * (Y k s t)ᴴ).trace :=
  pair_inner h0 hN k hk hD X Y hL hR

omit [DecidableEq R] in
/-- The accumulated matrices are computed without an exception if and only if no term is missing among those that end in
front of site `k` or start at site `k` or behind it. -/
theorem C57_accumulated_returns (ham : Ham R q) (A : Tensors R q D) (k : ℕ) (hk : k ≤ N) :
    ((lefts ham A k).isSome ↔ ∀ j, j + ham.sites ≤ k → Has ham j) ∧
    ((rights N ham A k).isSome ↔ ∀ j, k ≤ j → j + ham.sites ≤ N → Has ham j) :=
  ⟨lefts_isSome ham A k, rights_isSome ham A k hk⟩

/-- The operators return if and only if no term is missing among those that act on their sites (one site, a bond, a
pair). -/
theorem C57_returns (ham : Ham R q) (A : Tensors R q D) (k : ℕ) (tau : R) :
    (k < N → ∀ KL KR X, (siteMatvec N ham A k KL KR tau X).isSome
      ↔ ∀ j, j ≤ k → k < j + ham.sites → j + ham.sites ≤ N → Has ham j) ∧
    (k + 1 < N → ∀ KL KR G, (bondMatvec N ham A k KL KR tau G).isSome
      ↔ ∀ j, j ≤ k → k + 1 < j + ham.sites → j + ham.sites ≤ N → Has ham j) ∧
    (k + 1 < N → ∀ KL KR X, (pairMatvec N ham A k KL KR tau X).isSome
      ↔ ∀ j, j ≤ k + 1 → k < j + ham.sites → j + ham.sites ≤ N → Has ham j) :=
  ⟨fun hk KL KR X => site_isSome ham A k hk KL KR tau X, fun hk KL KR X => bond_isSome ham A k hk KL KR tau X,
    fun hk KL KR X => pair_isSome ham A k hk KL KR tau X⟩

end

theorem matElem_star (ham : Ham R q) (hherm : ∀ s t : Cfg q N, star (ham.total s t) = ham.total t s)
    (φ ψ : Cfg q N → R) : star (matElem φ (ham.total (N := N)) ψ) = matElem ψ (ham.total (N := N)) φ := by
  simp only [matElem, star_sum, star_mul', star_star, hherm]
  rw [Finset.sum_comm]
  exact Finset.sum_congr rfl fun s _ => Finset.sum_congr rfl fun t _ => by ring

/-- For a Hermitian Hamiltonian the one-site operator and the bond operator (with `tau = 1`) are self-adjoint, which is
what the Lanczos routine and `eigsh` are used for. -/
theorem C57_selfadjoint (ham : Ham R q) (A : Tensors R q D) (h0 : D 0 = 1) (hN : D N = 1) (k : ℕ) (hk : k < N)
    (hherm : ∀ s t : Cfg q N, star (ham.total s t) = ham.total t s)
    (hL : ∀ n < k, LOrth (A n)) (hR : ∀ n, k < n → n < N → ROrth (A n)) (KL KR : OptEnvs R D)
    (hKR : rights N ham A (k + 1) = some KR) :
    (lefts ham A k = some KL → ∀ X Y resX resY, siteMatvec N ham A k (KL k) (KR (k + 1)) 1 X = some resX →
      siteMatvec N ham A k (KL k) (KR (k + 1)) 1 Y = some resY →
      ∑ s, (resX s * (Y s)ᴴ).trace = star (∑ s, (resY s * (X s)ᴴ).trace)) ∧
    (k + 1 < N → LOrth (A k) → lefts ham A (k + 1) = some KL → ∀ G G' res res',
      bondMatvec N ham A k (KL (k + 1)) (KR (k + 1)) 1 G = some res →
      bondMatvec N ham A k (KL (k + 1)) (KR (k + 1)) 1 G' = some res' →
      (res * G'ᴴ).trace = star (res' * Gᴴ).trace) := by
  refine ⟨fun hKL X Y resX resY hX hY => ?_, fun hk1 hA hKL G G' res res' hX hY => ?_⟩
  · rw [C57_site ham A h0 hN k hk hL hR KL KR hKL hKR 1 X Y resX hX,
      C57_site ham A h0 hN k hk hL hR KL KR hKL hKR 1 Y X resY hY, one_mul, one_mul, matElem_star ham hherm]
  · have hL' : ∀ n ≤ k, LOrth (A n) := fun n hn => by
      rcases Nat.lt_or_ge n k with h | h
      · exact hL n h
      · obtain rfl : n = k := by omega
        exact hA
    rw [C57_bond ham A h0 hN k hk1 hL' hR KL KR hKL hKR 1 G G' res hX,
      C57_bond ham A h0 hN k hk1 hL' hR KL KR hKL hKR 1 G' G res' hY, one_mul, one_mul, matElem_star ham hherm]

end

/-! ## The three-site branch of the two-site operator -/

namespace Ex57

open Complex

/-- The Pauli matrix `Y`. -/
def pY (s t : Fin 2) : ℂ := if s = t then 0 else if s = 0 then -I else I

/-- The identity. -/
def p1 (s t : Fin 2) : ℂ := if s = t then 1 else 0

/-- All spins up. -/
def up : Tensors ℂ (fun _ => 2) (fun _ => 1) := fun _ s => Matrix.of fun _ _ => if s = 0 then 1 else 0

/-- The two-site tensor of `|a b⟩`. -/
def basis (a b : Fin 2) : Pairs ℂ (fun _ => 2) (fun _ => 1) :=
  fun _ s t => Matrix.of fun _ _ => if s = a ∧ t = b then 1 else 0

/-- `1 ⊗ Y ⊗ 1` on the first three sites. -/
def hamL : Ham3 ℂ (fun _ => 2) := fun n => if n = 0 then
  some fun u s t u' s' t' => p1 u u' * pY s s' * p1 t t' else none

/-- `Y ⊗ 1 ⊗ 1` on the sites 1, 2, 3. -/
def hamR : Ham3 ℂ (fun _ => 2) := fun n => if n = 1 then
  some fun u s t u' s' t' => pY u u' * p1 s s' * p1 t t' else some 0

theorem pY_star (s t : Fin 2) : star (pY s t) = pY t s := by
  fin_cases s <;> fin_cases t <;> simp [pY]

theorem p1_star (s t : Fin 2) : star (p1 s t) = p1 t s := by
  fin_cases s <;> fin_cases t <;> simp [p1]

theorem up_L (n : ℕ) : LOrth (up n) := by
  ext i j
  have : i = j := Subsingleton.elim (α := Fin 1) i j
  subst this
  simp [up, Fin.sum_univ_two, Matrix.add_apply, Matrix.mul_apply]

theorem up_R (n : ℕ) : ROrth (up n) := by
  ext i j
  have : i = j := Subsingleton.elim (α := Fin 1) i j
  subst this
  simp [up, Fin.sum_univ_two, Matrix.add_apply, Matrix.mul_apply]

theorem state_L (a b : Fin 2) (s : Cfg (fun _ => 2) 3) :
    twoSite (N := 3) up rfl rfl (basis a b) 1 s = if s = ![0, a, b] then 1 else 0 := by
  have : s = ![0, a, b] ↔ s 0 = 0 ∧ s 1 = a ∧ s 2 = b := by
    constructor
    · rintro rfl
      exact ⟨rfl, rfl, rfl⟩
    · rintro ⟨h1, h2, h3⟩
      funext i
      fin_cases i <;> assumption
  simp only [this]
  simp [twoSite, amp2, amp, up, basis, Matrix.mul_apply]
  split_ifs <;> simp_all

theorem state_R (a b : Fin 2) (s : Cfg (fun _ => 2) 4) :
    twoSite (N := 4) up rfl rfl (basis a b) 0 s = if s = ![a, b, 0, 0] then 1 else 0 := by
  have : s = ![a, b, 0, 0] ↔ s 0 = a ∧ s 1 = b ∧ s 2 = 0 ∧ s 3 = 0 := by
    constructor
    · rintro rfl
      exact ⟨rfl, rfl, rfl, rfl⟩
    · rintro ⟨h1, h2, h3, h4⟩
      funext i
      fin_cases i <;> assumption
  simp only [this]
  simp [twoSite, amp2, amp, up, basis, Matrix.mul_apply]
  split_ifs <;> simp_all

theorem matElem_delta {N : ℕ} (O : Cfg (fun _ => 2) N → Cfg (fun _ => 2) N → ℂ) (c d : Cfg (fun _ => 2) N) :
    matElem (fun s => if s = c then 1 else 0) O (fun s => if s = d then 1 else 0) = O c d := by
  simp only [matElem]
  rw [Finset.sum_eq_single c, Finset.sum_eq_single d] <;> simp +contextual

end Ex57

open Ex57 in
/-- The claim of `C57_pair` fails for the Hermitian three-site term `1 ⊗ Y ⊗ 1` if the pair consists of its last two
sites: the operator applied is `-1 ⊗ Y ⊗ 1`.  (`split_step.py:266` lacks the adjoint that line 211-212 has.) -/
theorem C57_pair3_left_violated : ∃ (hm : Ham3 ℂ (fun _ => 2)) (A : Tensors ℂ (fun _ => 2) (fun _ => 1))
    (X Y : Pairs ℂ (fun _ => 2) (fun _ => 1)) (KL KR : OptEnvs ℂ (fun _ => 1)) (res : Ten2 ℂ 2 2 1 1),
    (∀ n, LOrth (A n) ∧ ROrth (A n)) ∧
    (∀ n op, hm n = some op → ∀ s t u s' t' u', star (op s t u s' t' u') = op s' t' u' s t u) ∧
    lefts (.three hm) A 1 = some KL ∧ rights 3 (.three hm) A 3 = some KR ∧
    pairMatvec 3 (.three hm) A 1 (KL 1) (KR 3) 1 (X 1) = some res ∧
    ∑ s, ∑ t, (res s t * (Y 1 s t)ᴴ).trace = -Complex.I ∧
    matElem (twoSite (N := 3) A rfl rfl Y 1) ((Ham.three hm).total (N := 3)) (twoSite A rfl rfl X 1) = Complex.I := by
  refine ⟨hamL, up, basis 0 0, basis 1 0, fun _ => none, fun _ => none, _, fun n => ⟨up_L n, up_R n⟩, ?_, rfl, rfl, rfl,
    ?_, ?_⟩
  · intro n op hop s t u s' t' u'
    rw [hamL] at hop
    split at hop
    · obtain rfl := Option.some.inj hop
      simp only [star_mul', p1_star, pY_star]
    · exact absurd hop (by simp)
  · simp [epsLOp1_eq, up, basis, Fin.sum_univ_two, Matrix.trace, Matrix.mul_apply, pY, p1]
  · rw [show twoSite (N := 3) up rfl rfl (basis 1 0) 1 = fun s => if s = ![0, 1, 0] then 1 else 0 from
      funext (state_L 1 0), show twoSite (N := 3) up rfl rfl (basis 0 0) 1 = fun s => if s = ![0, 0, 0] then 1 else 0 from
      funext (state_L 0 0), matElem_delta]
    simp [Ham.total, Ham.term, Finset.sum_range_succ, hamL, siteOp3, pY, p1]
    intro x h0 h1 h2
    exact absurd (Fin.ext (by have := x.isLt; simp only [Fin.val_zero]; omega)) h0

open Ex57 in
/-- The claim fails as well for the Hermitian three-site term `Y ⊗ 1 ⊗ 1` if the second site of the pair is its first
site: the operator applied is `-Y ⊗ 1 ⊗ 1`.  (`split_step.py:292` has its last two arguments exchanged.) -/
theorem C57_pair3_right_violated : ∃ (hm : Ham3 ℂ (fun _ => 2)) (A : Tensors ℂ (fun _ => 2) (fun _ => 1))
    (X Y : Pairs ℂ (fun _ => 2) (fun _ => 1)) (KL KR : OptEnvs ℂ (fun _ => 1)) (res : Ten2 ℂ 2 2 1 1),
    (∀ n, LOrth (A n) ∧ ROrth (A n)) ∧
    (∀ n op, hm n = some op → ∀ s t u s' t' u', star (op s t u s' t' u') = op s' t' u' s t u) ∧
    lefts (.three hm) A 0 = some KL ∧ rights 4 (.three hm) A 2 = some KR ∧
    pairMatvec 4 (.three hm) A 0 (KL 0) (KR 2) 1 (X 0) = some res ∧
    ∑ s, ∑ t, (res s t * (Y 0 s t)ᴴ).trace = -Complex.I ∧
    matElem (twoSite (N := 4) A rfl rfl Y 0) ((Ham.three hm).total (N := 4)) (twoSite A rfl rfl X 0) = Complex.I := by
  refine ⟨hamR, up, basis 0 0, basis 0 1, fun _ => none, fun _ => none, _, fun n => ⟨up_L n, up_R n⟩, ?_, rfl, rfl, rfl,
    ?_, ?_⟩
  · intro n op hop s t u s' t' u'
    rw [hamR] at hop
    split at hop
    · obtain rfl := Option.some.inj hop
      simp only [star_mul', p1_star, pY_star]
    · obtain rfl := Option.some.inj hop
      simp
  · simp [epsROp1_eq, epsR2_eq, calcC_eq, dotRight_eq, calcAA, up, basis, Fin.sum_univ_two, Matrix.trace,
      Matrix.mul_apply, pY, p1]
  · rw [show twoSite (N := 4) up rfl rfl (basis 0 1) 0 = fun s => if s = ![0, 1, 0, 0] then 1 else 0 from
      funext (state_R 0 1), show twoSite (N := 4) up rfl rfl (basis 0 0) 0 = fun s => if s = ![0, 0, 0, 0] then 1 else 0
      from funext (state_R 0 0), matElem_delta]
    simp [Ham.total, Ham.term, Finset.sum_range_succ, hamR, siteOp3, pY, p1]
    intro x h1 h2 h3
    obtain rfl : x = 0 := Fin.ext (by have := x.isLt; simp only [Fin.val_zero]; omega)
    intro h
    exact absurd rfl h

namespace Ex57

/-! ## The hypotheses can be met: three sites, bond dimension 2, the centre at site 1 -/

/-- The bond dimensions 1, 2, 2, 1. -/
def dims : ℕ → ℕ
  | 1 => 2
  | 2 => 2
  | _ => 1

/-- The identity between the physical index and the virtual index at the first and at the last site. -/
def chain : Tensors ℂ (fun _ => 2) dims
  | 0 => fun s => Matrix.of fun _ j => if j.val = s.val then 1 else 0
  | 2 => fun s => Matrix.of fun i _ => if i.val = s.val then 1 else 0
  | _ => fun s => Matrix.of fun i j => if i.val + j.val = s.val then 1 else 0

theorem chain_L : ∀ n < 1, LOrth (chain n) := by
  intro n hn
  obtain rfl : n = 0 := by omega
  change ∑ s : Fin 2, (Matrix.of fun (_ : Fin 1) (j : Fin 2) => if j.val = s.val then (1 : ℂ) else 0)ᴴ
    * (Matrix.of fun (_ : Fin 1) (j : Fin 2) => if j.val = s.val then (1 : ℂ) else 0) = 1
  ext i j
  fin_cases i <;> fin_cases j <;> simp [Fin.sum_univ_two, Matrix.add_apply, Matrix.mul_apply]

theorem chain_R : ∀ n, 1 < n → n < 3 → ROrth (chain n) := by
  intro n h1 h2
  obtain rfl : n = 2 := by omega
  change ∑ s : Fin 2, (Matrix.of fun (i : Fin 2) (_ : Fin 1) => if i.val = s.val then (1 : ℂ) else 0)
    * (Matrix.of fun (i : Fin 2) (_ : Fin 1) => if i.val = s.val then (1 : ℂ) else 0)ᴴ = 1
  ext i j
  fin_cases i <;> fin_cases j <;> simp [Fin.sum_univ_two, Matrix.add_apply, Matrix.mul_apply]

/-- The one-site operator of the middle site returns for every two-site or three-site Hamiltonian without missing terms,
and all hypotheses of `C57_site` hold. -/
example (ham : Ham ℂ (fun _ => 2)) (h : ∀ j, Has ham j) (tau : ℂ) (X Y : Ten ℂ 2 (dims 1) (dims (1 + 1))) :
    ∃ KL KR res, lefts ham chain 1 = some KL ∧ rights 3 ham chain 2 = some KR ∧
      siteMatvec 3 ham chain 1 (KL 1) (KR 2) tau X = some res ∧
      ∑ s, (res s * (Y s)ᴴ).trace
        = tau * matElem (oneSite (N := 3) chain rfl rfl 1 Y) (ham.total (N := 3)) (oneSite chain rfl rfl 1 X) := by
  obtain ⟨KL, hKL⟩ := Option.isSome_iff_exists.1 ((C57_accumulated_returns (N := 3) ham chain 1 (by omega)).1.2
    fun j _ => h j)
  obtain ⟨KR, hKR⟩ := Option.isSome_iff_exists.1 ((C57_accumulated_returns (N := 3) ham chain 2 (by omega)).2.2
    fun j _ _ => h j)
  obtain ⟨res, hres⟩ := Option.isSome_iff_exists.1 (((C57_returns (N := 3) ham chain 1 tau).1 (by omega) (KL 1) (KR 2)
    X).2 fun j _ _ _ => h j)
  exact ⟨KL, KR, res, hKL, hKR, hres, C57_site (N := 3) ham chain rfl rfl 1 (by omega) chain_L chain_R KL KR hKL hKR tau
    X Y res hres⟩

/-- The same for the pair of the sites 1 and 2 of the chain of spins up (bond dimension 1). -/
example (hm : Ham2 ℂ (fun _ => 2)) (h : ∀ j, (hm j).isSome) (tau : ℂ) (X Y : Pairs ℂ (fun _ => 2) (fun _ => 1)) :
    ∃ KL KR res, lefts (.two hm) up 1 = some KL ∧ rights 4 (.two hm) up 3 = some KR ∧
      pairMatvec 4 (.two hm) up 1 (KL 1) (KR 3) tau (X 1) = some res ∧
      ∑ s, ∑ t, (res s t * (Y 1 s t)ᴴ).trace = tau * matElem (twoSite (N := 4) up rfl rfl Y 1)
        ((Ham.two hm).total (N := 4)) (twoSite up rfl rfl X 1) := by
  obtain ⟨KL, hKL⟩ := Option.isSome_iff_exists.1 ((C57_accumulated_returns (N := 4) (.two hm) up 1 (by omega)).1.2
    fun j _ => h j)
  obtain ⟨KR, hKR⟩ := Option.isSome_iff_exists.1 ((C57_accumulated_returns (N := 4) (.two hm) up 3 (by omega)).2.2
    fun j _ _ => h j)
  obtain ⟨res, hres⟩ := Option.isSome_iff_exists.1 (((C57_returns (N := 4) (.two hm) up 1 tau).2.2 (by omega) (KL 1)
    (KR 3) (X 1)).2 fun j _ _ _ => h j)
  exact ⟨KL, KR, res, hKL, hKR, hres, C57_pair (N := 4) hm up rfl rfl 1 (by omega) (by omega) (fun n _ => up_L n)
    (fun n _ _ => up_R n) KL KR hKL hKR tau X Y res hres⟩

/-- A three-site term with the symmetries needed in `C57_pair3_partial`: `X ⊗ Z ⊗ X`, or any product of real symmetric
matrices. -/
example (a b c : Fin 2 → Fin 2 → ℝ) (ha : ∀ s t, a s t = a t s) (hb : ∀ s t, b s t = b t s) (hc : ∀ s t, c s t = c t s) :
    FirstHerm (fun u s t u' s' t' => ((a u u' * b s s' * c t t' : ℝ) : ℂ)) ∧
    LastHerm (fun u s t u' s' t' => ((a u u' * b s s' * c t t' : ℝ) : ℂ)) := by
  refine ⟨fun u s t u' s' t' => ?_, fun u s t u' s' t' => ?_⟩
  · simp only [Complex.star_def, Complex.conj_ofReal, ha u u']
  · simp only [Complex.star_def, Complex.conj_ofReal, hb s s', hc t t']

end Ex57

end EvoMPS
