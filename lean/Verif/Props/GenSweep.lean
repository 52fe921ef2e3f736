import Verif.GenSweepPath
import Verif.Props.Sweep

/-!
# C85: ground state search of `EvoMPS_TDVP_Generic`
-/

namespace EvoMPS

open Matrix Sweep Eff

namespace GenSweep

variable {q D M : ℕ → ℕ} {N : ℕ} {ham : Ham ℂ q} {W : Option (Mpo q M)}

theorem Steps.append {α V : Type*} {R : α → V → V → Prop} {l1 l2 : List α} {u v w : V} (h1 : Steps R l1 u v)
    (h2 : Steps R l2 v w) : Steps R (l1 ++ l2) u w := by
  induction h1 with
  | nil v => exact h2
  | cons h t ih => exact .cons h (ih h2)

theorem sweep_spec {qr : QR ℂ} {L : Solvers} (hL : L.Ok) (h0 : D 0 = 1) (hN : D N = 1) (h2 : 2 ≤ N)
    (hM0 : M 0 = 1) (hMN : M N = 1) {ul : Bool} (hH : (sweepH N ham ul W hM0 hMN).IsHermitian) {S0 : TDVP ℂ q D}
    (hA : ∀ n, 1 ≤ n → n < N → ROrth (S0.A n)) (hl : S0.l 0 = 1) (hr1 : ∀ n, 1 ≤ n → n ≤ N → S0.r n = 1)
    {S' : St q D M} {E : ℂ}
    (h : variOptSsSweep qr L N ham ul W h0 (calcKs N ham h0 (calcCs N ham S0)) = some (S', E)) :
    Inv N ham W 0 0 S' ∧ Steps (OptStep D (sweepH N ham ul W hM0 hMN) h0 hN)
      (List.range' 1 N ++ (List.range' 1 N).reverse) (psi S0.A h0 hN) (psi S'.A h0 hN) ∧
    E = matElem (psi S'.A h0 hN) (sweepH N ham ul W hM0 hMN) (psi S'.A h0 hN) := by
  obtain ⟨S1, e1, eA, i1⟩ := start_inv (ham := ham) (W := W) h0 h2 hM0 hMN hA hl hr1
  rw [variOptSsSweep, e1, Option.bind_some] at h
  obtain ⟨S2, e2, h'⟩ := Option.bind_eq_some_iff.1 h
  obtain ⟨S3, e3, h''⟩ := Option.bind_eq_some_iff.1 h'
  clear h h'
  obtain ⟨N, rfl⟩ : ∃ j, N = j + 1 := ⟨N - 1, by omega⟩
  obtain ⟨i2, s2⟩ := right_path h0 hN hL hM0 hMN hH N 0 S1 S2 (by omega) i1 e2
  obtain ⟨i3, s3⟩ := left_path h0 hN hL hM0 hMN hH (N + 1) S2 S3 le_rfl i2 e3
  rw [eA] at s2
  obtain ⟨f1, f2⟩ := final_energy h0 hN (by omega) hM0 hMN i3
  have hloc : (if ul then S3.K 0 ⟨0, by omega⟩ ⟨0, by omega⟩ else 0)
      = matElem (psi S3.A h0 hN) (if ul then Matrix.of (ham.total (N := N + 1)) else 0) (psi S3.A h0 hN) := by
    cases ul with
    | true => exact f1
    | false => exact (matElem_zeroM _ _).symm
  cases W with
  | none =>
    obtain ⟨rfl, rfl⟩ := Prod.mk.inj (Option.some.inj h'')
    refine ⟨i3, Steps.append s2 s3, ?_⟩
    rw [hloc, sweepH, Option.elim_none, add_zero]
    rfl
  | some w =>
    dsimp only at h''
    rw [dif_pos hM0] at h''
    obtain ⟨MR, hMR, hP⟩ := Option.map_eq_some_iff.1 h''
    obtain ⟨rfl, rfl⟩ := Prod.mk.inj hP
    refine ⟨i3, Steps.append s2 s3, ?_⟩
    obtain ⟨MR', hMR', he⟩ := f2 w rfl
    obtain rfl : MR = MR' := Option.some.inj (hMR.symm.trans hMR')
    rw [hloc, he, sweepH, matElem_addM]
    rfl

theorem range_ne {N : ℕ} (h : 2 ≤ N) : List.range' 1 N ++ (List.range' 1 N).reverse ≠ [] := by
  obtain ⟨M, rfl⟩ : ∃ j, N = j + 1 := ⟨N - 1, by omega⟩
  simp [List.range'_succ]

theorem mpoProd_star {w : Mpo q M} (h : ∀ n a b s t, star (w n a b s t) = w n a b t s) (n : ℕ) (x y : Cfg q n) (a b) :
    star (mpoProd w n x y a b) = mpoProd w n y x a b := by
  induction n with
  | zero =>
    simp only [mpoProd, Matrix.one_apply]
    split <;> simp
  | succ n ih =>
    simp only [mpoProd, Matrix.mul_apply, star_sum, Matrix.of_apply]
    refine Finset.sum_congr rfl fun c _ => ?_
    rw [star_mul', ih, h]

end GenSweep

open GenSweep

variable {q D M : ℕ → ℕ} {N : ℕ}

/-- The search starts with an object that is up to date in right canonical form: `S0` holds the tensors and
environments, `calcCs` and `calcKs` are the rest of `update()`.  The sites `1, …, N, N, …, 1` are visited; each time the
state becomes the one of lowest energy among those that the chain represents if the tensor of the site varies.  The
energy is that of the local Hamiltonian (if it is used) and of the matrix product operator (if one is given).
Afterwards the tensors are right canonical, also the first one, and the stored right environments fit to them. -/
theorem C85_sweep (qr : QR ℂ) (L : Solvers) (hL : L.Ok) (ham : Ham ℂ q) (useLocal : Bool) (W : Option (Mpo q M))
    (h0 : D 0 = 1) (hDN : D N = 1) (hN : 2 ≤ N) (hM0 : M 0 = 1) (hMN : M N = 1)
    (hH : (sweepH N ham useLocal W hM0 hMN).IsHermitian) (S0 : TDVP ℂ q D) (hA : ∀ n, 1 ≤ n → n < N → ROrth (S0.A n))
    (hl : S0.l 0 = 1) (hr : ∀ n, 1 ≤ n → n ≤ N → S0.r n = 1) (S' : St q D M) (E : ℂ)
    (h : variOptSsSweep qr L N ham useLocal W h0 (calcKs N ham h0 (calcCs N ham S0)) = some (S', E)) :
    Steps (OptStep D (sweepH N ham useLocal W hM0 hMN) h0 hDN) (List.range' 1 N ++ (List.range' 1 N).reverse)
      (psi S0.A h0 hDN) (psi S'.A h0 hDN) ∧
    (∀ n < N, ROrth (S'.A n)) ∧ ∀ n ≤ N, S'.r n = 1 := by
  obtain ⟨h1, h2, -⟩ := sweep_spec hL h0 hDN hN hM0 hMN hH hA hl hr h
  exact ⟨h2, fun n hn => h1.gaugeR n (Nat.zero_le _) hn, fun n hn => h1.r n (Nat.zero_le _) hn⟩

/-- `H_expect` is the energy of the state that is left, which has norm 1 and no more energy than the state before. -/
theorem C85_energy (qr : QR ℂ) (L : Solvers) (hL : L.Ok) (ham : Ham ℂ q) (useLocal : Bool) (W : Option (Mpo q M))
    (h0 : D 0 = 1) (hDN : D N = 1) (hN : 2 ≤ N) (hM0 : M 0 = 1) (hMN : M N = 1)
    (hH : (sweepH N ham useLocal W hM0 hMN).IsHermitian) (S0 : TDVP ℂ q D) (hA : ∀ n, 1 ≤ n → n < N → ROrth (S0.A n))
    (hl : S0.l 0 = 1) (hr : ∀ n, 1 ≤ n → n ≤ N → S0.r n = 1) (hψ : psi (N := N) S0.A h0 hDN ≠ 0) (S' : St q D M) (E : ℂ)
    (h : variOptSsSweep qr L N ham useLocal W h0 (calcKs N ham h0 (calcCs N ham S0)) = some (S', E)) :
    braket (psi (N := N) S'.A h0 hDN) (psi S'.A h0 hDN) = 1 ∧
    E = matElem (psi S'.A h0 hDN) (sweepH N ham useLocal W hM0 hMN) (psi S'.A h0 hDN) ∧
    E.re ≤ meanE (sweepH N ham useLocal W hM0 hMN) (psi S0.A h0 hDN) := by
  obtain ⟨-, hs, hE⟩ := sweep_spec hL h0 hDN hN hM0 hMN hH hA hl hr h
  have hn : braket (psi (N := N) S'.A h0 hDN) (psi S'.A h0 hDN) = 1 :=
    Sweep.Steps.last (· ≠ 0) (fun ψ => braket ψ ψ = 1) (fun _ h => ne_zero_of h)
      (fun _ _ _ h h' => (Sweep.OptStep.energy h h').1) hs (range_ne hN) hψ
  refine ⟨hn, hE, ?_⟩
  have := (Sweep.Steps.induct (fun u v => meanE (sweepH N ham useLocal W hM0 hMN) v
    ≤ meanE (sweepH N ham useLocal W hM0 hMN) u) (· ≠ 0) (fun _ => le_rfl) (fun u v w a b => b.trans a)
    (fun x u v hx hu => ⟨ne_zero_of (Sweep.OptStep.energy hx hu).1, (Sweep.OptStep.energy hx hu).2⟩) hs hψ).2
  refine le_trans (le_of_eq ?_) this
  rw [hE, meanE, hn, Complex.one_re, div_one]

/-- If the tensor of some site suffices for every state (full bond dimensions), one sweep finds a ground state, and
`H_expect` is the ground state energy. -/
theorem C85_exact (qr : QR ℂ) (L : Solvers) (hL : L.Ok) (ham : Ham ℂ q) (useLocal : Bool) (W : Option (Mpo q M))
    (h0 : D 0 = 1) (hDN : D N = 1) (hN : 2 ≤ N) (hM0 : M 0 = 1) (hMN : M N = 1)
    (hH : (sweepH N ham useLocal W hM0 hMN).IsHermitian) (j : ℕ) (hj : j < N)
    (hfull : q j * (D j * D (j + 1)) = Fintype.card (Cfg q N)) (S0 : TDVP ℂ q D)
    (hA : ∀ n, 1 ≤ n → n < N → ROrth (S0.A n)) (hl : S0.l 0 = 1) (hr : ∀ n, 1 ≤ n → n ≤ N → S0.r n = 1)
    (hψ : psi (N := N) S0.A h0 hDN ≠ 0) (S' : St q D M) (E : ℂ)
    (h : variOptSsSweep qr L N ham useLocal W h0 (calcKs N ham h0 (calcCs N ham S0)) = some (S', E))
    (φ : Cfg q N → ℂ) (hφ : φ ≠ 0) : E.re ≤ meanE (sweepH N ham useLocal W hM0 hMN) φ := by
  obtain ⟨-, hs, hE⟩ := sweep_spec hL h0 hDN hN hM0 hMN hH hA hl hr h
  obtain ⟨hn, -, -⟩ := C85_energy qr L hL ham useLocal W h0 hDN hN hM0 hMN hH S0 hA hl hr hψ S' E h
  have hmem : j + 1 ∈ List.range' 1 N ++ (List.range' 1 N).reverse := by
    refine List.mem_append_left _ ?_
    rw [List.mem_range'_1]
    omega
  obtain ⟨l1, l2, x, y, s1, s2, s3⟩ := Sweep.Steps.mem hs hmem
  have key := fun {l : List ℕ} {u v : Cfg q N → ℂ} (hs : Steps (OptStep D (sweepH N ham useLocal W hM0 hMN) h0 hDN) l u v)
      (hu : u ≠ 0) => Sweep.Steps.induct (fun u v => meanE (sweepH N ham useLocal W hM0 hMN) v
    ≤ meanE (sweepH N ham useLocal W hM0 hMN) u) (· ≠ 0) (fun _ => le_rfl) (fun u v w a b => b.trans a)
    (fun x u v hx hu => ⟨ne_zero_of (Sweep.OptStep.energy hx hu).1, (Sweep.OptStep.energy hx hu).2⟩) hs hu
  have hx := (key s1 hψ).1
  have hy := ne_zero_of (Sweep.OptStep.energy s2 hx).1
  have hE' : E.re = meanE (sweepH N ham useLocal W hM0 hMN) (psi S'.A h0 hDN) := by
    rw [hE, meanE, hn, Complex.one_re, div_one]
  rw [hE']
  refine (key s3 hy).2.trans ?_
  obtain ⟨-, B, hB, -, hopt⟩ := s2
  have hu := (siteT_iso h0 hDN j hj hB).univ (by simpa using hfull)
  rw [siteT_range] at hu
  rw [hu] at hopt
  exact Sweep.Optimal.energy hopt (Set.mem_univ φ) hφ

/-- If no term of the local Hamiltonian is missing (even when it is not used), no bond is trivial and the routines
return, so does the search. -/
theorem C85_returns (qr : QR ℂ) (L : Solvers) (hL : L.Ok) (hR : L.Returns) (ham : Ham ℂ q) (useLocal : Bool)
    (W : Option (Mpo q M)) (h0 : D 0 = 1) (hDN : D N = 1) (hN : 2 ≤ N) (hM0 : M 0 = 1) (hMN : M N = 1)
    (hH : (sweepH N ham useLocal W hM0 hMN).IsHermitian) (hD : Dims q D N)
    (hham : ∀ j, j + ham.sites ≤ N → Has ham j) (S0 : TDVP ℂ q D)
    (hA : ∀ n, 1 ≤ n → n < N → ROrth (S0.A n)) (hl : S0.l 0 = 1) (hr : ∀ n, 1 ≤ n → n ≤ N → S0.r n = 1)
    (hψ : psi (N := N) S0.A h0 hDN ≠ 0) :
    (variOptSsSweep qr L N ham useLocal W h0 (calcKs N ham h0 (calcCs N ham S0))).isSome := by
  obtain ⟨S1, e1, eA, i1⟩ := start_inv (ham := ham) (W := W) h0 hN hM0 hMN hA hl hr
  obtain ⟨S2, e2, hψ2⟩ := right_path_returns (qr := qr) h0 hDN hL hR hD hN hM0 hMN hham hH N 0 S1 (by omega) (.inl i1)
    (by rw [eA]; exact hψ)
  have i2 : Inv N ham W (N - 1) N S2 := by
    obtain ⟨N, rfl⟩ : ∃ j, N = j + 1 := ⟨N - 1, by omega⟩
    exact (right_path h0 hDN hL hM0 hMN hH N 0 S1 S2 (by omega) i1 e2).1
  obtain ⟨S3, e3⟩ := Option.isSome_iff_exists.1 (left_path_returns (qr := qr) h0 hDN hL hR hD hN hM0 hMN hham hH N S2
    le_rfl i2 hψ2)
  have i3 := (left_path h0 hDN hL hM0 hMN hH N S2 S3 le_rfl i2 e3).1
  rw [variOptSsSweep, e1, Option.bind_some, e2, Option.bind_some, e3, Option.bind_some]
  cases W with
  | none => rfl
  | some w =>
    obtain ⟨MR, hMR, -⟩ := (final_energy h0 hDN (by omega) hM0 hMN i3).2 w rfl
    dsimp only
    rw [dif_pos hM0, hMR]
    rfl

/-- A chain of one site always raises, whatever its state. -/
theorem C85_single_violated (qr : QR ℂ) (L : Solvers) (ham : Ham ℂ q) (useLocal : Bool) (W : Option (Mpo q M))
    (h0 : D 0 = 1) (S : TDVP ℂ q D) : variOptSsSweep qr L 1 ham useLocal W h0 S = none := rfl

/-- The sum is Hermitian if the terms of the local Hamiltonian are and the tensors of the operator have Hermitian
entries. -/
theorem C85_hermitian (ham : Ham ℂ q) (useLocal : Bool) (W : Option (Mpo q M)) (hM0 : M 0 = 1) (hMN : M N = 1)
    (hham : (Matrix.of (ham.total (N := N))).IsHermitian)
    (hW : ∀ w, W = some w → ∀ n a b s t, star (w n a b s t) = w n a b t s) :
    (sweepH N ham useLocal W hM0 hMN).IsHermitian := by
  refine Matrix.IsHermitian.add ?_ ?_
  · cases useLocal with
    | true => exact hham
    | false => exact Matrix.isHermitian_zero
  · cases W with
    | none => exact Matrix.isHermitian_zero
    | some w =>
      ext x y
      rw [Matrix.conjTranspose_apply]
      refine mpoProd_star (w := mpoWindow 0 N w) (fun n a b s t => ?_) N y x _ _
      unfold mpoWindow
      split
      · exact hW w rfl n a b s t
      · by_cases hst : s = t
        · rw [if_pos hst, if_pos hst.symm, star_one]
        · rw [if_neg hst, if_neg (Ne.symm hst), star_zero]

/-! ## The hypotheses can be met -/

namespace Ex85

/-- The operator `g³ σˣ ⊗ σˣ ⊗ σˣ`. -/
noncomputable def flips (g : ℝ) : Mpo (fun _ => 2) (fun _ => 1) := fun _ _ _ s t => if s = t then 0 else (g : ℂ)

/-- The chain with its environments. -/
noncomputable def obj : TDVP ℂ (fun _ => 2) Ex58.dims :=
  { A := Ex58.chain, l := fun _ => 1, r := fun _ => 1, AA := fun _ => 0, AAA := fun _ => 0, C2 := fun _ => none
    C3 := fun _ => none, K := fun _ => 0, Kl := fun _ => 0, h := fun _ => 0, H := none }

theorem herm (g g' : ℝ) (ul : Bool) :
    (sweepH (M := fun _ => 1) 3 (Ex58.ising g) ul (some (flips g')) rfl rfl).IsHermitian := by
  refine C85_hermitian _ _ _ _ _ (Ex58.ising_herm g) ?_
  rintro w hw n a b s t
  obtain rfl := Option.some.inj hw
  unfold flips
  by_cases hst : s = t
  · rw [if_pos hst, if_pos hst.symm, star_zero]
  · rw [if_neg hst, if_neg (Ne.symm hst)]
    exact Complex.conj_ofReal g'

/-- The ground state of the Ising model with a three-site flip on three sites. -/
example (g g' : ℝ) (ul : Bool) : ∃ (L : Solvers) (S' : St (fun _ => 2) Ex58.dims (fun _ => 1)) (E : ℂ),
    L.Ok ∧ L.Returns ∧ variOptSsSweep econQR L 3 (Ex58.ising g) ul (some (flips g')) rfl
      (calcKs 3 (Ex58.ising g) rfl (calcCs 3 (Ex58.ising g) obj)) = some (S', E) ∧
    ∀ φ ≠ 0, E.re ≤ meanE (sweepH (M := fun _ => 1) 3 (Ex58.ising g) ul (some (flips g')) rfl rfl) φ := by
  obtain ⟨⟨S', E⟩, h⟩ := Option.isSome_iff_exists.1 (C85_returns (N := 3) econQR exactSolvers exactSolvers_ok
    exactSolvers_returns (Ex58.ising g) ul (some (flips g')) rfl rfl (by omega) rfl rfl (herm g g' ul) Ex58.chain_dims
    (fun j _ => Ex58.ising_has g j) obj Ex58.chain_R rfl (fun _ _ _ => rfl) Ex58.chain_psi)
  refine ⟨exactSolvers, S', E, exactSolvers_ok, exactSolvers_returns, h, fun φ hφ => ?_⟩
  exact C85_exact (N := 3) econQR exactSolvers exactSolvers_ok (Ex58.ising g) ul (some (flips g')) rfl rfl (by omega) rfl rfl
    (herm g g' ul) 1 (by omega) (by simp [Ex58.dims, Cfg]) obj Ex58.chain_R rfl (fun _ _ _ => rfl) Ex58.chain_psi S' E h φ hφ

end Ex85

end EvoMPS
