import Verif.SweepPath
import Verif.ContractsSweep
import Verif.Contracts

/-!
# C58: one-site sweeps of the split-step integrator
-/

namespace EvoMPS

open Matrix Split Eff

namespace Sweep

variable {q D : ℕ → ℕ} {N : ℕ}

theorem evolve_world {qr : QR ℂ} {L : Solvers} {ham : Ham ℂ q} {dtau : ℂ} {k : ℕ} {cb : Bool} {A : Tensors ℂ q D}
    {A' : Tensors ℂ q D} {log : List Op} (h : evolve qr L N ham dtau k cb A = some (A', log)) :
    ∃ w', runs (obj qr L N ham (splitTime dtau).1) (sweepOps N ⟨(splitTime dtau).2 / 2, false, false, false, none⟩ cb k)
      ⟨start A, []⟩ = some w' ∧ w'.s.A = A' := by
  obtain ⟨w', hw, he⟩ := Option.map_eq_some_iff.1 h
  rw [evolveSplit_runs] at hw
  exact ⟨w', hw, congrArg Prod.fst he⟩

theorem dmrg_world {qr : QR ℂ} {L : Solvers} {ham : Ham ℂ q} {k : ℕ} {cb : Bool} {A : Tensors ℂ q D}
    {A' : Tensors ℂ q D} {log : List Op} (h : dmrg qr L N ham k cb A = some (A', log)) :
    ∃ w', runs (obj qr L N ham 1) (sweepOps N ⟨(splitTime 0).2 / 2, true, false, false, none⟩ cb k)
      ⟨start A, []⟩ = some w' ∧ w'.s.A = A' := by
  obtain ⟨w', hw, he⟩ := Option.map_eq_some_iff.1 h
  rw [evolveSplit_runs] at hw
  exact ⟨w', hw, congrArg Prod.fst he⟩

theorem no_opt {N : ℕ} {h : ℝ} {cb : Bool} {k : ℕ} :
    ¬ ∃ n, Op.optSite n ∈ sweepOps N ⟨h, false, false, false, none⟩ cb k := by
  rintro ⟨n, hn⟩
  have := opt_evolve N ⟨h, false, false, false, none⟩ rfl cb k
  rw [List.filterMap_eq_nil_iff] at this
  exact absurd (this _ hn) (by simp [opt])

theorem replicate_ne {α : Type} {k : ℕ} (hk : 1 ≤ k) {l : List α} (hl : l ≠ []) : (List.replicate k l).flatten ≠ [] := by
  obtain ⟨k, rfl⟩ : ∃ j, k = j + 1 := ⟨k - 1, by omega⟩
  rw [List.replicate_succ, List.flatten_cons]
  exact fun h => hl (List.append_eq_nil_iff.1 h).1

theorem half1_ne (N : ℕ) (h : ℝ) : half1 N h ++ (half1 N h).reverse ≠ [] := by
  simp [half1]

theorem Steps.mem {α V : Type*} {R : α → V → V → Prop} {l : List α} {u v : V} (hs : Steps R l u v) {a : α}
    (ha : a ∈ l) : ∃ l1 l2 x y, Steps R l1 u x ∧ R a x y ∧ Steps R l2 y v := by
  induction hs with
  | nil v => simp at ha
  | @cons b l u w v h1 h2 ih =>
    rcases List.mem_cons.1 ha with rfl | ha
    · exact ⟨[], l, u, w, .nil u, h1, h2⟩
    · obtain ⟨l1, l2, x, y, s1, s2, s3⟩ := ih ha
      exact ⟨b :: l1, l2, x, y, .cons h1 s1, s2, s3⟩

end Sweep

open Sweep

variable {q D : ℕ → ℕ} {N : ℕ}

/-- Time evolution of a right canonical chain by one-site sweeps, real or imaginary `dtau`.  A step consists of the
exponentials of `-dtau/2` times the projected Hamiltonian for the sites and of `dtau/2` for the bonds, in the order
site 1, bond 1, site 2, …, site `N` and back.  Each exponential acts on the whole state; the projectors are those on the
states that the chain represents if one tensor or bond matrix varies.  The result is right canonical again. -/
theorem C58_path (qr : QR ℂ) (L : Solvers) (hL : L.Ok) (ham : Ham ℂ q) (h0 : D 0 = 1) (hDN : D N = 1) (hN : 1 ≤ N)
    (dtau : ℂ) (hdt : dtau.re = 0 ∨ dtau.im = 0) (k : ℕ) (cb : Bool) (A A' : Tensors ℂ q D) (log : List Op)
    (hA : ∀ n, 1 ≤ n → n < N → ROrth (A n)) (h : evolve qr L N ham dtau k cb A = some (A', log)) :
    Steps (EvoStep D (Matrix.of (ham.total (N := N))) h0 hDN (-dtau))
      (List.replicate k (half1 N (1 / 2) ++ (half1 N (1 / 2)).reverse)).flatten (psi A h0 hDN) (psi A' h0 hDN) ∧
    ∀ n, 1 ≤ n → n < N → ROrth (A' n) := by
  obtain ⟨w', hw, rfl⟩ := evolve_world h
  obtain ⟨e, he, hec, -⟩ := sweep_checks N hN dtau k false false none cb
  obtain ⟨hi, hs⟩ := path_spec h0 hDN hL (fun hx => absurd hx no_opt) (inv_start ham A hA) he hw
  rw [hec] at hs
  refine ⟨?_, fun n h1 h2 => ?_⟩
  · have h1 := Sweep.Steps.filterMap (R' := EvoStep D (Matrix.of (ham.total (N := N))) h0 hDN (splitTime dtau).1)
      evolution hs
      (fun a ha b hb u v hr => by
        cases a with
        | site n t => obtain rfl := Option.some.inj hb; exact hr
        | bond n t => obtain rfl := Option.some.inj hb; exact hr
        | pair n t r => exact (oneSite_sweep N _ _ _ _ _ _ _ ha).elim
        | _ => exact absurd hb (by simp [evolution]))
      (fun a ha hb u v hr => by
        cases a with
        | optSite n => exact absurd ⟨_, ha⟩ no_opt
        | site n t => exact absurd hb (by simp [evolution])
        | bond n t => exact absurd hb (by simp [evolution])
        | pair n t r => exact absurd hb (by simp [evolution])
        | _ => exact hr)
    rw [evolution_evolve N hN _ rfl] at h1
    have hd := C35_duration dtau hdt
    refine Sweep.Steps.of_map (fun x => (x.1, (splitTime dtau).2 * x.2)) (fun x u v hx => ?_) (R := EvoStep D
      (Matrix.of (ham.total (N := N))) h0 hDN (splitTime dtau).1) ?_
    · refine Sweep.EvoStep.congr ?_ hx
      rw [← hd]
      push_cast
      ring
    · rw [List.map_flatten, List.map_replicate, List.map_append, List.map_reverse, half1_scale, mul_one_div]
      exact h1
  · have := hi.gaugeR n
    rw [hec] at this
    exact this h1 h2

/-- After at least one step the state has norm 1. -/
theorem C58_norm (qr : QR ℂ) (L : Solvers) (hL : L.Ok) (ham : Ham ℂ q) (h0 : D 0 = 1) (hDN : D N = 1) (hN : 1 ≤ N)
    (dtau : ℂ) (hdt : dtau.re = 0 ∨ dtau.im = 0) (k : ℕ) (hk : 1 ≤ k) (cb : Bool) (A A' : Tensors ℂ q D)
    (log : List Op) (hA : ∀ n, 1 ≤ n → n < N → ROrth (A n)) (hψ : psi (N := N) A h0 hDN ≠ 0)
    (h : evolve qr L N ham dtau k cb A = some (A', log)) :
    braket (psi (N := N) A' h0 hDN) (psi A' h0 hDN) = 1 :=
  Sweep.Steps.last (· ≠ 0) (fun ψ => braket ψ ψ = 1) (fun _ h => ne_zero_of h) (fun _ _ _ h => Sweep.EvoStep.norm h)
    (C58_path qr L hL ham h0 hDN hN dtau hdt k cb A A' log hA h).1 (replicate_ne hk (half1_ne _ _)) hψ

/-- Evolution in real time keeps the energy exactly, for steps of any size. -/
theorem C58_energy (qr : QR ℂ) (L : Solvers) (hL : L.Ok) (ham : Ham ℂ q) (h0 : D 0 = 1) (hDN : D N = 1) (hN : 1 ≤ N)
    (hH : (Matrix.of (ham.total (N := N))).IsHermitian)
    (dtau : ℂ) (hdt : dtau.re = 0) (k : ℕ) (cb : Bool) (A A' : Tensors ℂ q D)
    (log : List Op) (hA : ∀ n, 1 ≤ n → n < N → ROrth (A n)) (hψ : psi (N := N) A h0 hDN ≠ 0)
    (h : evolve qr L N ham dtau k cb A = some (A', log)) :
    meanE (Matrix.of (ham.total (N := N))) (psi A' h0 hDN) = meanE (Matrix.of (ham.total (N := N))) (psi A h0 hDN) := by
  have hs := (C58_path qr L hL ham h0 hDN hN dtau (.inl hdt) k cb A A' log hA h).1
  have hI : -dtau = ((-dtau.im : ℝ) : ℂ) * Complex.I := by
    apply Complex.ext <;> simp [hdt]
  refine (Sweep.Steps.induct (fun u v => meanE (Matrix.of (ham.total (N := N))) v
    = meanE (Matrix.of (ham.total (N := N))) u) (· ≠ 0) (fun _ => rfl) (fun u v w a b => b.trans a)
    (fun x u v hx hu => ?_) hs hψ).2
  have hx' : EvoStep D (Matrix.of (ham.total (N := N))) h0 hDN Complex.I (x.1, x.2 * -dtau.im) u v := by
    refine Sweep.EvoStep.congr ?_ hx
    rw [hI]
    push_cast
    ring
  exact ⟨ne_zero_of (Sweep.EvoStep.norm hx hu), Sweep.EvoStep.energy hH hx' hu⟩

/-- For two sites with full bond dimension (more generally if one tensor or bond matrix suffices for every state) the
result is exact: `exp(-k dtau H)` applied to the state, with norm 1. -/
theorem C58_exact (qr : QR ℂ) (L : Solvers) (hL : L.Ok) (ham : Ham ℂ q) (h0 : D 0 = 1) (hDN : D N = 1) (hN : 1 ≤ N)
    (hsite : ∀ k < N, q k * (D k * D (k + 1)) = Fintype.card (Cfg q N))
    (hbond : ∀ k, k + 1 < N → D (k + 1) * D (k + 1) = Fintype.card (Cfg q N))
    (dtau : ℂ) (hdt : dtau.re = 0 ∨ dtau.im = 0) (k : ℕ) (hk : 1 ≤ k) (cb : Bool) (A A' : Tensors ℂ q D)
    (log : List Op) (hA : ∀ n, 1 ≤ n → n < N → ROrth (A n)) (hψ : psi (N := N) A h0 hDN ≠ 0)
    (h : evolve qr L N ham dtau k cb A = some (A', log)) :
    psi A' h0 hDN = unitVec (NormedSpace.exp (((k : ℂ) * -dtau) • Matrix.of (ham.total (N := N))) *ᵥ psi A h0 hDN) := by
  have hs := (C58_path qr L hL ham h0 hDN hN dtau hdt k cb A A' log hA h).1
  have := Sweep.Steps.exact (fun x u v hx => Sweep.EvoStep.exact hsite hbond hx) hs (replicate_ne hk (half1_ne _ _)) hψ
  rw [this]
  congr 4
  have hrep : ∀ (l : List (Loc × ℝ)) (j : ℕ),
      ((List.replicate j (l ++ l.reverse)).flatten.map Prod.snd).sum = j * (2 * (l.map Prod.snd).sum) := by
    intro l j
    induction j with
    | zero => simp
    | succ j ih =>
      rw [List.replicate_succ, List.flatten_cons, List.map_append, List.sum_append, ih, List.map_append, List.sum_append,
        List.map_reverse, List.sum_reverse]
      push_cast; ring
  have h1 : ∀ (N : ℕ) (x : ℝ), 1 ≤ N → ((half1 N x).map Prod.snd).sum = x := by
    intro N x hN
    induction N, hN using Nat.le_induction with
    | base => simp [half1]
    | succ N hN ih => rw [half1_succ N x hN, List.map_append, List.sum_append, ih]; simp
  rw [hrep, h1 _ _ hN]
  push_cast
  ring

/-- Ground state search by one-site sweeps for a Hermitian Hamiltonian: the sites `1, …, N, N, …, 1`, `k` times; each
time the state becomes the one of lowest energy among those that the chain represents if the tensor of the site
varies.  The result is right canonical again. -/
theorem C58_dmrg (qr : QR ℂ) (L : Solvers) (hL : L.Ok) (ham : Ham ℂ q) (h0 : D 0 = 1) (hDN : D N = 1) (hN : 1 ≤ N)
    (hH : (Matrix.of (ham.total (N := N))).IsHermitian) (k : ℕ) (cb : Bool) (A A' : Tensors ℂ q D) (log : List Op)
    (hA : ∀ n, 1 ≤ n → n < N → ROrth (A n)) (h : dmrg qr L N ham k cb A = some (A', log)) :
    Steps (OptStep D (Matrix.of (ham.total (N := N))) h0 hDN)
      (List.replicate k (List.range' 1 N ++ (List.range' 1 N).reverse)).flatten (psi A h0 hDN) (psi A' h0 hDN) ∧
    ∀ n, 1 ≤ n → n < N → ROrth (A' n) := by
  obtain ⟨w', hw, rfl⟩ := dmrg_world h
  obtain ⟨e, he, hec, -⟩ := sweep_checks N hN 0 k true false none cb
  obtain ⟨hi, hs⟩ := path_spec h0 hDN hL (fun _ => hH) (inv_start ham A hA) he hw
  rw [hec] at hs
  refine ⟨?_, fun n h1 h2 => ?_⟩
  · have hev : ∀ o ∈ sweepOps N ⟨(splitTime 0).2 / 2, true, false, false, none⟩ cb k, evolution o = none := by
      have := evolution_dmrg N ⟨(splitTime 0).2 / 2, true, false, false, none⟩ rfl cb k
      rwa [List.filterMap_eq_nil_iff] at this
    have h1 := Sweep.Steps.filterMap (R' := OptStep D (Matrix.of (ham.total (N := N))) h0 hDN) opt hs
      (fun a ha b hb u v hr => by
        cases a with
        | optSite n => obtain rfl := Option.some.inj hb; exact hr
        | _ => exact absurd hb (by simp [opt]))
      (fun a ha hb u v hr => by
        cases a with
        | optSite n => exact absurd hb (by simp [opt])
        | site n t => exact absurd (hev _ ha) (by simp [evolution])
        | bond n t => exact absurd (hev _ ha) (by simp [evolution])
        | _ => exact hr)
    rw [opt_dmrg N _ rfl] at h1
    exact h1
  · have := hi.gaugeR n
    rw [hec] at this
    exact this h1 h2

/-- The search never increases the energy, and its result has norm 1. -/
theorem C58_dmrg_energy (qr : QR ℂ) (L : Solvers) (hL : L.Ok) (ham : Ham ℂ q) (h0 : D 0 = 1) (hDN : D N = 1)
    (hN : 1 ≤ N) (hH : (Matrix.of (ham.total (N := N))).IsHermitian) (k : ℕ) (cb : Bool) (A A' : Tensors ℂ q D)
    (log : List Op) (hA : ∀ n, 1 ≤ n → n < N → ROrth (A n)) (hψ : psi (N := N) A h0 hDN ≠ 0)
    (h : dmrg qr L N ham k cb A = some (A', log)) :
    meanE (Matrix.of (ham.total (N := N))) (psi A' h0 hDN) ≤ meanE (Matrix.of (ham.total (N := N))) (psi A h0 hDN) ∧
    (1 ≤ k → braket (psi (N := N) A' h0 hDN) (psi A' h0 hDN) = 1) := by
  have hs := (C58_dmrg qr L hL ham h0 hDN hN hH k cb A A' log hA h).1
  refine ⟨(Sweep.Steps.induct (fun u v => meanE (Matrix.of (ham.total (N := N))) v
    ≤ meanE (Matrix.of (ham.total (N := N))) u) (· ≠ 0) (fun _ => le_rfl) (fun u v w a b => b.trans a)
    (fun x u v hx hu => ⟨ne_zero_of (Sweep.OptStep.energy hx hu).1, (Sweep.OptStep.energy hx hu).2⟩) hs hψ).2,
    fun hk => ?_⟩
  refine Sweep.Steps.last (· ≠ 0) (fun ψ => braket ψ ψ = 1) (fun _ h => ne_zero_of h)
    (fun _ _ _ h h' => (Sweep.OptStep.energy h h').1) hs (replicate_ne hk ?_) hψ
  obtain ⟨M, rfl⟩ : ∃ j, N = j + 1 := ⟨N - 1, by omega⟩
  simp [List.range'_succ]

/-- If the tensor of some site suffices for every state (full bond dimensions), the search finds a ground state in one
step. -/
theorem C58_dmrg_exact (qr : QR ℂ) (L : Solvers) (hL : L.Ok) (ham : Ham ℂ q) (h0 : D 0 = 1) (hDN : D N = 1)
    (hH : (Matrix.of (ham.total (N := N))).IsHermitian) (j : ℕ) (hj : j < N)
    (hfull : q j * (D j * D (j + 1)) = Fintype.card (Cfg q N)) (k : ℕ) (hk : 1 ≤ k) (cb : Bool)
    (A A' : Tensors ℂ q D) (log : List Op) (hA : ∀ n, 1 ≤ n → n < N → ROrth (A n))
    (hψ : psi (N := N) A h0 hDN ≠ 0) (h : dmrg qr L N ham k cb A = some (A', log)) (φ : Cfg q N → ℂ) (hφ : φ ≠ 0) :
    meanE (Matrix.of (ham.total (N := N))) (psi A' h0 hDN) ≤ meanE (Matrix.of (ham.total (N := N))) φ := by
  have hs := (C58_dmrg qr L hL ham h0 hDN (by omega) hH k cb A A' log hA h).1
  have hmem : j + 1 ∈ (List.replicate k (List.range' 1 N ++ (List.range' 1 N).reverse)).flatten := by
    rw [List.mem_flatten]
    refine ⟨_, List.mem_replicate.2 ⟨by omega, rfl⟩, List.mem_append_left _ ?_⟩
    rw [List.mem_range'_1]
    omega
  obtain ⟨l1, l2, x, y, s1, s2, s3⟩ := Sweep.Steps.mem hs hmem
  have key := fun {l : List ℕ} {u v : Cfg q N → ℂ} (hs : Steps (OptStep D (Matrix.of (ham.total (N := N))) h0 hDN) l u v)
      (hu : u ≠ 0) => Sweep.Steps.induct (fun u v => meanE (Matrix.of (ham.total (N := N))) v
    ≤ meanE (Matrix.of (ham.total (N := N))) u) (· ≠ 0) (fun _ => le_rfl) (fun u v w a b => b.trans a)
    (fun x u v hx hu => ⟨ne_zero_of (Sweep.OptStep.energy hx hu).1, (Sweep.OptStep.energy hx hu).2⟩) hs hu
  have hx := (key s1 hψ).1
  have hy := ne_zero_of (Sweep.OptStep.energy s2 hx).1
  refine (key s3 hy).2.trans ?_
  obtain ⟨-, B, hB, -, hopt⟩ := s2
  have hu := (siteT_iso h0 hDN j hj hB).univ (by simpa using hfull)
  rw [siteT_range] at hu
  rw [hu] at hopt
  exact Sweep.Optimal.energy hopt (Set.mem_univ φ) hφ

/-- If no term of the Hamiltonian is missing, no bond is trivial and the routines return, so do the sweeps. -/
theorem C58_returns (qr : QR ℂ) (L : Solvers) (hL : L.Ok) (hR : L.Returns) (ham : Ham ℂ q) (h0 : D 0 = 1)
    (hDN : D N = 1) (hN : 1 ≤ N) (hD : Dims q D N) (hham : ∀ j, j + ham.sites ≤ N → Has ham j) (k : ℕ) (cb : Bool)
    (A : Tensors ℂ q D) (hA : ∀ n, 1 ≤ n → n < N → ROrth (A n)) (hψ : psi (N := N) A h0 hDN ≠ 0) :
    (∀ dtau, (evolve qr L N ham dtau k cb A).isSome) ∧
    ((Matrix.of (ham.total (N := N))).IsHermitian → (dmrg qr L N ham k cb A).isSome) := by
  refine ⟨fun dtau => ?_, fun hH => ?_⟩
  · obtain ⟨e, he, hec, -⟩ := sweep_checks N hN dtau k false false none cb
    obtain ⟨w', hw⟩ := path_returns (qr := qr) (fac := (splitTime dtau).1) (w := ⟨start A, []⟩) h0 hDN hL hR hD hham
      (fun hx => absurd hx no_opt) (oneSite_sweep N _ _ _ _ _ _) (inv_start ham A hA) he hψ
    rw [evolve, evolveSplit_runs, Option.isSome_map]
    exact Option.isSome_iff_exists.2 ⟨w', hw⟩
  · obtain ⟨e, he, hec, -⟩ := sweep_checks N hN 0 k true false none cb
    obtain ⟨w', hw⟩ := path_returns (qr := qr) (fac := 1) (w := ⟨start A, []⟩) h0 hDN hL hR hD hham
      (fun _ => hH) (oneSite_sweep N _ _ _ _ _ _) (inv_start ham A hA) he hψ
    rw [dmrg, evolveSplit_runs, Option.isSome_map]
    exact Option.isSome_iff_exists.2 ⟨w', hw⟩

/-- The Hamiltonian is Hermitian if its terms are. -/
theorem C58_hermitian (ham : Ham ℂ q)
    (h : match ham with
      | .two h => ∀ j op, h j = some op → ∀ s t s' t', star (op s t s' t') = op s' t' s t
      | .three h => ∀ j op, h j = some op → ∀ s t u s' t' u', star (op s t u s' t' u') = op s' t' u' s t u) :
    (Matrix.of (ham.total (N := N))).IsHermitian := by
  ext x y
  rw [Matrix.conjTranspose_apply, Matrix.of_apply, Matrix.of_apply, Ham.total, Ham.total, star_sum]
  refine Finset.sum_congr rfl fun k _ => ?_
  cases ham with
  | two hm =>
    simp only [Ham.term]
    split
    · cases hk : hm k with
      | none => simp
      | some op =>
        simp only [Option.elim_some, siteOp2]
        have e : (∀ i : Fin N, (i : ℕ) ≠ k → (i : ℕ) ≠ k + 1 → x i = y i) ↔
            ∀ i : Fin N, (i : ℕ) ≠ k → (i : ℕ) ≠ k + 1 → y i = x i :=
          ⟨fun h i a b => (h i a b).symm, fun h i a b => (h i a b).symm⟩
        by_cases hxy : ∀ i : Fin N, (i : ℕ) ≠ k → (i : ℕ) ≠ k + 1 → x i = y i
        · rw [if_pos hxy, if_pos (e.1 hxy), h k op hk]
        · rw [if_neg hxy, if_neg fun c => hxy (e.2 c), star_zero]
    · simp
  | three hm =>
    simp only [Ham.term]
    split
    · cases hk : hm k with
      | none => simp
      | some op =>
        simp only [Option.elim_some, siteOp3]
        have e : (∀ i : Fin N, (i : ℕ) ≠ k → (i : ℕ) ≠ k + 1 → (i : ℕ) ≠ k + 2 → x i = y i) ↔
            ∀ i : Fin N, (i : ℕ) ≠ k → (i : ℕ) ≠ k + 1 → (i : ℕ) ≠ k + 2 → y i = x i :=
          ⟨fun h i a b c => (h i a b c).symm, fun h i a b c => (h i a b c).symm⟩
        by_cases hxy : ∀ i : Fin N, (i : ℕ) ≠ k → (i : ℕ) ≠ k + 1 → (i : ℕ) ≠ k + 2 → x i = y i
        · rw [if_pos hxy, if_pos (e.1 hxy), h k op hk]
        · rw [if_neg hxy, if_neg fun c => hxy (e.2 c), star_zero]
    · simp

/-! ## The hypotheses can be met -/

namespace Ex58

/-- The bond dimensions 1, 2, 2, 1. -/
def dims : ℕ → ℕ
  | 1 => 2
  | 2 => 2
  | _ => 1

/-- The state `|000⟩ + |101⟩` in right canonical form. -/
def chain : Tensors ℂ (fun _ => 2) dims
  | 0 => fun s => Matrix.of fun _ j => if j.val = s.val then 1 else 0
  | 2 => fun s => Matrix.of fun i _ => if i.val = s.val then 1 else 0
  | _ => fun s => Matrix.of fun i j => if s.val = 0 ∧ i.val = j.val then 1 else 0

/-- The transverse Ising model. -/
noncomputable def ising (g : ℝ) : Ham ℂ (fun _ => 2) := .two fun _ => some fun s t s' t' =>
  (if s ≠ s' ∧ t ≠ t' then -1 else 0) + if s = s' ∧ t = t' then (if s = 0 then (g : ℂ) else -g) else 0

theorem ising_herm (g : ℝ) : (Matrix.of ((ising g).total (N := 3))).IsHermitian := by
  refine C58_hermitian (ising g) ?_
  intro j op ho s t s' t'
  obtain rfl := Option.some.inj ho
  simp only [star_add]
  congr 1
  · simp only [ne_comm (a := s), ne_comm (a := t)]
    split_ifs <;> simp
  · by_cases h : s = s' ∧ t = t'
    · obtain ⟨rfl, rfl⟩ := h
      split_ifs <;> simp
    · have h' : ¬ (s' = s ∧ t' = t) := fun c => h ⟨c.1.symm, c.2.symm⟩
      rw [if_neg h, if_neg h', star_zero]

theorem ising_has (g : ℝ) (j : ℕ) : Has (ising g) j := rfl

theorem chain_dims : Dims (fun _ => 2) dims 3 := by
  refine ⟨fun k hk => ?_, fun k hk => ?_, fun k hk => le_rfl, fun k h1 h2 => ?_⟩ <;> interval_cases k <;> simp [dims]

theorem chain_R : ∀ n, 1 ≤ n → n < 3 → ROrth (chain n) := by
  intro n h1 h2
  interval_cases n
  · change ∑ s : Fin 2, (Matrix.of fun (i j : Fin 2) => if s.val = 0 ∧ i.val = j.val then (1 : ℂ) else 0)
      * (Matrix.of fun (i j : Fin 2) => if s.val = 0 ∧ i.val = j.val then (1 : ℂ) else 0)ᴴ = 1
    ext i j
    fin_cases i <;> fin_cases j <;> simp [Fin.sum_univ_two, Matrix.add_apply, Matrix.mul_apply]
  · change ∑ s : Fin 2, (Matrix.of fun (i : Fin 2) (_ : Fin 1) => if i.val = s.val then (1 : ℂ) else 0)
      * (Matrix.of fun (i : Fin 2) (_ : Fin 1) => if i.val = s.val then (1 : ℂ) else 0)ᴴ = 1
    ext i j
    fin_cases i <;> fin_cases j <;> simp [Fin.sum_univ_two, Matrix.add_apply, Matrix.mul_apply]

theorem chain_psi : psi (N := 3) chain rfl rfl ≠ 0 := by
  intro h
  have h1 := congrFun h fun _ => (0 : Fin 2)
  change (((1 : Matrix (Fin 1) (Fin 1) ℂ) * (Matrix.of fun (_ : Fin 1) (j : Fin 2) => if j.val = 0 then (1 : ℂ) else 0))
    * (Matrix.of fun (i j : Fin 2) => if (0 : ℕ) = 0 ∧ i.val = j.val then (1 : ℂ) else 0)
    * (Matrix.of fun (i : Fin 2) (_ : Fin 1) => if i.val = 0 then (1 : ℂ) else 0)) 0 0 = 0 at h1
  simp [Matrix.mul_apply, Fin.sum_univ_two] at h1

/-- Real-time evolution and ground state search of the Ising model on three sites. -/
example (g dt : ℝ) (k : ℕ) (hk : 1 ≤ k) : ∃ (L : Solvers) (A' A'' : Tensors ℂ (fun _ => 2) dims) (log log' : List Op),
    L.Ok ∧ L.Returns ∧
    evolve econQR L 3 (ising g) (Complex.I * dt) k true chain = some (A', log) ∧
    dmrg econQR L 3 (ising g) k false chain = some (A'', log') ∧
    meanE (Matrix.of ((ising g).total (N := 3))) (psi A' rfl rfl)
      = meanE (Matrix.of ((ising g).total (N := 3))) (psi chain rfl rfl) ∧
    ∀ φ ≠ 0, meanE (Matrix.of ((ising g).total (N := 3))) (psi A'' rfl rfl)
      ≤ meanE (Matrix.of ((ising g).total (N := 3))) φ := by
  obtain ⟨h1, h2⟩ := C58_returns (N := 3) econQR exactSolvers exactSolvers_ok exactSolvers_returns (ising g) rfl rfl
    (by omega) chain_dims (fun j _ => ising_has g j) k true chain chain_R chain_psi
  obtain ⟨⟨A', log⟩, e1⟩ := Option.isSome_iff_exists.1 (h1 (Complex.I * dt))
  obtain ⟨⟨A'', log'⟩, e2⟩ := Option.isSome_iff_exists.1 ((C58_returns (N := 3) econQR exactSolvers exactSolvers_ok
    exactSolvers_returns (ising g) rfl rfl (by omega) chain_dims (fun j _ => ising_has g j) k false chain chain_R
    chain_psi).2 (ising_herm g))
  refine ⟨exactSolvers, A', A'', log, log', exactSolvers_ok, exactSolvers_returns, e1, e2, ?_, fun φ hφ => ?_⟩
  · exact C58_energy econQR exactSolvers exactSolvers_ok (ising g) rfl rfl (by omega) (ising_herm g) _ (by simp) k true
      chain A' log chain_R chain_psi e1
  · refine C58_dmrg_exact econQR exactSolvers exactSolvers_ok (ising g) rfl rfl (ising_herm g) 1 (by omega) ?_ k hk false
      chain A'' log' chain_R chain_psi e2 φ hφ
    simp [dims, Cfg]

end Ex58

end EvoMPS
