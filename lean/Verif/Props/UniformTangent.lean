import Verif.UniformTangentLemmas
import Verif.Props.Tangent

/-!
# C55, C56 and the uniform part of C33: tangent vectors and steps of the uniform chain
-/

namespace EvoMPS

open Matrix Uni ComplexOrder

variable {q D : ℕ}

/-- The matrix objects `lm`, `rm` stand for the environments of the `L` cuts of the block, which are Hermitian. -/
structure UStored (L : ℕ) (lm rm : ℕ → MM ℂ D D) (l r : ℕ → Matrix (Fin D) (Fin D) ℂ) : Prop where
  left : ∀ k < L, (lm k).toArray = l k
  right : ∀ k < L, (rm k).toArray = r k
  left_herm : ∀ k < L, (l k)ᴴ = l k
  right_herm : ∀ k < L, (r k)ᴴ = r k

/-- All eigenvalues of the environments are above the tolerance. -/
def UAbove (L : ℕ) (tol : ℝ) (x : ℕ → Matrix (Fin D) (Fin D) ℂ) : Prop := ∀ k < L, (x k - (tol : ℂ) • 1).PosDef

theorem UStored.roots_l {P : Num} (hP : P.Ok) {L : ℕ} {lm rm : ℕ → MM ℂ D D} {l r} (h : UStored L lm rm l r) {k : ℕ}
    (hk : k < L) : Roots (l k) (P.roots (lm k)).1 (P.roots (lm k)).2 P.tol := by
  have := roots_spec hP (lm k) (by rw [h.left k hk]; exact h.left_herm k hk)
  rwa [h.left k hk] at this

theorem UStored.roots_r {P : Num} (hP : P.Ok) {L : ℕ} {lm rm : ℕ → MM ℂ D D} {l r} (h : UStored L lm rm l r) {k : ℕ}
    (hk : k < L) : Roots (r k) (P.roots (rm k)).1 (P.roots (rm k)).2 P.tol := by
  have := roots_spec hP (rm k) (by rw [h.right k hk]; exact h.right_herm k hk)
  rwa [h.right k hk] at this

/-- Two states that agree with the uniform state behind a site `p` of the window, with tensors at `p` that
are orthogonal with respect to the right environment. -/
theorem windowBraket_zero {L : ℕ} (hL : 0 < L) {A : ℕ → Ten ℂ q D D} {l r : ℕ → Matrix (Fin D) (Fin D) ℂ}
    (E : ChainEnv L A l r) (X Y : ℕ → Ten ℂ q D D) (c w p : ℕ) (h1 : c ≤ p) (h2 : p < c + w)
    (hX : ∀ j, p < j → X j = A (j % L)) (hY : ∀ j, p < j → Y j = A (j % L))
    (h : ∑ s, X p s * r (p % L) * (Y p s)ᴴ = 0) : windowBraket L l r c w Y X = 0 := by
  obtain ⟨d, rfl⟩ : ∃ d, p = c + d := ⟨p - c, by omega⟩
  obtain ⟨e, rfl⟩ : ∃ e, w = d + 1 + e := ⟨w - d - 1, by omega⟩
  have hr := E.transferR hL (c + (d + 1)) e
  rw [windowBraket_eq, lineTransfer_add, lineTransfer_congr (c := c + (d + 1)) (X' := fun j => A (j % L)) (Y' := fun j => A (j % L))
    (fun j a b => hX j (by omega)) (fun j a b => hY j (by omega)), lineTransfer_uniform,
    show c + (d + 1 + e) + L - 1 = c + (d + 1) + e + L - 1 by omega, hr,
    show c + (d + 1) + L - 1 = c + d + L by omega, Nat.add_mod_right, lineTransfer_succ, h, lineTransfer_zero_right,
    adot_zero_right]

/-- **C55** (any parameter matrix).  Every tensor `get_B_from_x` builds from a null space of `calc_Vsh` satisfies the right
gauge condition, whatever the parameter matrix and the matrix to the left of it. -/
theorem C55_any_parameter (P : Num) (hP : P.Ok) (A : Ten ℂ q D D) (r : Matrix (Fin D) (Fin D) ℂ) (rm : MM ℂ D D)
    (hrm : rm.toArray = r) (hr : rᴴ = r) (Vsh) (hV : calcVsh P.qr A (P.roots rm).1 = some Vsh) (y x) :
    RightGauge A (getBFromX x Vsh y (P.roots rm).2) r := by
  subst hrm
  have R := roots_spec hP rm hr
  exact tenR_gauge hV R.si_herm R.si_mul y x

/-- **C55.**  `calc_B` returns exactly if there is more than one tensor per bond index to choose from, that is if the block is empty or
`D < q D`; then every tensor of the list satisfies the right gauge condition. -/
theorem C55_gauge (P : Num) (hP : P.Ok) (S : UTDVP q D) (lm rm : ℕ → MM ℂ D D)
    (hst : UStored S.L lm rm S.l S.r) (setEta : Bool) (etaSq : ℕ → ℂ) (out : UTangent q D)
    (hout : S.calcB P lm rm setEta etaSq = some out) :
    ∀ k < S.L, RightGauge (S.A k) (out.B k) (S.r k) := by
  intro k hk
  obtain ⟨e, ⟨Vsh, x, hV, -, hB, -⟩, -⟩ := (ucalcB_spec hout).1 k hk
  rw [hB]
  exact C55_any_parameter P hP _ _ _ (hst.right k hk) (hst.right_herm k hk) Vsh hV _ x

theorem C55_returns (P : Num) (S : UTDVP q D) (lm rm : ℕ → MM ℂ D D) (setEta : Bool) (etaSq : ℕ → ℂ) :
    (∃ out, S.calcB P lm rm setEta etaSq = some out) ↔ S.L = 0 ∨ D < q * D := by
  have hsite : ∀ T k, D < q * D → ∃ T', S.calcBIter P lm rm setEta T k = some T' := by
    intro T k h
    unfold UTDVP.calcBIter
    dsimp only
    obtain ⟨Vsh, hV⟩ := calcVsh_isSome (qr := P.qr) (A := S.A k) (r_s := (P.roots (rm k)).1) h
    rw [hV, Option.bind_some]
    unfold UTDVP.calcXk
    cases S.ham with
    | two _ => exact ⟨_, rfl⟩
    | three _ =>
      dsimp only
      rw [calcX3_eq _ _ _ _ _ _ _ _ _ _ _ _ _ _ _ _ _ _ (by simp) (by simp)]
      exact ⟨_, rfl⟩
  have hloop : ∀ n T, n = 0 ∨ D < q * D → ∃ T', (List.range n).foldl
      (fun T k => T.bind fun T => S.calcBIter P lm rm setEta T k) (some T) = some T' := by
    intro n T h
    induction n with
    | zero => exact ⟨T, rfl⟩
    | succ n ih =>
      obtain ⟨T', hT⟩ := ih (by omega)
      rw [List.range_succ, List.foldl_append, List.foldl_cons, List.foldl_nil, hT]
      exact hsite T' n (by omega)
  constructor
  · rintro ⟨out, h⟩
    by_cases hL : S.L = 0
    · exact Or.inl hL
    · obtain ⟨e, ⟨Vsh, x, hV, -⟩, -⟩ := (ucalcB_spec h).1 0 (by omega)
      have := (calcVsh_some hV).1
      rw [Nat.mul_comm] at this
      exact Or.inr (by omega)
  · intro h
    obtain ⟨T, hT⟩ := hloop S.L { B := fun _ => 0, etaSq := etaSq, eta := 0 } h
    unfold UTDVP.calcB
    rw [hT]
    exact ⟨_, rfl⟩

/-- **C55.**  In every window that contains the site, the state with one tensor replaced by a gauge-fixed one is
orthogonal to the uniform state. -/
theorem C55_orthogonal {L : ℕ} (hL : 0 < L) {A : ℕ → Ten ℂ q D D} {l r : ℕ → Matrix (Fin D) (Fin D) ℂ}
    (E : ChainEnv L A l r) (c w p : ℕ) (h1 : c ≤ p) (h2 : p < c + w) (b : Ten ℂ q D D)
    (hb : RightGauge (A (p % L)) b (r (p % L))) :
    windowBraket L l r c w (fun j => A (j % L)) (replaced L A p b) = 0 := by
  refine windowBraket_zero hL E _ _ c w p h1 h2 (fun j hj => ?_) (fun j _ => rfl) ?_
  · rw [replaced, if_neg (by omega)]
  · simp only [replaced, if_pos]
    exact hb

/-- **C55.**  Two gauge-fixed replacements at different sites are orthogonal. -/
theorem C55_cross {L : ℕ} (hL : 0 < L) {A : ℕ → Ten ℂ q D D} {l r : ℕ → Matrix (Fin D) (Fin D) ℂ}
    (E : ChainEnv L A l r) (hr : ∀ k < L, (r k)ᴴ = r k) (c w p p' : ℕ) (hne : p ≠ p') (h1 : c ≤ p) (h2 : p < c + w)
    (h1' : c ≤ p') (h2' : p' < c + w) (b b' : Ten ℂ q D D)
    (hb : RightGauge (A (p % L)) b (r (p % L))) (hb' : RightGauge (A (p' % L)) b' (r (p' % L))) :
    windowBraket L l r c w (replaced L A p' b') (replaced L A p b) = 0 := by
  rcases Nat.lt_or_gt_of_ne hne with h | h
  · refine windowBraket_zero hL E _ _ c w p' h1' h2' (fun j hj => ?_) (fun j hj => ?_) ?_
    · rw [replaced, if_neg (by omega)]
    · rw [replaced, if_neg (by omega)]
    · simp only [replaced, if_pos, if_neg hne.symm]
      have := congrArg conjTranspose hb'
      simpa [conjTranspose_sum, conjTranspose_mul, hr _ (Nat.mod_lt p' hL), Matrix.mul_assoc] using this
  · refine windowBraket_zero hL E _ _ c w p h1 h2 (fun j hj => ?_) (fun j hj => ?_) ?_
    · rw [replaced, if_neg (by omega)]
    · rw [replaced, if_neg (by omega)]
    · simp only [replaced, if_pos, if_neg hne]
      exact hb

/-- Two replacements of the tensor at the same site. -/
theorem windowBraket_same {L : ℕ} (hL : 0 < L) {A : ℕ → Ten ℂ q D D} {l r : ℕ → Matrix (Fin D) (Fin D) ℂ}
    (E : ChainEnv L A l r) (c w p : ℕ) (h1 : c ≤ p) (h2 : p < c + w) (b b' : Ten ℂ q D D) :
    windowBraket L l r c w (replaced L A p b') (replaced L A p b)
      = adot (l ((p + L - 1) % L)) (∑ s, b s * r (p % L) * (b' s)ᴴ) := by
  obtain ⟨d, rfl⟩ : ∃ d, p = c + d := ⟨p - c, by omega⟩
  obtain ⟨e, rfl⟩ : ∃ e, w = d + 1 + e := ⟨w - d - 1, by omega⟩
  have hr := E.transferR hL (c + (d + 1)) e
  have out : ∀ (b : Ten ℂ q D D) j, j ≠ c + d → replaced L A (c + d) b j = A (j % L) := fun b j hj => by
    rw [replaced, if_neg hj]
  rw [windowBraket_eq, lineTransfer_add, lineTransfer_congr (c := c + (d + 1)) (X' := fun j => A (j % L)) (Y' := fun j => A (j % L))
    (fun j a b => out _ j (by omega)) (fun j a b => out _ j (by omega)), lineTransfer_uniform,
    show c + (d + 1 + e) + L - 1 = c + (d + 1) + e + L - 1 by omega, hr,
    show c + (d + 1) + L - 1 = c + d + L by omega, Nat.add_mod_right, lineTransfer_succ,
    lineTransfer_congr (c := c) (n := d) (X' := fun j => A (j % L)) (Y' := fun j => A (j % L))
    (fun j a b => out _ j (by omega)) (fun j a b => out _ j (by omega)), lineTransfer_uniform, ← adot_chainTransferL,
    E.transferL hL]
  simp only [replaced, if_pos]

/-- What `calc_B` returns, in terms of the sites of the infinite chain. -/
theorem site_result {P : Num} (hP : P.Ok) {S : UTDVP q D} (hL : 0 < S.L) (hc : UCurrent S) {lm rm : ℕ → MM ℂ D D}
    (hst : UStored S.L lm rm S.l S.r) {setEta : Bool} {etaSq : ℕ → ℂ} {out : UTangent q D}
    (hout : S.calcB P lm rm setEta etaSq = some out) (p : ℕ) (hp : S.ham.sites ≤ p + 1) :
    ∃ Vsh, calcVsh P.qr (S.A (p % S.L)) (P.roots (rm (p % S.L))).1 = some Vsh ∧
      let l_si := (P.roots (lm ((p + S.L - 1) % S.L))).2
      let r_si := (P.roots (rm (p % S.L))).2
      let x := l_si * ∑ s, ugrad S p s * (r_si * Vsh s)
      out.B (p % S.L) = tenR l_si r_si Vsh x ∧ (setEta = true → out.etaSq (p % S.L) = adot x x) := by
  obtain ⟨e, ⟨Vsh, x, hV, hx, hB, he⟩, h3⟩ := (ucalcB_spec hout).1 (p % S.L) (Nat.mod_lt _ hL)
  have hm : pmod (((p % S.L : ℕ) : ℤ) - 1) S.L = (p + S.L - 1) % S.L := pmod_sub_env hL p 0 (by omega)
  rw [hm] at hx hB
  have Rl := hst.roots_l hP (Nat.mod_lt (p + S.L - 1) hL)
  have Rr := hst.roots_r hP (Nat.mod_lt p hL)
  rw [calcXk_eq S hL hc p hp Vsh _ _ _ _ Rl.si_mul Rr.mul_si] at hx
  have hx := Option.some.inj hx
  subst hx
  exact ⟨Vsh, hV, hB, fun h => (h3 h).trans he⟩

/-- **C55.**  If the right environments have full rank, `eta_sq[k]` is the squared norm of the state with one
tensor replaced by `B[k]`, in every window, and `eta` the square root of the sum over one block.  There is
no condition on the left environments. -/
theorem C55_norm (P : Num) (hP : P.Ok) (S : UTDVP q D) (hL : 0 < S.L) (E : ChainEnv S.L S.A S.l S.r)
    (hc : UCurrent S) (lm rm : ℕ → MM ℂ D D) (hst : UStored S.L lm rm S.l S.r) (hr : UAbove S.L P.tol S.r)
    (etaSq : ℕ → ℂ) (out : UTangent q D) (hout : S.calcB P lm rm true etaSq = some out) :
    (∀ c w p, c ≤ p → p < c + w → out.etaSq (p % S.L) = windowBraket S.L S.l S.r c w
        (replaced S.L S.A p (out.B (p % S.L))) (replaced S.L S.A p (out.B (p % S.L)))) ∧
    (∀ c, out.eta = P.sq (∑ i ∈ Finset.range S.L, windowBraket S.L S.l S.r c S.L
        (replaced S.L S.A (c + i) (out.B ((c + i) % S.L))) (replaced S.L S.A (c + i) (out.B ((c + i) % S.L))))) := by
  have key : ∀ c w p, c ≤ p → p < c + w → out.etaSq (p % S.L) = windowBraket S.L S.l S.r c w
        (replaced S.L S.A p (out.B (p % S.L))) (replaced S.L S.A p (out.B (p % S.L))) := by
    intro c w p h1 h2
    rw [windowBraket_same hL E c w p h1 h2]
    have e1 : (p + 3 * S.L) % S.L = p % S.L := by simp
    have e2 : (p + 3 * S.L + S.L - 1) % S.L = (p + S.L - 1) % S.L := by
      rw [show p + 3 * S.L + S.L - 1 = p + S.L - 1 + 3 * S.L by omega]; simp
    obtain ⟨Vsh, hV, hB, he⟩ := site_result hP hL hc hst hout (p + 3 * S.L) (by
      have : S.ham.sites ≤ 3 := by cases S.ham <;> simp [UHam.sites]
      omega)
    rw [e1] at hV hB he
    rw [e2] at hB he
    have Rl := hst.roots_l hP (Nat.mod_lt (p + S.L - 1) hL)
    have Rr := hst.roots_r hP (Nat.mod_lt p hL)
    obtain ⟨fr1, fr2⟩ := Rr.full (hr _ (Nat.mod_lt p hL))
    rw [he rfl, hB]
    refine (tenR_overlap hV Rr.si_herm Rr.si_mul fr1 (hst.left_herm _ (Nat.mod_lt _ hL)) Rl.si_herm Rl.mul_si _ _ ?_).symm
    rw [← Matrix.mul_assoc, Rl.proj]
  refine ⟨key, fun c => ?_⟩
  rw [(ucalcB_spec hout).2.2]
  congr 1
  rw [Finset.sum_congr rfl fun i hi => (key c S.L (c + i) (by omega) (by
    have := Finset.mem_range.1 hi; omega)).symm]
  refine (Finset.sum_nbij' (fun i => (c + i) % S.L) (fun k => (k + S.L - c % S.L) % S.L) ?_ ?_ ?_ ?_ ?_).symm
  · intro i _; exact Finset.mem_range.2 (Nat.mod_lt _ hL)
  · intro i _; exact Finset.mem_range.2 (Nat.mod_lt _ hL)
  · intro i hi
    have hi := Finset.mem_range.1 hi
    have hcl := Nat.mod_lt c hL
    show ((c + i) % S.L + S.L - c % S.L) % S.L = i
    rw [Nat.add_sub_assoc hcl.le, Nat.mod_add_mod]
    conv_lhs => rw [← Nat.mod_add_div c S.L]
    rw [show c % S.L + S.L * (c / S.L) + i + (S.L - (c % S.L + S.L * (c / S.L)) % S.L) = i + S.L * (c / S.L + 1) by
      rw [Nat.add_mul_mod_self_left, Nat.mod_mod, Nat.mul_add]; omega, Nat.add_mul_mod_self_left, Nat.mod_eq_of_lt hi]
  · intro i hi
    have hi := Finset.mem_range.1 hi
    have hcl := Nat.mod_lt c hL
    show (c + (i + S.L - c % S.L) % S.L) % S.L = i
    rw [Nat.add_mod_mod]
    conv_lhs => rw [← Nat.mod_add_div c S.L]
    rw [show c % S.L + S.L * (c / S.L) + (i + S.L - (c % S.L + S.L * (c / S.L)) % S.L) = i + S.L * (c / S.L + 1) by
      rw [Nat.add_mul_mod_self_left, Nat.mod_mod, Nat.mul_add]; omega, Nat.add_mul_mod_self_left, Nat.mod_eq_of_lt hi]
  · intro i _; rfl

/-! ## C56 -/

/-- The overlap of the tangent vector of `calc_B` with a gauge-fixed one. -/
theorem overlap_grad (P : Num) (hP : P.Ok) (S : UTDVP q D) (hL : 0 < S.L) (E : ChainEnv S.L S.A S.l S.r)
    (hc : UCurrent S) (lm rm : ℕ → MM ℂ D D) (hst : UStored S.L lm rm S.l S.r)
    (hl : UAbove S.L P.tol S.l) (hr : UAbove S.L P.tol S.r) (setEta : Bool)
    (etaSq : ℕ → ℂ) (out : UTangent q D) (hout : S.calcB P lm rm setEta etaSq = some out) (c w p : ℕ) (h1 : c ≤ p)
    (h2 : p < c + w) (hp : S.ham.sites ≤ p + 1) (b : Ten ℂ q D D) (hb : RightGauge (S.A (p % S.L)) b (S.r (p % S.L))) :
    windowBraket S.L S.l S.r c w (replaced S.L S.A p b) (replaced S.L S.A p (out.B (p % S.L)))
      = pair (ugrad S p) b := by
  obtain ⟨Vsh, hV, hB, -⟩ := site_result hP hL hc hst hout p hp
  have Rl := hst.roots_l hP (Nat.mod_lt (p + S.L - 1) hL)
  have Rr := hst.roots_r hP (Nat.mod_lt p hL)
  obtain ⟨fl1, fl2⟩ := Rl.full (hl _ (Nat.mod_lt _ hL))
  obtain ⟨fr1, fr2⟩ := Rr.full (hr _ (Nat.mod_lt p hL))
  have hrh := hst.right_herm _ (Nat.mod_lt p hL)
  have hu : IsUnit (∑ s, S.A (p % S.L) s * S.r (p % S.L) * (S.A (p % S.L) s)ᴴ).det := by
    have := E.right (p % S.L) (Nat.mod_lt p hL)
    rw [← this]
    exact above_isUnit hP.tol (hr _ (Nat.mod_lt _ hL))
  obtain ⟨x', hx'⟩ : ∃ x', b = tenR (P.roots (lm ((p + S.L - 1) % S.L))).2 (P.roots (rm (p % S.L))).2 Vsh x' :=
    ⟨_, (tenR_surj hV Rr.s_herm Rr.si_herm fr1 fr2 hrh (mul_eq_one_comm.mp fl1) hu b hb).symm⟩
  rw [windowBraket_same hL E c w p h1 h2, hB, hx', pair_tenR _ Rl.si_herm]
  refine tenR_overlap hV Rr.si_herm Rr.si_mul fr1 (hst.left_herm _ (Nat.mod_lt _ hL)) Rl.si_herm Rl.mul_si _ x' ?_
  rw [mul_eq_one_comm.mp fl1, Matrix.one_mul]

/-- **C56** (finite windows).  `calc_C`, `calc_K` with an exact solver and `calc_B` on a state with current
environments: for every gauge-fixed replacement at a site `p` of the infinite chain, the matrix element of the
Hamiltonian terms inside a window with the uniform state is the overlap with the tangent vector of `calc_B`, up to a remainder
that comes from the right end of the window. -/
theorem C56_window (P : Num) (hP : P.Ok) (S S' : UTDVP q D) (hL : 0 < S.L) (E : ChainEnv S.L S.A S.l S.r)
    (solver : Solver D) (junk : Matrix (Fin D) (Fin D) ℂ) (hs : ExactSolver S solver junk false)
    (hS' : S.calcC.calcK solver junk = some S') (lm rm : ℕ → MM ℂ D D) (hst : UStored S.L lm rm S.l S.r)
    (hl : UAbove S.L P.tol S.l) (hr : UAbove S.L P.tol S.r) (setEta : Bool) (etaSq : ℕ → ℂ) (out : UTangent q D)
    (hout : S'.calcB P lm rm setEta etaSq = some out) (c p M : ℕ) (hcp : c + S.ham.sites ≤ p + 1) (b : Ten ℂ q D D)
    (hb : RightGauge (S.A (p % S.L)) b (S.r (p % S.L))) :
    windowHam S.L S.l S.r c (p - c + S.ham.sites + M) S.ham.sites S.ham.op (replaced S.L S.A p b)
        (fun j => S.A (j % S.L))
      = windowBraket S.L S.l S.r c (p - c + S.ham.sites + M) (replaced S.L S.A p b) (replaced S.L S.A p (out.B (p % S.L)))
        - adot (S.l ((p + S.L - 1) % S.L)) (∑ s, S.A (p % S.L) s
          * chainTransfer S.L S.L S.A S.A (p + 1) M (S'.K ((p + 1 + M) % S.L)) * (b s)ᴴ) := by
  obtain ⟨S'', h1, e1, e2, e3, e4, e5, -, -, hK⟩ := C48_K S hL E solver junk hs
  rw [hS'] at h1
  obtain rfl := Option.some.inj h1
  have hc : UCurrent S' := (calcC_current S).calcK hS'
  have hn : 0 < S.ham.sites := by cases S.ham <;> simp [UHam.sites]
  rw [← e1] at hL
  rw [← e1, ← e2, ← e3, ← e4] at E hK
  rw [← e1, ← e3, ← e4] at hst
  rw [← e5] at hK hcp
  rw [← e1, ← e3] at hl
  rw [← e1, ← e4] at hr
  rw [← e1, ← e2, ← e4] at hb
  rw [← e5] at hn
  have hbt : ∑ s, S'.A (p % S'.L) s * S'.r (p % S'.L) * (b s)ᴴ = 0 := by
    have := congrArg conjTranspose hb
    simpa [conjTranspose_sum, conjTranspose_mul, hst.right_herm _ (Nat.mod_lt p hL), Matrix.mul_assoc] using this
  have hw := windowHam_eq S' hL E hst.left_herm hc hK c p M hcp b hbt
  rw [← overlap_grad P hP S' hL E hc lm rm hst hl hr setEta etaSq out hout c (p - c + S'.ham.sites + M) p (by omega)
    (by omega) (by omega) b hb] at hw
  rw [e1, e2, e3, e4, e5] at hw
  exact hw

/-- The remainder vanishes as the window grows. -/
theorem remainder_limit (S : UMPS ℂ q D) (hL : 0 < S.L) (E : ChainEnv S.L S.A S.l S.r) (n : ℕ)
    (O : (Fin n → Fin q) → (Fin n → Fin q) → ℂ) (K : ℕ → Matrix (Fin D) (Fin D) ℂ)
    (hK : KRight S.L S.A S.l S.r n O K)
    (hlim : ∀ x, Filter.Tendsto (fun m : ℕ => chainTransfer S.L S.L S.A S.A 0 (m * S.L) x) Filter.atTop
      (nhds (adot (S.l (S.L - 1)) x • S.r (S.L - 1)))) (k : ℕ) :
    Filter.Tendsto (fun M : ℕ => chainTransfer S.L S.L S.A S.A k M (K ((k + M) % S.L))) Filter.atTop (nhds 0) := by
  have hadd : ∀ c a b x, chainTransfer S.L S.L S.A S.A c (a + b) x
      = chainTransfer S.L S.L S.A S.A c a (chainTransfer S.L S.L S.A S.A (c + a) b x) := fun c a b x =>
    lineTransfer_add (X := fun j => S.A (j % S.L)) (Y := fun j => S.A (j % S.L)) c a b x
  have hlast : (0 + S.L - 1) % S.L = S.L - 1 := by rw [Nat.zero_add, Nat.mod_eq_of_lt (by omega)]
  -- the transfer from the start of a block
  have h0 : Filter.Tendsto (fun M : ℕ => chainTransfer S.L S.L S.A S.A 0 M (K (M % S.L))) Filter.atTop (nhds 0) := by
    have hb : ∀ b, Filter.Tendsto (fun m : ℕ => chainTransfer S.L S.L S.A S.A 0 (m * S.L)
        (chainTransfer S.L S.L S.A S.A 0 b (K (b % S.L)))) Filter.atTop (nhds 0) := by
      intro b
      have h := hlim (chainTransfer S.L S.L S.A S.A 0 b (K (b % S.L)))
      have ho := hK.orth (b % S.L) (Nat.mod_lt b hL)
      rw [mod_pred hL, ← adot_eq_trace] at ho
      have ht := E.transferL hL 0 b
      rw [hlast, Nat.zero_add] at ht
      rw [← adot_chainTransferL, ht, ho, zero_smul] at h
      exact h
    refine fun U hU => ?_
    have hall : ∀ᶠ m : ℕ in Filter.atTop, ∀ b ∈ Finset.range S.L, chainTransfer S.L S.L S.A S.A 0 (m * S.L)
        (chainTransfer S.L S.L S.A S.A 0 b (K (b % S.L))) ∈ U :=
      (Filter.eventually_all_finset _).2 fun b _ => hb b hU
    obtain ⟨m0, hm0⟩ := Filter.eventually_atTop.1 hall
    refine Filter.eventually_atTop.2 ⟨m0 * S.L, fun M hM => ?_⟩
    have h := hm0 (M / S.L) ((Nat.le_div_iff_mul_le hL).2 hM) (M % S.L) (Finset.mem_range.2 (Nat.mod_lt _ hL))
    rw [Nat.mod_mod, chainTransfer_shift S.L S.A (k := 0) (k' := 0 + M / S.L * S.L) (by simp) (M % S.L), ← hadd,
      Nat.div_add_mod'] at h
    exact h
  -- sites before the next block
  have ha : ∃ a, (k + a) % S.L = 0 := ⟨S.L - k % S.L, by
    have := Nat.mod_lt k hL
    rw [← Nat.mod_add_mod, Nat.add_sub_of_le this.le, Nat.mod_self]⟩
  obtain ⟨a, ha⟩ := ha
  have h1 := ((continuous_transfer (L := S.L) (A := S.A) k a).tendsto 0).comp h0
  rw [show chainTransfer S.L S.L S.A S.A k a 0 = 0 by simp [chainTransfer]] at h1
  refine (Filter.tendsto_add_atTop_iff_nat a).1 (h1.congr fun M => ?_)
  rw [Function.comp_apply, Nat.add_comm M a, hadd, chainTransfer_shift S.L S.A (k := k + a) (k' := 0) (by rw [ha]; simp),
    ← Nat.add_assoc, ← Nat.mod_add_mod, ha, Nat.zero_add]

/-- **C56.**  If the powers of the block map converge to the projection on `r`, the matrix element converges to the overlap with the
tangent vector of `calc_B` as the window grows to the right; the left end of the window does not matter. -/
theorem C56_limit (P : Num) (hP : P.Ok) (S S' : UTDVP q D) (hL : 0 < S.L) (E : ChainEnv S.L S.A S.l S.r)
    (solver : Solver D) (junk : Matrix (Fin D) (Fin D) ℂ) (hs : ExactSolver S solver junk false)
    (hS' : S.calcC.calcK solver junk = some S') (lm rm : ℕ → MM ℂ D D) (hst : UStored S.L lm rm S.l S.r)
    (hl : UAbove S.L P.tol S.l) (hr : UAbove S.L P.tol S.r)
    (hlim : ∀ x, Filter.Tendsto (fun m : ℕ => chainTransfer S.L S.L S.A S.A 0 (m * S.L) x) Filter.atTop
      (nhds (adot (S.l (S.L - 1)) x • S.r (S.L - 1))))
    (setEta : Bool) (etaSq : ℕ → ℂ) (out : UTangent q D)
    (hout : S'.calcB P lm rm setEta etaSq = some out) (c p : ℕ) (hcp : c + S.ham.sites ≤ p + 1) (b : Ten ℂ q D D)
    (hb : RightGauge (S.A (p % S.L)) b (S.r (p % S.L))) (c' w' : ℕ) (h1 : c' ≤ p) (h2 : p < c' + w') :
    Filter.Tendsto (fun w => windowHam S.L S.l S.r c w S.ham.sites S.ham.op (replaced S.L S.A p b)
        (fun j => S.A (j % S.L))) Filter.atTop
      (nhds (windowBraket S.L S.l S.r c' w' (replaced S.L S.A p b) (replaced S.L S.A p (out.B (p % S.L))))) := by
  obtain ⟨S'', h3, e1, e2, e3, e4, e5, -, -, hK⟩ := C48_K S hL E solver junk hs
  rw [hS'] at h3
  obtain rfl := Option.some.inj h3
  have hn : 0 < S.ham.sites := by cases S.ham <;> simp [UHam.sites]
  have hrem := remainder_limit S.toUMPS hL E _ _ _ hK hlim (p + 1)
  have hcont : Continuous fun y : Matrix (Fin D) (Fin D) ℂ => adot (S.l ((p + S.L - 1) % S.L)) (∑ s, S.A (p % S.L) s
      * y * (b s)ᴴ) := (continuous_adot _).comp (continuous_finsetSum _ fun _ _ =>
        (continuous_const.matrix_mul continuous_id).matrix_mul continuous_const)
  have h4 := (hcont.tendsto 0).comp hrem
  have h5 := (tendsto_const_nhds (x := windowBraket S.L S.l S.r c' w' (replaced S.L S.A p b)
    (replaced S.L S.A p (out.B (p % S.L))))).sub h4
  simp only [Matrix.mul_zero, Matrix.zero_mul, Finset.sum_const_zero, adot_zero_right, sub_zero] at h5
  refine (Filter.tendsto_add_atTop_iff_nat (p - c + S.ham.sites)).1 (h5.congr fun M => ?_)
  rw [Nat.add_comm M, C56_window P hP S S' hL E solver junk hs hS' lm rm hst hl hr setEta etaSq out hout c p M hcp b hb,
    windowBraket_same hL E _ _ p h1 h2, windowBraket_same hL E _ _ p (by omega) (by omega)]
  rfl

/-! ## C33: steps of the uniform chain -/

theorem stepLoop_eq (L : ℕ) (dtau : ℂ) (B A : ℕ → Ten ℂ q D D) (k : ℕ) :
    stepLoop L dtau B A k = if k < L then A k - fun s => dtau • B k s else A k := by
  unfold stepLoop
  induction L with
  | zero => simp
  | succ n ih =>
    rw [List.range_succ, List.foldl_append, List.foldl_cons, List.foldl_nil]
    by_cases hk : k = n
    · subst hk
      rw [Function.update_self, ih, if_neg (lt_irrefl k), if_pos (Nat.lt_succ_self k)]
      funext s
      simp [sub_eq_add_neg]
    · rw [Function.update_of_ne hk, ih]
      congr 1
      exact propext ⟨fun h => by omega, fun h => by omega⟩

/-- A loop that assigns entry `k` of one array and adds to entry `k` of the list `B_fin`. -/
theorem loop_addAt (L : ℕ) (F X : ℕ → Ten ℂ q D D) (A : ℕ → Ten ℂ q D D) (b : BFin q D) (k : ℕ) :
    let out := (List.range L).foldl (fun (p : (ℕ → Ten ℂ q D D) × BFin q D) k =>
      (Function.update p.1 k (F k), p.2.addAt k (X k))) (A, b)
    out.1 k = (if k < L then F k else A k) ∧ out.2.head k = (if k < L then b.head k + X k else b.head k) := by
  intro out
  induction L with
  | zero => exact ⟨by simp [out], by simp [out]⟩
  | succ n ih =>
    dsimp only [out] at ih ⊢
    rw [List.range_succ, List.foldl_append, List.foldl_cons, List.foldl_nil]
    simp only [BFin.addAt] at ih ⊢
    by_cases hk : k = n
    · subst hk
      rw [Function.update_self, Function.update_self, ih.2, if_neg (lt_irrefl k), if_pos (Nat.lt_succ_self k),
        if_pos (Nat.lt_succ_self k)]
      exact ⟨rfl, rfl⟩
    · rw [Function.update_of_ne hk, Function.update_of_ne hk, ih.1, ih.2]
      have : k < n + 1 ↔ k < n := by omega
      simp only [this, and_self]

/-- The third loop, in which the list `B_fin` grows. -/
theorem loop_extend (L : ℕ) (F X : ℕ → Ten ℂ q D D) (A : ℕ → Ten ℂ q D D) (b : BFin q D) :
    let out := (List.range L).foldl (fun (p : (ℕ → Ten ℂ q D D) × BFin q D) k =>
      (Function.update p.1 k (F k), p.2.extend (X k))) (A, b)
    (∀ k, out.1 k = (if k < L then F k else A k)) ∧ out.2.head = b.head := by
  intro out
  induction L with
  | zero => exact ⟨fun k => by simp [out], by simp [out]⟩
  | succ n ih =>
    dsimp only [out] at ih ⊢
    rw [List.range_succ, List.foldl_append, List.foldl_cons, List.foldl_nil]
    refine ⟨fun k => ?_, by simp only [BFin.extend]; exact ih.2⟩
    dsimp only
    by_cases hk : k = n
    · subst hk
      rw [Function.update_self, if_pos (Nat.lt_succ_self k)]
    · rw [Function.update_of_ne hk, ih.1]
      have : k < n + 1 ↔ k < n := by omega
      simp only [this]

/-- The last loop. -/
theorem loop_final (L : ℕ) (A0 B4 : ℕ → Ten ℂ q D D) (c : ℂ) (A : ℕ → Ten ℂ q D D) (b : BFin q D) (k : ℕ) :
    let out := (List.range L).foldl (fun (p : (ℕ → Ten ℂ q D D) × BFin q D) k =>
      let bfin := p.2.addAt k (B4 k)
      (Function.update p.1 k (A0 k - fun s => c • bfin.head k s), bfin)) (A, b)
    out.1 k = (if k < L then A0 k - fun s => c • (b.head k s + B4 k s) else A k) ∧ (L ≤ k → out.2.head k = b.head k) := by
  intro out
  induction L with
  | zero => exact ⟨by simp [out], fun _ => rfl⟩
  | succ n ih =>
    dsimp only [out] at ih ⊢
    rw [List.range_succ, List.foldl_append, List.foldl_cons, List.foldl_nil]
    simp only [BFin.addAt] at ih ⊢
    by_cases hk : k = n
    · subst hk
      rw [Function.update_self, Function.update_self, ih.2 le_rfl, if_pos (Nat.lt_succ_self k)]
      exact ⟨rfl, fun h => absurd h (by omega)⟩
    · rw [Function.update_of_ne hk, Function.update_of_ne hk, ih.1]
      have : k < n + 1 ↔ k < n := by omega
      simp only [this, true_and]
      exact fun h => ih.2 (by omega)

/-- The four slopes of the classical scheme: they are evaluated at the tensors of the block, the entries of the lists
behind the block are not changed. -/
structure RKSlopes (L : ℕ) (slope : (ℕ → Ten ℂ q D D) → Option (ℕ → Ten ℂ q D D)) (dtau : ℂ)
    (A0 k1 k2 k3 k4 : ℕ → Ten ℂ q D D) : Prop where
  two : slope (fun k => if k < L then A0 k - fun s => (dtau / 2) • k1 k s else A0 k) = some k2
  three : slope (fun k => if k < L then A0 k - fun s => (dtau / 2) • k2 k s else A0 k) = some k3
  four : slope (fun k => if k < L then A0 k - fun s => dtau • k3 k s else A0 k) = some k4

/-- **C33** (uniform chain).  `take_step_RK4` of the uniform chain evaluates the slope at the four points of the classical scheme. -/
theorem C33_uniform_partial (L : ℕ) (slope : (ℕ → Ten ℂ q D D) → Option (ℕ → Ten ℂ q D D)) (dtau : ℂ)
    (A0 k1 A' : ℕ → Ten ℂ q D D) (h : Uni.takeStepRK4 L slope dtau k1 A0 = some A') :
    ∃ k2 k3 k4, RKSlopes L slope dtau A0 k1 k2 k3 k4 ∧
      ∀ k < L, A' k = A0 k - fun s => (dtau / 6) • (k1 k s + (2 : ℂ) • k2 k s + k4 k s) := by
  unfold Uni.takeStepRK4 at h
  dsimp only at h
  obtain ⟨k2, h2, h⟩ := Option.bind_eq_some_iff.1 h
  obtain ⟨k3, h3, h⟩ := Option.bind_eq_some_iff.1 h
  obtain ⟨k4, h4, h⟩ := Option.map_eq_some_iff.1 h
  have a1 := fun k => stepLoop_eq L (dtau / 2) k1 A0 k
  have a2 := fun k => loop_addAt L (fun k => A0 k - fun s => (dtau / 2) • k2 k s) (fun k s => (2 : ℂ) • k2 k s)
    (stepLoop L (dtau / 2) k1 A0) ⟨k1, []⟩ k
  generalize hp2 : (List.range L).foldl (fun (p : (ℕ → Ten ℂ q D D) × BFin q D) k =>
    (Function.update p.1 k (A0 k - fun s => (dtau / 2) • k2 k s), p.2.addAt k fun s => (2 : ℂ) • k2 k s))
    (stepLoop L (dtau / 2) k1 A0, ⟨k1, []⟩) = p2 at *
  have a3 := loop_extend L (fun k => A0 k - fun s => dtau • k3 k s) (fun k s => (2 : ℂ) • k3 k s) p2.1 p2.2
  generalize hp3 : (List.range L).foldl (fun (p : (ℕ → Ten ℂ q D D) × BFin q D) k =>
    (Function.update p.1 k (A0 k - fun s => dtau • k3 k s), p.2.extend fun s => (2 : ℂ) • k3 k s)) (p2.1, p2.2) = p3 at *
  have a4 := fun k => (loop_final L A0 k4 (dtau / 6) p3.1 p3.2 k).1
  dsimp only at a2 a3
  have e1 : stepLoop L (dtau / 2) k1 A0 = fun k => if k < L then A0 k - fun s => (dtau / 2) • k1 k s else A0 k := funext a1
  have e2 : p2.1 = fun k => if k < L then A0 k - fun s => (dtau / 2) • k2 k s else A0 k := by
    funext k
    rw [(a2 k).1]
    split_ifs with hk
    · rfl
    · rw [a1, if_neg hk]
  have e3 : p3.1 = fun k => if k < L then A0 k - fun s => dtau • k3 k s else A0 k := by
    funext k
    rw [a3.1]
    split_ifs with hk
    · rfl
    · rw [e2]; simp [hk]
  refine ⟨k2, k3, k4, ⟨by rw [← e1]; exact h2, by rw [← e2]; exact h3, by rw [← e3]; exact h4⟩, fun k hk => ?_⟩
  rw [← h]
  have := a4 k
  rw [if_pos hk, a3.2, (a2 k).2, if_pos hk] at this
  exact this

/-- **C33**, violated for the uniform chain.  A step that is not zero, with any third slope that is not zero on a site of the
block, never gives the classical combination: `B_fin += 2 * B[k]` appends to a list. -/
theorem C33_uniform_violated (L : ℕ) (slope : (ℕ → Ten ℂ q D D) → Option (ℕ → Ten ℂ q D D)) (dtau : ℂ) (hd : dtau ≠ 0)
    (A0 k1 k2 k3 k4 A' : ℕ → Ten ℂ q D D) (hk : RKSlopes L slope dtau A0 k1 k2 k3 k4)
    (h : Uni.takeStepRK4 L slope dtau k1 A0 = some A') (k : ℕ) (hkL : k < L) (h3 : k3 k ≠ 0) :
    A' k ≠ A0 k - fun s => (dtau / 6) • (k1 k s + (2 : ℂ) • k2 k s + (2 : ℂ) • k3 k s + k4 k s) := by
  obtain ⟨k2', k3', k4', hk', hA⟩ := C33_uniform_partial L slope dtau A0 k1 A' h
  have e2 : k2' = k2 := Option.some.inj (hk'.two.symm.trans hk.two)
  subst e2
  have e3 : k3' = k3 := Option.some.inj (hk'.three.symm.trans hk.three)
  subst e3
  have e4 : k4' = k4 := Option.some.inj (hk'.four.symm.trans hk.four)
  subst e4
  rw [hA k hkL]
  intro heq
  apply h3
  funext s
  have := congrFun heq s
  simp only [Pi.sub_apply, sub_right_inj] at this
  have h6 : dtau / 6 ≠ 0 := div_ne_zero hd (by norm_num)
  have := smul_right_injective _ h6 this
  have : (2 : ℂ) • k3' k s = 0 := by
    have e : k1 k s + (2 : ℂ) • k2' k s + k4' k s
      = (k1 k s + (2 : ℂ) • k2' k s + k4' k s) + (2 : ℂ) • k3' k s := by
      refine this.trans ?_
      abel
    exact left_eq_add.1 e
  exact (smul_eq_zero.1 this).resolve_left (by norm_num)

/-- A constant slope of one: the hypotheses hold, and a step changes the state by two thirds of `dtau`. -/
example (L : ℕ) (dtau : ℂ) (A0 : ℕ → Ten ℂ 2 1 1) :
    ∃ A', Uni.takeStepRK4 L (fun _ => some fun _ _ => 1) dtau (fun _ _ => 1) A0 = some A' ∧
      RKSlopes L (fun _ => some fun _ _ => 1) dtau A0 (fun _ _ => 1) (fun _ _ => 1) (fun _ _ => 1) (fun _ _ => 1) ∧
      ∀ k < L, A' k = A0 k - fun _ => (dtau * (2 / 3)) • 1 := by
  refine ⟨_, rfl, ⟨rfl, rfl, rfl⟩, fun k hk => ?_⟩
  obtain ⟨k2, k3, k4, hs, hA⟩ := C33_uniform_partial L (fun _ => some fun _ _ => 1) dtau A0 (fun _ _ => 1) _ rfl
  rw [hA k hk, ← Option.some.inj hs.two, ← Option.some.inj hs.four]
  congr 1
  funext s
  ext i j
  simp
  fin_cases i
  fin_cases j
  simp
  ring

/-! ## A concrete case of full rank: the Pauli matrices -/

/-- Blocks of one site with four states and the Pauli matrices divided by two as tensor. -/
noncomputable def demoPauli4 (ham : UHam 4) : UTDVP 4 2 where
  L := 1
  A := fun _ => ![!![1 / 2, 0; 0, 1 / 2], !![0, 1 / 2; 1 / 2, 0], !![0, -Complex.I / 2; Complex.I / 2, 0], !![1 / 2, 0; 0, -1 / 2]]
  AA := 0
  l := fun _ => !![1 / 2, 0; 0, 1 / 2]
  r := fun _ => 1
  lL := 0
  rL := 0
  ham := ham
  AAA := 0
  C2 := 0
  C3 := 0
  K := 1
  K0init := none
  Kl := fun _ => none
  hExpect := 0

theorem demoPauli4_map (ham : UHam 4) (k : ℕ) (x : Matrix (Fin 2) (Fin 2) ℂ) :
    ∑ s, (demoPauli4 ham).A k s * x * ((demoPauli4 ham).A k s)ᴴ = (x.trace / 2) • 1 := by
  ext i j
  fin_cases i <;> fin_cases j <;>
    simp [demoPauli4, Fin.sum_univ_four, Matrix.mul_apply, Fin.sum_univ_two, Matrix.vecMul, dotProduct, Matrix.trace_fin_two,
      Complex.conj_ofNat, Matrix.vecHead, Matrix.vecTail] <;> ring_nf <;> simp [Complex.I_sq] <;> ring

theorem demoPauli4_mapL (ham : UHam 4) (k : ℕ) :
    ∑ s, ((demoPauli4 ham).A k s)ᴴ * (demoPauli4 ham).l k * (demoPauli4 ham).A k s = (demoPauli4 ham).l k := by
  ext i j
  fin_cases i <;> fin_cases j <;>
    simp [demoPauli4, Fin.sum_univ_four, Matrix.mul_apply, Fin.sum_univ_two, Complex.conj_ofNat] <;> ring_nf <;> simp [Complex.I_sq] <;> ring

theorem demoPauli4_env (ham : UHam 4) : ChainEnv (demoPauli4 ham).L (demoPauli4 ham).A (demoPauli4 ham).l (demoPauli4 ham).r := by
  refine ⟨fun k _ => (demoPauli4_mapL ham k).symm, fun k _ => ?_, fun k _ => ?_⟩
  · have := demoPauli4_map ham k ((demoPauli4 ham).r k)
    refine Eq.trans ?_ this.symm
    simp [demoPauli4]
  · simp [demoPauli4, Matrix.trace_fin_two]
    norm_num

theorem demoPauli4_list (ham : UHam 4) : (demoPauli4 ham).list = [(demoPauli4 ham).A 0] := by
  simp [UMPS.list, demoPauli4]

theorem demoPauli4_transfer (ham : UHam 4) (x : Matrix (Fin 2) (Fin 2) ℂ) (m : ℕ) :
    chainTransfer 1 1 (demoPauli4 ham).A (demoPauli4 ham).A 0 (m + 1) x = (x.trace / 2) • 1 := by
  rw [chainTransfer_succ, epsR_eq, demoPauli4_map]
  have h := (demoPauli4_env ham).transferR (by simp [demoPauli4]) 0 m
  rw [show (demoPauli4 ham).r = fun _ => 1 from rfl] at h
  rw [chainTransfer_smul]
  exact congrArg _ h

theorem demoPauli4_exact (ham : UHam 4) : ExactSolver (demoPauli4 ham) (fun _ b _ => (b, 0)) 0 false := by
  intro op x x0 hop
  rw [demoPauli4_list] at hop
  rw [C44_operator_right 0 _ _ rfl (by simp) _ _ true op hop, if_pos rfl]
  have e : blockMap [(demoPauli4 ham).A 0] [(demoPauli4 ham).A 0] x = (x.trace / 2) • 1 := by
    have h := demoPauli4_transfer ham x 0
    rw [← h]
    rfl
  rw [e]
  have e2 : (((demoPauli4 ham).l ((demoPauli4 ham).L - 1))ᴴ * x).trace = x.trace / 2 := by
    simp [demoPauli4, Matrix.trace_fin_two, Complex.conj_ofNat, Matrix.mul_apply, Fin.sum_univ_two]
    ring
  rw [e2]
  simp [demoPauli4]

theorem demoPauli4_limit (ham : UHam 4) (x : Matrix (Fin 2) (Fin 2) ℂ) :
    Filter.Tendsto (fun m : ℕ => chainTransfer 1 1 (demoPauli4 ham).A (demoPauli4 ham).A 0 (m * 1) x) Filter.atTop
      (nhds (adot ((demoPauli4 ham).l 0) x • (demoPauli4 ham).r 0)) := by
  have e2 : adot ((demoPauli4 ham).l 0) x = x.trace / 2 := by
    rw [adot_eq_trace]
    simp [demoPauli4, Matrix.trace_fin_two, Complex.conj_ofNat, Matrix.mul_apply, Fin.sum_univ_two]
    ring
  refine (Filter.tendsto_add_atTop_iff_nat 1).1 (tendsto_const_nhds.congr fun m => ?_)
  rw [Nat.mul_one, demoPauli4_transfer, e2]
  rfl

/-- Routines with a tolerance of a quarter. -/
noncomputable def demoNum : Num := ⟨fullQR, specEigh, fun z => (Real.sqrt z.re : ℂ), 1 / 4⟩

theorem demoNum_ok : demoNum.Ok := ⟨fun x _ => by simp [demoNum], by norm_num [demoNum]⟩

theorem demoPauli4_stored (ham : UHam 4) : UStored (demoPauli4 ham).L (fun k => .dense ((demoPauli4 ham).l k)) (fun _ => .eye 2)
    (demoPauli4 ham).l (demoPauli4 ham).r where
  left := fun k _ => toArray_dense _
  right := fun k _ => toArray_eye _
  left_herm := fun k _ => by
    ext i j
    fin_cases i <;> fin_cases j <;> simp [demoPauli4]
  right_herm := fun k _ => by simp [demoPauli4]

theorem demoPauli4_above (ham : UHam 4) : UAbove (demoPauli4 ham).L demoNum.tol (demoPauli4 ham).l ∧
    UAbove (demoPauli4 ham).L demoNum.tol (demoPauli4 ham).r := by
  constructor
  · intro k _
    rw [show (demoPauli4 ham).l k - (demoNum.tol : ℂ) • 1 = diagonal fun _ => (1 / 4 : ℂ) by
      ext i j
      fin_cases i <;> fin_cases j <;> simp [demoPauli4, demoNum] <;> norm_num]
    exact Matrix.PosDef.diagonal fun _ => by norm_num [Complex.lt_def]
  · intro k _
    rw [show (demoPauli4 ham).r k - (demoNum.tol : ℂ) • 1 = diagonal fun _ => (3 / 4 : ℂ) by
      ext i j
      fin_cases i <;> fin_cases j <;> simp [demoPauli4, demoNum] <;> norm_num]
    exact Matrix.PosDef.diagonal fun _ => by norm_num [Complex.lt_def]

theorem demoPauli4_pos (ham : UHam 4) : 0 < (demoPauli4 ham).L := Nat.one_pos

/-- All hypotheses of C55 and C56 hold for this state and every Hamiltonian. -/
example (ham : UHam 4) (S : UTDVP 4 2) (hS : S = demoPauli4 ham) : ∃ S' out,
    S.calcC.calcK (fun _ b _ => (b, 0)) 0 = some S' ∧
    S'.calcB demoNum (fun k => .dense (S.l k)) (fun _ => .eye 2) true 0 = some out ∧
    (∀ k < S.L, RightGauge (S.A k) (out.B k) (S.r k)) ∧
    (∀ c w p, c ≤ p → p < c + w → out.etaSq (p % S.L) = windowBraket S.L S.l S.r c w
      (replaced S.L S.A p (out.B (p % S.L))) (replaced S.L S.A p (out.B (p % S.L)))) ∧
    ∀ c p b, c + S.ham.sites ≤ p + 1 → RightGauge (S.A (p % S.L)) b (S.r (p % S.L)) →
      Filter.Tendsto (fun w => windowHam S.L S.l S.r c w S.ham.sites S.ham.op
        (replaced S.L S.A p b) (fun j => S.A (j % S.L))) Filter.atTop
        (nhds (windowBraket S.L S.l S.r p 1 (replaced S.L S.A p b) (replaced S.L S.A p (out.B (p % S.L))))) := by
  have hex := demoPauli4_exact ham
  have henv := demoPauli4_env ham
  have hpos := demoPauli4_pos ham
  have hst := demoPauli4_stored ham
  have hab := demoPauli4_above ham
  have hlim : ∀ x, Filter.Tendsto (fun m : ℕ => chainTransfer (demoPauli4 ham).L (demoPauli4 ham).L (demoPauli4 ham).A
      (demoPauli4 ham).A 0 (m * (demoPauli4 ham).L) x) Filter.atTop
      (nhds (adot ((demoPauli4 ham).l ((demoPauli4 ham).L - 1)) x • (demoPauli4 ham).r ((demoPauli4 ham).L - 1))) :=
    demoPauli4_limit ham
  rw [← hS] at hex henv hpos hst hab hlim
  clear hS
  obtain ⟨S', h1, e1, e2, e3, e4, e5, -⟩ := C48_K S hpos henv _ _ hex
  obtain ⟨out, hout⟩ := (C55_returns demoNum S' (fun k => .dense (S.l k)) (fun _ => .eye 2) true 0).2
    (Or.inr (by omega))
  refine ⟨S', out, h1, hout, ?_, ?_, fun c p b hc hb => ?_⟩
  · have := C55_gauge demoNum demoNum_ok S' _ _ (by rw [e1, e3, e4]; exact hst) _ _ out hout
    rw [e1, e2, e4] at this
    exact this
  · have := (C55_norm demoNum demoNum_ok S' (by rw [e1]; exact hpos) (by rw [e1, e2, e3, e4]; exact henv)
      ((calcC_current _).calcK h1) _ _ (by rw [e1, e3, e4]; exact hst) (by rw [e1, e4]; exact hab.2) _ out hout).1
    rw [e1, e2, e3, e4] at this
    exact this
  · exact C56_limit demoNum demoNum_ok S S' hpos henv _ _ hex h1 _ _ hst hab.1 hab.2 hlim _ _ out hout c p hc b hb p 1
      (by omega) (by omega)

end EvoMPS
