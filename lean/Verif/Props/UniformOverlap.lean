import Verif.UniformOverlapLemmas
import Verif.Props.SwEnergy
import Verif.Props.Excite

/-!
# C79: overlaps of tangent vectors with momentum
-/

namespace EvoMPS

open Matrix Uni Filter Topology

variable {q D : ℕ}

theorem ovBRr_false (S : UMPS ℂ q D) (B : ℕ → Ten ℂ q D D) (k : ℕ) : S.ovBRr B false k = ∑ s, B k s * S.r k * (S.A k s)ᴴ := by
  simp [UMPS.ovBRr, epsR_eq]

theorem ovBRr_true (S : UMPS ℂ q D) (B : ℕ → Ten ℂ q D D) (k : ℕ) : S.ovBRr B true k = ∑ s, S.A k s * S.r k * (B k s)ᴴ := by
  simp [UMPS.ovBRr, epsR_eq]

theorem ovBlock_false (S : UMPS ℂ q D) (hL : 0 < S.L) (B : ℕ → Ten ℂ q D D) (p : ℝ) :
    S.ovBlock B p false = blockRight S.L S.A B S.r p := by
  rw [Ovl.ovBlock_eq S B p false hL, Ovl.farG, map_zero, smul_zero, add_zero, blockRight, Nat.sub_zero]
  refine Finset.sum_congr rfl fun k _ => ?_
  rw [Nat.zero_add, ovBRr_false, ← Complex.exp_nat_mul, mul_comm (k : ℂ)]
  rfl

theorem ovBRr_conj (S : UMPS ℂ q D) (B : ℕ → Ten ℂ q D D) {k : ℕ} (hr : (S.r k)ᴴ = S.r k) :
    S.ovBRr B true k = (∑ s, B k s * S.r k * (S.A k s)ᴴ)ᴴ := by
  simp only [ovBRr_true, conjTranspose_sum, conjTranspose_mul, conjTranspose_conjTranspose, hr, Matrix.mul_assoc]

theorem ovBlock_true (S : UMPS ℂ q D) (hL : 0 < S.L) (B : ℕ → Ten ℂ q D D) (p : ℝ) (hr : ∀ k < S.L, (S.r k)ᴴ = S.r k) :
    S.ovBlock B (-p) true = (blockRight S.L S.A B S.r p)ᴴ := by
  rw [Ovl.ovBlock_eq S B _ true hL, Ovl.farG, map_zero, smul_zero, add_zero, blockRight, Nat.sub_zero, conjTranspose_sum]
  refine Finset.sum_congr rfl fun k hk => ?_
  rw [Nat.zero_add, ovBRr_conj S B (hr k (Finset.mem_range.1 hk)), conjTranspose_smul, ← Complex.exp_nat_mul]
  congr 1
  · rw [Complex.star_def, ← Complex.exp_conj]
    simp only [map_mul, Complex.conj_I, Complex.conj_ofReal, Complex.conj_natCast]
    congr 1; push_cast; ring
  · change chainTransfer _ _ _ _ _ _ _ = _
    simp only [chainTransfer, conjTranspose_sum, conjTranspose_mul, conjTranspose_conjTranspose, Matrix.mul_assoc]

/-- **C79.**  `_B_overlap` for two tangent vectors with the same momentum: if each of them is gauge-fixed, or is not declared to be so and
its tensors, summed over a block, are not close to zero, then the result is the connected overlap per block, the limit of
the sums over more and more blocks.  Partial: for tensors whose sum over the block is close to zero although they are not
gauge-fixed the result is wrong, `C79_skip_violated`. -/
theorem C79_overlap_partial (S : UMPS ℂ q D) (hL : 0 < S.L) (E : ChainEnv S.L S.A S.l S.r) (hr : ∀ k < S.L, (S.r k)ᴴ = S.r k)
    (hmix : BlockMixing S.L S.A (S.l (S.L - 1)) (S.r (S.L - 1))) (solver : Solver D) (junk : Matrix (Fin D) (Fin D) ℂ)
    (B1 B2 : ℕ → Ten ℂ q D D) (p : ℝ) (hs : Ovl.Exact S solver junk (S.L * p)) (hs' : Ovl.Exact S solver junk (S.L * -p)) (gf1 gf2 : Bool)
    (h1 : BlockGauge S.L S.A B1 S.r ∨ gf1 = false ∧ ∃ i j, 1e-8 < ‖blockRight S.L S.A B1 S.r p i j‖)
    (h2 : BlockGauge S.L S.A B2 S.r ∨ gf2 = false ∧ ∃ i j, 1e-8 < ‖blockRight S.L S.A B2 S.r p i j‖) :
    ∃ v, S.bOverlap solver junk B1 B2 p gf1 gf2 = some v ∧
      Tendsto (fun N : ℕ => pairSum S.L S.A S.l S.r B2 B1 p N) atTop (𝓝 v) := by
  obtain ⟨M1, c1, t1⟩ := Ovl.con_spec S hL E hmix solver junk B1 B2 p p false gf1 rfl hs (by
    rcases h1 with h | ⟨h, i, j, hij⟩
    · exact Or.inl fun k hk => by rw [ovBRr_false]; exact h k hk
    · refine Or.inr ⟨h, fun hc => ?_⟩
      rw [ovBlock_false S hL] at hc
      exact absurd (hc i j) (not_le.2 hij))
  obtain ⟨M2, c2, t2⟩ := Ovl.con_spec S hL E hmix solver junk B2 B1 p (-p) true gf2 rfl hs' (by
    rcases h2 with h | ⟨h, i, j, hij⟩
    · exact Or.inl fun k hk => by rw [ovBRr_conj S B2 (hr k hk), h k hk, conjTranspose_zero]
    · refine Or.inr ⟨h, fun hc => ?_⟩
      rw [ovBlock_true S hL B2 p hr] at hc
      have := hc j i
      rw [conjTranspose_apply, norm_star] at this
      exact absurd this (not_le.2 hij))
  refine ⟨_, by
    unfold UMPS.bOverlap
    rw [if_neg (by omega)]
    simp only []
    rw [c2, Option.bind_some, c1, Option.map_some], ?_⟩
  rw [← tendsto_add_atTop_iff_nat 1]
  simp only [Ovl.pairSum_eq S.L S.A S.l S.r hL E B2 B1 p (S.ovBRr B1 false) (S.ovBRr B2 true) (ovBRr_false S B1) (ovBRr_true S B2)]
  have e : S.ovOnsite B1 B2 = ∑ k ∈ Finset.range S.L, adot (S.l ((k + S.L - 1) % S.L)) (∑ s, B1 k s * S.r k * (B2 k s)ᴴ) := by
    rw [UMPS.ovOnsite, foldl_add_eq, zero_add, sum_list_range]
    exact Finset.sum_congr rfl fun k _ => by rw [pmod_pred hL, epsR_eq]
  rw [e, add_right_comm]
  simp only [if_true, Bool.false_eq_true, if_false]
  refine Tendsto.sub (Tendsto.add (Tendsto.add tendsto_const_nhds ?_) ?_) tendsto_const_nhds
  · exact tendsto_finsetSum _ fun k _ => tendsto_const_nhds.mul (((Ovl.phi_farG_continuous _ _ _ _).tendsto _).comp t1)
  · exact tendsto_finsetSum _ fun k _ => tendsto_const_nhds.mul (((Ovl.phi_farG_continuous _ _ _ _).tendsto _).comp t2)

/-! ## Gauge transformations -/

section
variable {L : ℕ} {A : ℕ → Ten ℂ q D D}

theorem snoc_split {w : ℕ} (s : Fin (w + 1) → Fin q) : ∃ s' t, s = Fin.snoc (α := fun _ => Fin q) s' t :=
  ⟨Fin.init s, s (Fin.last w), (Fin.snoc_init_self s).symm⟩

theorem tangentWindow_snoc (B : ℕ → Ten ℂ q D D) (p : ℝ) (w : ℕ) (s : Fin w → Fin q) (t : Fin q) :
    tangentWindow L A B p (w + 1) (Fin.snoc (α := fun _ => Fin q) s t)
      = tangentWindow L A B p w s * A (w % L) t
        + Complex.exp (Complex.I * p * w) • (lineProd (fun j => A (j % L)) 0 w s * B (w % L) t) := by
  rw [tangentWindow, Finset.sum_range_succ, tangentWindow, Matrix.sum_mul]
  congr 1
  · refine Finset.sum_congr rfl fun n hn => ?_
    have hn := Finset.mem_range.1 hn
    rw [lineProd_snoc, Nat.zero_add, replaced, if_neg (by omega), Matrix.smul_mul]
  · rw [lineProd_snoc, Nat.zero_add, replaced, if_pos rfl]
    congr 2
    refine lineProd_congr (fun j _ h => ?_) s
    rw [replaced, if_neg (by omega)]

theorem window_gauge (hL : 0 < L) {B C : ℕ → Ten ℂ q D D} {p : ℝ} {Y : ℕ → Matrix (Fin D) (Fin D) ℂ} {δ : ℕ → ℂ}
    (h : ∀ k < L, ∀ s, C k s = B k s + Complex.exp (Complex.I * p) • (A k s * Y ((k + 1) % L)) - Y k * A k s - δ k • A k s)
    (w : ℕ) (s : Fin w → Fin q) :
    tangentWindow L A C p w s = tangentWindow L A B p w s
      + Complex.exp (Complex.I * p * w) • (lineProd (fun j => A (j % L)) 0 w s * Y (w % L))
      - Y 0 * lineProd (fun j => A (j % L)) 0 w s
      - (∑ n ∈ Finset.range w, Complex.exp (Complex.I * p * n) * δ (n % L)) • lineProd (fun j => A (j % L)) 0 w s := by
  induction w with
  | zero => simp [tangentWindow, lineProd_zero]
  | succ w ih =>
    obtain ⟨s, t, rfl⟩ := snoc_split s
    have hw := Nat.mod_lt w hL
    have e : Complex.exp (Complex.I * p * (w + 1 : ℕ)) = Complex.exp (Complex.I * p * w) * Complex.exp (Complex.I * p) := by
      rw [← Complex.exp_add]; congr 1; push_cast; ring
    have m : (w % L + 1) % L = (w + 1) % L := by rw [Nat.mod_add_mod]
    rw [tangentWindow_snoc, tangentWindow_snoc, ih, h _ hw t, lineProd_snoc, Finset.sum_range_succ, e, m, Nat.zero_add]
    simp only [Matrix.add_mul, Matrix.sub_mul, Matrix.mul_add, Matrix.mul_sub, Matrix.smul_mul, Matrix.mul_smul, smul_add, smul_sub,
      smul_smul, add_smul, Matrix.mul_assoc]
    abel

end

/-- **C79** (gauge transformation).  The tensors `_B_rand_GT` returns give the same tangent vector, in every window of sites, up to
terms at the ends of the window. -/
theorem C79_transform (S : UMPS ℂ q D) (hL : 0 < S.L) (B : ℕ → Ten ℂ q D D) (p : ℝ) (x : ℕ → Matrix (Fin D) (Fin D) ℂ) (w : ℕ)
    (s : Fin w → Fin q) :
    tangentWindow S.L S.A (S.randGT B p x) p w s = tangentWindow S.L S.A B p w s
      + Complex.exp (Complex.I * p * (w - 1)) • (lineProd (fun j => S.A (j % S.L)) 0 w s * x (w % S.L))
      - Complex.exp (-Complex.I * p) • (x 0 * lineProd (fun j => S.A (j % S.L)) 0 w s) := by
  have e : Complex.exp (Complex.I * p) * Complex.exp (-Complex.I * p) = 1 := by
    rw [← Complex.exp_add]; simp
  have h := window_gauge hL (B := B) (C := S.randGT B p x) (p := p) (Y := fun k => Complex.exp (-Complex.I * p) • x k)
    (δ := fun _ => 0) (fun k hk s => by
      simp only [UMPS.randGT, Matrix.mul_smul, Matrix.smul_mul, smul_smul, e, one_smul, zero_smul, sub_zero]
      abel) w s
  rw [h]
  simp only [mul_zero, Finset.sum_const_zero, zero_smul, sub_zero, Matrix.mul_smul, Matrix.smul_mul, smul_smul]
  rw [← Complex.exp_add]
  congr 4
  ring

/-- **C79** (gauge fixing, always).  Whatever the solver answers and whatever the tensors, those `_B_to_B_GF` returns satisfy the right gauge
condition at all sites, and are built from the returned parameters. -/
theorem C79_gauge (P : Num) (hP : P.Ok) (S : UMPS ℂ q D) (lm rm : ℕ → MM ℂ D D) (hst : UStored S.L lm rm S.l S.r)
    (Vsh : ℕ → Fin q → Matrix (Fin D) (Fin (D * q - D)) ℂ)
    (hV : ∀ k < S.L, calcVsh P.qr (S.A k) (P.roots (rm k)).1 = some (Vsh k)) (solver : Solver D) (junk : Matrix (Fin D) (Fin D) ℂ)
    (B : ℕ → Ten ℂ q D D) (p : ℝ) (newB x)
    (h : S.toGF solver junk (fun k => (P.roots (lm k)).1) (fun k => (P.roots (lm k)).2) (fun k => (P.roots (rm k)).2) Vsh B p
      = some (newB, x)) :
    BlockGauge S.L S.A newB S.r ∧
      ∀ k < S.L, newB k = getBFromX (x k) (Vsh k) (P.roots (lm ((k + S.L - 1) % S.L))).2 (P.roots (rm k)).2 := by
  have key : ∀ k < S.L, newB k = getBFromX (x k) (Vsh k) (P.roots (lm ((k + S.L - 1) % S.L))).2 (P.roots (rm k)).2 := by
    intro k hk
    unfold UMPS.toGF at h
    simp only [Option.map_eq_some_iff] at h
    obtain ⟨res, -, h⟩ := h
    obtain ⟨rfl, rfl⟩ := Prod.mk.inj h
    funext s
    simp only [pmod_pred (show 0 < S.L by omega)]
    rfl
  refine ⟨fun k hk => ?_, key⟩
  rw [key k hk]
  exact C55_any_parameter P hP (S.A k) (S.r k) (rm k) (hst.right k hk) (hst.right_herm k hk) (Vsh k) (hV k hk) _ _

theorem gf_site {qr : FullQR ℂ} {A : Ten ℂ q D D} {rs : Matrix (Fin D) (Fin D) ℂ} {Vsh} (hV : calcVsh qr A rs = some Vsh)
    {r rsi ri' ls lsi : Matrix (Fin D) (Fin D) ℂ} (hs : rsᴴ = rs) (hsi : rsiᴴ = rsi) (hri : rs * rsi = 1) (hir : rsi * rs = 1) (hrr : rs * rs = r)
    (hr : rᴴ = r) (hli : lsi * ls = 1) (hri' : ri' * (∑ s, A s * r * (A s)ᴴ) = 1) (B : Ten ℂ q D D) (R : Matrix (Fin D) (Fin D) ℂ) (z : ℂ) :
    tenR lsi rsi Vsh (ls * ((1 : Matrix (Fin D) (Fin D) ℂ) * (epsR r B (ovVR rsi Vsh) + z • epsR R A (ovVR rsi Vsh))))
      = fun s => B s + z • (A s * (R * (rsi * rsi)))
        - ((∑ s, B s * r * (A s)ᴴ) + z • ∑ s, A s * R * (A s)ᴴ) * ri' * A s := by
  set C := (∑ s, B s * r * (A s)ᴴ) + z • ∑ s, A s * R * (A s)ᴴ with hC
  have e1 : rsi * rsi * r = 1 := by
    rw [← hrr, Matrix.mul_assoc, ← Matrix.mul_assoc rsi rs rs, hir, Matrix.one_mul, hir]
  have hg : RightGauge A (fun s => B s + z • (A s * (R * (rsi * rsi))) - C * ri' * A s) r := by
    rw [RightGauge]
    have : ∀ s, (B s + z • (A s * (R * (rsi * rsi))) - C * ri' * A s) * r * (A s)ᴴ
        = B s * r * (A s)ᴴ + z • (A s * R * (A s)ᴴ) - C * ri' * (A s * r * (A s)ᴴ) := by
      intro s
      have e2 : A s * (R * (rsi * rsi)) * r = A s * R := by
        rw [Matrix.mul_assoc, Matrix.mul_assoc R, e1, Matrix.mul_one]
      simp only [Matrix.add_mul, Matrix.sub_mul, Matrix.smul_mul, e2, Matrix.mul_assoc]
    simp only [this]
    rw [Finset.sum_sub_distrib, Finset.sum_add_distrib, ← Finset.smul_sum, ← hC, ← Matrix.mul_sum, Matrix.mul_assoc C, hri', Matrix.mul_one,
      sub_self]
  rw [← tenR_surj hV hs hsi hri hrr hr hli (Matrix.isUnit_det_of_left_inverse hri') _ hg]
  congr 1
  have hn := vsh_null hV
  rw [hs] at hn
  rw [Matrix.one_mul, epsR_eq, epsR_eq]
  have e3 : ∀ t, ls * (B t + z • (A t * (R * (rsi * rsi))) - C * ri' * A t) * rs * Vsh t
      = ls * (B t * r * (rsi * Vsh t)) + z • (ls * (A t * R * (rsi * Vsh t))) - ls * (C * ri') * (A t * rs * Vsh t) := by
    intro t
    have a1 : r * rsi = rs := by rw [← hrr, Matrix.mul_assoc, hri, Matrix.mul_one]
    have a2 : rsi * rsi * rs = rsi := by rw [Matrix.mul_assoc, hir, Matrix.mul_one]
    have a3 : B t * r * (rsi * Vsh t) = B t * rs * Vsh t := by
      rw [Matrix.mul_assoc, ← Matrix.mul_assoc r, a1, Matrix.mul_assoc]
    have a4 : A t * (R * (rsi * rsi)) * rs = A t * R * rsi := by
      rw [Matrix.mul_assoc, Matrix.mul_assoc R, a2, Matrix.mul_assoc]
    rw [a3, Matrix.mul_assoc ls, Matrix.sub_mul, Matrix.add_mul, Matrix.smul_mul, a4]
    simp only [Matrix.mul_add, Matrix.mul_sub, Matrix.add_mul, Matrix.sub_mul, Matrix.mul_smul, Matrix.smul_mul, Matrix.mul_assoc]
  simp only [e3]
  rw [Finset.sum_sub_distrib, Finset.sum_add_distrib, ← Matrix.mul_sum, ← Matrix.mul_sum, hn, Matrix.mul_zero, sub_zero, ← Finset.smul_sum,
    ← Matrix.mul_sum, Matrix.mul_add, Matrix.mul_smul]
  simp only [ovVR, conjTranspose_conjTranspose]

theorem sum_blocks (L N : ℕ) (hL : 0 < L) (p : ℝ) (c : ℂ) :
    ∑ n ∈ Finset.range (N * L), Complex.exp (Complex.I * p * n) * (if n % L = 0 then c else 0)
      = ∑ m ∈ Finset.range N, Complex.exp (Complex.I * p * (m * L : ℕ)) * c := by
  induction N with
  | zero => simp
  | succ N ih =>
    rw [Nat.succ_mul, Finset.sum_range_add, ih, Finset.sum_range_succ]
    congr 1
    rw [Finset.sum_eq_single 0]
    · simp
    · intro j hj h0
      have := Finset.mem_range.1 hj
      rw [Nat.mul_add_mod', Nat.mod_eq_of_lt this, if_neg h0, mul_zero]
    · intro h; exact absurd (Finset.mem_range.2 hL) h

/-- **C79** (gauge fixing).  If the tensors are gauge-fixed, or their sum over the block is not close to zero, and all eigenvalues of the
environments are above the tolerance, then `_B_to_B_GF` returns tensors of the same tangent vector: in every window of `N` blocks the two differ by
a multiple of the uniform state, the overlap with which they remove, and by terms at the ends of the window. -/
theorem C79_same_vector_partial (P : Num) (hP : P.Ok) (S : UMPS ℂ q D) (hL : 0 < S.L) (E : ChainEnv S.L S.A S.l S.r) (lm rm : ℕ → MM ℂ D D)
    (hst : UStored S.L lm rm S.l S.r) (hla : UAbove S.L P.tol S.l) (hra : UAbove S.L P.tol S.r)
    (Vsh : ℕ → Fin q → Matrix (Fin D) (Fin (D * q - D)) ℂ)
    (hV : ∀ k < S.L, calcVsh P.qr (S.A k) (P.roots (rm k)).1 = some (Vsh k)) (solver : Solver D) (junk : Matrix (Fin D) (Fin D) ℂ)
    (B : ℕ → Ten ℂ q D D) (p : ℝ) (hs : Ovl.Exact S solver junk (S.L * p))
    (h1 : BlockGauge S.L S.A B S.r ∨ ∃ i j, 1e-8 < ‖blockRight S.L S.A B S.r p i j‖) :
    ∃ newB x Y, S.toGF solver junk (fun k => (P.roots (lm k)).1) (fun k => (P.roots (lm k)).2) (fun k => (P.roots (rm k)).2) Vsh B p
        = some (newB, x) ∧
      ((S.l (S.L - 1))ᴴ * Y * S.r (S.L - 1)).trace = 0 ∧
      ∀ (N : ℕ) (s : Fin (N * S.L) → Fin q),
        tangentWindow S.L S.A newB p (N * S.L) s = tangentWindow S.L S.A B p (N * S.L) s
          + Complex.exp (Complex.I * p * (N * S.L : ℕ)) • (lineProd (fun j => S.A (j % S.L)) 0 (N * S.L) s * Y)
          - Y * lineProd (fun j => S.A (j % S.L)) 0 (N * S.L) s
          - (∑ m ∈ Finset.range N, Complex.exp (Complex.I * p * (m * S.L : ℕ))
              * ((S.l (S.L - 1))ᴴ * blockRight S.L S.A B S.r p).trace) • lineProd (fun j => S.A (j % S.L)) 0 (N * S.L) s := by
  have hprev : ∀ k, (k + S.L - 1) % S.L < S.L := fun k => Nat.mod_lt _ hL
  -- the matrices to the right of the sites
  obtain ⟨M, R, hR, hR0, hRk, hM0, hM, hx⟩ : ∃ (M : Matrix (Fin D) (Fin D) ℂ) (R : ℕ → Matrix (Fin D) (Fin D) ℂ),
      (∀ k < S.L, R ((k + 1) % S.L) = Ovl.farG S.L S.A (Complex.exp (Complex.I * p)) (S.ovBRr B false) M (k + 1)) ∧ R 0 = M ∧
      (∀ k, 0 < k → k < S.L → R k = Ovl.farG S.L S.A (Complex.exp (Complex.I * p)) (S.ovBRr B false) M k) ∧
      adot (S.l (S.L - 1)) M = 0 ∧
      Ovl.farG S.L S.A (Complex.exp (Complex.I * p)) (S.ovBRr B false) M 0
        = M + adot (S.l (S.L - 1)) (blockRight S.L S.A B S.r p) • S.r (S.L - 1) ∧
      ∃ x, S.toGF solver junk (fun k => (P.roots (lm k)).1) (fun k => (P.roots (lm k)).2) (fun k => (P.roots (rm k)).2) Vsh B p
        = some (fun k => tenR (P.roots (lm ((k + S.L - 1) % S.L))).2 (P.roots (rm k)).2 (Vsh k)
          ((P.roots (lm ((k + S.L - 1) % S.L))).1 * ((1 : Matrix (Fin D) (Fin D) ℂ)
            * (epsR (S.r k) (B k) (ovVR (P.roots (rm k)).2 (Vsh k))
              + Complex.exp (Complex.I * p) • epsR (R ((k + 1) % S.L)) (S.A k) (ovVR (P.roots (rm k)).2 (Vsh k))))), x) := by
    by_cases hG : BlockGauge S.L S.A B S.r
    · have hz : ∀ k < S.L, S.ovBRr B false k = 0 := fun k hk => by rw [ovBRr_false]; exact hG k hk
      have hb : blockRight S.L S.A B S.r p = 0 := by rw [← ovBlock_false S hL, Ovl.ovBlock_eq S B p false hL, Ovl.farG_zero hz]
      refine ⟨0, fun _ => 0, fun k _ => (Ovl.farG_zero hz _).symm, rfl, fun k _ _ => (Ovl.farG_zero hz _).symm, adot_zero_right _, ?_, ?_⟩
      · rw [hb, Ovl.farG_zero hz, adot_zero_right, zero_smul, add_zero]
      · refine ⟨fun k => (P.roots (lm (pmod ((k : ℤ) - 1) S.L))).1 * ((1 : Matrix (Fin D) (Fin D) ℂ)
            * (epsR (S.r k) (B k) (ovVR (P.roots (rm k)).2 (Vsh k)) + Complex.exp (Complex.I * p) • 0)), ?_⟩
        unfold UMPS.toGF UMPS.ovBR
        rw [if_neg (by omega)]
        simp only []
        rw [ovBlock_false S hL, hb, if_pos (by intro i j; simp; norm_num), Option.map_some]
        congr 2
        funext k s
        simp only [pmod_pred hL, epsR_eq, Matrix.mul_zero, Matrix.zero_mul, Finset.sum_const_zero]
        rfl
    · obtain ⟨i, j, hij⟩ := h1.resolve_left hG
      obtain ⟨M, e1, e2, e3⟩ := Ovl.ovBR_spec S hL E solver junk B p false hs (fun hc => by
        rw [ovBlock_false S hL] at hc
        exact absurd (hc i j) (not_le.2 hij))
      have e4 := Ovl.ovLoop_eq S B p false hL M
      have e5 : ∀ k, 0 < k → k < S.L → S.ovLoop B p false M k
          = Ovl.farG S.L S.A (Complex.exp (Complex.I * p)) (S.ovBRr B false) M k := by
        intro k h0 hk
        obtain ⟨n, rfl⟩ : ∃ n, k = n + 1 := ⟨k - 1, by omega⟩
        rw [← e4 n (by omega), Nat.mod_eq_of_lt hk]
      refine ⟨M, S.ovLoop B p false M, e4, ?_, e5, e2, ?_, ?_⟩
      · have := e4 (S.L - 1) (by omega)
        rwa [Nat.sub_add_cancel hL, Nat.mod_self, Ovl.farG_last] at this
      · rw [ovBlock_false S hL] at e3
        have e6 : Ovl.farG S.L S.A (Complex.exp (Complex.I * p)) (S.ovBRr B false) M 0
            = blockRight S.L S.A B S.r p + Complex.exp (Complex.I * p) ^ S.L • Ovl.tlin S.L S.A 0 S.L M := by
          rw [← ovBlock_false S hL, Ovl.ovBlock_eq S B p false hL, Ovl.farG, Ovl.farG, map_zero, smul_zero, add_zero, Nat.sub_zero]
        rw [e6]
        conv_rhs => rw [e3]
        abel
      · refine ⟨fun k => (P.roots (lm (pmod ((k : ℤ) - 1) S.L))).1 * ((1 : Matrix (Fin D) (Fin D) ℂ)
            * (epsR (S.r k) (B k) (ovVR (P.roots (rm k)).2 (Vsh k))
              + Complex.exp (Complex.I * p) • epsR (S.ovLoop B p false M ((k + 1) % S.L)) (S.A k) (ovVR (P.roots (rm k)).2 (Vsh k)))), ?_⟩
        unfold UMPS.toGF
        rw [e1, Option.map_some]
        refine congrArg some (Prod.ext ?_ rfl)
        funext k s
        simp only [pmod_pred hL]
        rfl
  obtain ⟨x, hx⟩ := hx
  have hinv : ∀ k < S.L, (P.roots (rm k)).1 * (P.roots (rm k)).2 = 1 ∧ (P.roots (rm k)).2 * (P.roots (rm k)).1 = 1 ∧
      (P.roots (rm k)).1 * (P.roots (rm k)).1 = S.r k := by
    intro k hk
    obtain ⟨f1, f2⟩ := (hst.roots_r hP hk).full (hra k hk)
    exact ⟨f1, mul_eq_one_comm.1 f1, f2⟩
  have hri : ∀ k < S.L, (P.roots (rm k)).2 * (P.roots (rm k)).2 * S.r k = 1 := by
    intro k hk
    obtain ⟨f1, f2, f3⟩ := hinv k hk
    rw [← f3, Matrix.mul_assoc, ← Matrix.mul_assoc (P.roots (rm k)).2 (P.roots (rm k)).1, f2, Matrix.one_mul, f2]
  have hri2 : ∀ k < S.L, S.r k * ((P.roots (rm k)).2 * (P.roots (rm k)).2) = 1 := fun k hk => mul_eq_one_comm.1 (hri k hk)
  set ri : ℕ → Matrix (Fin D) (Fin D) ℂ := fun k => (P.roots (rm k)).2 * (P.roots (rm k)).2 with hri_def
  set c := adot (S.l (S.L - 1)) (blockRight S.L S.A B S.r p) with hc
  refine ⟨_, x, R 0 * ri (S.L - 1), hx, ?_, fun N s => ?_⟩
  · rw [Matrix.mul_assoc, Matrix.mul_assoc, hri _ (by omega), Matrix.mul_one, hR0, ← adot_eq_trace, hM0]
  · have h := window_gauge hL (A := S.A) (B := B) (p := p) (Y := fun k => R k * ri ((k + S.L - 1) % S.L))
      (δ := fun k => if k = 0 then c else 0)
      (C := fun k => tenR (P.roots (lm ((k + S.L - 1) % S.L))).2 (P.roots (rm k)).2 (Vsh k)
          ((P.roots (lm ((k + S.L - 1) % S.L))).1 * ((1 : Matrix (Fin D) (Fin D) ℂ)
            * (epsR (S.r k) (B k) (ovVR (P.roots (rm k)).2 (Vsh k))
              + Complex.exp (Complex.I * p) • epsR (R ((k + 1) % S.L)) (S.A k) (ovVR (P.roots (rm k)).2 (Vsh k))))))
      (fun k hk s => by
        have Rl := hst.roots_l hP (hprev k)
        have Rr := hst.roots_r hP hk
        obtain ⟨f1, f2, f3⟩ := hinv k hk
        obtain ⟨g1, g2⟩ := Rl.full (hla _ (hprev k))
        have hEr := E.right k hk
        rw [gf_site (hV k hk) Rr.s_herm Rr.si_herm f1 f2 f3 (hst.right_herm k hk) (mul_eq_one_comm.1 g1)
          (ri' := ri ((k + S.L - 1) % S.L)) (by rw [← hEr]; exact hri _ (hprev k))]
        simp only []
        have e7 : (∑ s, B k s * S.r k * (S.A k s)ᴴ) + Complex.exp (Complex.I * p) • ∑ s, S.A k s * R ((k + 1) % S.L) * (S.A k s)ᴴ
            = Ovl.farG S.L S.A (Complex.exp (Complex.I * p)) (S.ovBRr B false) M k := by
          rw [Ovl.farG_step S.L S.A _ _ _ hk, ← hR k hk, epsR_eq, ovBRr_false]
        have e8 : ((k + 1) % S.L + S.L - 1) % S.L = k := by
          rcases Nat.lt_or_ge (k + 1) S.L with h | h
          · rw [Nat.mod_eq_of_lt h, show k + 1 + S.L - 1 = k + S.L by omega, Nat.add_mod_right, Nat.mod_eq_of_lt hk]
          · have : k + 1 = S.L := by omega
            rw [this, Nat.mod_self, Nat.zero_add, Nat.mod_eq_of_lt (by omega)]; omega
        rw [e7, e8]
        rcases Nat.eq_zero_or_pos k with rfl | h0
        · rw [hM, if_pos rfl, hR0, Ovl.idx_last hL, Matrix.add_mul, Matrix.smul_mul, hri2 _ (by omega), Matrix.add_mul, Matrix.smul_mul,
            Matrix.one_mul]
          abel
        · rw [if_neg (by omega), zero_smul, sub_zero, hRk k h0 hk]) (N * S.L) s
    rw [h]
    simp only [Nat.mul_mod_left, Ovl.idx_last hL, sum_blocks S.L N hL p c]
    rw [hc, adot_eq_trace]

/-- **C79** (parameters).  For tensors built from parameter matrices, and declared to be gauge-fixed, the overlap is the sum of the
overlaps of the matrices. -/
theorem C79_parameters (P : Num) (hP : P.Ok) (S : UMPS ℂ q D) (hL : 0 < S.L) (lm rm : ℕ → MM ℂ D D)
    (hst : UStored S.L lm rm S.l S.r) (hla : UAbove S.L P.tol S.l) (hra : UAbove S.L P.tol S.r)
    (Vsh : ℕ → Fin q → Matrix (Fin D) (Fin (D * q - D)) ℂ)
    (hV : ∀ k < S.L, calcVsh P.qr (S.A k) (P.roots (rm k)).1 = some (Vsh k)) (solver : Solver D) (junk : Matrix (Fin D) (Fin D) ℂ) (p : ℝ)
    (x1 x2 : ℕ → Matrix (Fin D) (Fin (D * q - D)) ℂ) :
    S.bOverlap solver junk
        (fun k => getBFromX (x1 k) (Vsh k) (P.roots (lm ((k + S.L - 1) % S.L))).2 (P.roots (rm k)).2)
        (fun k => getBFromX (x2 k) (Vsh k) (P.roots (lm ((k + S.L - 1) % S.L))).2 (P.roots (rm k)).2) p true true
      = some (∑ k ∈ Finset.range S.L, ((x2 k)ᴴ * x1 k).trace) := by
  unfold UMPS.bOverlap
  rw [if_neg (by omega)]
  simp only [if_true, Option.bind_some, Option.map_some, add_zero, mul_zero, sub_zero]
  rw [UMPS.ovOnsite, foldl_add_eq, zero_add, sum_list_range]
  refine congrArg some (Finset.sum_congr rfl fun k hk => ?_)
  have hk := Finset.mem_range.1 hk
  have hp : (k + S.L - 1) % S.L < S.L := Nat.mod_lt _ hL
  have Rl := hst.roots_l hP hp
  have Rr := hst.roots_r hP hk
  obtain ⟨g1, g2⟩ := Rl.full (hla _ hp)
  obtain ⟨f1, f2⟩ := Rr.full (hra _ hk)
  rw [pmod_pred hL, epsR_eq, ← adot_eq_trace]
  refine tenR_overlap (hV k hk) Rr.si_herm Rr.si_mul f1 (hst.left_herm _ hp) Rl.si_herm Rl.mul_si _ _ ?_
  rw [mul_eq_one_comm.1 g1, Matrix.one_mul]

/-! ## Where the test for zero goes wrong -/

/-- The product state of the tests below, two sites per block. -/
noncomputable def demoUp : UMPS ℂ 2 1 where
  L := 2
  A _ s := if s = 0 then 1 else 0
  AA _ _ _ := 0
  l _ := 1
  r _ := 1
  lL _ := 1
  rL _ := 1

/-- Tensors that change the phase of the two sites of a block in opposite directions. -/
noncomputable def demoUpB (k : ℕ) : Ten ℂ 2 1 1 := fun s => (if k = 0 then (1 : ℂ) else -1) • demoUp.A k s

theorem demoUp_env : ChainEnv demoUp.L demoUp.A demoUp.l demoUp.r where
  left k _ := by simp [demoUp]
  right k _ := by simp [demoUp]
  norm k _ := by simp [demoUp]

theorem demoUp_transfer (n : ℕ) (x : Matrix (Fin 1) (Fin 1) ℂ) : chainTransfer demoUp.L demoUp.L demoUp.A demoUp.A 0 n x = x := by
  induction n generalizing x with
  | zero => exact chainTransfer_zero _ _ _ _ 0 x
  | succ n ih =>
    rw [chainTransfer_succ, ih, epsR_eq]
    simp [demoUp]

theorem line_smul {L : ℕ} {A : ℕ → Ten ℂ q D D} (X : Ten ℂ q D D) (c : ℂ) (n w : ℕ) (hn : n < w) (s : Fin w → Fin q) :
    lineProd (replaced L A n fun t => c • X t) 0 w s = c • lineProd (replaced L A n X) 0 w s := by
  induction w with
  | zero => omega
  | succ w ih =>
    obtain ⟨s, t, rfl⟩ := snoc_split s
    rw [lineProd_snoc, lineProd_snoc, Nat.zero_add]
    rcases Nat.lt_or_ge n w with h | h
    · rw [ih h, replaced, replaced, if_neg (by omega), if_neg (by omega), Matrix.smul_mul]
    · have : w = n := by omega
      subst this
      have e : ∀ Z : Ten ℂ q D D, lineProd (replaced L A w Z) 0 w s = lineProd (fun j => A (j % L)) 0 w s := fun Z =>
        lineProd_congr (fun j _ h => by rw [replaced, if_neg (by omega)]) s
      rw [e, e, replaced, replaced, if_pos rfl, if_pos rfl, Matrix.mul_smul]

theorem window_smul {L : ℕ} {A : ℕ → Ten ℂ q D D} {l r : ℕ → Matrix (Fin D) (Fin D) ℂ} (X Y : Ten ℂ q D D) (c d : ℂ) (a b w : ℕ)
    (ha : a < w) (hb : b < w) :
    windowBraket L l r 0 w (replaced L A a fun t => d • Y t) (replaced L A b fun t => c • X t)
      = star d * c * windowBraket L l r 0 w (replaced L A a Y) (replaced L A b X) := by
  rw [windowBraket, windowBraket, Finset.mul_sum]
  refine Finset.sum_congr rfl fun s _ => ?_
  rw [line_smul _ _ _ _ ha, line_smul _ _ _ _ hb, conjTranspose_smul]
  simp only [Matrix.mul_smul, Matrix.smul_mul, Matrix.trace_smul, smul_eq_mul]
  ring

/-- Tangent vectors that only change the phases of the sites are multiples of the state: their connected overlaps vanish. -/
theorem pairSum_phases {L : ℕ} (hL : 0 < L) {A : ℕ → Ten ℂ q D D} {l r : ℕ → Matrix (Fin D) (Fin D) ℂ} (E : ChainEnv L A l r)
    (c : ℕ → ℂ) (p : ℝ) (N : ℕ) : pairSum L A l r (fun k s => c k • A k s) (fun k s => c k • A k s) p N = 0 := by
  rw [pairSum]
  refine Finset.sum_eq_zero fun a ha => Finset.sum_eq_zero fun b hb => ?_
  have ha := Finset.mem_range.1 ha
  have hb := Finset.mem_range.1 hb
  split_ifs
  · have e1 : (fun j => A (j % L)) = replaced L A a fun s => (1 : ℂ) • A (a % L) s := by
      simp only [one_smul]; exact (Ovl.replaced_self a).symm
    have W : windowBraket L l r 0 (N * L) (replaced L A a (A (a % L))) (replaced L A a (A (a % L))) = 1 := by
      rw [windowBraket_same hL E 0 (N * L) a (by omega) (by omega), ← E.right _ (Nat.mod_lt _ hL),
        show (a % L + L - 1) % L = (a + L - 1) % L by rw [Nat.add_sub_assoc hL, Nat.mod_add_mod, ← Nat.add_sub_assoc hL], adot_eq_trace]
      exact E.norm _ (Nat.mod_lt _ hL)
    have e2 : replaced L A b (A (b % L)) = replaced L A a (A (a % L)) := by
      rw [Ovl.replaced_self, Ovl.replaced_self]
    rw [e1, window_smul _ _ _ _ _ _ _ ha hb, window_smul _ _ _ _ _ _ _ ha ha, window_smul _ _ _ _ _ _ _ ha hb, e2, W]
    simp
  · rfl

/-- **C79, the case left out.**  The function skips the contribution of tensors whose sum over the block is close to zero, although those of the
separate sites are not: the tensors that multiply the two sites of a block by `1` and `-1` give a multiple of the state, with connected overlap zero,
and the function returns 2, whatever the solver does. -/
theorem C79_skip_violated (solver : Solver 1) (junk : Matrix (Fin 1) (Fin 1) ℂ) :
    ChainEnv demoUp.L demoUp.A demoUp.l demoUp.r ∧
    BlockMixing demoUp.L demoUp.A (demoUp.l (demoUp.L - 1)) (demoUp.r (demoUp.L - 1)) ∧
    ¬ BlockGauge demoUp.L demoUp.A demoUpB demoUp.r ∧
    demoUp.bOverlap solver junk demoUpB demoUpB 0 false false = some 2 ∧
    ∀ N, pairSum demoUp.L demoUp.A demoUp.l demoUp.r demoUpB demoUpB 0 N = 0 := by
  refine ⟨demoUp_env, ?_, ?_, ?_, fun N => pairSum_phases (by simp [demoUp]) demoUp_env _ 0 N⟩
  · intro x
    simp only [demoUp_transfer]
    have : ((demoUp.l (demoUp.L - 1))ᴴ * x).trace • demoUp.r (demoUp.L - 1) = x := by
      ext i j
      fin_cases i; fin_cases j
      simp [demoUp, Matrix.trace]
    rw [this]
    exact tendsto_const_nhds
  · intro h
    have := h 0 (by simp [demoUp])
    simp [demoUpB, demoUp] at this
  · have hL : 0 < demoUp.L := by simp [demoUp]
    have hb : blockRight demoUp.L demoUp.A demoUpB demoUp.r 0 = 0 := by
      rw [blockRight]
      simp only [demoUp_transfer]
      rw [show demoUp.L = 2 from rfl, Finset.sum_range_succ, Finset.sum_range_one]
      simp [demoUpB, demoUp]
    have h1 : demoUp.ovBlock demoUpB (if false = true then -0 else 0) false = 0 := by
      rw [if_neg (by decide), ovBlock_false demoUp hL, hb]
    have h2 : demoUp.ovBlock demoUpB (if true = true then -0 else 0) true = 0 := by
      rw [if_pos rfl]
      rw [ovBlock_true demoUp hL demoUpB 0 (fun k _ => by simp [demoUp]), hb, conjTranspose_zero]
    have hz : CloseZero (0 : Matrix (Fin 1) (Fin 1) ℂ) := by intro i j; simp; norm_num
    have h3 : demoUp.ovOnsite demoUpB demoUpB = 2 := by
      rw [UMPS.ovOnsite, foldl_add_eq, zero_add, sum_list_range, show demoUp.L = 2 from rfl, Finset.sum_range_succ, Finset.sum_range_one,
        adot_eq_trace, adot_eq_trace, epsR_eq, epsR_eq]
      simp [demoUpB, demoUp]
      norm_num
    have ho : ∀ pp conj, demoUp.ovBlock demoUpB pp conj = 0 → demoUp.ovBR solver junk demoUpB pp conj = some (none, 0) := by
      intro pp conj h
      unfold UMPS.ovBR
      rw [if_neg (by omega)]
      simp only []
      rw [h, if_pos hz]
    have h4 : demoUp.calcCon solver junk demoUpB demoUpB 0 true = some (0, 0) := by
      unfold UMPS.calcCon
      dsimp only
      rw [ho _ _ h2, Option.map_some]
    have h5 : demoUp.calcCon solver junk demoUpB demoUpB 0 false = some (0, 0) := by
      unfold UMPS.calcCon
      dsimp only
      rw [ho _ _ h1, Option.map_some]
    unfold UMPS.bOverlap
    rw [if_neg (by omega)]
    simp only [Bool.false_eq_true, if_false, h4, h5, h3, Option.bind_some, Option.map_some, add_zero, mul_zero, sub_zero]

/-! ## Cases -/

/-- Tensors for the two-site block of `demoDimer` that are not gauge-fixed: the identity matrix for one of the two indices. -/
noncomputable def demoDimerB (t : Fin 2) (_ : ℕ) : Ten ℂ 2 2 2 := fun s => if s = t then 1 else 0

theorem demoDimer_exactP (p : ℝ) : Ovl.Exact demoDimer (fun _ b _ => (b, 0)) 0 p := by
  intro op x x0 hop
  have h1 : demoDimer.l (demoDimer.L - 1) = !![1, 0; 0, 0] := by simp [demoDimer]
  have h2 : demoDimer.r (demoDimer.L - 1) = !![1, 0; 0, 0] := by simp [demoDimer]
  rw [h1, h2] at hop
  have hpos : 0 < demoDimer.list.length := by rw [list_length]; simp [demoDimer]
  have e : (!![1, 0; 0, 0]ᴴ * x).trace • (!![1, 0; 0, 0] : Matrix (Fin 2) (Fin 2) ℂ) = !![x 0 0, 0; 0, 0] := by
    ext i j
    fin_cases i <;> fin_cases j <;>
      simp [Matrix.trace_fin_two, Matrix.mul_apply, Fin.sum_univ_two]
  rw [C44_operator_right p _ _ rfl hpos _ _ true op hop, if_pos rfl, demoDimer_block, e]
  simp

theorem demoDimer_far (p : ℝ) (t : Fin 2) :
    ∃ i j, 1e-8 < ‖blockRight demoDimer.L demoDimer.A (demoDimerB t) demoDimer.r p i j‖ := by
  have e : blockRight demoDimer.L demoDimer.A (demoDimerB t) demoDimer.r p
      = (∑ s, demoDimerB t 0 s * demoDimer.r 0 * (demoDimer.A 0 s)ᴴ)
        + Complex.exp (Complex.I * p) • epsR (∑ s, demoDimerB t 1 s * demoDimer.r 1 * (demoDimer.A 1 s)ᴴ) (demoDimer.A 0) (demoDimer.A 0) := by
    rw [blockRight, show demoDimer.L = 2 from rfl, Finset.sum_range_succ, Finset.sum_range_one, chainTransfer_succ, chainTransfer_zero, chainTransfer_zero]
    simp
  rw [e, epsR_eq, demoDimer_map0]
  fin_cases t
  · refine ⟨0, 0, ?_⟩
    have h : ((∑ s, demoDimerB 0 0 s * demoDimer.r 0 * (demoDimer.A 0 s)ᴴ)
        + Complex.exp (Complex.I * p) • !![9/25 * (∑ s, demoDimerB 0 1 s * demoDimer.r 1 * (demoDimer.A 1 s)ᴴ) 0 0
          + 16/25 * (∑ s, demoDimerB 0 1 s * demoDimer.r 1 * (demoDimer.A 1 s)ᴴ) 1 1, 0; 0, 0]) 0 0
        = 3/5 - -(Complex.exp (Complex.I * p) * (9/25)) := by
      simp [demoDimerB, demoDimer, Fin.sum_univ_two, Matrix.vecMul, dotProduct, Complex.conj_ofNat]
    refine lt_of_lt_of_le ?_ ((norm_sub_norm_le (3/5 : ℂ) (-(Complex.exp (Complex.I * p) * (9/25)))).trans (le_of_eq (congrArg _ h.symm)))
    rw [norm_neg, norm_mul, Ovl.phase_norm]
    norm_num
  · refine ⟨1, 0, ?_⟩
    have h : ((∑ s, demoDimerB 1 0 s * demoDimer.r 0 * (demoDimer.A 0 s)ᴴ)
        + Complex.exp (Complex.I * p) • !![9/25 * (∑ s, demoDimerB 1 1 s * demoDimer.r 1 * (demoDimer.A 1 s)ᴴ) 0 0
          + 16/25 * (∑ s, demoDimerB 1 1 s * demoDimer.r 1 * (demoDimer.A 1 s)ᴴ) 1 1, 0; 0, 0]) 1 0 = 4/5 := by
      simp [demoDimerB, demoDimer, Fin.sum_univ_two, Matrix.vecMul, dotProduct, Complex.conj_ofNat]
    refine lt_of_lt_of_le ?_ (le_of_eq (congrArg norm h.symm))
    norm_num

example (p : ℝ) : ∃ v, demoDimer.bOverlap (fun _ b _ => (b, 0)) 0 (demoDimerB 0) (demoDimerB 1) p false false = some v ∧
    Tendsto (fun N : ℕ => pairSum 2 demoDimer.A demoDimer.l demoDimer.r (demoDimerB 1) (demoDimerB 0) p N) atTop (𝓝 v) :=
  C79_overlap_partial demoDimer (by simp [demoDimer]) demoDimer_env (fun k _ => (demoDimer_herm k).2) demoDimer_mixing _ 0 _ _ p
    (demoDimer_exactP _) (demoDimer_exactP _) false false (Or.inr ⟨rfl, demoDimer_far p 0⟩) (Or.inr ⟨rfl, demoDimer_far p 1⟩)

/-- The tensor with the identity matrix for the second of the four indices. -/
noncomputable def demoPauliB (_ : ℕ) : Ten ℂ 4 2 2 := fun s => if s = 1 then 1 else 0

theorem demoPauli_far (ham : UHam 4) (p : ℝ) :
    ∃ i j, 1e-8 < ‖blockRight (demoPauli4 ham).L (demoPauli4 ham).A demoPauliB (demoPauli4 ham).r p i j‖ := by
  refine ⟨0, 1, ?_⟩
  rw [blockRight, show (demoPauli4 ham).L = 1 from rfl, Finset.sum_range_one, chainTransfer_zero]
  simp [demoPauliB, demoPauli4]
  norm_num

/-- Gauge fixing of this tensor: all hypotheses of the theorems hold. -/
example (ham : UHam 4) (p : ℝ) : ∃ (Vsh : ℕ → Fin 4 → Matrix (Fin 2) (Fin (2 * 4 - 2)) ℂ) (newB : _) (x : _) (Y : _), (demoPauli4 ham).toGF (fun _ b _ => (b, 0)) 0
      (fun k => (demoNum.roots (.dense ((demoPauli4 ham).l k))).1) (fun k => (demoNum.roots (.dense ((demoPauli4 ham).l k))).2)
      (fun _ => (demoNum.roots (.eye 2)).2) Vsh demoPauliB p = some (newB, x) ∧
    BlockGauge (demoPauli4 ham).L (demoPauli4 ham).A newB (demoPauli4 ham).r ∧
    ∀ (N : ℕ) (s : Fin (N * (demoPauli4 ham).L) → Fin 4),
        tangentWindow (demoPauli4 ham).L (demoPauli4 ham).A newB p (N * (demoPauli4 ham).L) s
          = tangentWindow (demoPauli4 ham).L (demoPauli4 ham).A demoPauliB p (N * (demoPauli4 ham).L) s
          + Complex.exp (Complex.I * p * (N * (demoPauli4 ham).L : ℕ))
            • (lineProd (fun j => (demoPauli4 ham).A (j % (demoPauli4 ham).L)) 0 (N * (demoPauli4 ham).L) s * Y)
          - Y * lineProd (fun j => (demoPauli4 ham).A (j % (demoPauli4 ham).L)) 0 (N * (demoPauli4 ham).L) s
          - (∑ m ∈ Finset.range N, Complex.exp (Complex.I * p * (m * (demoPauli4 ham).L : ℕ))
              * (((demoPauli4 ham).l ((demoPauli4 ham).L - 1))ᴴ
                * blockRight (demoPauli4 ham).L (demoPauli4 ham).A demoPauliB (demoPauli4 ham).r p).trace)
            • lineProd (fun j => (demoPauli4 ham).A (j % (demoPauli4 ham).L)) 0 (N * (demoPauli4 ham).L) s := by
  have hV : ∀ k, ∃ V, calcVsh demoNum.qr ((demoPauli4 ham).A k) (demoNum.roots (.eye 2)).1 = some V := fun k => calcVsh_isSome (by norm_num)
  choose Vsh hV using hV
  obtain ⟨newB, x, Y, h1, -, h2⟩ := C79_same_vector_partial demoNum demoNum_ok (demoPauli4 ham).toUMPS (demoPauli4_pos ham) (demoPauli4_env ham)
    (fun k => .dense ((demoPauli4 ham).l k)) (fun _ => .eye 2) (demoPauli4_stored ham) (demoPauli4_above ham).1 (demoPauli4_above ham).2 Vsh
    (fun k _ => hV k) (fun _ b _ => (b, 0)) 0 demoPauliB p (exact_right (demoPauli4_mapR' ham) _) (Or.inr (demoPauli_far ham p))
  exact ⟨Vsh, newB, x, Y, h1, (C79_gauge demoNum demoNum_ok (demoPauli4 ham).toUMPS _ _ (demoPauli4_stored ham) Vsh (fun k _ => hV k) _ _ _ p _ _ h1).1, h2⟩

end EvoMPS
