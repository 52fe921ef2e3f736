import Verif.UniformKLemmas
import Verif.Props.UniformPinv

/-!
# C48: energy density and `K` of the uniform chain
-/

namespace EvoMPS

open Matrix Uni

variable {q D : ℕ}

/-- The solver's answer solves every system with the operator that `calc_K` (`left = false`) and `calc_K_l` hand to it. -/
def ExactSolver (S : UTDVP q D) (solver : Solver D) (junk : Matrix (Fin D) (Fin D) ℂ) (left : Bool) : Prop :=
  ∀ op x x0, PinvOp.new 0 S.list S.list (some (S.l (S.L - 1))) (some (S.r (S.L - 1))) left true = some op →
    op.matvec junk (solver (op.matvec junk) (ravel x) x0).1 = some (ravel x)

theorem biFixed_of_env (S : UMPS ℂ q D) (hL : 0 < S.L) (E : ChainEnv S.L S.A S.l S.r) :
    BiFixed S.list S.list (S.l (S.L - 1)) (S.r (S.L - 1)) where
  len := rfl
  pos := by rwa [list_length]
  right := by
    have h := E.transferR hL 0 S.L
    rw [Nat.zero_add, show S.L + S.L - 1 = S.L - 1 + S.L by omega, Nat.add_mod_right,
      Nat.mod_eq_of_lt (by omega)] at h
    rw [blockMap_list S hL, h]
  left := by
    have h := E.transferL hL 0 S.L
    rw [Nat.zero_add, show S.L + S.L - 1 = S.L - 1 + S.L by omega, Nat.add_mod_right,
      Nat.mod_eq_of_lt (by omega)] at h
    rw [blockMapL_list S hL, h]
  norm := E.norm _ (by omega)

theorem transferR_zero {S : UMPS ℂ q D} (hL : 0 < S.L) (E : ChainEnv S.L S.A S.l S.r) (k : ℕ) :
    chainTransfer S.L S.L S.A S.A 0 k (S.r ((k + S.L - 1) % S.L)) = S.r (S.L - 1) := by
  have h := E.transferR hL 0 k
  rwa [Nat.zero_add, Nat.zero_add, Nat.mod_eq_of_lt (show S.L - 1 < S.L by omega)] at h

/-- **C48.** `calc_K` after `calc_C`, for every block length, two- and three-site terms: if the environments are
those of the chain and the solver is exact, the call succeeds, `h_expect` is the average of the energies of the `L` terms
starting in the block, and the matrices `K` obey their recursion at every site of the block, with the
energies subtracted, and are orthogonal to the left environments.  Everything else is unchanged. -/
theorem C48_K (S : UTDVP q D) (hL : 0 < S.L) (E : ChainEnv S.L S.A S.l S.r) (solver : Solver D)
    (junk : Matrix (Fin D) (Fin D) ℂ) (hs : ExactSolver S solver junk false) :
    ∃ S', S.calcC.calcK solver junk = some S' ∧
      S'.L = S.L ∧ S'.A = S.A ∧ S'.l = S.l ∧ S'.r = S.r ∧ S'.ham = S.ham ∧ S'.K0init = none ∧
      S'.hExpect = (∑ k ∈ Finset.range S.L, chainExpect S.L S.A S.l S.r k S.ham.sites S.ham.op) / S.L ∧
      KRight S.L S.A S.l S.r S.ham.sites S.ham.op S'.K := by
  obtain ⟨fL, fA, fl, fr, fham, fK, fK0, fKl⟩ := calcC_fields S
  set T := S.calcC with hT
  have hlist : T.list = S.list := by simp only [UMPS.list, fL, fA]
  set n := S.ham.sites
  set O := S.ham.op
  set e : ℕ → ℂ := fun k => chainExpect S.L S.A S.l S.r k n O with he
  have hHr : T.Hr = ∑ k ∈ Finset.range S.L, chainTransfer S.L S.L S.A S.A 0 k (termRight S.L S.A S.r k n O) := by
    rw [Hr_eq T (by rwa [fL]), fL, fA]
    refine Finset.sum_congr rfl fun k hk => ?_
    rw [calcC_Hrk S k (Finset.mem_range.1 hk)]
  have hpred : ∀ k, k < S.L → chainTransferL S.L S.L S.A S.A 0 k (S.l (S.L - 1)) = S.l ((k + S.L - 1) % S.L) := by
    intro k hk
    have h := E.transferL hL 0 k
    rwa [Nat.zero_add, Nat.zero_add, Nat.mod_eq_of_lt (show S.L - 1 < S.L by omega)] at h
  have hh : adot (S.l (S.L - 1)) T.Hr = ∑ k ∈ Finset.range S.L, e k := by
    rw [hHr, adot_eq_trace, Matrix.mul_sum, Matrix.trace_sum]
    refine Finset.sum_congr rfl fun k hk => ?_
    rw [← adot_eq_trace, ← adot_chainTransferL, hpred k (Finset.mem_range.1 hk), adot_termRight]
  have F := biFixed_of_env S.toUMPS hL E
  -- the solver
  set QHr := T.Hr - (∑ k ∈ Finset.range S.L, e k) • S.r (S.L - 1) with hQ
  have hQ0 : ((S.l (S.L - 1))ᴴ * QHr).trace = 0 := by
    rw [hQ, Matrix.mul_sub, Matrix.mul_smul, Matrix.trace_sub, Matrix.trace_smul, F.norm, ← adot_eq_trace, hh]
    simp
  obtain ⟨K0, hK0, hmap, hdot⟩ : ∃ K0, T.calcPPinv solver junk QHr false
      (some (T.K0init.getD (T.K 0))) = some K0 ∧
      K0 - chainTransfer S.L S.L S.A S.A 0 S.L K0 = QHr ∧ ((S.l (S.L - 1))ᴴ * K0).trace = 0 := by
    obtain ⟨y, hy, -, h2, h3⟩ := C44_solution_right solver 0 S.list S.list _ _ F junk QHr
      (some (T.K0init.getD (T.K 0))) (fun op x0 h => hs op QHr x0 h)
    refine ⟨y, ?_, ?_, h2.trans hQ0⟩
    · rw [UTDVP.calcPPinv, hlist, fl, fr, fL]; exact hy
    · rw [hQ0, blockMap_list S.toUMPS hL] at h3
      simpa using h3
  -- the loop
  have hloop := calcK_loop T (Function.update T.K 0 K0) (by rwa [fL])
  set K := (List.range' 1 (T.L - 1)).reverse.foldl T.calcKIter (Function.update T.K 0 K0) with hKdef
  simp only [fL, fA, fl, fr, Function.update_self] at hloop
  obtain ⟨hK00, hKk⟩ := hloop
  have hK1 : ∀ k, 1 ≤ k → k < S.L → K k = epsR (K ((k + 1) % S.L)) (S.A k) (S.A k)
      + termRight S.L S.A S.r k n O - e k • S.r ((k + S.L - 1) % S.L) := by
    intro k h1 h2
    have h3 : k - 1 = (k + S.L - 1) % S.L := by
      rw [show k + S.L - 1 = k - 1 + S.L by omega, Nat.add_mod_right, Nat.mod_eq_of_lt (by omega)]
    rw [hKk k h1 h2, calcC_Hrk S k h2, pmod_pred hL, h3, adot_termRight]
  -- unrolling from the left
  have hunroll : ∀ m, m < S.L → chainTransfer S.L S.L S.A S.A 0 1 (K (1 % S.L))
      = chainTransfer S.L S.L S.A S.A 0 (m + 1) (K ((m + 1) % S.L))
        + ∑ k ∈ Finset.range m, chainTransfer S.L S.L S.A S.A 0 (k + 1) (termRight S.L S.A S.r (k + 1) n O)
        - (∑ k ∈ Finset.range m, e (k + 1)) • S.r (S.L - 1) := by
    intro m
    induction m with
    | zero => intro _; simp
    | succ m ih =>
      intro hm
      rw [ih (by omega), Nat.mod_eq_of_lt hm, hK1 (m + 1) (by omega) hm, Finset.sum_range_succ, Finset.sum_range_succ,
        chainTransfer_succ _ _ _ _ _ (m + 1), Nat.zero_add, Nat.mod_eq_of_lt hm]
      have hlin : ∀ a b c : Matrix (Fin D) (Fin D) ℂ, chainTransfer S.L S.L S.A S.A 0 (m + 1) (a + b - c)
          = chainTransfer S.L S.L S.A S.A 0 (m + 1) a + chainTransfer S.L S.L S.A S.A 0 (m + 1) b
            - chainTransfer S.L S.L S.A S.A 0 (m + 1) c := by
        intro a b c
        simp only [chainTransfer, Matrix.mul_add, Matrix.mul_sub, Matrix.add_mul, Matrix.sub_mul,
          Finset.sum_add_distrib, Finset.sum_sub_distrib]
      rw [hlin, chainTransfer_smul, transferR_zero hL E (m + 1), add_smul]
      abel
  have hstep0 : K 0 = epsR (K (1 % S.L)) (S.A 0) (S.A 0) + termRight S.L S.A S.r 0 n O - e 0 • S.r (S.L - 1) := by
    obtain ⟨m, hm⟩ : ∃ m, S.L = m + 1 := ⟨S.L - 1, by omega⟩
    have h1 := hunroll m (by omega)
    have h2 : chainTransfer S.L S.L S.A S.A 0 1 (K (1 % S.L)) = epsR (K (1 % S.L)) (S.A 0) (S.A 0) := by
      rw [chainTransfer_succ, chainTransfer_zero, Nat.zero_add, Nat.zero_mod]
    rw [h2, ← hm, Nat.mod_self, hK00] at h1
    have h3 : chainTransfer S.L S.L S.A S.A 0 S.L K0 = K0 - QHr := by rw [← hmap]; abel
    rw [hK00, h1, h3, hQ, hHr]
    have e1 : (∑ k ∈ Finset.range S.L, chainTransfer S.L S.L S.A S.A 0 k (termRight S.L S.A S.r k n O))
        = (∑ k ∈ Finset.range m, chainTransfer S.L S.L S.A S.A 0 (k + 1) (termRight S.L S.A S.r (k + 1) n O))
          + termRight S.L S.A S.r 0 n O := by
      have h := Finset.sum_range_succ' (fun k => chainTransfer S.L S.L S.A S.A 0 k (termRight S.L S.A S.r k n O)) m
      rw [← hm, chainTransfer_zero] at h
      exact h
    have e2 : (∑ k ∈ Finset.range S.L, e k) = (∑ k ∈ Finset.range m, e (k + 1)) + e 0 := by
      have h := Finset.sum_range_succ' e m
      rwa [← hm] at h
    rw [e1, e2, add_smul]
    abel
  have hlast : (0 + S.L - 1) % S.L = S.L - 1 := by rw [Nat.zero_add, Nat.mod_eq_of_lt (by omega)]
  have hall : ∀ k < S.L, K k = epsR (K ((k + 1) % S.L)) (S.A k) (S.A k)
      + termRight S.L S.A S.r k n O - e k • S.r ((k + S.L - 1) % S.L) := by
    intro k hk
    rcases Nat.eq_zero_or_pos k with rfl | h
    · rw [hlast, Nat.zero_add]; exact hstep0
    · exact hK1 k h hk
  -- orthogonality, from the right end of the block
  have hnorm : ∀ k < S.L, adot (S.l ((k + S.L - 1) % S.L)) (S.r ((k + S.L - 1) % S.L)) = 1 := fun k hk => by
    rw [adot_eq_trace]; exact E.norm _ (Nat.mod_lt _ hL)
  have hrec : ∀ k < S.L, adot (S.l ((k + S.L - 1) % S.L)) (K k) = adot (S.l k) (K ((k + 1) % S.L)) := by
    intro k hk
    rw [hall k hk, adot_eq_trace, Matrix.mul_sub, Matrix.mul_add, Matrix.mul_smul, Matrix.trace_sub, Matrix.trace_add,
      Matrix.trace_smul, ← adot_eq_trace, ← adot_eq_trace, ← adot_eq_trace, hnorm k hk, adot_termRight, ← adot_epsL,
      epsL_eq, ← E.left k hk]
    simp [he]
  have horth : ∀ j, j < S.L → adot (S.l ((S.L - 1 - j + S.L - 1) % S.L)) (K (S.L - 1 - j)) = 0 := by
    intro j
    induction j with
    | zero =>
      intro _
      rw [Nat.sub_zero, hrec _ (by omega), show S.L - 1 + 1 = S.L by omega, Nat.mod_self, hK00, adot_eq_trace]
      exact hdot
    | succ j ih =>
      intro hj
      have := ih (by omega)
      rw [hrec _ (by omega), Nat.mod_eq_of_lt (by omega), show S.L - 1 - (j + 1) + 1 = S.L - 1 - j by omega]
      rw [show S.L - 1 - j + S.L - 1 = S.L - 1 - (j + 1) + S.L by omega, Nat.add_mod_right,
        Nat.mod_eq_of_lt (show S.L - 1 - (j + 1) < S.L by omega)] at this
      exact this
  have hres : T.calcK solver junk = some { T with
      hExpect := (∑ k ∈ Finset.range S.L, e k) / S.L, K0init := none, K := K } := by
    unfold UTDVP.calcK
    simp only
    rw [if_neg (by rw [fL]; omega)]
    have e1 : adot (T.l (T.L - 1)) T.Hr = ∑ k ∈ Finset.range S.L, e k := by rw [fl, fL, hh]
    rw [e1]
    have e2 : T.Hr - (∑ k ∈ Finset.range S.L, e k) • T.r (T.L - 1) = QHr := by rw [hQ, fr, fL]
    rw [e2, hK0, Option.map_some, ← hKdef, fL]
  refine ⟨_, hres, fL, fA, fl, fr, fham, rfl, rfl, ⟨fun k hk => ?_, fun k hk => ?_⟩⟩
  · rw [← epsR_eq]; exact hall k hk
  · have := horth (S.L - 1 - k) (by omega)
    rw [show S.L - 1 - (S.L - 1 - k) = k by omega] at this
    rw [← adot_eq_trace]; exact this

/-- **C48.** What the recursion means: `K` at the cut before site `k` is the sum of all terms starting at the sites
`k, k+1, ..., k+N-1`, seen from that cut and with their energies subtracted, plus the `K` behind these sites. -/
theorem C48_sum (S : UMPS ℂ q D) (hL : 0 < S.L) (E : ChainEnv S.L S.A S.l S.r) (n : ℕ)
    (O : (Fin n → Fin q) → (Fin n → Fin q) → ℂ) (K : ℕ → Matrix (Fin D) (Fin D) ℂ)
    (hK : KRight S.L S.A S.l S.r n O K) (k N : ℕ) :
    K (k % S.L) = (∑ j ∈ Finset.range N, (chainTransfer S.L S.L S.A S.A k j (termRight S.L S.A S.r (k + j) n O)
        - chainExpect S.L S.A S.l S.r (k + j) n O • S.r ((k + S.L - 1) % S.L)))
      + chainTransfer S.L S.L S.A S.A k N (K ((k + N) % S.L)) := by
  induction N with
  | zero => rw [chainTransfer_zero]; simp
  | succ N ih =>
    have h1 := hK.step ((k + N) % S.L) (Nat.mod_lt _ hL)
    rw [← epsR_eq, mod_pred hL, Nat.mod_add_mod] at h1
    have e1 : chainExpect S.L S.A S.l S.r ((k + N) % S.L) n O = chainExpect S.L S.A S.l S.r (k + N) n O :=
      chainExpect_shift _ _ (Nat.mod_mod _ _) hL _ _ _ _
    have e2 : termRight S.L S.A S.r ((k + N) % S.L) n O = termRight S.L S.A S.r (k + N) n O :=
      termRight_shift _ _ (Nat.mod_mod _ _) hL _ _ _
    rw [e1, e2] at h1
    rw [ih, Finset.sum_range_succ, h1, chainTransfer_succ, ← Nat.add_assoc, ← E.transferR hL k N]
    have hlin : ∀ a b c : Matrix (Fin D) (Fin D) ℂ, chainTransfer S.L S.L S.A S.A k N (a + b - c)
        = chainTransfer S.L S.L S.A S.A k N a + chainTransfer S.L S.L S.A S.A k N b
          - chainTransfer S.L S.L S.A S.A k N c := by
      intro a b c
      simp only [chainTransfer, Matrix.mul_add, Matrix.mul_sub, Matrix.add_mul, Matrix.sub_mul,
        Finset.sum_add_distrib, Finset.sum_sub_distrib]
    rw [hlin, chainTransfer_smul]
    abel

/-- **C48.** If the powers of the block map converge to the projection on `r`, `K 0` is the limit of the sums over the terms of
the first `m` blocks. -/
theorem C48_limit (S : UMPS ℂ q D) (hL : 0 < S.L) (E : ChainEnv S.L S.A S.l S.r) (n : ℕ)
    (O : (Fin n → Fin q) → (Fin n → Fin q) → ℂ) (K : ℕ → Matrix (Fin D) (Fin D) ℂ)
    (hK : KRight S.L S.A S.l S.r n O K)
    (hlim : ∀ x, Filter.Tendsto (fun m : ℕ => chainTransfer S.L S.L S.A S.A 0 (m * S.L) x) Filter.atTop
      (nhds (adot (S.l (S.L - 1)) x • S.r (S.L - 1)))) :
    Filter.Tendsto (fun m : ℕ => ∑ j ∈ Finset.range (m * S.L),
      (chainTransfer S.L S.L S.A S.A 0 j (termRight S.L S.A S.r j n O)
        - chainExpect S.L S.A S.l S.r j n O • S.r (S.L - 1))) Filter.atTop (nhds (K 0)) := by
  have h0 : adot (S.l (S.L - 1)) (K 0) = 0 := by
    have h := hK.orth 0 hL
    rw [Nat.zero_add, Nat.mod_eq_of_lt (show S.L - 1 < S.L by omega)] at h
    rw [adot_eq_trace]; exact h
  have h1 := (tendsto_const_nhds (x := K 0)).sub (hlim (K 0))
  rw [h0, zero_smul, sub_zero] at h1
  refine h1.congr fun m => ?_
  have h := C48_sum S hL E n O K hK 0 (m * S.L)
  simp only [Nat.zero_mod, Nat.zero_add, Nat.mul_mod_left] at h
  rw [Nat.mod_eq_of_lt (show S.L - 1 < S.L by omega)] at h
  exact sub_eq_iff_eq_add.2 h

/-- **C48.** The recursion and the orthogonality determine `K` if `r` is the only fixed point of the block map. -/
theorem C48_unique (S : UMPS ℂ q D) (hL : 0 < S.L) (E : ChainEnv S.L S.A S.l S.r)
    (hfix : ∀ x, chainTransfer S.L S.L S.A S.A 0 S.L x = x → ∃ c : ℂ, x = c • S.r (S.L - 1)) (n : ℕ)
    (O : (Fin n → Fin q) → (Fin n → Fin q) → ℂ) (K K' : ℕ → Matrix (Fin D) (Fin D) ℂ)
    (hK : KRight S.L S.A S.l S.r n O K) (hK' : KRight S.L S.A S.l S.r n O K') : ∀ k < S.L, K k = K' k := by
  have hlast : (0 + S.L - 1) % S.L = S.L - 1 := by rw [Nat.zero_add, Nat.mod_eq_of_lt (by omega)]
  have hsub : ∀ (k N : ℕ) (a b : Matrix (Fin D) (Fin D) ℂ), chainTransfer S.L S.L S.A S.A k N (a - b)
      = chainTransfer S.L S.L S.A S.A k N a - chainTransfer S.L S.L S.A S.A k N b := by
    intro k N a b
    simp only [chainTransfer, Matrix.mul_sub, Matrix.sub_mul, Finset.sum_sub_distrib]
  have hd : ∀ k N, K (k % S.L) - K' (k % S.L)
      = chainTransfer S.L S.L S.A S.A k N (K ((k + N) % S.L) - K' ((k + N) % S.L)) := by
    intro k N
    rw [C48_sum S hL E n O K hK k N, C48_sum S hL E n O K' hK' k N, hsub]
    abel
  have h0 : K 0 = K' 0 := by
    have h := hd 0 S.L
    rw [Nat.zero_mod, Nat.zero_add, Nat.mod_self] at h
    obtain ⟨c, hc⟩ := hfix _ h.symm
    have ho := hK.orth 0 hL
    have ho' := hK'.orth 0 hL
    rw [hlast] at ho ho'
    have h1 : ((S.l (S.L - 1))ᴴ * (K 0 - K' 0)).trace = 0 := by
      rw [Matrix.mul_sub, Matrix.trace_sub, ho, ho', sub_zero]
    rw [hc, Matrix.mul_smul, Matrix.trace_smul, E.norm _ (by omega), smul_eq_mul, mul_one] at h1
    rw [h1, zero_smul] at hc
    exact sub_eq_zero.1 hc
  intro k hk
  have h := hd k (S.L - k)
  rw [Nat.mod_eq_of_lt hk, show k + (S.L - k) = S.L by omega, Nat.mod_self, h0, sub_self] at h
  refine sub_eq_zero.1 (h.trans ?_)
  simp [chainTransfer]

/-! ## The left matrices -/

theorem firstSite_mod {L : ℕ} (hL : 0 < L) (n i : ℕ) : firstSite L n i = (i + 1 + n * L - n) % L := by
  have := pmod_sub hL (i + 1) n
  rw [← this, firstSite]
  push_cast
  rfl

theorem firstSite_end {L : ℕ} (hL : 0 < L) (n i : ℕ) (hi : i < L) : (i + 1 + n * L - n + n + L - 1) % L = i := by
  have h : n ≤ n * L := Nat.le_mul_of_pos_right n hL
  rw [show i + 1 + n * L - n + n + L - 1 = i + n * L + L by omega, Nat.add_mod_right, Nat.add_mul_mod_self_right,
    Nat.mod_eq_of_lt hi]

/-- **C48**, left.  What `calc_K_l` returns: the energy density is the average of the energies; the matrix behind the
last site of the block solves the equation of the whole block and is orthogonal to the right environment; the
other ones are computed from `self.K`, the *right* matrices (see `C48_left_violated`). -/
theorem C48_left_end (S : UTDVP q D) (hL : 0 < S.L) (E : ChainEnv S.L S.A S.l S.r)
    (hl : ∀ k < S.L, (S.l k)ᴴ = S.l k) (hr : ∀ k < S.L, (S.r k)ᴴ = S.r k) (solver : Solver D)
    (junk : Matrix (Fin D) (Fin D) ℂ) (hs : ExactSolver S solver junk true) :
    ∃ S' h K1, S.calcC.calcKl solver junk = some (S', h) ∧
      S'.L = S.L ∧ S'.A = S.A ∧ S'.l = S.l ∧ S'.r = S.r ∧ S'.ham = S.ham ∧ S'.K = S.K ∧
      h = (∑ k ∈ Finset.range S.L, chainExpect S.L S.A S.l S.r k S.ham.sites S.ham.op) / S.L ∧
      S'.Kl (S.L - 1) = some K1 ∧
      K1 = chainTransferL S.L S.L S.A S.A 0 S.L K1
        + (∑ i ∈ Finset.range S.L, chainTransferL S.L S.L S.A S.A (i + 1) (S.L - 1 - i)
            (termLeft S.L S.A S.l (i + 1 + S.ham.sites * S.L - S.ham.sites) S.ham.sites S.ham.op))
        - (∑ k ∈ Finset.range S.L, chainExpect S.L S.A S.l S.r k S.ham.sites S.ham.op) • S.l (S.L - 1) ∧
      (K1 * S.r (S.L - 1)).trace = 0 ∧
      ∀ k < S.L - 1, S'.Kl k = some ((∑ s, (S.A k s)ᴴ * S.K ((k + S.L - 1) % S.L) * S.A k s)
        + termLeft S.L S.A S.l (k + 1 + S.ham.sites * S.L - S.ham.sites) S.ham.sites S.ham.op
        - chainExpect S.L S.A S.l S.r (k + 1 + S.ham.sites * S.L - S.ham.sites) S.ham.sites S.ham.op • S.l k) := by
  obtain ⟨fL, fA, fl, fr, fham, fK, fK0, fKl⟩ := calcC_fields S
  set T := S.calcC with hT
  have hlist : T.list = S.list := by simp only [UMPS.list, fL, fA]
  set n := S.ham.sites with hn
  set O := S.ham.op
  set e : ℕ → ℂ := fun k => chainExpect S.L S.A S.l S.r k n O with he
  have hlHk : ∀ i, T.lHk (firstSite S.L n i) = termLeft S.L S.A S.l (i + 1 + n * S.L - n) n O := by
    intro i
    have h1 : firstSite S.L n i < S.L := pmod_lt hL _
    rw [calcC_lHk S _ h1]
    exact termLeft_shift _ _ (by rw [firstSite_mod hL, Nat.mod_mod]) hL _ _ _
  have htr : ∀ i < S.L, (termLeft S.L S.A S.l (i + 1 + n * S.L - n) n O * S.r i).trace = e (i + 1 + n * S.L - n) := by
    intro i hi
    have h := termLeft_trace S.L S.A S.l S.r (fun k => hl (k % S.L) (Nat.mod_lt _ hL)) hL (i + 1 + n * S.L - n) n O
    rwa [firstSite_end hL n i hi] at h
  have hlH : T.lH = ∑ i ∈ Finset.range S.L, chainTransferL S.L S.L S.A S.A (i + 1) (S.L - 1 - i)
      (termLeft S.L S.A S.l (i + 1 + n * S.L - n) n O) := by
    rw [lH_eq T (by rwa [fL]), fL, fA, fham]
    exact Finset.sum_congr rfl fun i _ => by rw [hlHk]
  have hperm : ∑ i ∈ Finset.range S.L, e (i + 1 + n * S.L - n) = ∑ k ∈ Finset.range S.L, e k := by
    refine Finset.sum_bij (fun i _ => firstSite S.L n i) (fun i _ => Finset.mem_range.2 (pmod_lt hL _)) ?_ ?_ ?_
    · intro a ha b hb hab
      simp only [Finset.mem_range] at ha hb
      have h1 := firstSite_end hL n a ha
      have h2 := firstSite_end hL n b hb
      rw [firstSite_mod hL, firstSite_mod hL] at hab
      rw [← h1, ← h2, ← mod_pred hL, ← mod_pred hL (b + 1 + n * S.L - n + n), Nat.add_mod, hab, ← Nat.add_mod]
    · intro b hb
      simp only [Finset.mem_range] at hb
      refine ⟨(b + n + S.L - 1) % S.L, Finset.mem_range.2 (Nat.mod_lt _ hL), ?_⟩
      have hle : n ≤ n * S.L := Nat.le_mul_of_pos_right n hL
      rw [firstSite_mod hL, show (b + n + S.L - 1) % S.L + 1 + n * S.L - n
        = (b + n + S.L - 1) % S.L + (1 + n * S.L - n) by omega, Nat.mod_add_mod,
        show b + n + S.L - 1 + (1 + n * S.L - n) = b + n * S.L + S.L by omega, Nat.add_mod_right,
        Nat.add_mul_mod_self_right, Nat.mod_eq_of_lt hb]
    · intro i _
      exact chainExpect_shift _ _ (by rw [firstSite_mod hL, Nat.mod_mod]) hL _ _ _ _
  have hh : adotNoconj T.lH (S.r (S.L - 1)) = ∑ k ∈ Finset.range S.L, e k := by
    rw [hlH, adotNoconj_eq_trace, Matrix.sum_mul, Matrix.trace_sum, ← hperm]
    refine Finset.sum_congr rfl fun i hi => ?_
    rw [Finset.mem_range] at hi
    have h := E.transferR hL (i + 1) (S.L - 1 - i)
    rw [show i + 1 + (S.L - 1 - i) + S.L - 1 = S.L - 1 + S.L by omega, Nat.add_mod_right,
      Nat.mod_eq_of_lt (show S.L - 1 < S.L by omega), mod_pred_succ, Nat.mod_eq_of_lt hi] at h
    rw [trace_chainTransferL, h, htr i hi]
  have F := biFixed_of_env S.toUMPS hL E
  have hlast : S.L - 1 < S.L := by omega
  set lHQ := T.lH - (∑ k ∈ Finset.range S.L, e k) • S.l (S.L - 1) with hQ
  have hrl : (S.l (S.L - 1) * S.r (S.L - 1)).trace = 1 := by
    have h := E.norm _ hlast
    rwa [hl _ hlast] at h
  have hQ0 : ((S.r (S.L - 1))ᴴ * lHQ).trace = 0 := by
    rw [hr _ hlast, Matrix.trace_mul_comm, hQ, Matrix.sub_mul, Matrix.smul_mul, Matrix.trace_sub, Matrix.trace_smul,
      hrl, ← adotNoconj_eq_trace, hh]
    simp
  obtain ⟨K1, hK1, hmap, hdot⟩ : ∃ K1, T.calcPPinv solver junk lHQ true (T.Kl (S.L - 1)) = some K1 ∧
      K1 - chainTransferL S.L S.L S.A S.A 0 S.L K1 = lHQ ∧ ((S.r (S.L - 1))ᴴ * K1).trace = 0 := by
    obtain ⟨y, hy, -, h2, h3⟩ := C44_solution_left solver 0 S.list S.list _ _ F junk lHQ
      (T.Kl (S.L - 1)) (fun op x0 h => hs op lHQ x0 h)
    refine ⟨y, ?_, ?_, h2.trans hQ0⟩
    · rw [UTDVP.calcPPinv, hlist, fl, fr, fL]; exact hy
    · rw [hQ0, blockMapL_list S.toUMPS hL] at h3
      simpa using h3
  have hloop := calcKl_loop T (by rwa [fL]) (Function.update T.Kl (T.L - 1) (some K1))
  set Kl := (List.range (T.L - 1)).foldl T.calcKlIter (Function.update T.Kl (T.L - 1) (some K1)) with hKdef
  simp only [fL, fA, fl, fr, fham, fK, Function.update_self] at hloop
  obtain ⟨hKlast, hKk⟩ := hloop
  have hres : T.calcKl solver junk = some ({ T with Kl := Kl }, (∑ k ∈ Finset.range S.L, e k) / S.L) := by
    unfold UTDVP.calcKl
    simp only
    rw [if_neg (by rw [fL]; omega)]
    have e1 : adotNoconj T.lH (T.r (T.L - 1)) = ∑ k ∈ Finset.range S.L, e k := by rw [fr, fL, hh]
    rw [e1]
    have e2 : T.lH - (∑ k ∈ Finset.range S.L, e k) • T.l (T.L - 1) = lHQ := by rw [hQ, fl, fL]
    have e3 : T.Kl (T.L - 1) = T.Kl (S.L - 1) := by rw [fL]
    rw [e2, e3, hK1, Option.map_some, ← hKdef, fL]
  refine ⟨_, _, K1, hres, fL, fA, fl, fr, fham, fK, rfl, hKlast, ?_, ?_, fun k hk => ?_⟩
  · rw [add_sub_assoc, ← hlH]
    exact (sub_eq_iff_eq_add'.1 hmap)
  · rw [hr _ hlast, Matrix.trace_mul_comm] at hdot
    exact hdot
  · refine (hKk k hk).trans ?_
    have hk' : k < S.L := by omega
    rw [hlHk, pmod_pred hL, adotNoconj_eq_trace, htr k hk', epsL_eq]

/-- **C48**, left, one-site blocks: `K_left` obeys its recursion.  For longer blocks the statement is false
(`C48_left_violated`). -/
theorem C48_left_partial (S : UTDVP q D) (hL : S.L = 1) (E : ChainEnv S.L S.A S.l S.r)
    (hl : (S.l 0)ᴴ = S.l 0) (hr : (S.r 0)ᴴ = S.r 0) (solver : Solver D)
    (junk : Matrix (Fin D) (Fin D) ℂ) (hs : ExactSolver S solver junk true) :
    ∃ S' h K1, S.calcC.calcKl solver junk = some (S', h) ∧ S'.Kl 0 = some K1 ∧
      h = chainExpect S.L S.A S.l S.r 0 S.ham.sites S.ham.op ∧
      KLeft S.L S.A S.l S.r S.ham.sites S.ham.op fun _ => K1 := by
  have h0 : ∀ k < S.L, k = 0 := fun k hk => by omega
  obtain ⟨S', h, K1, h1, -, -, -, -, -, -, h2, h3, h4, h5, -⟩ := C48_left_end S (by omega) E
    (fun k hk => by rw [h0 k hk]; exact hl) (fun k hk => by rw [h0 k hk]; exact hr) solver junk hs
  have hx : chainExpect S.L S.A S.l S.r (0 + 1 + S.ham.sites * S.L - S.ham.sites) S.ham.sites S.ham.op
      = chainExpect S.L S.A S.l S.r 0 S.ham.sites S.ham.op :=
    chainExpect_shift _ _ (by rw [hL, Nat.mod_one, Nat.mod_one]) (by omega) _ _ _ _
  refine ⟨S', h, K1, h1, ?_, ?_, ⟨fun k hk => ?_, fun k hk => ?_⟩⟩
  · rw [hL] at h3; exact h3
  · rw [h2]
    conv_lhs => rw [show Finset.range S.L = Finset.range 1 by rw [hL], show (S.L : ℂ) = 1 by rw [hL]; simp]
    simp
  · obtain rfl := h0 k hk
    rw [hx]
    have e1 : chainTransferL S.L S.L S.A S.A 0 S.L K1 = ∑ s, (S.A 0 s)ᴴ * K1 * S.A 0 s := by
      conv_lhs => rw [show chainTransferL S.L S.L S.A S.A 0 S.L K1 = chainTransferL S.L S.L S.A S.A 0 1 K1 by rw [hL]]
      rw [chainTransferL_succ, chainTransferL_zero, epsL_eq, Nat.zero_add, Nat.zero_mod]
    rw [e1] at h4
    refine h4.trans ?_
    congr 1
    · congr 1
      rw [show Finset.range S.L = Finset.range 1 by rw [hL], Finset.sum_range_one,
        show S.L - 1 - 0 = 0 by omega, chainTransferL_zero]
    · rw [show Finset.range S.L = Finset.range 1 by rw [hL], Finset.sum_range_one, hL]
  · obtain rfl := h0 k hk
    rw [hL] at h5; exact h5

/-! ## Cases -/

/-- `demoDimer` with the Hamiltonian counting the first of its two sites. -/
noncomputable def demoDimerK : UTDVP 2 2 where
  toUMPS := demoDimer
  ham := .two fun s t u v => if s = u ∧ t = v ∧ s = 1 then 1 else 0
  AAA := 0
  C2 := 0
  C3 := 0
  K := 1
  K0init := none
  Kl := fun _ => none
  hExpect := 0

theorem demoDimer_map1 (x : Matrix (Fin 2) (Fin 2) ℂ) :
    ∑ s, demoDimer.A 1 s * x * (demoDimer.A 1 s)ᴴ = !![x 0 0, 0; 0, x 0 0] := by
  ext i j
  fin_cases i <;> fin_cases j <;>
    simp [demoDimer, Matrix.mul_apply, Fin.sum_univ_two, Matrix.vecMul, dotProduct]

theorem demoDimer_map0 (x : Matrix (Fin 2) (Fin 2) ℂ) :
    ∑ s, demoDimer.A 0 s * x * (demoDimer.A 0 s)ᴴ = !![9/25 * x 0 0 + 16/25 * x 1 1, 0; 0, 0] := by
  ext i j
  fin_cases i <;> fin_cases j <;>
    simp [demoDimer, Matrix.mul_apply, Fin.sum_univ_two, Matrix.vecMul, dotProduct, Complex.conj_ofNat]
  ring

theorem demoDimer_mapL0 (x : Matrix (Fin 2) (Fin 2) ℂ) :
    ∑ s, (demoDimer.A 0 s)ᴴ * x * demoDimer.A 0 s = !![9/25 * x 0 0, 0; 0, 16/25 * x 0 0] := by
  ext i j
  fin_cases i <;> fin_cases j <;>
    simp [demoDimer, Matrix.mul_apply, Fin.sum_univ_two, Matrix.vecMul, dotProduct, Complex.conj_ofNat] <;> ring

theorem demoDimer_mapL1 (x : Matrix (Fin 2) (Fin 2) ℂ) :
    ∑ s, (demoDimer.A 1 s)ᴴ * x * demoDimer.A 1 s = !![x 0 0 + x 1 1, 0; 0, 0] := by
  ext i j
  fin_cases i <;> fin_cases j <;>
    simp [demoDimer, Matrix.mul_apply, Fin.sum_univ_two, Matrix.vecMul, dotProduct]

theorem demoDimer_block (x : Matrix (Fin 2) (Fin 2) ℂ) :
    blockMap demoDimer.list demoDimer.list x = !![x 0 0, 0; 0, 0] := by
  rw [blockMap_list demoDimer (by simp [demoDimer]), show demoDimer.L = 2 from rfl, chainTransfer_succ, chainTransfer_succ,
    chainTransfer_zero, epsR_eq, epsR_eq]
  simp only [Nat.zero_add, Nat.zero_mod, Nat.reduceMod]
  rw [demoDimer_map1, demoDimer_map0]
  ext i j
  fin_cases i <;> fin_cases j <;> simp
  ring

theorem demoDimer_blockL (x : Matrix (Fin 2) (Fin 2) ℂ) :
    blockMapL demoDimer.list demoDimer.list x = !![x 0 0, 0; 0, 0] := by
  rw [blockMapL_list demoDimer (by simp [demoDimer]), show demoDimer.L = 2 from rfl, chainTransferL_succ, chainTransferL_succ,
    chainTransferL_zero, epsL_eq, epsL_eq]
  simp only [Nat.zero_add, Nat.zero_mod, Nat.reduceMod]
  rw [demoDimer_mapL0, demoDimer_mapL1]
  ext i j
  fin_cases i <;> fin_cases j <;> simp
  ring

/-- The operator of this state is the identity, so returning the right-hand side is exact. -/
theorem demoDimer_exact (S : UTDVP 2 2) (hL : S.L = 2) (hA : S.A = demoDimer.A) (hl : S.l = demoDimer.l)
    (hr : S.r = demoDimer.r) (left : Bool) : ExactSolver S (fun _ b _ => (b, 0)) 0 left := by
  intro op x x0 hop
  have hlist : S.list = demoDimer.list := by simp only [UMPS.list, hL, hA]; rfl
  have h1 : S.l (S.L - 1) = !![1, 0; 0, 0] := by rw [hL, hl]; simp [demoDimer]
  have h2 : S.r (S.L - 1) = !![1, 0; 0, 0] := by rw [hL, hr]; simp [demoDimer]
  rw [hlist, h1, h2] at hop
  have hpos : 0 < demoDimer.list.length := by rw [list_length]; simp [demoDimer]
  have e : (!![1, 0; 0, 0]ᴴ * x).trace • (!![1, 0; 0, 0] : Matrix (Fin 2) (Fin 2) ℂ) = !![x 0 0, 0; 0, 0] := by
    ext i j
    fin_cases i <;> fin_cases j <;>
      simp [Matrix.trace_fin_two, Matrix.mul_apply, Fin.sum_univ_two, Matrix.vecMul, dotProduct]
  cases left
  · rw [C44_operator_right 0 _ _ rfl hpos _ _ true op hop, if_pos rfl, demoDimer_block, e]
    simp
  · rw [C44_operator_left 0 _ _ rfl hpos _ _ true op hop, if_pos rfl, demoDimer_blockL, e]
    simp

theorem demoDimer_herm (k : ℕ) : (demoDimer.l k)ᴴ = demoDimer.l k ∧ (demoDimer.r k)ᴴ = demoDimer.r k := by
  by_cases hk : k = 0
  · constructor <;> ext i j <;> fin_cases i <;> fin_cases j <;> simp [demoDimer, hk, Complex.conj_ofNat]
  · constructor <;> ext i j <;> fin_cases i <;> fin_cases j <;> simp [demoDimer, hk]

/-- The hypotheses of `C48_K` and `C48_left_end` hold for blocks of two entangled sites. -/
example : ∃ S', demoDimerK.calcC.calcK (fun _ b _ => (b, 0)) 0 = some S' ∧
    KRight 2 demoDimer.A demoDimer.l demoDimer.r 2 demoDimerK.ham.op S'.K := by
  obtain ⟨S', h1, -, -, -, -, -, -, -, h2⟩ := C48_K demoDimerK (by simp [demoDimerK, demoDimer]) demoDimer_env _ _
    (demoDimer_exact _ rfl rfl rfl rfl _)
  exact ⟨S', h1, h2⟩

/-- **C48**, violated: with exact solvers and valid, Hermitian environments, `calc_K_l` after `calc_K` does not return
matrices obeying the recursion of the left matrices. -/
theorem C48_left_violated :
    ∃ (S S1 S2 : UTDVP 2 2) (solver : Solver 2) (h : ℂ),
      ChainEnv S.L S.A S.l S.r ∧ (∀ k, (S.l k)ᴴ = S.l k) ∧ (∀ k, (S.r k)ᴴ = S.r k) ∧
      (∀ left, ExactSolver S solver 0 left) ∧ (∀ left, ExactSolver S1 solver 0 left) ∧
      S.calcC.calcK solver 0 = some S1 ∧ S1.calcC.calcKl solver 0 = some (S2, h) ∧
      ¬ ∃ K, (∀ k < S.L, S2.Kl k = some (K k)) ∧ KLeft S.L S.A S.l S.r S.ham.sites S.ham.op K := by
  obtain ⟨S1, h1, gL, gA, gl, gr, gham, -, -, hK⟩ := C48_K demoDimerK (by simp [demoDimerK, demoDimer]) demoDimer_env
    (fun _ b _ => (b, 0)) 0 (demoDimer_exact _ rfl rfl rfl rfl _)
  have ex1 : ∀ left, ExactSolver S1 (fun _ b _ => (b, 0)) 0 left :=
    fun left => demoDimer_exact S1 gL gA gl gr left
  have E1 : ChainEnv S1.L S1.A S1.l S1.r := by rw [gL, gA, gl, gr]; exact demoDimer_env
  obtain ⟨S2, h, K1, h2, -, -, -, -, -, -, -, h3, -, -, h4⟩ := C48_left_end S1 (by rw [gL]; simp [demoDimerK, demoDimer]) E1
    (fun k _ => by rw [gl]; exact (demoDimer_herm k).1) (fun k _ => by rw [gr]; exact (demoDimer_herm k).2)
    (fun _ b _ => (b, 0)) 0 (ex1 _)
  refine ⟨demoDimerK, S1, S2, fun _ b _ => (b, 0), h, demoDimer_env, fun k => (demoDimer_herm k).1,
    fun k => (demoDimer_herm k).2, fun left => demoDimer_exact _ rfl rfl rfl rfl left, ex1, h1, h2, ?_⟩
  rintro ⟨K, hK2, hKL⟩
  have eL : demoDimerK.L = 2 := rfl
  -- the right matrix K 1
  have hr1 : S1.K 1 0 0 = -(16 / 25) := by
    have hs := hK.step 1 (by rw [eL]; omega)
    have ho := hK.orth 0 (by rw [eL]; omega)
    have hK0 : S1.K 0 0 0 = 0 := by
      have : demoDimerK.l ((0 + demoDimerK.L - 1) % demoDimerK.L) = !![1, 0; 0, 0] := by
        simp [demoDimerK, demoDimer]
      rw [this] at ho
      simpa [Matrix.trace_fin_two, Matrix.mul_apply, Fin.sum_univ_two, Matrix.vecMul, dotProduct] using ho
    have hmap := demoDimer_map1 (S1.K 0)
    rw [hK0] at hmap
    have e1 : (∑ s, demoDimerK.A 1 s * S1.K ((1 + 1) % demoDimerK.L) * (demoDimerK.A 1 s)ᴴ) = !![0, 0; 0, 0] := hmap
    rw [e1] at hs
    have et : termRight demoDimerK.L demoDimerK.A demoDimerK.r 1 demoDimerK.ham.sites demoDimerK.ham.op
        = !![0, 0; 0, 1] := by
      show termRight 2 demoDimer.A demoDimer.r 1 2 _ = _
      simp only [termRight, sum_fin2, chainProd_two]
      ext i j
      fin_cases i <;> fin_cases j <;>
        simp [demoDimerK, demoDimer, UHam.op, Fin.sum_univ_two, Matrix.mul_apply, Matrix.vecMul, dotProduct,
          Complex.conj_ofNat]
      norm_num
    have ee : chainExpect demoDimerK.L demoDimerK.A demoDimerK.l demoDimerK.r 1 demoDimerK.ham.sites demoDimerK.ham.op
        = 16 / 25 := by
      show chainExpect 2 demoDimer.A demoDimer.l demoDimer.r 1 2 _ = _
      simp only [chainExpect, sum_fin2, chainProd_two]
      simp [demoDimerK, demoDimer, UHam.op, Matrix.trace, Fin.sum_univ_two, Matrix.mul_apply, Matrix.vecMul, dotProduct,
          Complex.conj_ofNat]
      norm_num
    have er : demoDimerK.r ((1 + demoDimerK.L - 1) % demoDimerK.L) = !![1, 0; 0, 1] := by
      simp [demoDimerK, demoDimer]
    rw [et, ee, er] at hs
    rw [hs]
    simp
  -- the two formulas for the left matrix 0
  have hcode := h4 0 (by rw [gL]; simp [demoDimerK, demoDimer])
  have hspec := hKL.step 0 (by rw [eL]; omega)
  rw [hK2 0 (by rw [eL]; omega)] at hcode
  have hcode := Option.some.inj hcode
  have hcode : K 0 = (∑ s, (demoDimerK.A 0 s)ᴴ * S1.K ((0 + demoDimerK.L - 1) % demoDimerK.L) * demoDimerK.A 0 s)
      + termLeft demoDimerK.L demoDimerK.A demoDimerK.l (0 + 1 + demoDimerK.ham.sites * demoDimerK.L - demoDimerK.ham.sites)
        demoDimerK.ham.sites demoDimerK.ham.op
      - chainExpect demoDimerK.L demoDimerK.A demoDimerK.l demoDimerK.r
        (0 + 1 + demoDimerK.ham.sites * demoDimerK.L - demoDimerK.ham.sites) demoDimerK.ham.sites demoDimerK.ham.op
          • demoDimerK.l 0 := by
    rw [gL, gA, gl, gr, gham] at hcode
    exact hcode
  rw [hspec, sub_left_inj, add_left_inj] at hcode
  have h5 : !![9/25 * K 1 0 0, 0; 0, 16/25 * K 1 0 0] = !![9/25 * S1.K 1 0 0, 0; 0, 16/25 * S1.K 1 0 0] := by
    rw [← demoDimer_mapL0, ← demoDimer_mapL0]; exact hcode
  have h6 := congrFun (congrFun h5 0) 0
  have ho := hKL.orth 1 (by rw [eL]; omega)
  have hK10 : K 1 0 0 = 0 := by
    have : demoDimerK.r 1 = !![1, 0; 0, 0] := by simp [demoDimerK, demoDimer]
    rw [this] at ho
    simpa [Matrix.trace_fin_two, Matrix.mul_apply, Fin.sum_univ_two, Matrix.vecMul, dotProduct] using ho
  rw [hK10, hr1] at h6
  simp at h6

/-- A chain with one-site blocks, `demoDecay`, and a two-site Hamiltonian. -/
noncomputable def demoDecayK (h : Fin 2 → Fin 2 → Fin 2 → Fin 2 → ℂ) : UTDVP 2 2 where
  L := 1
  A := fun _ => demoDecay
  AA := 0
  l := fun _ => !![1, 0; 0, 0]
  r := fun _ => !![1, 0; 0, 0]
  lL := 1
  rL := 1
  ham := .two h
  AAA := 0
  C2 := 0
  C3 := 0
  K := 1
  K0init := none
  Kl := fun _ => none
  hExpect := 0

/-- The hypotheses of `C48_left_partial`, for every Hamiltonian. -/
example (h : Fin 2 → Fin 2 → Fin 2 → Fin 2 → ℂ) : ∃ S' h' K1,
    (demoDecayK h).calcC.calcKl (fun _ b _ => (ravel (Matrix.of fun i j : Fin 2 =>
      (reshape b : Matrix (Fin 2) (Fin 2) ℂ) i j * (if i = 0 then (if j = 0 then 1 else 2) else (if j = 0 then 2 else 4 / 3))), 0)) 0
        = some (S', h') ∧ S'.Kl 0 = some K1 := by
  have hH : (!![1, 0; 0, 0] : Matrix (Fin 2) (Fin 2) ℂ)ᴴ = !![1, 0; 0, 0] := by
    ext i j
    fin_cases i <;> fin_cases j <;> simp
  have F := demoDecay_fixed
  have hR := F.right
  have hL := F.left
  have hE : ChainEnv (demoDecayK h).L (demoDecayK h).A (demoDecayK h).l (demoDecayK h).r := by
    refine ⟨fun k hk => ?_, fun k hk => ?_, fun k hk => F.norm⟩
    · have e : blockMapL [demoDecay] [demoDecay] !![1, 0; 0, 0] = ∑ s, (demoDecay s)ᴴ * !![1, 0; 0, 0] * demoDecay s := by
        show chainTransferL 1 1 _ _ 0 1 _ = _
        rw [chainTransferL_one, epsL_eq]
        rfl
      rw [hL] at e
      exact e
    · have e : blockMap [demoDecay] [demoDecay] !![1, 0; 0, 0] = ∑ s, demoDecay s * !![1, 0; 0, 0] * (demoDecay s)ᴴ := by
        show chainTransfer 1 1 _ _ 0 1 _ = _
        rw [chainTransfer_one, epsR_eq]
        rfl
      rw [hR] at e
      exact e
  have hX : ExactSolver (demoDecayK h) (fun _ b _ => (ravel (Matrix.of fun i j : Fin 2 =>
      (reshape b : Matrix (Fin 2) (Fin 2) ℂ) i j
      * (if i = 0 then (if j = 0 then 1 else 2) else (if j = 0 then 2 else 4 / 3))), 0)) 0 true := by
    intro op x x0 hop
    have hop : PinvOp.new 0 [demoDecay] [demoDecay] (some !![1, 0; 0, 0]) (some !![1, 0; 0, 0]) true true = some op := hop
    simp only [reshape_ravel_pinv]
    rw [C44_operator_left 0 _ _ rfl F.pos _ _ true op hop, if_pos rfl, demoDecay_mapL]
    congr 2
    ext i j
    fin_cases i <;> fin_cases j <;>
      simp [Matrix.trace_fin_two, Matrix.mul_apply, Fin.sum_univ_two, Matrix.vecMul, dotProduct] <;> ring
  obtain ⟨S', h', K1, h1, h2, -⟩ := C48_left_partial (demoDecayK h) rfl hE hH hH _ 0 hX
  exact ⟨S', h', K1, h1, h2⟩

/-! ## The Hamiltonian's number of sites, and its expectation values -/

/-- **C48**, violated: for a Hamiltonian given as a function the constructor ignores the argument `ham_sites` and
always uses two sites; for an array the number of its axes decides, whatever the argument. -/
theorem C48_ham_sites_violated (hamSites : Option ℕ) :
    newHamSites .callable hamSites = some 2 ∧ ∀ ndim, newHamSites (.array ndim) hamSites = setHamSites (.array ndim) none := by
  refine ⟨?_, fun _ => rfl⟩
  simp [newHamSites, setHamSites]

/-- **C48.** `set_ham` itself respects the argument and rejects everything but two and three sites. -/
theorem C48_set_ham (ham : HamArg) (n : ℕ) : setHamSites ham (some n) = if n = 2 ∨ n = 3 then some n else none := by
  by_cases h : n = 2 ∨ n = 3
  · simp [setHamSites, h]
  · simp [setHamSites, h]

/-- **C47.** The expectation value of the Hamiltonian itself, `expect_2s(self.ham, k)` and `expect_3s(self.ham, k)`: after
`calc_C` it is the energy of the term starting at site `k`, for every block length (the general `expect_2s` is
wrong for longer blocks, `C47_expect_2s_violated`). -/
theorem C47_expect_ham (S : UTDVP q D) (k : ℕ) (hk : k < S.L) (op : Fin q → Fin q → Fin q → Fin q → ℂ)
    (op3 : Fin q → Fin q → Fin q → Fin q → Fin q → Fin q → ℂ) (callable : Bool) :
    (S.ham.sites = 2 → S.calcC.expect2s op true k = some (chainExpect S.L S.A S.l S.r k S.ham.sites S.ham.op)) ∧
    (S.ham.sites = 3 → S.calcC.expect3s op3 true callable k
      = some (chainExpect S.L S.A S.l S.r k S.ham.sites S.ham.op)) := by
  obtain ⟨fL, fA, fl, fr, fham, -⟩ := calcC_fields S
  have hL : 0 < S.L := by omega
  have h := calcC_Hrk S k hk
  have he : adot (S.calcC.l (pmod ((k : ℤ) - 1) S.calcC.L)) (S.calcC.Hrk k)
      = chainExpect S.L S.A S.l S.r k S.ham.sites S.ham.op := by
    rw [h, fl, fL, pmod_pred hL, adot_termRight]
  constructor
  · intro h2
    rw [UTDVP.expect2s, if_pos ⟨rfl, by rw [fham]; exact h2⟩, if_neg (by rw [fL]; omega), ← he]
    unfold UTDVP.Hrk
    rw [fham]
    cases hS : S.ham with
    | two o => rfl
    | three o => rw [hS] at h2; simp [UHam.sites] at h2
  · intro h3
    rw [UTDVP.expect3s, if_pos ⟨rfl, by rw [fham]; exact h3⟩, if_neg (by rw [fL]; omega), ← he]
    unfold UTDVP.Hrk
    rw [fham]
    cases hS : S.ham with
    | two o => rw [hS] at h3; simp [UHam.sites] at h3
    | three o => rfl

/-- **C47, C48.** `h_expect` is the average of the values of `expect_2s(self.ham, k)` over the block. -/
theorem C48_average (S : UTDVP q D) (hL : 0 < S.L) (h2 : S.ham.sites = 2) (E : ChainEnv S.L S.A S.l S.r) (solver : Solver D)
    (junk : Matrix (Fin D) (Fin D) ℂ) (hs : ExactSolver S solver junk false) (op : Fin q → Fin q → Fin q → Fin q → ℂ) :
    ∃ S', S.calcC.calcK solver junk = some S' ∧ ∃ e : ℕ → ℂ, (∀ k < S.L, S.calcC.expect2s op true k = some (e k)) ∧
      S'.hExpect = (∑ k ∈ Finset.range S.L, e k) / S.L := by
  obtain ⟨S', h1, -, -, -, -, -, -, h3, -⟩ := C48_K S hL E solver junk hs
  exact ⟨S', h1, _, fun k hk => (C47_expect_ham S k hk op 0 false).1 h2, h3⟩

end EvoMPS
