import Verif.SwGrowLemmas
import Verif.Props.SwGrad

/-!
# C67: growing the window of a sandwich state

`grow_left(m)`, `grow_right(m)` (tdvp_sandwich.py:904-913) followed by `update(restore_CF=False, normalize=False)`.
-/

namespace EvoMPS

open Matrix Uni

variable {q D : ℕ}

theorem siteProd_shift (site : ℤ → Fin q → Matrix (Fin D) (Fin D) ℂ) (M n : ℤ) (k : ℕ) (s : Fin k → Fin q) :
    siteProd (fun n => site (n - M)) n k s = siteProd site (n - M) k s := by
  have e : ∀ i : Fin k, n + (i : ℕ) - M = n - M + (i : ℕ) := fun i => by ring
  simp only [siteProd, e]

theorem termEnergy_shift (site : ℤ → Fin q → Matrix (Fin D) (Fin D) ℂ) (l r : ℤ → Matrix (Fin D) (Fin D) ℂ) (M n : ℤ) (k : ℕ)
    (O : (Fin k → Fin q) → (Fin k → Fin q) → ℂ) :
    termEnergy (fun n => site (n - M)) (fun n => l (n - M)) (fun n => r (n - M)) n k O = termEnergy site l r (n - M) k O := by
  simp only [termEnergy, siteProd_shift]
  rw [show n - 1 - M = n - M - 1 by ring, show n + k - 1 - M = n - M + k - 1 by ring]

/-- **C67**, `grow_left`.  The full statement has no hypothesis on the right environments of the right bulk, and terms on any number of sites: after
`grow_left(m)` and an update the state is the same, with the sites renumbered by `m L`, so that the excess energy is unchanged and the
energies of the terms are shifted.  The code does not achieve it: see `C67_end_violated`, `C67_three_violated`. -/
theorem C67_grow_left_partial (S : SwT q D) (H : ℤ → UHam q) (site : ℤ → Ten ℂ q D D) (l r : ℤ → Matrix (Fin D) (Fin D) ℂ)
    (h : SwReady S H site l r) (h2 : S.hamSites = 2) (hl : List (UHam q)) (hham : S.ham = .list hl)
    (hrr : S.uniR.r 0 = S.uniR.r (S.uniR.L - 1)) (m : ℕ)
    (sL sR : Solver D) (jL jR : Matrix (Fin D) (Fin D) ℂ) (hsL : ExactSolver S.uniL sL jL true)
    (hsR : ExactSolver S.uniR sR jR false)
    (mixL : BlockMixing S.uniL.L S.uniL.A (S.uniL.l (S.uniL.L - 1)) (S.uniL.r (S.uniL.L - 1)))
    (mixR : BlockMixing S.uniR.L S.uniR.A (S.uniR.l (S.uniR.L - 1)) (S.uniR.r (S.uniR.L - 1))) :
    ∃ T T', (S.calcC.bind fun S => S.calcK sL sR jL jR) = some T ∧ (S.growLeft m).updatePlain sL sR jL jR = some T' ∧
      T'.N = S.N + m * S.uniL.L ∧ T'.dH = T.dH ∧
      (∀ n ≤ S.N, T'.hExpect (n + m * S.uniL.L) = T.hExpect n) ∧
      (∀ n < m * S.uniL.L, T'.hExpect n
        = termEnergy site l r (n - (m * S.uniL.L : ℕ)) S.uniL.ham.sites S.uniL.ham.op) ∧
      SwReady (S.growLeft m).calcL.calcR (fun n => H (n - (m * S.uniL.L : ℕ))) (fun n => site (n - (m * S.uniL.L : ℕ)))
        (fun n => l (n - (m * S.uniL.L : ℕ))) (fun n => r (n - (m * S.uniL.L : ℕ))) := by
  have h' := growLeft_ready h h2 hham hrr m
  obtain ⟨T, hT, lim⟩ := C65_energy S H site l r h sL sR jL jR hsL hsR mixL mixR
  obtain ⟨T', hT', lim'⟩ := C65_energy _ _ _ _ _ h' sL sR jL jR hsL hsR mixL mixR
  obtain ⟨T1, hT1, loc⟩ := C65_local S H site l r h h2 sL sR jL jR hsL hsR
  obtain rfl := Option.some.inj (hT.symm.trans hT1)
  obtain ⟨T1, hT1, loc'⟩ := C65_local _ _ _ _ _ h' h2 sL sR jL jR hsL hsR
  obtain rfl := Option.some.inj (hT'.symm.trans hT1)
  obtain ⟨T1, hT1, o⟩ := sw_calcK h' sL sR jL jR hsL hsR
  obtain rfl := Option.some.inj (hT'.symm.trans hT1)
  refine ⟨T, T', hT, hT', o.frame.1, ?_, fun n hn => ?_, fun n hn => ?_, h'⟩
  · refine tendsto_nhds_unique lim' ?_
    have sh : Filter.Tendsto (fun p : ℕ × ℕ => (p.1 + m, p.2)) (Filter.atTop ×ˢ Filter.atTop) (Filter.atTop ×ˢ Filter.atTop) :=
      ((Filter.tendsto_add_atTop_nat m).comp Filter.tendsto_fst).prodMk Filter.tendsto_snd
    refine (lim.comp sh).congr fun p => ?_
    simp only [Function.comp, termEnergy_shift]
    have eN : (S.growLeft m).calcL.calcR.N = S.N + m * S.uniL.L := rfl
    have es : (S.growLeft m).calcL.calcR.hamSites = S.hamSites := rfl
    have eL : (S.growLeft m).calcL.calcR.uniL = S.uniL := rfl
    have eR : (S.growLeft m).calcL.calcR.uniR = S.uniR := rfl
    rw [eN, es, eL, eR, h2]
    have c1 : (p.1 + m) * S.uniL.L + (S.N + 2 - 1) = p.1 * S.uniL.L + (S.N + m * S.uniL.L + 2 - 1) := by
      rw [Nat.add_mul]; omega
    rw [c1]
    congr 2
    refine Finset.sum_congr rfl fun i _ => ?_
    have c2 : (2 : ℤ) - (2 : ℕ) - ((p.1 + m : ℕ) : ℤ) * S.uniL.L + i
        = 2 - (2 : ℕ) - (p.1 : ℤ) * S.uniL.L + i - (m * S.uniL.L : ℕ) := by push_cast; ring
    rw [c2]
  · rw [loc' (n + m * S.uniL.L) (Nat.add_le_add_right hn _), loc n hn, termEnergy_shift]
    rw [show ((n + m * S.uniL.L : ℕ) : ℤ) - (m * S.uniL.L : ℕ) = n by push_cast; ring]
  · rw [loc' n (by show n ≤ S.N + m * S.uniL.L; omega), termEnergy_shift, h.hamL _ (by omega)]

/-- **C67**, `grow_right`.  The full statement is like that of `C67_grow_left_partial`, without renumbering of the sites, and the excess
energy is unchanged.  It is unchanged here if the bulks have the same energy per site: the energy per site of the left bulk is subtracted
for all sites of the window. -/
theorem C67_grow_right_partial (S : SwT q D) (H : ℤ → UHam q) (site : ℤ → Ten ℂ q D D) (l r : ℤ → Matrix (Fin D) (Fin D) ℂ)
    (h : SwReady S H site l r) (h2 : S.hamSites = 2) (hl : List (UHam q)) (hham : S.ham = .list hl) (hlen : hl.length = S.N + 1)
    (hrr : S.uniR.r 0 = S.uniR.r (S.uniR.L - 1)) (m : ℕ) (hm : 0 < m)
    (sL sR : Solver D) (jL jR : Matrix (Fin D) (Fin D) ℂ) (hsL : ExactSolver S.uniL sL jL true)
    (hsR : ExactSolver S.uniR sR jR false)
    (mixL : BlockMixing S.uniL.L S.uniL.A (S.uniL.l (S.uniL.L - 1)) (S.uniL.r (S.uniL.L - 1)))
    (mixR : BlockMixing S.uniR.L S.uniR.A (S.uniR.l (S.uniR.L - 1)) (S.uniR.r (S.uniR.L - 1))) :
    ∃ T T' G, (S.calcC.bind fun S => S.calcK sL sR jL jR) = some T ∧ S.growRight m = some G ∧ G.updatePlain sL sR jL jR = some T' ∧
      T'.N = S.N + m * S.uniR.L ∧
      T'.dH = T.dH + ((m * S.uniR.L : ℕ) : ℂ) * ((∑ k ∈ Finset.range S.uniR.L,
            chainExpect S.uniR.L S.uniR.A S.uniR.l S.uniR.r k S.uniR.ham.sites S.uniR.ham.op) / S.uniR.L
          - (∑ k ∈ Finset.range S.uniL.L,
            chainExpect S.uniL.L S.uniL.A S.uniL.l S.uniL.r k S.uniL.ham.sites S.uniL.ham.op) / S.uniL.L) ∧
      (∀ n ≤ S.N, T'.hExpect n = T.hExpect n) ∧
      (∀ n, S.N < n → n ≤ S.N + m * S.uniR.L → T'.hExpect n = termEnergy site l r n S.uniR.ham.sites S.uniR.ham.op) ∧
      SwReady G.calcL.calcR H site l r := by
  obtain ⟨G, hG, gN, gL, gR, gs, h'⟩ := growRight_ready h h2 hham hlen hrr hm
  obtain ⟨T, hT, lim⟩ := C65_energy S H site l r h sL sR jL jR hsL hsR mixL mixR
  have eN : G.calcL.calcR.N = S.N + m * S.uniR.L := gN
  have es : G.calcL.calcR.hamSites = S.hamSites := gs
  have eL : G.calcL.calcR.uniL = S.uniL := gL
  have eR : G.calcL.calcR.uniR = S.uniR := gR
  have hsL' : ExactSolver G.calcL.calcR.uniL sL jL true := by rw [eL]; exact hsL
  have hsR' : ExactSolver G.calcL.calcR.uniR sR jR false := by rw [eR]; exact hsR
  obtain ⟨T', hT', lim'⟩ := C65_energy _ _ _ _ _ h' sL sR jL jR hsL' hsR' (by rw [eL]; exact mixL) (by rw [eR]; exact mixR)
  obtain ⟨T1, hT1, loc⟩ := C65_local S H site l r h h2 sL sR jL jR hsL hsR
  obtain rfl := Option.some.inj (hT.symm.trans hT1)
  obtain ⟨T1, hT1, loc'⟩ := C65_local _ _ _ _ _ h' (es.trans h2) sL sR jL jR hsL' hsR'
  obtain rfl := Option.some.inj (hT'.symm.trans hT1)
  obtain ⟨T1, hT1, o⟩ := sw_calcK h' sL sR jL jR hsL' hsR'
  obtain rfl := Option.some.inj (hT'.symm.trans hT1)
  refine ⟨T, T', G, hT, hG, hT', o.frame.1.trans eN, ?_, fun n hn => ?_, fun n hn hn' => ?_, h'⟩
  · refine tendsto_nhds_unique lim' ?_
    have sh : Filter.Tendsto (fun p : ℕ × ℕ => (p.1, p.2 + m)) (Filter.atTop ×ˢ Filter.atTop) (Filter.atTop ×ˢ Filter.atTop) :=
      Filter.tendsto_fst.prodMk ((Filter.tendsto_add_atTop_nat m).comp Filter.tendsto_snd)
    refine ((lim.comp sh).add tendsto_const_nhds).congr fun p => ?_
    simp only [Function.comp]
    rw [eN, es, eL, eR, h2]
    generalize (∑ k ∈ Finset.range S.uniL.L,
      chainExpect S.uniL.L S.uniL.A S.uniL.l S.uniL.r k S.uniL.ham.sites S.uniL.ham.op) / (S.uniL.L : ℂ) = eL'
    generalize (∑ k ∈ Finset.range S.uniR.L,
      chainExpect S.uniR.L S.uniR.A S.uniR.l S.uniR.r k S.uniR.ham.sites S.uniR.ham.op) / (S.uniR.L : ℂ) = eR'
    have c1 : p.1 * S.uniL.L + (S.N + 2 - 1) + (p.2 + m) * S.uniR.L
        = p.1 * S.uniL.L + (S.N + m * S.uniR.L + 2 - 1) + p.2 * S.uniR.L := by rw [Nat.add_mul]; omega
    rw [c1, show S.N + 2 - 1 = S.N + 1 by omega, show S.N + m * S.uniR.L + 2 - 1 = S.N + m * S.uniR.L + 1 by omega]
    push_cast
    ring
  · rw [loc' n (by rw [eN]; omega), loc n hn]
  · rw [loc' n (by rw [eN]; exact hn'), h.hamR _ (by omega)]

/-- **C67**: `grow_right(0)` raises an exception, while `grow_left(0)` does nothing to the tensors. -/
theorem C67_zero (S : SwT q D) : S.growRight 0 = none ∧ (S.growLeft 0).N = S.N ∧ ∀ n, 1 ≤ n → (S.growLeft 0).A n = S.A n := by
  refine ⟨by simp [SwT.growRight], by simp [SwT.growLeft, SwT.initArrays], fun n hn => ?_⟩
  simp only [SwT.growLeft, Nat.zero_mul]
  rw [if_neg (by omega), Nat.sub_zero]

/-- **C67**, the arrays before the next update: the environments at the two ends of the window are those of before, at the new ends,
and `grow_right` leaves the centre where it is. -/
theorem C67_ends (S : SwT q D) (m : ℕ) :
    (S.growLeft m).l 0 = S.l 0 ∧ (S.growLeft m).r (S.N + m * S.uniL.L) = S.r S.N ∧
      (S.growLeft m).r (S.N + m * S.uniL.L + 1) = S.r S.N ∧
      (∀ G, S.growRight m = some G → G.l 0 = S.l 0 ∧ G.r (S.N + m * S.uniR.L) = S.r S.N ∧ G.r (S.N + m * S.uniR.L + 1) = S.r S.N ∧
        G.nc = S.nc ∧ G.N = S.N + m * S.uniR.L) := by
  refine ⟨by simp [SwT.growLeft], by simp [SwT.growLeft, SwT.initArrays], by simp [SwT.growLeft, SwT.initArrays], fun G hG => ?_⟩
  unfold SwT.growRight at hG
  simp only [] at hG
  split at hG
  · cases hG
  · cases hG
    simp [SwT.initArrays]

/-- **C67**, violated: the centre moves by `m` sites where the sites are renumbered by `m L`, so that for blocks of two or more
sites the tensor at the centre is another one. -/
theorem C67_centre_violated (S : SwT q D) (m : ℕ) (hm : 0 < m) (hL : 2 ≤ S.uniL.L) :
    (S.growLeft m).N = S.N + m * S.uniL.L ∧ (S.growLeft m).nc < S.nc + m * S.uniL.L := by
  refine ⟨rfl, ?_⟩
  show S.nc + m < _
  have : m * 2 ≤ m * S.uniL.L := Nat.mul_le_mul_left m hL
  omega

/-- **C67**, violated: the term of a function keeps its site number when the sites are renumbered, so that the Hamiltonian on the chain is
another one unless the function has the period `m L`. -/
theorem C67_callable_violated (S : SwT q D) (f : ℤ → UHam q) (hf : S.ham = .fn f) (m : ℕ) (n : ℤ)
    (hn : f (n + (m * S.uniL.L : ℕ)) ≠ f n) : (S.growLeft m).hamAt (n + (m * S.uniL.L : ℕ)) ≠ some (f n) := by
  have e : (S.growLeft m).ham = .fn f := by simp only [SwT.growLeft, hf]
  unfold SwT.hamAt
  simp only [e]
  split <;> intro hx <;> obtain ⟨_, -, hx⟩ := Option.map_eq_some_iff.1 hx <;> exact hn hx

/-- **C67**, violated for terms on three sites: the term on the sites `-1, 0, 1` is the last entry of a list with `N + 2` entries, and is found
after `grow_left` and after `grow_right` where it does not belong. -/
theorem C67_three_violated (S G : SwT q D) (hl : List (UHam q)) (x : UHam q) (hham : S.ham = .list (hl ++ [x])) (hlen : hl.length = S.N + 1)
    (m : ℕ) (hm : 0 < m) (hR : 0 < S.uniR.L) (hG : S.growRight m = some G) :
    S.hamAt (-1) = some x ∧ (S.growLeft m).hamAt (-1 + (m * S.uniL.L : ℕ)) = (if m * S.uniL.L = 0 then some x else some S.uniL.ham) ∧
      G.hamAt (-1) = some S.uniR.ham ∧ G.hamAt (S.N + 1) = some x := by
  obtain ⟨T, t0, -, -, -, -, -, -, -, tham⟩ := growRight_eq (S := S) hR hm
  obtain rfl := Option.some.inj (hG.symm.trans t0)
  have hM : 0 < m * S.uniR.L := Nat.mul_pos hm hR
  refine ⟨?_, ?_, ?_, ?_⟩
  · unfold SwT.hamAt
    simp [hham, pyGet]
  · have e1 : (S.growLeft m).ham = .list (List.replicate (m * S.uniL.L) S.uniL.ham ++ (hl ++ [x])) := by
      simp only [SwT.growLeft, hham]
    unfold SwT.hamAt
    simp only [e1]
    split
    · rename_i h0
      rw [h0]
      simp [pyGet]
    · rename_i h0
      rw [pyGet_nat _ _ (by omega), List.getElem?_append_left (by rw [List.length_replicate]; omega), List.getElem?_replicate,
        if_pos (by omega)]
  · unfold SwT.hamAt
    simp only [tham _ hham]
    have : pyGet (hl ++ [x] ++ List.replicate (m * S.uniR.L) S.uniR.ham) (-1)
        = (hl ++ [x] ++ List.replicate (m * S.uniR.L) S.uniR.ham)[(hl ++ [x]).length + (m * S.uniR.L - 1)]? := by
      unfold pyGet
      rw [if_pos (by omega), if_neg (by simp; omega)]
      congr 1
      simp; omega
    rw [this, List.getElem?_append_right (by omega), Nat.add_sub_cancel_left, List.getElem?_replicate, if_pos (by omega)]
  · unfold SwT.hamAt
    simp only [tham _ hham]
    rw [pyGet_nat _ _ (by omega), List.getElem?_append_left (by simp; omega), List.getElem?_append_right (by omega)]
    rw [hlen, show ((S.N : ℤ) + 1).toNat - (S.N + 1) = 0 by omega]
    rfl

/-- What is stored after growing: the last right environment is that of the last site of the window. -/
theorem growLeft_reads {S : SwT q D} {H : ℤ → UHam q} {site : ℤ → Ten ℂ q D D} {l r : ℤ → Matrix (Fin D) (Fin D) ℂ}
    (h : SwReady S H site l r) (h2 : S.hamSites = 2) (m : ℕ) :
    Reads (S.growLeft m).calcL.calcR (fun n => site (n - (m * S.uniL.L : ℕ))) (fun n => l (n - (m * S.uniL.L : ℕ)))
      (Function.update (fun n => r (n - (m * S.uniL.L : ℕ))) ((S.growLeft m).N + 1) (r S.N)) := by
  have c := growLeft_chain h m
  constructor
  · intro n
    unfold SwT.getA
    split
    · rw [c.siteL n (by omega)]; rfl
    · split
      · rename_i hn
        have hn : ((S.growLeft m).N : ℤ) < n := hn
        rw [c.siteR n (by omega)]; rfl
      · rename_i h1 hn
        have hn : ¬ ((S.growLeft m).N : ℤ) < n := hn
        have := c.siteW n.toNat (by omega) (by omega)
        rw [show ((n.toNat : ℕ) : ℤ) = n by omega] at this
        exact this.symm
  · intro n hn
    have hn : n ≤ ((S.growLeft m).N : ℤ) := hn
    unfold SwT.getL
    split
    · have := sw_calcL_spec (S := S.growLeft m) c h.posL n.toNat (by omega)
      rw [show ((n.toNat : ℕ) : ℤ) = n by omega] at this
      exact this
    · rw [if_pos (by omega), c.envL n (by omega)]; rfl
  · intro n hn
    have hn : n ≤ (S.growLeft m).N + 1 := hn
    rcases Nat.le_succ_iff.1 hn with hn | rfl
    · rw [Function.update_of_ne (by omega)]
      exact sw_calcR_spec (S := (S.growLeft m).calcL) c h.posR n hn
    · rw [show (((S.growLeft m).N.succ : ℕ) : ℤ) = (S.growLeft m).N + 1 by push_cast; rfl, Function.update_self, ← h.curR S.N (by omega)]
      refine (sw_calcR_end (S := (S.growLeft m).calcL)).trans ?_
      show (S.growLeft m).r ((S.growLeft m).N + 1) = _
      unfold SwT.growLeft
      simp only []
      exact Function.update_self _ _ _
  · intro h3
    have h3 : S.hamSites = 3 := h3
    omega

/-! ## Cases -/

/-- The hypotheses of `C67_grow_left_partial` hold for a window in an entangled chain with any Hamiltonian with terms on two sites. -/
example (o0 o1 o2 o3 oB : Fin 4 → Fin 4 → Fin 4 → Fin 4 → ℂ) (m : ℕ) (S : SwT 4 2)
    (hS : S = demoSwP 2 [.two o0, .two o1, .two o2, .two o3] (.two oB)) :
    ∃ T T', (S.calcC.bind fun S => S.calcK (fun _ b _ => (b, 0)) (fun _ b _ => (b, 0)) 0 0) = some T ∧
      (S.growLeft m).updatePlain (fun _ b _ => (b, 0)) (fun _ b _ => (b, 0)) 0 0 = some T' ∧ T'.dH = T.dH := by
  subst hS
  obtain ⟨T, T', h1, h2, -, h3, -⟩ := C67_grow_left_partial _ _ _ _ _
    (demoSwP_ready 2 [.two o0, .two o1, .two o2, .two o3] (.two oB) (Or.inl rfl) rfl rfl (by simp [UHam.sites])) rfl _ rfl rfl m
    (fun _ b _ => (b, 0)) (fun _ b _ => (b, 0)) 0 0 (demoPauli4_exactL _) (demoPauli4_exact _)
    (demoPauli4_mixing _) (demoPauli4_mixing _)
  exact ⟨T, T', h1, h2, h3⟩

/-- The same for `C67_grow_right_partial`; the bulks are equal, and the excess energy is unchanged. -/
example (o0 o1 o2 o3 oB : Fin 4 → Fin 4 → Fin 4 → Fin 4 → ℂ) (m : ℕ) (hm : 0 < m) (S : SwT 4 2)
    (hS : S = demoSwP 2 [.two o0, .two o1, .two o2, .two o3] (.two oB)) :
    ∃ T T' G, (S.calcC.bind fun S => S.calcK (fun _ b _ => (b, 0)) (fun _ b _ => (b, 0)) 0 0) = some T ∧
      S.growRight m = some G ∧ G.updatePlain (fun _ b _ => (b, 0)) (fun _ b _ => (b, 0)) 0 0 = some T' ∧ T'.dH = T.dH := by
  subst hS
  obtain ⟨T, T', G, h1, h2, h3, -, h4, -⟩ := C67_grow_right_partial _ _ _ _ _
    (demoSwP_ready 2 [.two o0, .two o1, .two o2, .two o3] (.two oB) (Or.inl rfl) rfl rfl (by simp [UHam.sites])) rfl _ rfl rfl rfl m hm
    (fun _ b _ => (b, 0)) (fun _ b _ => (b, 0)) 0 0 (demoPauli4_exactL _) (demoPauli4_exact _)
    (demoPauli4_mixing _) (demoPauli4_mixing _)
  refine ⟨T, T', G, h1, h2, h3, h4.trans ?_⟩
  rw [show (demoSwP 2 [.two o0, .two o1, .two o2, .two o3] (.two oB)).uniR
    = (demoSwP 2 [.two o0, .two o1, .two o2, .two o3] (.two oB)).uniL from rfl, sub_self, mul_zero, add_zero]

/-- A state with terms on three sites to which `C67_three_violated` applies. -/
example (o0 o1 o2 o3 o4 oB : Fin 4 → Fin 4 → Fin 4 → Fin 4 → Fin 4 → Fin 4 → ℂ) (S : SwT 4 2)
    (hS : S = demoSwP 3 [.three o0, .three o1, .three o2, .three o3, .three o4] (.three oB)) :
    ∃ G, S.growRight 1 = some G ∧ S.hamAt (-1) = some (.three o4) ∧ G.hamAt (-1) = some (.three oB) ∧
      G.hamAt 4 = some (.three o4) := by
  subst hS
  obtain ⟨G, hG, -⟩ := growRight_eq (S := demoSwP 3 [.three o0, .three o1, .three o2, .three o3, .three o4] (.three oB)) one_pos one_pos
  obtain ⟨h1, -, h2, h3⟩ := C67_three_violated _ G [.three o0, .three o1, .three o2, .three o3] (.three o4) rfl rfl 1 one_pos one_pos hG
  exact ⟨G, hG, h1, h2, h3⟩

/-- **C67**, violated for blocks of two sites with different right environments: `r[N+1]` is a copy of `r[N]`, so that the energy of the
last term, here the identity, is wrong. -/
theorem C67_end_violated :
    ∃ (S : SwT 2 2) (H : ℤ → UHam 2) (site : ℤ → Ten ℂ 2 2 2) (l r : ℤ → Matrix (Fin 2) (Fin 2) ℂ) (s : Solver 2) (T T' : SwT 2 2),
      SwReady S H site l r ∧ S.hamSites = 2 ∧ ExactSolver S.uniL s 0 true ∧ ExactSolver S.uniR s 0 false ∧
      (S.calcC.bind fun S => S.calcK s s 0 0) = some T ∧ (S.growLeft 1).updatePlain s s 0 0 = some T' ∧
      T.hExpect S.N = 1 ∧ T'.hExpect T'.N = 9 / 25 := by
  let c : UHam 2 := .two fun s t s' t' => if s = s' ∧ t = t' then 1 else 0
  have hr := demoSwE_ready 2 [c, c, c] c (Or.inl rfl) rfl rfl (by simp [UHam.sites, c])
  have hH : ∀ n, demoSwHam 2 [c, c, c] c n = c := fun n => by
    unfold demoSwHam
    split
    · rename_i hn
      have : n = 0 ∨ n = 1 ∨ n = 2 := by omega
      rcases this with rfl | rfl | rfl <;> rfl
    · rfl
  have hsL := demoDimer_exact (demoDimerH c) rfl rfl rfl rfl true
  have hsR := demoDimer_exact (demoDimerH c) rfl rfl rfl rfl false
  obtain ⟨T, hT, loc⟩ := C65_local _ _ _ _ _ hr rfl (fun _ b _ => (b, 0)) (fun _ b _ => (b, 0)) 0 0 hsL hsR
  have hp := hr.posL
  have rd := growLeft_reads hr rfl 1
  have ch := growLeft_chain hr 1
  obtain ⟨T', hT', o⟩ := sw_calcK_of (S := ((demoSwE 2 [c, c, c] c).growLeft 1).calcL.calcR) (H := fun _ => c) hr.posL hr.posR hr.envL hr.envR
    hr.hermL hr.hermR rd (fun n => hr.chain.herm hr.posL hr.hermL _) ch.siteW (fun _ => rfl) (fun n h1 h2 => by
      have h1 : 2 - ((2 : ℕ) : ℤ) ≤ n := h1
      have h2 : n ≤ 4 := h2
      have : n = 0 ∨ n = 1 ∨ n = 2 ∨ n = 3 ∨ n = 4 := by omega
      rcases this with rfl | rfl | rfl | rfl | rfl <;> rfl) ⟨by decide, by decide⟩
    (fun _ b _ => (b, 0)) (fun _ b _ => (b, 0)) 0 0 hsL hsR
  refine ⟨_, _, _, _, _, _, T, T', hr, rfl, hsL, hsR, hT, hT', ?_, ?_⟩
  · refine (loc 2 le_rfl).trans ?_
    rw [hH]
    show termEnergy _ _ _ 2 2 _ = 1
    simp only [termEnergy, sum_fin2, siteProd_two]
    simp [c, UHam.op, demoSwSite, pmod, demoDimer, Fin.sum_univ_two, Matrix.trace_fin_two, Matrix.vecMul, dotProduct,
      Complex.conj_ofNat]
    norm_num
  · have := o.high 4 (by decide) le_rfl
    rw [o.frame.1]
    refine this.trans ?_
    have s4 : demoSwSite (4 - 2) = demoDimer.A 1 := by rw [demoSwSite, if_neg (by decide)]; rfl
    have s5 : demoSwSite (4 + 1 - 2) = demoDimer.A 0 := by rw [demoSwSite, if_neg (by decide)]; rfl
    have key : ∀ (f : ℤ → Ten ℂ 2 2 2) (l r : ℤ → Matrix (Fin 2) (Fin 2) ℂ), f 4 = demoDimer.A 1 → f (4 + 1) = demoDimer.A 0 →
        l (4 - 1) = demoDimer.l 0 → r (4 + (2 : ℕ) - 1) = demoDimer.r 1 → termEnergy f l r 4 2 c.op = 9 / 25 := by
      intro f l r h1 h2 h3 h4
      simp only [termEnergy, sum_fin2, siteProd_two, h1, h2, h3, h4]
      simp [c, UHam.op, demoDimer, Fin.sum_univ_two, Matrix.trace_fin_two, Matrix.vecMul, dotProduct,
        Complex.conj_ofNat]
      norm_num
    refine key _ _ _ s4 s5 ?_ ?_
    · show demoDimer.l (pmod (4 - 1 - 2 - 1) 2) = _
      rfl
    · show Function.update _ (4 + 1 : ℤ) _ (4 + 1 : ℤ) = _
      rw [Function.update_self]
      rfl

end EvoMPS
