import Verif.UniformBuild
import Verif.UniformTangentSpec

/-!
# C96: uniform chains made from tensors and from chains without a Hamiltonian

`from_tensors(As, ham, ham_sites)` and `from_mps(mps, ham, ham_sites)` should give an object in the state of the block `As` or of `mps`,
with the environments of the latter as starting values of the next search for fixed points, and with terms on `ham_sites` sites; tensors that
do not fit should be rejected.
-/

namespace EvoMPS

open Matrix Uni

variable {q D : ℕ}

namespace Uni

theorem fillTen_same (B : Ten ℂ q D D) : fillTen q D ⟨q, D, D, B⟩ = some B := by
  have h : ((⟨q, D, D, B⟩ : AnyTen ℂ).q = q ∨ (⟨q, D, D, B⟩ : AnyTen ℂ).q = 1) ∧
      ((⟨q, D, D, B⟩ : AnyTen ℂ).a = D ∨ (⟨q, D, D, B⟩ : AnyTen ℂ).a = 1) ∧
      ((⟨q, D, D, B⟩ : AnyTen ℂ).b = D ∨ (⟨q, D, D, B⟩ : AnyTen ℂ).b = 1) := ⟨.inl rfl, .inl rfl, .inl rfl⟩
  have hid : ∀ {m : ℕ} (h : m = m ∨ m = 1) (i : Fin m), repIdx h i = i := by
    intro m h i
    have := i.isLt
    apply Fin.ext
    simp only [repIdx]
    split <;> omega
  unfold fillTen
  rw [dif_pos h]
  congr 1
  funext s
  ext i j
  simp only [Matrix.of_apply, hid]

/-- The chain `from_tensors` fills before its update. -/
theorem chainFromTensors_some {As : List (AnyTen ℂ)} {a : AnyTen ℂ} (hd : As.head? = some a)
    (h : ∀ X ∈ As, (fillTen a.q a.a X).isSome) (upd : ∀ {q D : ℕ}, UMPS ℂ q D → Option (UMPS ℂ q D)) :
    chainFromTensors upd As false
      = some ⟨a.q, a.a, freshChain As.length fun k => ((As[k]?).bind (fillTen a.q a.a)).getD 0⟩ := by
  unfold chainFromTensors
  rw [hd]
  simp only [Option.bind_some]
  rw [if_pos (List.all_eq_true.2 h)]
  rfl

end Uni

/-- **C96** (`from_tensors`).  A list of tensors of the same square shape gives the chain with these tensors, on every site.  With
`do_update` the result is the update of this chain. -/
theorem C96_from_tensors (L : ℕ) (hL : 0 < L) (B : Fin L → Ten ℂ q D D)
    (upd : ∀ {q D : ℕ}, UMPS ℂ q D → Option (UMPS ℂ q D)) :
    ∃ M : UMPS ℂ q D, M.L = L ∧ (∀ k : Fin L, M.A k = B k) ∧
      chainFromTensors upd (List.ofFn fun k => ⟨q, D, D, B k⟩) false = some ⟨q, D, M⟩ ∧
      chainFromTensors upd (List.ofFn fun k => ⟨q, D, D, B k⟩) true = (upd M).map fun M => ⟨q, D, M⟩ := by
  obtain ⟨n, rfl⟩ : ∃ n, L = n + 1 := ⟨L - 1, by omega⟩
  have hd : (List.ofFn fun k => (⟨q, D, D, B k⟩ : AnyTen ℂ)).head? = some ⟨q, D, D, B 0⟩ := by
    simp [List.ofFn_succ]
  have hall : ((List.ofFn fun k => (⟨q, D, D, B k⟩ : AnyTen ℂ)).all fun X => (fillTen q D X).isSome) = true := by
    rw [List.all_eq_true]
    intro X hX
    obtain ⟨k, rfl⟩ := (List.mem_ofFn' _ _).1 hX
    simp only [fillTen_same, Option.isSome_some]
  refine ⟨freshChain (List.ofFn fun k => (⟨q, D, D, B k⟩ : AnyTen ℂ)).length fun k =>
    (((List.ofFn fun k => (⟨q, D, D, B k⟩ : AnyTen ℂ))[k]?).bind (fillTen q D)).getD 0, List.length_ofFn, ?_, ?_, ?_⟩
  · intro k
    show (Option.bind _ _).getD 0 = _
    rw [List.getElem?_ofFn, dif_pos k.isLt]
    simp [fillTen_same]
  · unfold chainFromTensors
    rw [hd]
    simp only [Option.bind_some]
    rw [if_pos hall]
    rfl
  · unfold chainFromTensors
    rw [hd]
    simp only [Option.bind_some]
    rw [if_pos hall]
    rfl

/-- **C96** (`from_tensors`, errors).  An empty list and a list with a tensor one of whose axes has neither the right length nor length one is
rejected, with and without Hamiltonian. -/
theorem C96_raises (As : List (AnyTen ℂ)) (upd : ∀ {q D : ℕ}, UMPS ℂ q D → Option (UMPS ℂ q D))
    (h : As = [] ∨ ∃ a, As.head? = some a ∧ ∃ X ∈ As, (X.q ≠ a.q ∧ X.q ≠ 1) ∨ (X.a ≠ a.a ∧ X.a ≠ 1) ∨ (X.b ≠ a.a ∧ X.b ≠ 1))
    (ham hamSites doUpdate) :
    chainFromTensors upd As doUpdate = none ∧ tdvpFromTensors upd As ham hamSites doUpdate = none := by
  have key : chainFromTensors upd As doUpdate = none := by
    unfold chainFromTensors
    rcases h with rfl | ⟨a, ha, X, hX, hne⟩
    · rfl
    · rw [ha]
      simp only [Option.bind_some]
      rw [if_neg]
      intro hall
      have := List.all_eq_true.1 hall X hX
      unfold fillTen at this
      rw [dif_neg (by tauto)] at this
      simp at this
  exact ⟨key, by unfold tdvpFromTensors; rw [key]; rfl⟩

/-- **C96, violated** (`from_tensors`, shapes).  Tensors whose shapes do not fit together are accepted if the wrong axes have length one: here the
second tensor of the block has no matching left bond. -/
theorem C96_shapes_violated (B : Ten ℂ q D D) (B' : Ten ℂ q 1 D) (upd : ∀ {q D : ℕ}, UMPS ℂ q D → Option (UMPS ℂ q D)) :
    ∃ M : UMPS ℂ q D, chainFromTensors upd [⟨q, D, D, B⟩, ⟨q, 1, D, B'⟩] false = some ⟨q, D, M⟩ ∧ M.L = 2 ∧ M.A 0 = B ∧
      ∀ s i j, M.A 1 s i j = B' s 0 j := by
  have h1 : ∀ X : AnyTen ℂ, X = ⟨q, 1, D, B'⟩ → ∃ F, fillTen q D X = some F ∧ ∀ s i j, F s i j = B' s 0 j := by
    rintro X rfl
    unfold fillTen
    rw [dif_pos ⟨.inl rfl, .inr rfl, .inl rfl⟩]
    refine ⟨_, rfl, fun s i j => ?_⟩
    simp only [Matrix.of_apply]
    congr 1
    · apply Fin.ext
      have := s.isLt
      simp only [repIdx]
      split <;> omega
    · apply Fin.ext
      have := j.isLt
      simp only [repIdx]
      split <;> omega
  obtain ⟨F, hF, hF'⟩ := h1 _ rfl
  have hall : ∀ X ∈ [(⟨q, D, D, B⟩ : AnyTen ℂ), ⟨q, 1, D, B'⟩], (fillTen q D X).isSome := by
    intro X hX
    simp only [List.mem_cons, List.not_mem_nil, or_false] at hX
    rcases hX with rfl | rfl
    · rw [fillTen_same]; rfl
    · rw [hF]; rfl
  refine ⟨_, chainFromTensors_some (a := ⟨q, D, D, B⟩) rfl hall upd, rfl, ?_, ?_⟩
  · show (Option.bind _ _).getD 0 = _
    simp only [List.getElem?_cons_zero, Option.bind_some]
    rw [fillTen_same]
    rfl
  · intro s i j
    show ((Option.bind _ _).getD 0 : Ten ℂ q D D) s i j = _
    simp only [List.getElem?_cons_succ, List.getElem?_cons_zero, Option.bind_some]
    rw [hF]
    exact hF' s i j

/-- **C96** (`from_mps`).  If the Hamiltonian is accepted, the new object has the tensors and the environments of the given one, so every matrix
product and everything computed from tensors and environments is the same.  Missing: the starting values (`C96_guess_violated`)
and the number of sites (`C96_ham_sites_violated`). -/
theorem C96_from_mps_partial (M : UMPS ℂ q D) (ham : HamArg) (hamSites : Option ℕ) (n : ℕ)
    (hn : setHamSites ham none = some n) :
    ∃ T, fromMps M ham hamSites = some (T, n) ∧ T.L = M.L ∧ T.A = M.A ∧ T.AA = M.AA ∧ T.l = M.l ∧ T.r = M.r := by
  have h : ∃ T, fromMps M ham hamSites = some T := ⟨_, by unfold fromMps newHamSites; rw [hn]; rfl⟩
  obtain ⟨T, hT⟩ := h
  have hT' := hT
  unfold fromMps newHamSites at hT'
  simp only [hn, Option.map_some, Option.some.injEq] at hT'
  subst hT'
  exact ⟨_, hT, rfl, rfl, rfl, rfl, rfl⟩

/-- **C96, violated** (`from_mps`, starting values).  The starting value for the left fixed point is the right environment, and the one for the
right fixed point is the matrix of ones, whatever the given chain had. -/
theorem C96_guess_violated (M : UMPS ℂ q D) (ham hamSites T n) (h : fromMps M ham hamSites = some (T, n)) :
    T.lL = M.r (M.L - 1) ∧ (∀ i j, T.rL i j = 1) ∧ (M.l (M.L - 1) ≠ M.r (M.L - 1) → T.lL ≠ T.l (T.L - 1)) := by
  unfold fromMps at h
  simp only [Option.map_eq_some_iff, Prod.mk.injEq] at h
  obtain ⟨n', -, rfl, -⟩ := h
  exact ⟨rfl, fun _ _ => rfl, fun hne he => hne he.symm⟩

/-- **C96, violated** (`ham_sites`).  For a Hamiltonian given as a function, the argument `ham_sites=3` is ignored. -/
theorem C96_ham_sites_violated (M : UMPS ℂ q D) : ∃ T, fromMps M .callable (some 3) = some (T, 2) :=
  let ⟨T, h, _⟩ := C96_from_mps_partial M .callable (some 3) 2 (by simp [setHamSites])
  ⟨T, h⟩

/-- **C96** (`from_tensors` with a Hamiltonian).  Without update, the object made from tensors of the same square shape is in the state of the
block: all products of matrices over any sites are those of the given tensors. -/
theorem C96_tdvp_from_tensors_partial (L : ℕ) (hL : 0 < L) (B : ℕ → Ten ℂ q D D)
    (upd : ∀ {q D : ℕ}, UMPS ℂ q D → Option (UMPS ℂ q D)) (ham : HamArg) (hamSites : Option ℕ) (n : ℕ)
    (hn : setHamSites ham none = some n) :
    ∃ T : UMPS ℂ q D, tdvpFromTensors upd (List.ofFn fun k : Fin L => ⟨q, D, D, B k⟩) ham hamSites false
        = some (⟨q, D, T⟩, n) ∧ T.L = L ∧
      ∀ (c m : ℕ) (s : Fin m → Fin q), lineProd (fun j => T.A (j % T.L)) c m s = lineProd (fun j => B (j % L)) c m s := by
  obtain ⟨M, hML, hMA, h1, -⟩ := C96_from_tensors L hL (fun k => B k) upd
  obtain ⟨T, hT, hTL, hTA, -⟩ := C96_from_mps_partial M ham hamSites n hn
  refine ⟨T, ?_, hTL.trans hML, fun c m s => ?_⟩
  · unfold tdvpFromTensors
    rw [h1]
    simp only [Option.bind_some]
    rw [hT]
    rfl
  · simp only [lineProd]
    congr 2
    funext i
    rw [hTA, hTL, hML]
    exact congrFun (hMA ⟨(c + i) % L, Nat.mod_lt _ hL⟩) (s i)

/-! ## The hypotheses are met -/

namespace Ex96

/-- A block of two sites. -/
def B (k : ℕ) : Ten ℂ 2 2 2 := fun s => if k = 0 then !![1, 2; 0, 1] else if s = 0 then 1 else !![0, 1; 1, 0]

example : ∃ T : UMPS ℂ 2 2, tdvpFromTensors (fun M => some M) (List.ofFn fun k : Fin 2 => ⟨2, 2, 2, B k⟩) (.array 6) none false
    = some (⟨2, 2, T⟩, 3) :=
  let ⟨T, h, _⟩ := C96_tdvp_from_tensors_partial 2 (by norm_num) B (fun M => some M) (.array 6) none 3 (by simp [setHamSites])
  ⟨T, h⟩

example : chainFromTensors (fun M => some M) [⟨2, 2, 2, B 0⟩, ⟨2, 2, 3, 0⟩] true = none :=
  (C96_raises _ (fun M => some M) (.inr ⟨_, rfl, ⟨2, 2, 3, 0⟩, by simp, .inr (.inr ⟨by simp, by simp⟩)⟩) .callable none true).1

/-- A chain with different environments. -/
def M : UMPS ℂ 2 2 := { freshChain 2 B with l := fun _ => 1, r := fun _ => !![2, 0; 0, 1] }

example : ∃ T, fromMps M .callable none = some (T, 2) ∧ T.lL ≠ T.l (T.L - 1) := by
  obtain ⟨T, h, -⟩ := C96_from_mps_partial M .callable none 2 (by simp [setHamSites])
  refine ⟨T, h, (C96_guess_violated M _ _ T 2 h).2.2 fun he => ?_⟩
  have := congrFun (congrFun he 0) 0
  simp [M] at this

end Ex96

end EvoMPS
