import Verif.Gpu
import Verif.ChunksLemmas
import Verif.UniformPinvLemmas

/-!
# Lemmas on the transfer operators on the GPU
-/

set_option linter.unusedSectionVars false

namespace EvoMPS.Gpu

open Matrix EvoMPS.Uni

variable {R : Type*} [CommRing R] [StarRing R] {q D : ℕ}

/-- The memory contains the matrix, row after row. -/
def Holds (b : Buf R) (M : Matrix (Fin D) (Fin D) R) : Prop := ∀ i j : Fin D, b (i.val * D + j.val) = M i j

theorem holds_set (v : Fin (D * D) → R) (old : Buf R) : Holds (setBuf v old) (reshape v : Matrix (Fin D) (Fin D) R) := by
  intro i j
  have h : i.val * D + j.val < D * D := (flat i j).isLt
  simp only [setBuf, dif_pos h, reshape, of_apply]
  rfl

theorem holds_get {b : Buf R} {M : Matrix (Fin D) (Fin D) R} (h : Holds b M) : getBuf (D * D) b = ravel M := by
  funext p
  have := h p.divNat p.modNat
  simp only [ravel, ← this, getBuf]
  congr 1
  have hp : (flat p.divNat p.modNat).val = p.val := by
    rw [flat_eq]
    exact congrArg Fin.val (finProdFinEquiv.apply_symm_apply p)
  exact hp.symm

theorem holds_congr {b b' : Buf R} {M : Matrix (Fin D) (Fin D) R} (h : Holds b M) (e : ∀ p < D * D, b' p = b p) : Holds b' M := by
  intro i j
  have hp : i.val * D + j.val < D * D := (flat i j).isLt
  rw [e _ hp, h i j]

/-! ## Products -/

theorem zgemm_nn {a b : Buf R} {X Y : Matrix (Fin D) (Fin D) R} (ha : Holds a X) (hb : Holds b Y) (c : Buf R) :
    Holds (zgemm false false D D D 1 a 0 D b 0 D 0 c 0 D) (Y * X) := by
  intro i j
  have := zgemm_at false false D D D 1 a 0 D b 0 D 0 c 0 (i := j.val) (j := i.val) j.isLt i.isLt
  rw [Nat.zero_add] at this
  rw [this, Finset.sum_range, Matrix.mul_apply, one_mul, zero_mul, add_zero]
  refine Finset.sum_congr rfl fun l _ => ?_
  simp only [Bool.false_eq_true, if_false, Nat.zero_add]
  rw [Nat.add_comm j.val, Nat.add_comm l.val (i.val * D), ha l j, hb i l, mul_comm]

theorem zgemm_nc {a b : Buf R} {X Y : Matrix (Fin D) (Fin D) R} (ha : Holds a X) (hb : Holds b Y) (c : Buf R) :
    Holds (zgemm false true D D D 1 a 0 D b 0 D 0 c 0 D) (Yᴴ * X) := by
  intro i j
  have := zgemm_at false true D D D 1 a 0 D b 0 D 0 c 0 (i := j.val) (j := i.val) j.isLt i.isLt
  rw [Nat.zero_add] at this
  rw [this, Finset.sum_range, Matrix.mul_apply, one_mul, zero_mul, add_zero]
  refine Finset.sum_congr rfl fun l _ => ?_
  simp only [Bool.false_eq_true, if_false, if_true, Nat.zero_add, conjTranspose_apply]
  rw [Nat.add_comm j.val, Nat.add_comm i.val (l.val * D), ha l j, hb l i, mul_comm]

theorem zgemm_cn {a b : Buf R} {X Y : Matrix (Fin D) (Fin D) R} (ha : Holds a X) (hb : Holds b Y) (c : Buf R) :
    Holds (zgemm true false D D D 1 a 0 D b 0 D 0 c 0 D) (Y * Xᴴ) := by
  intro i j
  have := zgemm_at true false D D D 1 a 0 D b 0 D 0 c 0 (i := j.val) (j := i.val) j.isLt i.isLt
  rw [Nat.zero_add] at this
  rw [this, Finset.sum_range, Matrix.mul_apply, one_mul, zero_mul, add_zero]
  refine Finset.sum_congr rfl fun l _ => ?_
  simp only [Bool.false_eq_true, if_false, if_true, Nat.zero_add, conjTranspose_apply]
  rw [Nat.add_comm l.val (j.val * D), Nat.add_comm l.val (i.val * D), ha j l, hb i l, mul_comm]

/-! ## Streams -/

theorem stream_inv (ops : ℕ → List (Dev R → Dev R)) (P : Dev R × (ℕ → ℕ) → Prop)
    (h : ∀ st s, P st → P (streamStep ops st s)) (sched : List ℕ) (st : Dev R × (ℕ → ℕ)) (h0 : P st) :
    P (sched.foldl (streamStep ops) st) := by
  induction sched generalizing st with
  | nil => exact h0
  | cons s t ih => exact ih _ (h _ _ h0)

theorem stream_pc_mono (ops : ℕ → List (Dev R → Dev R)) (st : Dev R × (ℕ → ℕ)) (s t : ℕ) :
    st.2 t ≤ (streamStep ops st s).2 t := by
  unfold streamStep
  split
  · by_cases h : t = s
    · subst h; simp
    · simp [Function.update_of_ne h]
  · exact le_rfl

theorem stream_pc (ops : ℕ → List (Dev R → Dev R)) (sched : List ℕ) (st : Dev R × (ℕ → ℕ)) (t : ℕ) :
    min (ops t).length (st.2 t + sched.count t) ≤ (sched.foldl (streamStep ops) st).2 t := by
  induction sched generalizing st with
  | nil => simp
  | cons s l ih =>
    refine le_trans ?_ (ih (streamStep ops st s))
    by_cases h : s = t
    · subst h
      rw [List.count_cons_self]
      unfold streamStep
      split
      · simp only [Function.update_self]; omega
      · rename_i hn
        rw [List.getElem?_eq_none_iff] at hn
        omega
    · rw [List.count_cons_of_ne h]
      have := stream_pc_mono ops st s t
      omega

/-- One operation per stream, each writing to its own target and reading nothing the others write. -/
theorem one_phase (op : ℕ → Dev R → Dev R) (t : ℕ → Loc) (ht : Function.Injective t) (m0 : Dev R)
    (T : Fin q → Matrix (Fin D) (Fin D) R)
    (hop : ∀ (s : Fin q) (m : Dev R), (∀ loc, (∀ s, loc ≠ t s) → m loc = m0 loc) →
      Holds (op s m (t s)) (T s) ∧ ∀ loc, loc ≠ t s → op s m loc = m loc)
    (sched : List ℕ) (hs : ∀ s < q, 1 ≤ sched.count s) :
    (∀ loc, (∀ s, loc ≠ t s) → runStreams (fun s => if s < q then [op s] else []) sched m0 loc = m0 loc) ∧
    ∀ s : Fin q, Holds (runStreams (fun s => if s < q then [op s] else []) sched m0 (t s)) (T s) := by
  obtain ⟨k1, k2⟩ := stream_inv (fun s => if s < q then [op s] else [])
    (fun st => (∀ loc, (∀ s, loc ≠ t s) → st.1 loc = m0 loc) ∧ ∀ s : Fin q, 1 ≤ st.2 s → Holds (st.1 (t s)) (T s))
    (by
      rintro ⟨m, pc⟩ s ⟨h1, h2⟩
      unfold streamStep
      split
      · rename_i o ho
        dsimp only at ho h1 h2 ⊢
        by_cases hq : s < q
        · rw [if_pos hq] at ho
          have : o = op s := by
            rcases hpc : pc s with _ | n
            · rw [hpc] at ho; simpa using ho.symm
            · rw [hpc] at ho; simp at ho
          subst this
          obtain ⟨g1, g2⟩ := hop ⟨s, hq⟩ m h1
          refine ⟨fun loc hl => by rw [g2 loc (hl s), h1 loc hl], fun u hu => ?_⟩
          by_cases hus : u.val = s
          · obtain rfl : u = ⟨s, hq⟩ := Fin.ext hus
            exact g1
          · rw [Function.update_of_ne hus] at hu
            rw [g2 _ (fun e => hus (ht e))]
            exact h2 u hu
        · rw [if_neg hq] at ho; simp at ho
      · exact ⟨h1, h2⟩)
    sched (m0, fun _ => 0) ⟨fun _ _ => rfl, fun s hs => by simp at hs⟩
  refine ⟨k1, fun s => k2 s ?_⟩
  have := stream_pc (fun s => if s < q then [op s] else []) sched (m0, fun _ => 0) s.val
  rw [if_pos s.isLt] at this
  have h1 := hs s s.isLt
  simp only [List.length_singleton, Nat.zero_add] at this
  omega

/-- Two operations per stream: the first writes `tmp`, the second `tmp2`. -/
theorem two_ops (op1 op2 : ℕ → Dev R → Dev R) (m0 : Dev R) (T1 T2 : Fin q → Matrix (Fin D) (Fin D) R)
    (hop1 : ∀ (s : Fin q) (m : Dev R), (∀ loc, (∀ s, loc ≠ .tmp s ∧ loc ≠ .tmp2 s) → m loc = m0 loc) →
      Holds (op1 s m (.tmp s)) (T1 s) ∧ ∀ loc, loc ≠ .tmp s → op1 s m loc = m loc)
    (hop2 : ∀ (s : Fin q) (m : Dev R), (∀ loc, (∀ s, loc ≠ .tmp s ∧ loc ≠ .tmp2 s) → m loc = m0 loc) →
      Holds (m (.tmp s)) (T1 s) → Holds (op2 s m (.tmp2 s)) (T2 s) ∧ ∀ loc, loc ≠ .tmp2 s → op2 s m loc = m loc)
    (sched : List ℕ) (hs : ∀ s < q, 2 ≤ sched.count s) :
    (∀ loc, (∀ s, loc ≠ .tmp s ∧ loc ≠ .tmp2 s) →
      runStreams (fun s => if s < q then [op1 s, op2 s] else []) sched m0 loc = m0 loc) ∧
    ∀ s : Fin q, Holds (runStreams (fun s => if s < q then [op1 s, op2 s] else []) sched m0 (.tmp2 s)) (T2 s) := by
  obtain ⟨k1, _, k2⟩ := stream_inv (fun s => if s < q then [op1 s, op2 s] else [])
    (fun st => (∀ loc, (∀ s, loc ≠ .tmp s ∧ loc ≠ .tmp2 s) → st.1 loc = m0 loc) ∧
      (∀ s : Fin q, 1 ≤ st.2 s → Holds (st.1 (.tmp s)) (T1 s)) ∧ ∀ s : Fin q, 2 ≤ st.2 s → Holds (st.1 (.tmp2 s)) (T2 s))
    (by
      rintro ⟨m, pc⟩ s ⟨h1, h2, h3⟩
      unfold streamStep
      split
      · rename_i o ho
        dsimp only at ho h1 h2 h3 ⊢
        by_cases hq : s < q
        · rw [if_pos hq] at ho
          have : (pc s = 0 ∧ o = op1 s) ∨ (pc s = 1 ∧ o = op2 s) := by
            rcases hpc : pc s with _ | _ | n
            · rw [hpc] at ho; left; simpa using ho.symm
            · rw [hpc] at ho; right; simpa using ho.symm
            · rw [hpc] at ho; simp at ho
          rcases this with ⟨hpc, rfl⟩ | ⟨hpc, rfl⟩
          · obtain ⟨g1, g2⟩ := hop1 ⟨s, hq⟩ m h1
            refine ⟨fun loc hl => by rw [g2 loc (hl s).1, h1 loc hl], fun u hu => ?_, fun u hu => ?_⟩
            · by_cases hus : u.val = s
              · obtain rfl : u = ⟨s, hq⟩ := Fin.ext hus
                exact g1
              · rw [Function.update_of_ne hus] at hu
                rw [g2 _ (fun e => hus (by injection e))]
                exact h2 u hu
            · by_cases hus : u.val = s
              · rw [hus, Function.update_self, hpc] at hu; omega
              · rw [Function.update_of_ne hus] at hu
                rw [g2 _ (fun e => by cases e)]
                exact h3 u hu
          · obtain ⟨g1, g2⟩ := hop2 ⟨s, hq⟩ m h1 (h2 ⟨s, hq⟩ (by dsimp only; omega))
            refine ⟨fun loc hl => by rw [g2 loc (hl s).2, h1 loc hl], fun u hu => ?_, fun u hu => ?_⟩
            · rw [g2 _ (fun e => by cases e)]
              by_cases hus : u.val = s
              · exact h2 u (by rw [hus]; omega)
              · rw [Function.update_of_ne hus] at hu
                exact h2 u hu
            · by_cases hus : u.val = s
              · obtain rfl : u = ⟨s, hq⟩ := Fin.ext hus
                exact g1
              · rw [Function.update_of_ne hus] at hu
                rw [g2 _ (fun e => hus (by injection e))]
                exact h3 u hu
        · rw [if_neg hq] at ho; simp at ho
      · exact ⟨h1, h2, h3⟩)
    sched (m0, fun _ => 0) ⟨fun _ _ => rfl, fun s hs => by simp at hs, fun s hs => by simp at hs⟩
  refine ⟨k1, fun s => k2 s ?_⟩
  have := stream_pc (fun s => if s < q then [op1 s, op2 s] else []) sched (m0, fun _ => 0) s.val
  rw [if_pos s.isLt] at this
  have h1 := hs s s.isLt
  simp only [List.length_cons, List.length_nil, Nat.zero_add] at this
  omega

/-! ## The sum over the streams -/

theorem gather_fold (dst : Loc) (hd : ∀ s, dst ≠ .tmp2 s) (n : ℕ) (m : Dev R) :
    (∀ loc, loc ≠ dst → (List.range n).foldl (fun m s => axpy (D * D) 1 (.tmp2 s) dst m) m loc = m loc) ∧
    ∀ p < D * D, (List.range n).foldl (fun m s => axpy (D * D) 1 (.tmp2 s) dst m) m dst p
      = m dst p + ∑ s ∈ Finset.range n, m (.tmp2 s) p := by
  induction n with
  | zero => simp
  | succ n ih =>
    rw [List.range_succ, List.foldl_append, List.foldl_cons, List.foldl_nil]
    obtain ⟨h1, h2⟩ := ih
    refine ⟨fun loc hl => ?_, fun p hp => ?_⟩
    · rw [axpy, Function.update_of_ne hl, h1 loc hl]
    · rw [axpy, Function.update_self, zaxpy, if_pos ⟨Nat.zero_le _, by omega⟩, h2 p hp, h1 _ (fun e => hd n e.symm),
        Finset.sum_range_succ, one_mul, Nat.sub_zero, Nat.zero_add, add_assoc]

theorem gather_spec (dst : Loc) (hd : ∀ s, dst ≠ .tmp2 s) (m : Dev R) (T : Fin q → Matrix (Fin D) (Fin D) R)
    (hT : ∀ s : Fin q, Holds (m (.tmp2 s)) (T s)) :
    Holds (gather q D dst m dst) (∑ s, T s) ∧ ∀ loc, loc ≠ dst → gather q D dst m loc = m loc := by
  obtain ⟨h1, h2⟩ := gather_fold (D := D) dst hd q (Function.update m dst (fillBuf (D * D) 0 (m dst)))
  refine ⟨fun i j => ?_, fun loc hl => ?_⟩
  · have hp : i.val * D + j.val < D * D := (flat i j).isLt
    rw [gather, h2 _ hp, Function.update_self, fillBuf, if_pos hp, zero_add, Finset.sum_range, Matrix.sum_apply]
    refine Finset.sum_congr rfl fun s _ => ?_
    rw [Function.update_of_ne (hd s).symm, hT s i j]
  · rw [gather, h1 loc hl, Function.update_of_ne hl]

/-! ## The maps -/

/-- The tensors and constants are on the device. -/
structure Ready (A1 A2 : List (Ten R q D D)) (useBatch : Bool) (m : Dev R) : Prop where
  t1 : ∀ k T, A1[k]? = some T → ∀ s : Fin q, Holds (m (.A1 k s)) (T s)
  t2 : ∀ k T, A2[k]? = some T → ∀ s : Fin q, Holds (m (.A2 k s)) (T s)
  c : useBatch = false → ∀ s, m (.ones s) 0 = 1 ∧ m (.zeros s) 0 = 0

/-- The buffers for vectors. -/
def IsWork (loc : Loc) : Prop := loc = .xG ∨ loc = .out ∨ loc = .out2

/-- Everything the constructor fills in. -/
def IsConst (loc : Loc) : Prop := ¬ IsWork loc ∧ ∀ s, loc ≠ .tmp s ∧ loc ≠ .tmp2 s

theorem Ready.congr {A1 A2 : List (Ten R q D D)} {useBatch : Bool} {m m' : Dev R} (h : Ready A1 A2 useBatch m)
    (e : ∀ loc, IsConst loc → m' loc = m loc) : Ready A1 A2 useBatch m' := by
  have k : ∀ loc : Loc, (loc ≠ .xG ∧ loc ≠ .out ∧ loc ≠ .out2) → (∀ s, loc ≠ .tmp s ∧ loc ≠ .tmp2 s) → m' loc = m loc :=
    fun loc h1 h2 => e loc ⟨by rintro (h | h | h) <;> simp_all, h2⟩
  refine ⟨fun k' T hT s => ?_, fun k' T hT s => ?_, fun hb s => ?_⟩
  · rw [k _ (by simp) (by simp)]; exact h.t1 k' T hT s
  · rw [k _ (by simp) (by simp)]; exact h.t2 k' T hT s
  · rw [k _ (by simp) (by simp), k (.zeros s) (by simp) (by simp)]; exact h.c hb s

theorem IsWork.ne {loc : Loc} (h : IsWork loc) : (∀ s, loc ≠ .tmp s ∧ loc ≠ .tmp2 s) := by
  rcases h with rfl | rfl | rfl <;> simp

theorem gemmDev_spec {ca cb : Bool} {al a b be c : Loc} {m : Dev R} {Z : Matrix (Fin D) (Fin D) R} (h1 : m al 0 = 1)
    (h2 : m be 0 = 0) (hZ : Holds (zgemm ca cb D D D 1 (m a) 0 D (m b) 0 D 0 (m c) 0 D) Z) :
    Holds (gemmDev D ca cb al a b be c m c) Z ∧ ∀ loc, loc ≠ c → gemmDev D ca cb al a b be c m loc = m loc := by
  refine ⟨?_, fun loc hl => by rw [gemmDev, Function.update_of_ne hl]⟩
  rw [gemmDev, Function.update_self, h1, h2]
  exact hZ

theorem gemm_spec {ca cb : Bool} {a b c : Loc} {m : Dev R} {Z : Matrix (Fin D) (Fin D) R}
    (hZ : Holds (zgemm ca cb D D D 1 (m a) 0 D (m b) 0 D 0 (m c) 0 D) Z) :
    Holds (gemm D ca cb 1 a b 0 c m c) Z ∧ ∀ loc, loc ≠ c → gemm D ca cb 1 a b 0 c m loc = m loc := by
  refine ⟨?_, fun loc hl => by rw [gemm, Function.update_of_ne hl]⟩
  rw [gemm, Function.update_self]
  exact hZ

variable {A1 A2 : List (Ten R q D D)} {T1 T2 : Ten R q D D} {k : ℕ} {src dst : Loc} {m : Dev R}
  {X : Matrix (Fin D) (Fin D) R} {sched : ℕ → List ℕ}

/-- Every stream gets its turn often enough. -/
def Fair (q : ℕ) (sched : ℕ → List ℕ) : Prop := ∀ ph, ∀ s < q, 2 ≤ (sched ph).count s

theorem dev_spec (ca1 cb1 ca2 cb2 : Bool) (Z1 Z2 : Fin q → Matrix (Fin D) (Fin D) R)
    (hr : Ready A1 A2 false m) (hd : IsWork dst) (hsrc : IsWork src)
    (hf : Fair q sched)
    (g1 : ∀ (s : Fin q) (c : Buf R), Holds (zgemm ca1 cb1 D D D 1 (m src) 0 D (m (.A1 k s)) 0 D 0 c 0 D) (Z1 s))
    (g2 : ∀ (s : Fin q) (b c : Buf R), Holds b (Z1 s) →
      Holds (zgemm ca2 cb2 D D D 1 (m (.A2 k s)) 0 D b 0 D 0 c 0 D) (Z2 s)) :
    Holds (gather q D dst (runStreams (fun s => if s < q then
      [gemmDev D ca1 cb1 (.ones s) src (.A1 k s) (.zeros s) (.tmp s),
        gemmDev D ca2 cb2 (.ones s) (.A2 k s) (.tmp s) (.zeros s) (.tmp2 s)] else []) (sched 0) m) dst) (∑ s, Z2 s) ∧
    ∀ loc, loc ≠ dst → (∀ s, loc ≠ .tmp s ∧ loc ≠ .tmp2 s) → gather q D dst (runStreams (fun s => if s < q then
      [gemmDev D ca1 cb1 (.ones s) src (.A1 k s) (.zeros s) (.tmp s),
        gemmDev D ca2 cb2 (.ones s) (.A2 k s) (.tmp s) (.zeros s) (.tmp2 s)] else []) (sched 0) m) loc = m loc := by
  obtain ⟨e1, e2⟩ := two_ops (q := q) (D := D)
    (fun s => gemmDev D ca1 cb1 (.ones s) src (.A1 k s) (.zeros s) (.tmp s))
    (fun s => gemmDev D ca2 cb2 (.ones s) (.A2 k s) (.tmp s) (.zeros s) (.tmp2 s)) m Z1 Z2
    (by
      intro s m' h
      have hc := hr.c rfl s
      refine gemmDev_spec (by rw [h _ (by simp)]; exact hc.1) (by rw [h _ (by simp)]; exact hc.2) ?_
      rw [h src hsrc.ne, h (.A1 k s) (by simp)]
      exact g1 s _)
    (by
      intro s m' h hb
      have hc := hr.c rfl s
      refine gemmDev_spec (by rw [h _ (by simp)]; exact hc.1) (by rw [h _ (by simp)]; exact hc.2) ?_
      rw [h (.A2 k s) (by simp)]
      exact g2 s _ _ hb)
    (sched 0) (hf 0)
  obtain ⟨f1, f2⟩ := gather_spec dst (fun s => (hd.ne s).2) _ Z2 e2
  exact ⟨f1, fun loc h1 h2 => by rw [f2 loc h1, e1 loc h2]⟩

theorem batch_spec (ca1 cb1 ca2 cb2 : Bool) (Z1 Z2 : Fin q → Matrix (Fin D) (Fin D) R)
    (hd : IsWork dst) (hsrc : IsWork src) (hf : Fair q sched)
    (g1 : ∀ (s : Fin q) (c : Buf R), Holds (zgemm ca1 cb1 D D D 1 (m src) 0 D (m (.A1 k s)) 0 D 0 c 0 D) (Z1 s))
    (g2 : ∀ (s : Fin q) (b c : Buf R), Holds b (Z1 s) →
      Holds (zgemm ca2 cb2 D D D 1 (m (.A2 k s)) 0 D b 0 D 0 c 0 D) (Z2 s)) :
    Holds (gather q D dst
      (runStreams (fun s => if s < q then [gemm D ca2 cb2 1 (.A2 k s) (.tmp s) 0 (.tmp2 s)] else []) (sched 1)
      (runStreams (fun s => if s < q then [gemm D ca1 cb1 1 src (.A1 k s) 0 (.tmp s)] else []) (sched 0) m)) dst)
      (∑ s, Z2 s) ∧
    ∀ loc, loc ≠ dst → (∀ s, loc ≠ .tmp s ∧ loc ≠ .tmp2 s) → gather q D dst
      (runStreams (fun s => if s < q then [gemm D ca2 cb2 1 (.A2 k s) (.tmp s) 0 (.tmp2 s)] else []) (sched 1)
      (runStreams (fun s => if s < q then [gemm D ca1 cb1 1 src (.A1 k s) 0 (.tmp s)] else []) (sched 0) m)) loc = m loc := by
  obtain ⟨e1, e2⟩ := one_phase (q := q) (D := D) (fun s => gemm D ca1 cb1 1 src (.A1 k s) 0 (.tmp s)) .tmp
    (fun a b h => by injection h) m Z1
    (by
      intro s m' h
      refine gemm_spec ?_
      rw [h src (fun s => (hsrc.ne s).1), h (.A1 k s) (by simp)]
      exact g1 s _)
    (sched 0) (fun s hs => le_trans (by omega) (hf 0 s hs))
  generalize runStreams (fun s => if s < q then [gemm D ca1 cb1 1 src (.A1 k s) 0 (.tmp s)] else []) (sched 0) m = m1 at e1 e2 ⊢
  obtain ⟨e3, e4⟩ := one_phase (q := q) (D := D) (fun s => gemm D ca2 cb2 1 (.A2 k s) (.tmp s) 0 (.tmp2 s)) .tmp2
    (fun a b h => by injection h) m1 Z2
    (by
      intro s m' h
      refine gemm_spec ?_
      rw [h (.tmp s) (by simp), h (.A2 k s) (by simp), e1 (.A2 k s) (by simp)]
      exact g2 s _ _ (e2 s))
    (sched 1) (fun s hs => le_trans (by omega) (hf 1 s hs))
  obtain ⟨f1, f2⟩ := gather_spec dst (fun s => (hd.ne s).2) _ Z2 e4
  exact ⟨f1, fun loc h1 h2 => by rw [f2 loc h1, e3 loc (fun s => (h2 s).2), e1 loc (fun s => (h2 s).1)]⟩

/-- The map on the device. -/
theorem epsDev_spec {useBatch : Bool} (left : Bool) (hr : Ready A1 A2 useBatch m) (h1 : A1[k]? = some T1)
    (h2 : A2[k]? = some T2) (hs : IsWork src) (hd : IsWork dst) (hX : Holds (m src) X) (hf : Fair q sched) :
    Holds (epsDev q D left useBatch sched src dst k m dst) (if left then epsL X T1 T2 else epsR X T1 T2) ∧
    ∀ loc, loc ≠ dst → (∀ s, loc ≠ .tmp s ∧ loc ≠ .tmp2 s) →
      epsDev q D left useBatch sched src dst k m loc = m loc := by
  have a1 := hr.t1 k T1 h1
  have a2 := hr.t2 k T2 h2
  cases left
  · have eq : epsR X T1 T2 = ∑ s, (T1 s * X) * (T2 s)ᴴ := by rw [epsR, forSum_eq]
    simp only [epsDev, Bool.false_eq_true, if_false, eq]
    cases useBatch
    · simp only [Bool.false_eq_true, if_false]
      exact dev_spec false false true false (fun s => T1 s * X) (fun s => (T1 s * X) * (T2 s)ᴴ) hr hd hs hf
        (fun s c => zgemm_nn hX (a1 s) c) (fun s b c hb => zgemm_cn (a2 s) hb c)
    · simp only [if_true]
      exact batch_spec false false true false (fun s => T1 s * X) (fun s => (T1 s * X) * (T2 s)ᴴ) hd hs hf
        (fun s c => zgemm_nn hX (a1 s) c) (fun s b c hb => zgemm_cn (a2 s) hb c)
  · have eq : epsL X T1 T2 = ∑ s, (T1 s)ᴴ * X * T2 s := epsL_eq X T1 T2
    simp only [epsDev, if_true, eq]
    cases useBatch
    · simp only [Bool.false_eq_true, if_false]
      exact dev_spec false true false false (fun s => (T1 s)ᴴ * X) (fun s => (T1 s)ᴴ * X * T2 s) hr hd hs hf
        (fun s c => zgemm_nc hX (a1 s) c) (fun s b c hb => zgemm_nn (a2 s) hb c)
    · simp only [if_true]
      exact batch_spec false true false false (fun s => (T1 s)ᴴ * X) (fun s => (T1 s)ᴴ * X * T2 s) hd hs hf
        (fun s c => zgemm_nc hX (a1 s) c) (fun s b c hb => zgemm_nn (a2 s) hb c)

/-! ## The loops -/

theorem init_ready (A1 A2 : List (Ten R q D D)) (useBatch : Bool) (junk : Dev R) :
    Ready A1 A2 useBatch (initDev A1 A2 useBatch junk) := by
  have key : ∀ (A : List (Ten R q D D)) k T, A[k]? = some T → ∀ (s : Fin q) old, Holds (tenBuf A k s old) (T s) := by
    intro A k T hT s old
    simp only [tenBuf, hT, dif_pos s.isLt]
    have := holds_set (ravel (T s)) old
    rwa [reshape_ravel_pinv] at this
  refine ⟨fun k T hT s => key A1 k T hT s _, fun k T hT s => key A2 k T hT s _, fun hb s => ?_⟩
  subst hb
  simp [initDev, fillBuf]

/-- Both loops: the device follows the operator of `mps_uniform.py`, with the two buffers `a`, `b`. -/
theorem loop_spec {useBatch left : Bool} {scheds : ℕ → ℕ → List ℕ} (hlen : A1.length = A2.length)
    (hf : ∀ k, Fair q (scheds k)) {a b : Loc} (ha : IsWork a) (hb : IsWork b) (sites : List ℕ)
    (hsites : ∀ k ∈ sites, k < A1.length) (m : Dev R) (X junk : Matrix (Fin D) (Fin D) R) (x xnext : Loc)
    (hx : (x = a ∧ xnext = b) ∨ (x = b ∧ xnext = a)) (hr : Ready A1 A2 useBatch m) (hX : Holds (m xnext) X) :
    ∃ Y j x' xnext' m', sites.foldl (fun b n => b.bind fun b => (EOp.mk A1 A2 left).site b n) (some (X, junk)) = some (Y, j) ∧
      sites.foldl (fun (st : Option (Loc × Loc × Dev R)) k => st.bind fun st =>
        if k < A1.length ∧ k < A2.length then
          some (st.2.1, st.1, epsDev q D left useBatch (scheds k) st.2.1 st.1 k st.2.2)
        else none) (some (x, xnext, m)) = some (x', xnext', m') ∧
      Holds (m' xnext') Y ∧ ∀ loc, loc ≠ a → loc ≠ b → (∀ s, loc ≠ .tmp s ∧ loc ≠ .tmp2 s) → m' loc = m loc := by
  induction sites generalizing m X junk x xnext with
  | nil => exact ⟨X, junk, x, xnext, m, rfl, rfl, hX, fun _ _ _ _ => rfl⟩
  | cons k t ih =>
    have hk : k < A1.length := hsites k (by simp)
    have hk2 : k < A2.length := hlen ▸ hk
    have e1 : A1[k]? = some A1[k] := List.getElem?_eq_getElem hk
    have e2 : A2[k]? = some A2[k] := List.getElem?_eq_getElem hk2
    have hw : IsWork x ∧ IsWork xnext := by
      rcases hx with ⟨rfl, rfl⟩ | ⟨rfl, rfl⟩
      · exact ⟨ha, hb⟩
      · exact ⟨hb, ha⟩
    have hxab : x = a ∨ x = b := by
      rcases hx with ⟨rfl, _⟩ | ⟨rfl, _⟩
      · exact Or.inl rfl
      · exact Or.inr rfl
    obtain ⟨s1, s2⟩ := epsDev_spec left hr e1 e2 hw.2 hw.1 hX (hf k)
    obtain ⟨Y, j, x', xn', m', r1, r2, r3, r4⟩ := ih (fun k hk => hsites k (by simp [hk]))
      (epsDev q D left useBatch (scheds k) xnext x k m) (if left then epsL X A1[k] A2[k] else epsR X A1[k] A2[k]) X xnext x
      (hx.symm.imp (fun h => ⟨h.2, h.1⟩) (fun h => ⟨h.2, h.1⟩))
      (hr.congr fun loc hl => s2 loc (fun e => hl.1 (e ▸ hw.1)) hl.2) s1
    refine ⟨Y, j, x', xn', m', ?_, ?_, r3, fun loc h1 h2 h3 => ?_⟩
    · rw [List.foldl_cons, Option.bind_some, ← r1]
      simp only [EOp.site, e1, e2]
    · rw [List.foldl_cons, Option.bind_some, if_pos ⟨hk, hk2⟩]
      exact r2
    · rw [r4 loc h1 h2 h3, s2 loc (by rcases hxab with rfl | rfl <;> assumption) h3]

theorem gpuSites_lt {left : Bool} {n n2 k : ℕ} (e : n = n2) (h : k ∈ gpuSites left n n2) : k < n := by
  subst e
  cases left <;> simpa [gpuSites] using h

theorem eMatvec_spec {useBatch : Bool} (left : Bool) {scheds : ℕ → ℕ → List ℕ} (hlen : A1.length = A2.length)
    (h0 : 0 < A1.length) (hf : ∀ k, Fair q (scheds k)) (m : Dev R) (hr : Ready A1 A2 useBatch m) (junk : Matrix (Fin D) (Fin D) R)
    (v : Fin (D * D) → R) :
    ∃ y m', eMatvec (q := q) A1.length A2.length left useBatch scheds v m = some (y, m') ∧
      (EOp.mk A1 A2 left).matvec junk v = some y ∧ Ready A1 A2 useBatch m' := by
  have hE : (A1.isEmpty || A2.isEmpty) = false := by
    cases A1 <;> cases A2 <;> simp_all
  obtain ⟨Y, j, x', xn', m', r1, r2, r3, r4⟩ := loop_spec (left := left) hlen hf (a := .out) (b := .xG) (Or.inr (Or.inl rfl))
    (Or.inl rfl) (gpuSites left A1.length A2.length) (fun k hk => gpuSites_lt hlen hk)
    (Function.update m .xG (setBuf v (m .xG))) (reshape v) junk .out .xG (Or.inl ⟨rfl, rfl⟩)
    (hr.congr fun loc hl => Function.update_of_ne (fun e => hl.1 (Or.inl e)) _ _)
    (by rw [Function.update_self]; exact holds_set v _)
  refine ⟨ravel Y, m', ?_, ?_, ?_⟩
  · simp only [eMatvec]
    rw [r2, Option.map_some, holds_get r3]
  · simp only [EOp.matvec, hE, Bool.false_eq_true, if_false]
    have : (if left then List.range A1.length else (List.range A1.length).reverse) = gpuSites left A1.length A2.length := by
      rw [gpuSites, hlen]
    rw [this, r1, Option.map_some]
  · refine hr.congr fun loc hl => ?_
    rw [r4 loc (fun e => hl.1 (Or.inr (Or.inl e))) (fun e => hl.1 (Or.inl e)) hl.2]
    exact Function.update_of_ne (fun e => hl.1 (Or.inl e)) _ _

theorem holds_axpy {Ex x : Buf ℂ} {Y X : Matrix (Fin D) (Fin D) ℂ} (c : ℂ) (hY : Holds Ex Y) (hX : Holds x X) :
    Holds (zaxpy (D * D) c Ex 0 x 0) (c • Y + X) := by
  intro i j
  have hp : i.val * D + j.val < D * D := (flat i j).isLt
  rw [zaxpy, if_pos ⟨Nat.zero_le _, by omega⟩, Nat.sub_zero, Nat.zero_add, hY i j, hX i j, Matrix.add_apply,
    Matrix.smul_apply, smul_eq_mul, add_comm]

theorem holds_sub_smul {Ex x : Buf ℂ} {Y X : Matrix (Fin D) (Fin D) ℂ} (c : ℂ) (hY : Holds Ex Y) (hX : Holds x X) :
    Holds (fun p => Ex p - x p * c) (Y - c • X) := by
  intro i j
  dsimp only
  rw [hY i j, hX i j, Matrix.sub_apply, Matrix.smul_apply, smul_eq_mul, mul_comm]

theorem pMatvec_spec {A1 A2 : List (Ten ℂ q D D)} {useBatch : Bool} (left pseudo : Bool) {scheds : ℕ → ℕ → List ℕ}
    (hlen : A1.length = A2.length) (hf : ∀ k, Fair q (scheds k)) (p : ℝ) (l r : Matrix (Fin D) (Fin D) ℂ) (m : Dev ℂ)
    (hr : Ready A1 A2 useBatch m) (hl : Holds (m .lG) l) (hr' : Holds (m .rG) r) (junk : Matrix (Fin D) (Fin D) ℂ)
    (v : Fin (D * D) → ℂ) :
    ∃ y m', (PinvCuda.mk p A1.length A2.length l r left pseudo useBatch).matvec q scheds v m = some (y, m') ∧
      (PinvOp.mk p A1 A2 (some l) (some r) left pseudo).matvec junk v = some y ∧ Ready A1 A2 useBatch m' ∧
      Holds (m' .lG) l ∧ Holds (m' .rG) r := by
  obtain ⟨m1, hm1⟩ : ∃ m1 : Dev ℂ, m1 = Function.update (Function.update m .xG (setBuf v (m .xG))) .out2
    (setBuf (getBuf (D * D) (Function.update m .xG (setBuf v (m .xG)) .xG))
      (Function.update m .xG (setBuf v (m .xG)) .out2)) := ⟨_, rfl⟩
  have hx : Holds (m1 .xG) (reshape v : Matrix (Fin D) (Fin D) ℂ) := by
    rw [hm1, Function.update_of_ne (by simp), Function.update_self]; exact holds_set v _
  have ho : Holds (m1 .out2) (reshape v : Matrix (Fin D) (Fin D) ℂ) := by
    rw [hm1, Function.update_self, Function.update_self, holds_get (holds_set v (m .xG))]
    have := holds_set (ravel (reshape v : Matrix (Fin D) (Fin D) ℂ)) (Function.update m .xG (setBuf v (m .xG)) .out2)
    rwa [reshape_ravel_pinv] at this
  have hc : ∀ loc, IsConst loc → m1 loc = m loc := by
    intro loc hl
    rw [hm1, Function.update_of_ne (fun e => hl.1 (Or.inr (Or.inr e))), Function.update_of_ne (fun e => hl.1 (Or.inl e))]
  obtain ⟨Y, j, x', xn', m', r1, r2, r3, r4⟩ := loop_spec (left := left) hlen hf (a := .out) (b := .out2)
    (Or.inr (Or.inl rfl)) (Or.inr (Or.inr rfl)) (gpuSites left A1.length A2.length) (fun k hk => gpuSites_lt hlen hk)
    m1 (reshape v) junk .out .out2 (Or.inl ⟨rfl, rfl⟩) (hr.congr hc) ho
  have hc' : ∀ loc, IsConst loc → m' loc = m loc := by
    intro loc hl
    rw [r4 loc (fun e => hl.1 (Or.inr (Or.inl e))) (fun e => hl.1 (Or.inr (Or.inr e))) hl.2, hc loc hl]
  have cl : IsConst .lG := ⟨(by rintro (h | h | h) <;> cases h), by simp⟩
  have cr : IsConst .rG := ⟨(by rintro (h | h | h) <;> cases h), by simp⟩
  have gl : Holds (m' .lG) l := by rw [hc' _ cl]; exact hl
  have gr : Holds (m' .rG) r := by rw [hc' _ cr]; exact hr'
  have gx : Holds (m' .xG) (reshape v : Matrix (Fin D) (Fin D) ℂ) := by
    rw [r4 .xG (by simp) (by simp) (by simp)]; exact hx
  have hs : (if left then List.range A1.length else (List.range A1.length).reverse) = gpuSites left A1.length A2.length := by
    rw [gpuSites, hlen]
  have fin : ∀ (res : Buf ℂ) (Z : Matrix (Fin D) (Fin D) ℂ), Holds res Z →
      getBuf (D * D) (Function.update m' .xG res .xG) = ravel Z ∧ Ready A1 A2 useBatch (Function.update m' .xG res) ∧
      Holds (Function.update m' .xG res .lG) l ∧ Holds (Function.update m' .xG res .rG) r := by
    intro res Z hZ
    refine ⟨by rw [Function.update_self]; exact holds_get hZ, hr.congr fun loc hl => ?_, ?_, ?_⟩
    · rw [Function.update_of_ne (fun e => hl.1 (Or.inl e)), hc' loc hl]
    · rw [Function.update_of_ne (by simp)]; exact gl
    · rw [Function.update_of_ne (by simp)]; exact gr
  simp only [PinvCuda.matvec, PinvOp.matvec, hs]
  rw [← hm1, r1, r2, Option.map_some, Option.bind_some]
  cases left <;> cases pseudo <;> simp only [Bool.false_eq_true, if_false, if_true]
  · obtain ⟨k1, k2⟩ := fin _ _ (holds_axpy (-Complex.exp (Complex.I * p)) r3 gx)
    exact ⟨_, _, rfl, by rw [k1], k2⟩
  · obtain ⟨k1, k2⟩ := fin _ _ (holds_axpy (-Complex.exp (Complex.I * p)) (holds_sub_smul (adot l (reshape v)) r3 gr) gx)
    exact ⟨_, _, rfl, by rw [k1], k2⟩
  · obtain ⟨k1, k2⟩ := fin _ _ (holds_axpy (-Complex.exp (-Complex.I * p)) r3 gx)
    exact ⟨_, _, rfl, by rw [k1], k2⟩
  · obtain ⟨k1, k2⟩ := fin _ _ (holds_axpy (-Complex.exp (-Complex.I * p)) (holds_sub_smul (adot r (reshape v)) r3 gl) gx)
    exact ⟨_, _, rfl, by rw [k1], k2⟩

/-- An operator with memory that always answers like the one without is as good for every program. -/
theorem run_eq {V W M : Type*} (f : ℕ → V → M → Option (V × M)) (g : V → Option V) (I : M → Prop)
    (h : ∀ c v m, I m → ∃ y m', f c v m = some (y, m') ∧ g v = some y ∧ I m') (prog : Caller V W) (c : ℕ) (m : M)
    (hm : I m) : prog.runMem f c m = prog.run g := by
  induction prog generalizing c m with
  | done w => rfl
  | call v next ih =>
    obtain ⟨y, m', h1, h2, h3⟩ := h c v m hm
    rw [Caller.runMem, Caller.run, h1, h2, Option.bind_some, Option.bind_some]
    exact ih y (c + 1) m' h3

/-- Such an operator never makes a program fail. -/
theorem run_some {V W : Type*} (g : V → Option V) (h : ∀ v, ∃ y, g v = some y) (prog : Caller V W) :
    ∃ w, prog.run g = some w := by
  induction prog with
  | done w => exact ⟨w, rfl⟩
  | call v next ih =>
    obtain ⟨y, hy⟩ := h v
    obtain ⟨w, hw⟩ := ih y
    exact ⟨w, by rw [Caller.run, hy, Option.bind_some, hw]⟩

end EvoMPS.Gpu
