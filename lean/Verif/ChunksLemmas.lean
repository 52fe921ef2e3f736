import Verif.Chunks
import Verif.EpsMaps
import Mathlib.Tactic.Ring
import Mathlib.Tactic.Linarith
import Mathlib.Algebra.BigOperators.Group.List.Basic
import Mathlib.Algebra.BigOperators.Intervals

/-!
# Lemmas on the compiled maps
-/

namespace EvoMPS

open Matrix

/-! ## The chunks -/

theorem chunkStart_zero (threads d : ℕ) : chunkStart threads d 0 = 0 := by simp [chunkStart]

theorem lpc_mul_le {threads d : ℕ} (h : 0 < numChunks threads d) : numChunks threads d * lpc threads d ≤ d := by
  unfold lpc
  have h1 : numChunks threads d ≤ d := Nat.min_le_right _ _
  have h2 : 1 ≤ d / numChunks threads d := (Nat.one_le_div_iff h).mpr h1
  rw [Nat.max_eq_right h2]
  exact Nat.mul_div_le d _

theorem chunks_prefix (threads d : ℕ) (n : ℕ) (hn : n < numChunks threads d) :
    (List.range n).flatMap (chunk threads d) = List.range (chunkStart threads d n) := by
  induction n with
  | zero => simp [chunkStart]
  | succ n ih =>
    rw [List.range_succ, List.flatMap_append, ih (by omega), List.flatMap_singleton, chunk, chunkEnd,
      if_neg (by omega), List.range_eq_range', List.range_eq_range']
    have : (n + 1) * lpc threads d = chunkStart threads d n + lpc threads d := by
      rw [chunkStart]; ring
    rw [this, Nat.add_sub_cancel_left]
    have e := List.range'_append_1 (s := 0) (m := chunkStart threads d n) (n := lpc threads d)
    rw [Nat.zero_add] at e
    rw [e]
    congr 1
    rw [chunkStart, chunkStart]
    ring

/-- Every physical index is in exactly one chunk. -/
theorem chunks_all (threads d : ℕ) (h : 0 < numChunks threads d) :
    (List.range (numChunks threads d)).flatMap (chunk threads d) = List.range d := by
  obtain ⟨n, hn⟩ : ∃ n, numChunks threads d = n + 1 := ⟨numChunks threads d - 1, by omega⟩
  rw [hn, List.range_succ, List.flatMap_append, chunks_prefix threads d n (by omega), List.flatMap_singleton,
    chunk, chunkEnd, if_pos hn.symm]
  have hle := lpc_mul_le h
  have : chunkStart threads d n ≤ d := by
    refine le_trans ?_ hle
    rw [chunkStart, hn]
    exact Nat.mul_le_mul_right _ (by omega)
  have e := List.range'_append_1 (s := 0) (m := chunkStart threads d n) (n := d - chunkStart threads d n)
  rw [Nat.zero_add] at e
  rw [List.range_eq_range', List.range_eq_range', e]
  congr 1
  omega

/-! ## Interleavings -/

section
variable {R : Type*}

/-- Two memories agree on what belongs to chunk `i`. -/
def AgreeOn (nt no i : ℕ) (m m' : Mem R) : Prop :=
  (∀ p < nt, m.tmp (i * nt + p) = m'.tmp (i * nt + p)) ∧ ∀ p < no, m.outs (i * no + p) = m'.outs (i * no + p)

theorem AgreeOn.rfl' {nt no i : ℕ} (m : Mem R) : AgreeOn nt no i m m := ⟨fun _ _ => rfl, fun _ _ => rfl⟩

theorem AgreeOn.trans' {nt no i : ℕ} {m m' m'' : Mem R} (h : AgreeOn nt no i m m') (h' : AgreeOn nt no i m' m'') :
    AgreeOn nt no i m m'' :=
  ⟨fun p hp => (h.1 p hp).trans (h'.1 p hp), fun p hp => (h.2 p hp).trans (h'.2 p hp)⟩

/-- The operation works on the part of the memory that belongs to chunk `i`. -/
structure LocalOp (nt no i : ℕ) (op : Mem R → Mem R) : Prop where
  congr : ∀ m m', AgreeOn nt no i m m' → AgreeOn nt no i (op m) (op m')
  tmp : ∀ m p, (p < i * nt ∨ i * nt + nt ≤ p) → (op m).tmp p = m.tmp p
  outs : ∀ m p, (p < i * no ∨ i * no + no ≤ p) → (op m).outs p = m.outs p

theorem block_disjoint {n i j p : ℕ} (hij : j ≠ i) (hp : p < n) : j * n + p < i * n ∨ i * n + n ≤ j * n + p := by
  rcases Nat.lt_or_gt_of_ne hij with h | h
  · left
    calc j * n + p < j * n + n := by omega
      _ = (j + 1) * n := by ring
      _ ≤ i * n := Nat.mul_le_mul_right _ h
  · right
    calc i * n + n = (i + 1) * n := by ring
      _ ≤ j * n := Nat.mul_le_mul_right _ h
      _ ≤ _ := by omega

theorem LocalOp.other {nt no i j : ℕ} {op : Mem R → Mem R} (h : LocalOp nt no i op) (hij : j ≠ i) (m : Mem R) :
    AgreeOn nt no j (op m) m :=
  ⟨fun _ hp => h.tmp m _ (block_disjoint hij hp), fun _ hp => h.outs m _ (block_disjoint hij hp)⟩

theorem runOps_congr {nt no i : ℕ} (ops : List (Mem R → Mem R)) (h : ∀ op ∈ ops, LocalOp nt no i op) :
    ∀ m m', AgreeOn nt no i m m' → AgreeOn nt no i (runOps ops m) (runOps ops m') := by
  induction ops with
  | nil => intro m m' hm; exact hm
  | cons op ops ih =>
    intro m m' hm
    exact ih (fun o ho => h o (List.mem_cons_of_mem _ ho)) _ _ ((h op List.mem_cons_self).congr m m' hm)

/-- Whatever the schedule, what is left to do leads every chunk to the result of its own program. -/
theorem runSched_inv {nt no : ℕ} (m0 : Mem R) (prog : ℕ → List (Mem R → Mem R))
    (h : ∀ i, ∀ op ∈ prog i, LocalOp nt no i op) (sched : List ℕ) :
    (∀ i, ∀ op ∈ (runSched sched m0 prog).2 i, LocalOp nt no i op) ∧
    ∀ i, AgreeOn nt no i (runOps ((runSched sched m0 prog).2 i) (runSched sched m0 prog).1) (runOps (prog i) m0) := by
  unfold runSched
  induction sched using List.reverseRecOn with
  | nil => exact ⟨h, fun i => AgreeOn.rfl' _⟩
  | append_singleton sched k ih =>
    rw [List.foldl_append]
    generalize List.foldl schedStep (m0, prog) sched = st at *
    obtain ⟨ih1, ih2⟩ := ih
    rw [List.foldl_cons, List.foldl_nil, schedStep]
    cases hk : st.2 k with
    | nil => exact ⟨ih1, ih2⟩
    | cons op rest =>
      have hop : LocalOp nt no k op := ih1 k op (by rw [hk]; exact List.mem_cons_self)
      refine ⟨fun i o ho => ?_, fun i => ?_⟩
      · by_cases hik : i = k
        · subst hik
          simp only [Function.update_self] at ho
          exact ih1 i o (by rw [hk]; exact List.mem_cons_of_mem _ ho)
        · simp only [Function.update_of_ne hik] at ho
          exact ih1 i o ho
      · by_cases hik : i = k
        · subst hik
          simp only [Function.update_self]
          have := ih2 i
          rw [hk] at this
          exact this
        · simp only [Function.update_of_ne hik]
          exact (runOps_congr _ (ih1 i) _ _ (hop.other hik st.1)).trans' (ih2 i)

theorem runOps_append (a b : List (Mem R → Mem R)) (m : Mem R) : runOps (a ++ b) m = runOps b (runOps a m) := by
  simp [runOps]

theorem runOps_outs {nt no i : ℕ} (ops : List (Mem R → Mem R)) (h : ∀ op ∈ ops, LocalOp nt no i op) (m : Mem R)
    (p : ℕ) (hp : p < i * no ∨ i * no + no ≤ p) : (runOps ops m).outs p = m.outs p := by
  induction ops generalizing m with
  | nil => rfl
  | cons op ops ih =>
    exact (ih (fun o ho => h o (List.mem_cons_of_mem _ ho)) (op m)).trans
      ((h op List.mem_cons_self).outs m p hp)

end

section
variable {R : Type*} [CommRing R] [StarRing R]

/-- What the kernels do: add `V s p` at position `p`, in their own part of the memory. -/
structure Kernel (step : ℕ → ℕ → ℕ → List (Mem R → Mem R)) (nt no : ℕ) (V : ℕ → ℕ → R) : Prop where
  val : ∀ i s m, ∀ p < no, (runOps (step (i * nt) (i * no) s) m).outs (i * no + p) = m.outs (i * no + p) + V s p
  loc : ∀ i s, ∀ op ∈ step (i * nt) (i * no) s, LocalOp nt no i op

omit [StarRing R] in
theorem Kernel.list {step : ℕ → ℕ → ℕ → List (Mem R → Mem R)} {nt no : ℕ} {V : ℕ → ℕ → R}
    (h : Kernel step nt no V) (i : ℕ) (L : List ℕ) (m : Mem R) {p : ℕ} (hp : p < no) :
    (runOps (L.flatMap fun s => step (i * nt) (i * no) s) m).outs (i * no + p)
      = m.outs (i * no + p) + (L.map fun s => V s p).sum := by
  induction L generalizing m with
  | nil => simp [runOps]
  | cons s L ih =>
    rw [List.flatMap_cons, runOps_append, ih, h.val i s m p hp, List.map_cons, List.sum_cons, add_assoc]

omit [StarRing R] in
theorem zaxpy_fold (no : ℕ) (outs : Buf R) (n : ℕ) (out : Buf R) (p : ℕ) :
    (List.range n).foldl (fun out i => zaxpy no 1 outs (i * no) out 0) out p
      = if p < no then out p + ∑ i ∈ Finset.range n, outs (i * no + p) else out p := by
  induction n with
  | zero => simp
  | succ n ih =>
    rw [List.range_succ, List.foldl_append, List.foldl_cons, List.foldl_nil, zaxpy, ih]
    by_cases hp : p < no
    · rw [if_pos ⟨Nat.zero_le _, by omega⟩, if_pos hp, if_pos hp, Finset.sum_range_succ, Nat.sub_zero]
      ring
    · rw [if_neg (by omega), if_neg hp, if_neg hp]

omit [StarRing R] in
/-- The result of the maps with such a kernel. -/
theorem epsNoop_spec {step : ℕ → ℕ → ℕ → List (Mem R → Mem R)} {nt no : ℕ} {V : ℕ → ℕ → R}
    (h : Kernel step nt no V) (d threads : ℕ) (hd : 0 < d) (ht : 0 < threads) (sched : List ℕ)
    (hs : Complete sched step nt no d threads) (ndout : Buf R) :
    ∃ out, epsNoop step nt no d threads sched ndout = some out ∧
      ∀ p, out p = if p < no then ∑ s ∈ Finset.range d, V s p else ndout p := by
  have hnc : 0 < numChunks threads d := Nat.lt_min.mpr ⟨ht, hd⟩
  have hsum : ∀ p, ((List.range d).map fun s => V s p).sum = ∑ s ∈ Finset.range d, V s p := by
    intro p
    rfl
  unfold epsNoop
  rw [if_neg (by omega)]
  by_cases h1 : numChunks threads d = 1
  · simp only [if_pos h1]
    refine ⟨_, rfl, fun p => ?_⟩
    by_cases hp : p < no
    · have := h.list 0 (List.range d) ⟨fun _ => 0, fun p => if p < no then 0 else ndout p⟩ hp
      simp only [Nat.zero_mul, if_pos hp, zero_add, hsum] at this
      rw [if_pos hp, this]
    · rw [if_neg hp]
      have hl : ∀ op ∈ ((List.range d).flatMap fun s => step 0 0 s), LocalOp nt no 0 op := by
        intro op hop
        obtain ⟨s, _, hop⟩ := List.mem_flatMap.mp hop
        exact h.loc 0 s op (by simpa using hop)
      rw [runOps_outs _ hl _ p (by right; omega)]
      simp [hp]
  · simp only [if_neg h1]
    refine ⟨_, rfl, fun p => ?_⟩
    rw [zaxpy_fold]
    by_cases hp : p < no
    · simp only [if_pos hp, zero_add]
      have hl : ∀ i, ∀ op ∈ chunkProg step nt no threads d i, LocalOp nt no i op := by
        intro i op hop
        obtain ⟨s, _, hop⟩ := List.mem_flatMap.mp hop
        exact h.loc i s op hop
      have key : ∀ i ∈ Finset.range (numChunks threads d),
          (runSched sched ⟨fun _ => 0, fun _ => 0⟩ (chunkProg step nt no threads d)).1.outs (i * no + p)
            = ((chunk threads d i).map fun s => V s p).sum := by
        intro i hi
        have := ((runSched_inv ⟨fun _ => 0, fun _ => 0⟩ _ hl sched).2 i).2 p hp
        rw [hs i (Finset.mem_range.mp hi), chunkProg, h.list i _ _ hp, zero_add] at this
        exact this
      rw [Finset.sum_congr rfl key, ← hsum, ← chunks_all threads d hnc]
      generalize numChunks threads d = n
      induction n with
      | zero => simp
      | succ n ih =>
        rw [Finset.sum_range_succ, List.range_succ, List.flatMap_append, List.map_append, List.sum_append,
          ih, List.flatMap_singleton]
    · simp [hp]

/-! ## The kernels -/

theorem zgemm_out (ca cb : Bool) (M N K : ℕ) (al : R) (A pa lda) (B : Buf R) (pb ldb be) (C : Buf R) (pc p : ℕ)
    (hp : p < pc ∨ pc + N * M ≤ p) : zgemm ca cb M N K al A pa lda B pb ldb be C pc M p = C p := by
  rw [zgemm, if_neg]
  rintro ⟨h1, h2, h3⟩
  have hM : 0 < M := by omega
  rw [Nat.div_lt_iff_lt_mul hM] at h3
  omega

theorem zgemm_at (ca cb : Bool) (M N K : ℕ) (al : R) (A pa lda) (B : Buf R) (pb ldb be) (C : Buf R) (pc : ℕ)
    {i j : ℕ} (hi : i < M) (hj : j < N) : zgemm ca cb M N K al A pa lda B pb ldb be C pc M (pc + (j * M + i))
      = al * (∑ l ∈ Finset.range K, (if ca then star (A (pa + (l + i * lda))) else A (pa + (i + l * lda)))
        * (if cb then star (B (pb + (j + l * ldb))) else B (pb + (l + j * ldb)))) + be * C (pc + (j * M + i)) := by
  have e1 : (j * M + i) % M = i := by rw [Nat.add_comm, Nat.add_mul_mod_self_right, Nat.mod_eq_of_lt hi]
  have e2 : (j * M + i) / M = j := by
    rw [Nat.add_comm, Nat.add_mul_div_right _ _ (by omega), Nat.div_eq_of_lt hi, Nat.zero_add]
  rw [zgemm, Nat.add_sub_cancel_left, e1, e2, if_pos ⟨by omega, hi, hj⟩]

/-- Positions of an array as pairs of indices. -/
theorem pos_split {M N p : ℕ} (hp : p < N * M) : ∃ j i, j < N ∧ i < M ∧ p = j * M + i := by
  have hM : 0 < M := by
    rcases Nat.eq_zero_or_pos M with h | h
    · subst h; omega
    · exact h
  exact ⟨p / M, p % M, (Nat.div_lt_iff_lt_mul hM).mpr hp, Nat.mod_lt _ hM, by
    rw [Nat.mul_comm]; exact (Nat.div_add_mod p M).symm⟩


omit [StarRing R] [CommRing R] in
theorem fold1_spec (f : ℕ → ℕ) (v : ℕ → R) (C : Buf R) (n : ℕ) (hf : ∀ j < n, ∀ j' < n, f j = f j' → j = j') :
    (∀ j < n, (List.range n).foldl (fun C j => Function.update C (f j) (v j)) C (f j) = v j) ∧
    ∀ p, (∀ j < n, p ≠ f j) → (List.range n).foldl (fun C j => Function.update C (f j) (v j)) C p = C p := by
  induction n with
  | zero => simp
  | succ n ih =>
    obtain ⟨ih1, ih2⟩ := ih fun j hj j' hj' => hf j (by omega) j' (by omega)
    rw [List.range_succ, List.foldl_append, List.foldl_cons, List.foldl_nil]
    refine ⟨fun j hj => ?_, fun p hp => ?_⟩
    · by_cases hjn : j = n
      · subst hjn; rw [Function.update_self]
      · rw [Function.update_of_ne (fun h => hjn (hf j hj n (by omega) h)), ih1 j (by omega)]
    · rw [Function.update_of_ne (hp n (by omega)), ih2 p fun j hj => hp j (by omega)]

omit [StarRing R] [CommRing R] in
theorem fold2_spec (f : ℕ → ℕ → ℕ) (v : ℕ → ℕ → R) (C : Buf R) (m n : ℕ)
    (hf : ∀ i < m, ∀ j < n, ∀ i' < m, ∀ j' < n, f i j = f i' j' → i = i' ∧ j = j') :
    (∀ i < m, ∀ j < n, (List.range m).foldl (fun C i => (List.range n).foldl (fun C j =>
      Function.update C (f i j) (v i j)) C) C (f i j) = v i j) ∧
    ∀ p, (∀ i < m, ∀ j < n, p ≠ f i j) → (List.range m).foldl (fun C i => (List.range n).foldl (fun C j =>
      Function.update C (f i j) (v i j)) C) C p = C p := by
  induction m with
  | zero => simp
  | succ m ih =>
    obtain ⟨ih1, ih2⟩ := ih fun i hi j hj i' hi' j' hj' => hf i (by omega) j hj i' (by omega) j' hj'
    rw [List.range_succ, List.foldl_append, List.foldl_cons, List.foldl_nil]
    obtain ⟨g1, g2⟩ := fold1_spec (f m) (v m) ((List.range m).foldl (fun C i => (List.range n).foldl (fun C j =>
      Function.update C (f i j) (v i j)) C) C) n
      fun j hj j' hj' h => (hf m (by omega) j hj m (by omega) j' hj' h).2
    refine ⟨fun i hi j hj => ?_, fun p hp => ?_⟩
    · by_cases him : i = m
      · subst him; exact g1 j hj
      · rw [g2 _ fun j' hj' h => him (hf i hi j hj m (by omega) j' hj' h).1, ih1 i (by omega) j hj]
    · rw [g2 p fun j hj => hp m (by omega) j hj, ih2 p fun i hi => hp i (by omega)]

theorem pos_inj {n i j i' j' : ℕ} (hj : j < n) (hj' : j' < n) (h : i * n + j = i' * n + j') : i = i' ∧ j = j' := by
  have e : i = i' := by
    have : (i * n + j) / n = (i' * n + j') / n := by rw [h]
    rwa [Nat.add_comm, Nat.add_mul_div_right _ _ (by omega), Nat.div_eq_of_lt hj, Nat.zero_add, Nat.add_comm,
      Nat.add_mul_div_right _ _ (by omega), Nat.div_eq_of_lt hj', Nat.zero_add] at this
  subst e
  exact ⟨rfl, by omega⟩

theorem gdmmH_spec (m n : ℕ) (X : Buf R) (px : ℕ) (Y C : Buf R) (pc : ℕ) :
    (∀ i < m, ∀ j < n, gdmm true m n X px Y C pc (pc + (j * m + i)) = star (X (px + (i * n + j))) * Y i) ∧
    ∀ p, (p < pc ∨ pc + n * m ≤ p) → gdmm true m n X px Y C pc p = C p := by
  obtain ⟨h1, h2⟩ := fold2_spec (fun i j => pc + (j * m + i)) (fun i j => star (X (px + (i * n + j))) * Y i) C m n
    (fun i hi j hj i' hi' j' hj' h => by
      have := pos_inj hi hi' (by simpa using h)
      exact ⟨this.2, this.1⟩)
  refine ⟨h1, fun p hp => h2 p fun i hi j hj => ?_⟩
  have : (j + 1) * m ≤ n * m := Nat.mul_le_mul_right _ hj
  rw [Nat.add_mul, Nat.one_mul] at this
  omega

theorem gdmmN_spec (m n : ℕ) (X : Buf R) (px : ℕ) (Y C : Buf R) (pc : ℕ) :
    (∀ i < m, ∀ j < n, gdmm false m n X px Y C pc (pc + (i * n + j)) = X (px + (i * n + j)) * Y j) ∧
    ∀ p, (p < pc ∨ pc + m * n ≤ p) → gdmm false m n X px Y C pc p = C p := by
  obtain ⟨h1, h2⟩ := fold2_spec (fun i j => pc + (i * n + j)) (fun i j => X (px + (i * n + j)) * Y j) C m n
    (fun i hi j hj i' hi' j' hj' h => pos_inj hj hj' (by simpa using h))
  refine ⟨h1, fun p hp => h2 p fun i hi j hj => ?_⟩
  have : (i + 1) * n ≤ m * n := Nat.mul_le_mul_right _ hi
  rw [Nat.add_mul, Nat.one_mul] at this
  omega

omit [CommRing R] [StarRing R] in
/-- An operation that writes the scratch array from constant data. -/
theorem local_tmp {nt no i : ℕ} {f : Buf R → Buf R} {w : ℕ → R} (h1 : ∀ C, ∀ p < nt, f C (i * nt + p) = w p)
    (h2 : ∀ C p, (p < i * nt ∨ i * nt + nt ≤ p) → f C p = C p) :
    LocalOp (R := R) nt no i fun m => ⟨f m.tmp, m.outs⟩ where
  congr _ _ h := ⟨fun p hp => (h1 _ p hp).trans (h1 _ p hp).symm, h.2⟩
  tmp _ p hp := h2 _ p hp
  outs _ _ _ := rfl

/-- A product that reads the scratch array and adds to the output. -/
theorem local_zgemm (ca : Bool) {nt no i M N K : ℕ} (hno : no = N * M) (hnt : nt = N * K) (al : R) (A pa lda be) :
    LocalOp (R := R) nt no i fun m => ⟨m.tmp, zgemm ca false M N K al A pa lda m.tmp (i * nt) K be m.outs (i * no) M⟩
    where
  congr m m' h := by
    refine ⟨h.1, fun p hp => ?_⟩
    obtain ⟨j, k, hj, hk, rfl⟩ := pos_split (hno ▸ hp)
    show zgemm _ _ _ _ _ _ _ _ _ _ _ _ _ _ _ _ _ = zgemm _ _ _ _ _ _ _ _ _ _ _ _ _ _ _ _ _
    rw [zgemm_at _ _ _ _ _ _ _ _ _ _ _ _ _ _ _ hk hj, zgemm_at _ _ _ _ _ _ _ _ _ _ _ _ _ _ _ hk hj, h.2 _ hp]
    congr 2
    refine Finset.sum_congr rfl fun l hl => ?_
    rw [Finset.mem_range] at hl
    have : l + j * K < nt := by
      rw [hnt]
      have : (j + 1) * K ≤ N * K := Nat.mul_le_mul_right _ hj
      rw [Nat.add_mul, Nat.one_mul] at this
      omega
    simp only [Bool.false_eq_true, if_false, h.1 _ this]
  tmp _ _ _ := rfl
  outs m p hp := zgemm_out _ _ _ _ _ _ _ _ _ _ _ _ _ _ _ _ (by rw [hno] at hp; rw [hno]; exact hp)

/-- A product of constant data that adds to the output. -/
theorem local_zgemm' (ca cb : Bool) {nt no i M N K : ℕ} (hno : no = N * M) (al : R) (A pa lda) (B : Buf R) (pb ldb be) :
    LocalOp (R := R) nt no i fun m => ⟨m.tmp, zgemm ca cb M N K al A pa lda B pb ldb be m.outs (i * no) M⟩ where
  congr m m' h := by
    refine ⟨h.1, fun p hp => ?_⟩
    obtain ⟨j, k, hj, hk, rfl⟩ := pos_split (hno ▸ hp)
    show zgemm _ _ _ _ _ _ _ _ _ _ _ _ _ _ _ _ _ = zgemm _ _ _ _ _ _ _ _ _ _ _ _ _ _ _ _ _
    rw [zgemm_at _ _ _ _ _ _ _ _ _ _ _ _ _ _ _ hk hj, zgemm_at _ _ _ _ _ _ _ _ _ _ _ _ _ _ _ hk hj, h.2 _ hp]
  tmp _ _ _ := rfl
  outs m p hp := zgemm_out _ _ _ _ _ _ _ _ _ _ _ _ _ _ _ _ (by rw [hno] at hp; rw [hno]; exact hp)


variable (a b a2 b2 : ℕ) (x A1 A2 : Buf R)

/-- Scratch array of the left kernels: `A1[s]^H x`. -/
def tmpL (k : XKind) (s j l : ℕ) : R :=
  match k with
  | .eye => star (A1 (s * (a * b) + (l * b + j)))
  | .diag => star (A1 (s * (a * b) + (l * b + j))) * x l
  | .dense => ∑ l' ∈ Finset.range a, star (A1 (s * (a * b) + (l' * b + j))) * x (l' * a2 + l)

/-- Scratch array of the right kernels: `A1[s] x`. -/
def tmpR (k : XKind) (s j l : ℕ) : R :=
  match k with
  | .eye => A1 (s * (a * b) + (j * b + l))
  | .diag => A1 (s * (a * b) + (j * b + l)) * x l
  | .dense => ∑ l' ∈ Finset.range b, A1 (s * (a * b) + (j * b + l')) * x (l' * b2 + l)

/-- What the left kernels add. -/
def valL (k : XKind) (s p : ℕ) : R :=
  ∑ l ∈ Finset.range a2, tmpL a b a2 x A1 k s (p / b2) l * A2 (s * (a2 * b2) + (l * b2 + p % b2))

/-- What the right kernels add. -/
def valR (k : XKind) (s p : ℕ) : R :=
  ∑ l ∈ Finset.range b2, tmpR a b b2 x A1 k s (p / a2) l * star (A2 (s * (a2 * b2) + (p % a2 * b2 + l)))

theorem divmod {M j i : ℕ} (hi : i < M) : (j * M + i) % M = i ∧ (j * M + i) / M = j := by
  constructor
  · rw [Nat.add_comm, Nat.add_mul_mod_self_right, Nat.mod_eq_of_lt hi]
  · rw [Nat.add_comm, Nat.add_mul_div_right _ _ (by omega), Nat.div_eq_of_lt hi, Nat.zero_add]

theorem pos_lt {M N i j : ℕ} (hj : j < N) (hi : i < M) : j * M + i < N * M := by
  have : (j + 1) * M ≤ N * M := Nat.mul_le_mul_right _ hj
  rw [Nat.add_mul, Nat.one_mul] at this
  omega

/-- The left kernels; for identity and diagonal `x` it is square. -/
theorem kernelL (k : XKind) (hk : k ≠ .dense → a = a2) :
    Kernel (stepL k a b a2 b2 x A1 A2) (b * a2) (b * b2) (valL a b a2 b2 x A1 A2 k) := by
  cases k with
  | eye =>
    obtain rfl := hk (by simp)
    refine ⟨fun i s m p hp => ?_, fun i s op hop => ?_⟩
    · obtain ⟨j, c, hj, hc, rfl⟩ := pos_split hp
      show zgemm _ _ _ _ _ _ _ _ _ _ _ _ _ _ _ _ _ = _
      rw [zgemm_at _ _ _ _ _ _ _ _ _ _ _ _ _ _ _ hc hj, valL, (divmod hc).1, (divmod hc).2, one_mul, one_mul,
        add_comm]
      congr 1
      refine Finset.sum_congr rfl fun l _ => ?_
      simp only [tmpL, Bool.false_eq_true, if_false, if_true, Nat.add_comm _ (l * _)]
      rw [mul_comm]
    · obtain rfl := List.mem_singleton.mp hop
      exact local_zgemm' _ _ rfl _ _ _ _ _ _ _ _
  | diag =>
    obtain rfl := hk (by simp)
    refine ⟨fun i s m p hp => ?_, fun i s op hop => ?_⟩
    · obtain ⟨j, c, hj, hc, rfl⟩ := pos_split hp
      show zgemm _ _ _ _ _ _ _ _ _ _ _ _ _ _ _ _ _ = _
      rw [zgemm_at _ _ _ _ _ _ _ _ _ _ _ _ _ _ _ hc hj, valL, (divmod hc).1, (divmod hc).2, one_mul, one_mul,
        add_comm]
      congr 1
      refine Finset.sum_congr rfl fun l hl => ?_
      rw [Finset.mem_range] at hl
      simp only [tmpL, Bool.false_eq_true, if_false, Nat.add_comm c (l * _)]
      rw [Nat.add_comm l (j * a), (gdmmH_spec a b A1 (s * (a * b)) x m.tmp (i * (b * a))).1 l hl j hj, mul_comm]
    · simp only [stepL, List.mem_cons, List.not_mem_nil, or_false] at hop
      rcases hop with rfl | rfl
      · refine local_tmp (f := fun C => gdmm true a b A1 (s * (a * b)) x C (i * (b * a)))
          (w := fun p => star (A1 (s * (a * b) + (p % a * b + p / a))) * x (p % a)) ?_ ?_
        · intro C p hp
          obtain ⟨j, c, hj, hc, rfl⟩ := pos_split hp
          rw [(gdmmH_spec a b A1 (s * (a * b)) x C (i * (b * a))).1 c hc j hj, (divmod hc).1, (divmod hc).2]
        · intro C p hp
          exact (gdmmH_spec a b A1 (s * (a * b)) x C (i * (b * a))).2 p hp
      · exact local_zgemm _ rfl rfl _ _ _ _ _
  | dense =>
    have ht : ∀ i s (C : Buf R), ∀ j < b, ∀ l < a2, zgemm false true a2 b a 1 x 0 a2 A1 (s * (a * b)) b 0 C
        (i * (b * a2)) a2 (i * (b * a2) + (j * a2 + l)) = tmpL a b a2 x A1 .dense s j l := by
      intro i s C j hj l hl
      rw [zgemm_at _ _ _ _ _ _ _ _ _ _ _ _ _ _ _ hl hj, one_mul, zero_mul, add_zero]
      simp only [tmpL]
      refine Finset.sum_congr rfl fun l' _ => ?_
      simp only [Bool.false_eq_true, if_false, if_true, Nat.zero_add, Nat.add_comm _ (l' * _)]
      rw [mul_comm]
    refine ⟨fun i s m p hp => ?_, fun i s op hop => ?_⟩
    · obtain ⟨j, c, hj, hc, rfl⟩ := pos_split hp
      show zgemm _ _ _ _ _ _ _ _ _ _ _ _ _ _ _ _ _ = _
      rw [zgemm_at _ _ _ _ _ _ _ _ _ _ _ _ _ _ _ hc hj, valL, (divmod hc).1, (divmod hc).2, one_mul, one_mul,
        add_comm]
      congr 1
      refine Finset.sum_congr rfl fun l hl => ?_
      rw [Finset.mem_range] at hl
      simp only [Bool.false_eq_true, if_false, Nat.add_comm c (l * _)]
      rw [Nat.add_comm l (j * a2), ht i s m.tmp j hj l hl, mul_comm]
    · simp only [stepL, List.mem_cons, List.not_mem_nil, or_false] at hop
      rcases hop with rfl | rfl
      · refine local_tmp (f := fun C => zgemm false true a2 b a 1 x 0 a2 A1 (s * (a * b)) b 0 C (i * (b * a2)) a2)
          (w := fun p => tmpL a b a2 x A1 .dense s (p / a2) (p % a2)) ?_ ?_
        · intro C p hp
          obtain ⟨j, c, hj, hc, rfl⟩ := pos_split hp
          rw [ht i s C j hj c hc, (divmod hc).1, (divmod hc).2]
        · intro C p hp
          exact zgemm_out _ _ _ _ _ _ _ _ _ _ _ _ _ _ _ _ hp
      · exact local_zgemm _ rfl rfl _ _ _ _ _

/-- The right kernels. -/
theorem kernelR (k : XKind) (hk : k ≠ .dense → b = b2) :
    Kernel (stepR k a b a2 b2 x A1 A2) (a * b2) (a * a2) (valR a b a2 b2 x A1 A2 k) := by
  cases k with
  | eye =>
    obtain rfl := hk (by simp)
    refine ⟨fun i s m p hp => ?_, fun i s op hop => ?_⟩
    · obtain ⟨j, c, hj, hc, rfl⟩ := pos_split hp
      show zgemm _ _ _ _ _ _ _ _ _ _ _ _ _ _ _ _ _ = _
      rw [zgemm_at _ _ _ _ _ _ _ _ _ _ _ _ _ _ _ hc hj, valR, (divmod hc).1, (divmod hc).2, one_mul, one_mul,
        add_comm]
      congr 1
      refine Finset.sum_congr rfl fun l _ => ?_
      simp only [tmpR, Bool.false_eq_true, if_false, if_true, Nat.add_comm l _]
      rw [mul_comm]
    · obtain rfl := List.mem_singleton.mp hop
      exact local_zgemm' _ _ rfl _ _ _ _ _ _ _ _
  | diag =>
    obtain rfl := hk (by simp)
    refine ⟨fun i s m p hp => ?_, fun i s op hop => ?_⟩
    · obtain ⟨j, c, hj, hc, rfl⟩ := pos_split hp
      show zgemm _ _ _ _ _ _ _ _ _ _ _ _ _ _ _ _ _ = _
      rw [zgemm_at _ _ _ _ _ _ _ _ _ _ _ _ _ _ _ hc hj, valR, (divmod hc).1, (divmod hc).2, one_mul, one_mul,
        add_comm]
      congr 1
      refine Finset.sum_congr rfl fun l hl => ?_
      rw [Finset.mem_range] at hl
      simp only [tmpR, Bool.false_eq_true, if_false, if_true, Nat.add_comm l _]
      rw [(gdmmN_spec a b A1 (s * (a * b)) x m.tmp (i * (a * b))).1 j hj l hl, mul_comm]
    · simp only [stepR, List.mem_cons, List.not_mem_nil, or_false] at hop
      rcases hop with rfl | rfl
      · refine local_tmp (f := fun C => gdmm false a b A1 (s * (a * b)) x C (i * (a * b)))
          (w := fun p => A1 (s * (a * b) + (p / b * b + p % b)) * x (p % b)) ?_ ?_
        · intro C p hp
          obtain ⟨j, c, hj, hc, rfl⟩ := pos_split hp
          rw [(gdmmN_spec a b A1 (s * (a * b)) x C (i * (a * b))).1 j hj c hc, (divmod hc).1, (divmod hc).2]
        · intro C p hp
          exact (gdmmN_spec a b A1 (s * (a * b)) x C (i * (a * b))).2 p hp
      · exact local_zgemm _ rfl rfl _ _ _ _ _
  | dense =>
    have ht : ∀ i s (C : Buf R), ∀ j < a, ∀ l < b2, zgemm false false b2 a b 1 x 0 b2 A1 (s * (a * b)) b 0 C
        (i * (a * b2)) b2 (i * (a * b2) + (j * b2 + l)) = tmpR a b b2 x A1 .dense s j l := by
      intro i s C j hj l hl
      rw [zgemm_at _ _ _ _ _ _ _ _ _ _ _ _ _ _ _ hl hj, one_mul, zero_mul, add_zero]
      simp only [tmpR]
      refine Finset.sum_congr rfl fun l' _ => ?_
      simp only [Bool.false_eq_true, if_false, Nat.zero_add, Nat.add_comm l' _, Nat.add_comm l (l' * _)]
      rw [mul_comm]
    refine ⟨fun i s m p hp => ?_, fun i s op hop => ?_⟩
    · obtain ⟨j, c, hj, hc, rfl⟩ := pos_split hp
      show zgemm _ _ _ _ _ _ _ _ _ _ _ _ _ _ _ _ _ = _
      rw [zgemm_at _ _ _ _ _ _ _ _ _ _ _ _ _ _ _ hc hj, valR, (divmod hc).1, (divmod hc).2, one_mul, one_mul,
        add_comm]
      congr 1
      refine Finset.sum_congr rfl fun l hl => ?_
      rw [Finset.mem_range] at hl
      simp only [Bool.false_eq_true, if_false, if_true, Nat.add_comm l _]
      rw [ht i s m.tmp j hj l hl, mul_comm]
    · simp only [stepR, List.mem_cons, List.not_mem_nil, or_false] at hop
      rcases hop with rfl | rfl
      · refine local_tmp (f := fun C => zgemm false false b2 a b 1 x 0 b2 A1 (s * (a * b)) b 0 C (i * (a * b2)) b2)
          (w := fun p => tmpR a b b2 x A1 .dense s (p / b2) (p % b2)) ?_ ?_
        · intro C p hp
          obtain ⟨j, c, hj, hc, rfl⟩ := pos_split hp
          rw [ht i s C j hj c hc, (divmod hc).1, (divmod hc).2]
        · intro C p hp
          exact zgemm_out _ _ _ _ _ _ _ _ _ _ _ _ _ _ _ _ hp
      · exact local_zgemm _ rfl rfl _ _ _ _ _

end

end EvoMPS
