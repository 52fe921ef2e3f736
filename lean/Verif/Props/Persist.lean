import Verif.Persist
import Mathlib.Tactic.NormNum
import Mathlib.Data.Complex.Basic

/-!
# Property theorems: saving and loading uniform and sandwich states (C82)
-/

namespace EvoMPS

open Persist

section
variable {R U : Type}

/-- A uniform state with bond dimension `D`, local dimension `q` and `L` sites per block, all lists of the right length. -/
structure UObjOk (S : UObj R U) (D q L : ℕ) : Prop where
  pos : 0 < L
  D_eq : S.D = D
  q_eq : S.q = q
  L_eq : S.L = L
  A_len : S.A.length = L
  A_shape : ∀ a ∈ S.A, a.shape = [q, D, D]
  l_len : S.l.length = L
  r_len : S.r.length = L
  K_len : S.K.length = L

theorem slice_stack (As : List (Arr R)) (st : Arr R) (h : stack As = some st) : st.toList = As := by
  cases As with
  | nil => simp [stack] at h
  | cons a As =>
    simp only [stack] at h
    split at h
    next hall =>
      rw [Option.some.injEq] at h
      subst h
      apply List.ext_getElem
      · simp [Arr.toList]
      · intro i h1 h2
        rw [List.all_eq_true] at hall
        have := hall ((a :: As)[i]) (List.getElem_mem h2)
        rw [beq_iff_eq] at this
        simp only [Arr.toList, Arr.slice, List.getElem_map, List.getElem_range, List.tail_cons]
        rw [← this]
        congr 1
        simp [List.getD_eq_getElem?_getD, List.getElem?_eq_getElem h2]
    next => exact absurd h (by simp)

theorem stack_some (As : List (Arr R)) (h0 : As ≠ []) (sh : List ℕ) (h : ∀ a ∈ As, a.shape = sh) :
    ∃ st, stack As = some st ∧ st.shape = As.length :: sh := by
  cases As with
  | nil => exact absurd rfl h0
  | cons a As =>
    have hall : (a :: As).all (fun b => b.shape == a.shape) = true := by
      rw [List.all_eq_true]
      intro b hb
      rw [beq_iff_eq, h b hb, h a (by simp)]
    simp only [stack]
    rw [if_pos hall]
    exact ⟨_, rfl, by simp only [h a (by simp)]⟩

theorem export_spec (S : UObj R U) (wrap : U → U) (u : Option U) {D q L : ℕ} (hS : UObjOk S D q L) :
    ∃ st, S.export wrap u = some st ∧ S.l.getLast? = some st.lL ∧ S.r.getLast? = some st.rL ∧ S.K.head? = some st.K0 ∧
      st.userdata = some (wrap (u.getD S.userdata)) ∧ st.A.shape.length ≠ 0 ∧
      (if st.A.shape.length = 3 then [st.A] else st.A.toList) = S.A := by
  have hl : S.l ≠ [] := fun h => by have := hS.l_len; have := hS.pos; simp_all
  have hr : S.r ≠ [] := fun h => by have := hS.r_len; have := hS.pos; simp_all
  have hK : S.K ≠ [] := fun h => by have := hS.K_len; have := hS.pos; simp_all
  have hA : S.A ≠ [] := fun h => by have := hS.A_len; have := hS.pos; simp_all
  obtain ⟨lL, hl⟩ : ∃ x, S.l.getLast? = some x := ⟨_, List.getLast?_eq_some_getLast hl⟩
  obtain ⟨rL, hr⟩ : ∃ x, S.r.getLast? = some x := ⟨_, List.getLast?_eq_some_getLast hr⟩
  obtain ⟨K0, hK⟩ := Option.isSome_iff_exists.1 (List.isSome_head?.2 hK)
  by_cases h1 : S.L = 1
  · have h2 : S.A.length = 1 := by rw [hS.A_len, ← hS.L_eq, h1]
    obtain ⟨a, ha⟩ := List.length_eq_one_iff.1 h2
    refine ⟨⟨a, lL, rL, K0, some (wrap (u.getD S.userdata))⟩, ?_, hl, hr, hK, rfl, ?_, ?_⟩
    · simp [UObj.export, h1, hl, hr, hK, ha]
    · simp [hS.A_shape a (by simp [ha])]
    · simp [hS.A_shape a (by simp [ha]), ha]
  · obtain ⟨st, hst, hsh⟩ := stack_some S.A hA [q, D, D] hS.A_shape
    refine ⟨⟨st, lL, rL, K0, some (wrap (u.getD S.userdata))⟩, ?_, hl, hr, hK, rfl, ?_, ?_⟩
    · simp [UObj.export, h1, hl, hr, hK, hst]
    · simp [hsh]
    · rw [if_neg (by simp [hsh])]
      exact slice_stack S.A st hst

/-- What `import_state` leaves behind if the shapes agree. -/
def restored (T S : UObj R U) (u : U) : UObj R U :=
  { T with
    A := S.A
    l := T.l.set (T.l.length - 1) (S.l.getLast?.getD T.lLBefore)
    r := T.r.set (T.r.length - 1) (S.r.getLast?.getD T.rLBefore)
    K := T.K.set 0 (S.K.head?.getD T.lLBefore)
    lLBefore := S.l.getLast?.getD T.lLBefore
    rLBefore := S.r.getLast?.getD T.rLBefore
    userdata := u }

theorem getLast_set (xs : List (Arr R)) (v : Arr R) (h : xs ≠ []) : (setLast xs v).getLast? = some v := by
  have := List.length_pos_iff.2 h
  rw [setLast, List.getLast?_eq_getElem?, List.length_set, List.getElem?_set_self (by omega)]

theorem import_export (ops : UOps R U) (S T : UObj R U) (wrap : U → U) (u : Option U) {D q L : ℕ} (hS : UObjOk S D q L)
    (hT : UObjOk T D q L) (st : Saved R U) (hst : S.export wrap u = some st) (e t eq sq doUpdate : Bool) :
    T.importState ops st e t eq sq doUpdate = (if doUpdate then ops.update (restored T S (wrap (u.getD S.userdata)))
      else restored T S (wrap (u.getD S.userdata)), some true) := by
  obtain ⟨st', h', hl, hr, hK, hu, h0, hA⟩ := export_spec S wrap u hS
  obtain rfl : st = st' := by rw [hst] at h'; exact Option.some.inj h'
  have hSA : S.A ≠ [] := fun h => by have := hS.A_len; have := hS.pos; simp_all
  have hTA : T.A ≠ [] := fun h => by have := hT.A_len; have := hT.pos; simp_all
  have hTl : T.l ≠ [] := fun h => by have := hT.l_len; have := hT.pos; simp_all
  have hTr : T.r ≠ [] := fun h => by have := hT.r_len; have := hT.pos; simp_all
  obtain ⟨a, ha⟩ := Option.isSome_iff_exists.1 (List.isSome_head?.2 hSA)
  obtain ⟨b, hb⟩ := Option.isSome_iff_exists.1 (List.isSome_head?.2 hTA)
  have ha' := hS.A_shape a (List.mem_of_mem_head? ha)
  have hb' := hT.A_shape b (List.mem_of_mem_head? hb)
  unfold UObj.importState
  dsimp only
  rw [hu]
  dsimp only
  rw [if_neg h0, hA, ha, hb]
  dsimp only
  rw [if_pos ⟨by rw [hS.A_len, hT.L_eq], by rw [ha', hb']⟩]
  have : ((({ T with userdata := wrap (u.getD S.userdata) } : UObj R U).assign S.A st).before)
      = restored T S (wrap (u.getD S.userdata)) := by
    simp only [UObj.before, UObj.assign, restored, getLast_set _ _ hTl, getLast_set _ _ hTr, hl, hr, hK, Option.getD_some]
    rfl
  rw [this]

/-- `import_state` of an exported state into an object with the same dimensions restores the tensors of the block, the last
environments, the first `K` and the user data (as stored), whatever the flags, and returns `True`. -/
theorem C82_uniform_roundtrip (ops : UOps R U) (S T : UObj R U) (wrap : U → U) (u : Option U) {D q L : ℕ} (hS : UObjOk S D q L)
    (hT : UObjOk T D q L) (e t eq sq : Bool) :
    ∃ st, S.export wrap u = some st ∧ ∃ T', T.importState ops st e t eq sq false = (T', some true) ∧ UObjOk T' D q L ∧
      T'.A = S.A ∧ T'.l.getLast? = S.l.getLast? ∧ T'.r.getLast? = S.r.getLast? ∧ T'.K.head? = S.K.head? ∧
      S.l.getLast? = some T'.lLBefore ∧ S.r.getLast? = some T'.rLBefore ∧ T'.userdata = wrap (u.getD S.userdata) ∧
      T.importState ops st e t eq sq true = (ops.update T', some true) := by
  obtain ⟨st, hst, hl, hr, hK, -⟩ := export_spec S wrap u hS
  have hTl : T.l ≠ [] := fun h => by have := hT.l_len; have := hT.pos; simp_all
  have hTr : T.r ≠ [] := fun h => by have := hT.r_len; have := hT.pos; simp_all
  have hTK : T.K ≠ [] := fun h => by have := hT.K_len; have := hT.pos; simp_all
  refine ⟨st, hst, restored T S (wrap (u.getD S.userdata)), import_export ops S T wrap u hS hT st hst e t eq sq false, ?_, rfl,
    ?_, ?_, ?_, ?_, ?_, rfl, import_export ops S T wrap u hS hT st hst e t eq sq true⟩
  · exact ⟨hT.pos, hT.D_eq, hT.q_eq, hT.L_eq, hS.A_len, hS.A_shape, by simp [restored, hT.l_len], by simp [restored, hT.r_len],
      by simp [restored, hT.K_len]⟩
  · rw [hl]; exact (getLast_set T.l _ hTl).trans (by rw [hl]; rfl)
  · rw [hr]; exact (getLast_set T.r _ hTr).trans (by rw [hr]; rfl)
  · obtain ⟨x, xs, hx⟩ := List.exists_cons_of_ne_nil hTK
    simp [restored, hx, hK]
  · simp [restored, hl]
  · simp [restored, hr]

/-- `from_file` reads off all dimensions and restores the state, if the constructor makes an object with them. -/
theorem C82_from_file (ops : UOps R U) (make : ℕ → ℕ → ℕ → UObj R U) (S : UObj R U) (wrap : U → U) (u : Option U) {D q L : ℕ}
    (hS : UObjOk S D q L) (hmake : UObjOk (make D q L) D q L) :
    ∃ st, S.export wrap u = some st ∧ ∃ T', fromFile ops make st false = some T' ∧ UObjOk T' D q L ∧ T'.A = S.A ∧
      T'.l.getLast? = S.l.getLast? ∧ T'.r.getLast? = S.r.getLast? ∧ T'.K.head? = S.K.head? ∧
      fromFile ops make st true = some (ops.update T') := by
  obtain ⟨st, hst, T', h1, h2, h3, h4, h5, h6, -, -, -, h7⟩ :=
    C82_uniform_roundtrip ops S (make D q L) wrap u hS hmake false false false false
  refine ⟨st, hst, T', ?_, h2, h3, h4, h5, h6, ?_⟩ <;>
  · obtain ⟨st', h', -, -, -, -, -, hA⟩ := export_spec S wrap u hS
    obtain rfl : st = st' := by rw [hst] at h'; exact Option.some.inj h'
    have hSA : S.A ≠ [] := fun h => by have := hS.A_len; have := hS.pos; simp_all
    obtain ⟨a, ha⟩ := Option.isSome_iff_exists.1 (List.isSome_head?.2 hSA)
    have ha' := hS.A_shape a (List.mem_of_mem_head? ha)
    unfold fromFile
    dsimp only
    rw [hA, ha, Option.bind_some, ha']
    dsimp only
    rw [hS.A_len]
    first | rw [h1] | rw [h7]

/-- An exported state whose dimensions do not fit is rejected if no flag allows a change: `import_state` returns `False` and
nothing but the user data has changed. -/
theorem C82_rejected_partial (ops : UOps R U) (S T : UObj R U) (wrap : U → U) (u : Option U) {D q L D' q' L' : ℕ}
    (hS : UObjOk S D q L) (hT : UObjOk T D' q' L') (h : (D, q, L) ≠ (D', q', L')) (doUpdate : Bool) :
    ∃ st, S.export wrap u = some st ∧ T.importState ops st false false false false doUpdate
      = ({ T with userdata := wrap (u.getD S.userdata) }, some false) := by
  obtain ⟨st, hst, -, -, -, hu, h0, hA⟩ := export_spec S wrap u hS
  refine ⟨st, hst, ?_⟩
  have hSA : S.A ≠ [] := fun h => by have := hS.A_len; have := hS.pos; simp_all
  have hTA : T.A ≠ [] := fun h => by have := hT.A_len; have := hT.pos; simp_all
  obtain ⟨a, ha⟩ := Option.isSome_iff_exists.1 (List.isSome_head?.2 hSA)
  obtain ⟨b, hb⟩ := Option.isSome_iff_exists.1 (List.isSome_head?.2 hTA)
  have ha' := hS.A_shape a (List.mem_of_mem_head? ha)
  have hb' := hT.A_shape b (List.mem_of_mem_head? hb)
  unfold UObj.importState
  dsimp only
  rw [hu]
  dsimp only
  rw [if_neg h0, hA, ha, hb]
  dsimp only
  rw [if_neg, if_neg (by simp), if_neg (by simp), if_neg (by simp), if_neg (by simp)]
  rintro ⟨h1, h2⟩
  rw [ha', hb'] at h2
  rw [hS.A_len, hT.L_eq] at h1
  rw [List.cons.injEq, List.cons.injEq] at h2
  exact h (by rw [h1, h2.1, h2.2.1])

/-- The user data of an object are overwritten by a rejected import. -/
theorem C82_rejected_violated (ops : UOps ℂ ℕ) : ∃ S T : UObj ℂ ℕ, UObjOk S 2 2 1 ∧ UObjOk T 3 2 1 ∧
    ∃ st, S.export id none = some st ∧ ∃ T', T.importState ops st false false false false true = (T', some false) ∧ T' ≠ T := by
  have hS : UObjOk (⟨2, 2, 1, [⟨[2, 2, 2], fun _ => 1⟩], [⟨[2, 2], fun _ => 1⟩], [⟨[2, 2], fun _ => 1⟩], [⟨[2, 2], fun _ => 1⟩],
      ⟨[2, 2], fun _ => 1⟩, ⟨[2, 2], fun _ => 1⟩, 5⟩ : UObj ℂ ℕ) 2 2 1 := by
    constructor <;> simp
  have hT : UObjOk (⟨3, 2, 1, [⟨[2, 3, 3], fun _ => 1⟩], [⟨[3, 3], fun _ => 1⟩], [⟨[3, 3], fun _ => 1⟩], [⟨[3, 3], fun _ => 1⟩],
      ⟨[3, 3], fun _ => 1⟩, ⟨[3, 3], fun _ => 1⟩, 7⟩ : UObj ℂ ℕ) 3 2 1 := by
    constructor <;> simp
  obtain ⟨st, h1, h2⟩ := C82_rejected_partial ops _ _ id none hS hT (by simp) true
  refine ⟨_, _, hS, hT, st, h1, _, h2, fun h => ?_⟩
  have := congrArg UObj.userdata h
  simp at this

/-- With `expand_q=True`, importing a state with a smaller local dimension raises, after the tensors of the object have been
replaced by the imported ones; so does `shrink_q=True` for a larger local dimension, which leaves the tensors. -/
theorem C82_expand_q_violated (ops : UOps R U) (S T : UObj R U) (wrap : U → U) (u : Option U) {D q q' L : ℕ}
    (hS : UObjOk S D q L) (hT : UObjOk T D q' L) (doUpdate : Bool) :
    ∃ st, S.export wrap u = some st ∧
      (q < q' → ∃ T', T.importState ops st false false true false doUpdate = (T', none) ∧ T'.A = S.A) ∧
      (q' < q → ∃ T', T.importState ops st false false false true doUpdate = (T', none) ∧ T'.A = T.A) := by
  obtain ⟨st, hst, -, -, -, hu, h0, hA⟩ := export_spec S wrap u hS
  have hSA : S.A ≠ [] := fun h => by have := hS.A_len; have := hS.pos; simp_all
  have hTA : T.A ≠ [] := fun h => by have := hT.A_len; have := hT.pos; simp_all
  obtain ⟨a, ha⟩ := Option.isSome_iff_exists.1 (List.isSome_head?.2 hSA)
  obtain ⟨b, hb⟩ := Option.isSome_iff_exists.1 (List.isSome_head?.2 hTA)
  have ha' := hS.A_shape a (List.mem_of_mem_head? ha)
  have hb' := hT.A_shape b (List.mem_of_mem_head? hb)
  have hne : q ≠ q' → ¬ (S.A.length = T.L ∧ a.shape = b.shape) := by
    rintro hq ⟨-, h2⟩
    rw [ha', hb'] at h2
    rw [List.cons.injEq] at h2
    exact hq h2.1
  refine ⟨st, hst, fun hq => ?_, fun hq => ?_⟩
  · unfold UObj.importState
    dsimp only
    rw [hu]
    dsimp only
    rw [if_neg h0, hA, ha, hb]
    dsimp only
    rw [if_neg (hne hq.ne), if_neg (by simp), if_neg (by simp), if_pos]
    · exact ⟨_, rfl, rfl⟩
    · rw [ha', hb', hS.A_len, hT.L_eq]
      simp [hq.le]
  · unfold UObj.importState
    dsimp only
    rw [hu]
    dsimp only
    rw [if_neg h0, hA, ha, hb]
    dsimp only
    rw [if_neg (hne hq.ne'), if_neg (by simp), if_neg (by simp), if_neg (by simp), if_pos]
    · exact ⟨_, rfl, rfl⟩
    · rw [ha', hb', hS.A_len, hT.L_eq]
      simp [hq.le]

/-! ## Sandwich states -/

/-- A sandwich state as left by the constructor and all methods: the first and the last but one entry of `A` are `None`, the
tensors of the uniform states are lists. -/
structure SwOk (S : SwObj R) : Prop where
  len : S.A.length = S.N + 3
  first : S.A[0]? = some .none
  last : S.A[S.N + 1]? = some .none
  left : ∃ as, S.uniL.A = .list as
  right : ∃ as, S.uniR.A = .list as

/-- The tensors, environments and counters of `T'` are those of `S`. -/
structure SwSame (T' S : SwObj R) : Prop where
  A : T'.A = S.A
  left : T'.uniL.A = S.uniL.A
  right : T'.uniR.A = S.uniR.A
  l0 : T'.l 0 = S.l 0
  rN : T'.r S.N = S.r S.N
  rN1 : T'.r (S.N + 1) = S.r S.N
  leftl : T'.uniL.lLast = S.l 0
  leftr : T'.uniL.rLast = S.uniL.rLast
  rightl : T'.uniR.lLast = S.uniR.lLast
  rightr : T'.uniR.rLast = S.r S.N
  grown : T'.grownLeft = S.grownLeft ∧ T'.grownRight = S.grownRight
  shrunk : T'.shrunkLeft = S.shrunkLeft ∧ T'.shrunkRight = S.shrunkRight

theorem sw_assign (S T : SwObj R) (u : U) (hS : SwOk S) (hN : T.N = S.N) : SwSame (T.assign (S.save u)) S ∧ (T.assign (S.save u)).N = S.N ∧
    (T.assign (S.save u)).D = T.D ∧ (T.assign (S.save u)).uniL.L = T.uniL.L := by
  have hlen := hS.len
  have e0 : (((S.A.set 0 S.uniL.A).set (S.N + 1) S.uniR.A)).getD 0 .none = S.uniL.A := by
    rw [List.getD_eq_getElem?_getD, List.getElem?_set_ne (by omega), List.getElem?_set_self (by omega)]; rfl
  have e1 : (((S.A.set 0 S.uniL.A).set (S.N + 1) S.uniR.A)).getD (S.N + 1) .none = S.uniR.A := by
    rw [List.getD_eq_getElem?_getD, List.getElem?_set_self (by simp; omega)]; rfl
  have e2 : ((((S.A.set 0 S.uniL.A).set (S.N + 1) S.uniR.A).set 0 .none).set (S.N + 1) .none) = S.A := by
    apply List.ext_getElem?
    intro i
    by_cases h1 : i = S.N + 1
    · subst h1
      rw [List.getElem?_set_self (by simp; omega), hS.last]
    · rw [List.getElem?_set_ne (Ne.symm h1)]
      by_cases h0 : i = 0
      · subst h0
        rw [List.getElem?_set_self (by simp; omega), hS.first]
      · rw [List.getElem?_set_ne (Ne.symm h0), List.getElem?_set_ne (Ne.symm h1), List.getElem?_set_ne (Ne.symm h0)]
  obtain ⟨as, has⟩ := hS.left
  obtain ⟨bs, hbs⟩ := hS.right
  refine ⟨⟨?_, ?_, ?_, ?_, ?_, ?_, ?_, ?_, ?_, ?_, ?_, ?_⟩, ?_, ?_, ?_⟩
  · simp only [SwObj.assign, SwObj.save, hN, e2]
  · simp only [SwObj.assign, SwObj.save, e0]; rw [has]; rfl
  · simp only [SwObj.assign, SwObj.save, hN, e1]; rw [hbs]; rfl
  · simp [SwObj.assign, SwObj.save]
  · simp [SwObj.assign, SwObj.save, hN]
  · simp [SwObj.assign, SwObj.save, hN]
  · simp [SwObj.assign, SwObj.save]
  · simp [SwObj.assign, SwObj.save]
  · simp [SwObj.assign, SwObj.save]
  · simp [SwObj.assign, SwObj.save, hN]
  · simp [SwObj.assign, SwObj.save]
  · simp [SwObj.assign, SwObj.save]
  · exact hN
  · rfl
  · rfl

theorem sw_load_len (grow : SwObj R → ℕ → SwObj R) (update : SwObj R → SwObj R) (T : SwObj R) (st : SwSaved R U)
    (h : st.A.length = T.A.length) (a d : Bool) :
    T.load grow update st a d = (if d then update (T.assign st) else T.assign st, some (some st.userdata)) := by
  unfold SwObj.load
  simp [h]

theorem save_len (S : SwObj R) (u : U) : (S.save u).A.length = S.A.length := by
  simp [SwObj.save]

/-- `load_state` after `save_state` into a sandwich state of the same length restores the tensors of the window and of both
uniform states, the environments and the counters, and returns the user data. -/
theorem C82_sandwich_roundtrip (grow : SwObj R → ℕ → SwObj R) (update : SwObj R → SwObj R) (S T : SwObj R) (u : U) (hS : SwOk S)
    (hT : SwOk T) (hN : T.N = S.N) (autogrow : Bool) :
    ∃ T', T.load grow update (S.save u) autogrow false = (T', some (some u)) ∧ SwSame T' S ∧
      T.load grow update (S.save u) autogrow true = (update T', some (some u)) := by
  have h : (S.save u).A.length = T.A.length := by rw [save_len, hS.len, hT.len, hN]
  refine ⟨T.assign (S.save u), ?_, (sw_assign S T u hS hN).1, ?_⟩
  · rw [sw_load_len _ _ _ _ h]; rfl
  · rw [sw_load_len _ _ _ _ h]; rfl

/-- A file with another number of sites is not loaded without `autogrow`. -/
theorem C82_sandwich_rejected (grow : SwObj R → ℕ → SwObj R) (update : SwObj R → SwObj R) (S T : SwObj R) (u : U) (hS : SwOk S)
    (hT : SwOk T) (hN : T.N ≠ S.N) (doUpdate : Bool) :
    T.load grow update (S.save u) false doUpdate = (T, some none) := by
  unfold SwObj.load
  have h : (S.save u).A.length ≠ T.A.length := by
    rw [save_len, hS.len, hT.len]
    omega
  simp [h]

/-- The bond dimensions of the object are not updated: the entries of `D` are those of the object before, whatever the
dimensions of the loaded tensors. -/
theorem C82_sandwich_D_violated (grow : SwObj ℂ → ℕ → SwObj ℂ) (update : SwObj ℂ → SwObj ℂ) : ∃ S T : SwObj ℂ, SwOk S ∧ SwOk T ∧ T.N = S.N ∧
    (∃ a, S.A[1]? = some (.arr a) ∧ a.shape = [2, S.D 0, S.D 1]) ∧ (∃ a, T.A[1]? = some (.arr a) ∧ a.shape = [2, T.D 0, T.D 1]) ∧
    ∃ T', T.load grow update (S.save ()) false false = (T', some (some ())) ∧ ∃ a, T'.A[1]? = some (.arr a) ∧
      a.shape ≠ [2, T'.D 0, T'.D 1] := by
  let mk : ℕ → SwObj ℂ := fun D =>
    { N := 1, D := fun _ => D, A := [.none, .arr ⟨[2, D, D], fun _ => 1⟩, .none, .none], l := fun _ => ⟨[D, D], fun _ => 1⟩,
      r := fun _ => ⟨[D, D], fun _ => 1⟩, uniL := ⟨.list [⟨[2, D, D], fun _ => 1⟩], ⟨[D, D], fun _ => 1⟩, ⟨[D, D], fun _ => 1⟩, 1, none, none⟩,
      uniR := ⟨.list [⟨[2, D, D], fun _ => 1⟩], ⟨[D, D], fun _ => 1⟩, ⟨[D, D], fun _ => 1⟩, 1, none, none⟩, grownLeft := 0,
      grownRight := 0, shrunkLeft := 0, shrunkRight := 0 }
  have hok : ∀ D, SwOk (mk D) := fun D => ⟨rfl, rfl, rfl, ⟨_, rfl⟩, ⟨_, rfl⟩⟩
  obtain ⟨T', h1, h2, -⟩ := C82_sandwich_roundtrip grow update (mk 3) (mk 2) () (hok 3) (hok 2) rfl false
  refine ⟨mk 3, mk 2, hok 3, hok 2, rfl, ⟨_, rfl, rfl⟩, ⟨_, rfl, rfl⟩, T', h1, ⟨[2, 3, 3], fun _ => 1⟩, ?_, ?_⟩
  · rw [h2.A]; rfl
  · have h : T' = (mk 2).assign ((mk 3).save ()) := by
      rw [sw_load_len _ _ _ _ (by rw [save_len]; rfl)] at h1
      exact (congrArg Prod.fst h1).symm
    subst h
    simp [SwObj.assign, mk]

/-- What `grow_left` does to the length: it adds `m` times the number of sites per block of the left uniform state. -/
def GrowsByBlocks (grow : SwObj R → ℕ → SwObj R) : Prop :=
  ∀ S m, SwOk S → SwOk (grow S m) ∧ (grow S m).N = S.N + m * S.uniL.L

/-- With one site per block, `autogrow` makes room for a longer window and loads it.  **What is missing:** larger blocks,
see `C82_autogrow_violated`. -/
theorem C82_autogrow_partial (grow : SwObj R → ℕ → SwObj R) (hg : GrowsByBlocks grow) (update : SwObj R → SwObj R) (S T : SwObj R)
    (u : U) (hS : SwOk S) (hT : SwOk T) (hN : T.N ≤ S.N) (hL : T.uniL.L = 1) :
    ∃ T', T.load grow update (S.save u) true false = (T', some (some u)) ∧ T'.N = S.N ∧ SwSame T' S := by
  by_cases h : T.N = S.N
  · refine ⟨T.assign (S.save u), ?_, (sw_assign S T u hS h).2.1, (sw_assign S T u hS h).1⟩
    rw [sw_load_len _ _ _ _ (by rw [save_len, hS.len, hT.len, h])]; rfl
  · obtain ⟨h1, h2⟩ := hg T (S.N - T.N) hT
    rw [hL, Nat.mul_one, Nat.add_sub_cancel' hN] at h2
    refine ⟨(grow T (S.N - T.N)).assign (S.save u), ?_, (sw_assign S _ u hS h2).2.1, (sw_assign S _ u hS h2).1⟩
    unfold SwObj.load
    have h3 : ¬ S.N = T.N := fun h' => h h'.symm
    have h4 : ¬ S.N < T.N := by omega
    simp [save_len, hS.len, hT.len, h1.len, h2, h3, h4]
    rfl

/-- With two or more sites per block, `autogrow` grows the window too far and does not load a longer one: the object is left
with a window of another length than before and than in the file. -/
theorem C82_autogrow_violated (grow : SwObj R → ℕ → SwObj R) (hg : GrowsByBlocks grow) (update : SwObj R → SwObj R) (S T : SwObj R)
    (u : U) (hS : SwOk S) (hT : SwOk T) (hN : T.N < S.N) (hL : 2 ≤ T.uniL.L) (doUpdate : Bool) :
    ∃ T', T.load grow update (S.save u) true doUpdate = (T', some none) ∧ S.N < T'.N := by
  obtain ⟨h1, h2⟩ := hg T (S.N - T.N) hT
  have h3 : S.N < (grow T (S.N - T.N)).N := by
    rw [h2]
    have : (S.N - T.N) * 2 ≤ (S.N - T.N) * T.uniL.L := Nat.mul_le_mul_left _ hL
    omega
  refine ⟨grow T (S.N - T.N), ?_, h3⟩
  unfold SwObj.load
  have h4 : ¬ S.N = T.N := by omega
  have h5 : ¬ S.N < T.N := by omega
  have h6 : ¬ S.N = (grow T (S.N - T.N)).N := by omega
  simp [save_len, hS.len, hT.len, h1.len, h4, h5, h6]

variable [DecidableEq R] [Zero R]

/-- The state with Hamiltonian: if the saved state has bond dimension 1 at the ends and non-zero `K`, or if these have not been
computed, `load_state` after `save_state` restores everything.  **What is missing:** bond dimensions of two or more,
see `C82_tdvp_load_violated`. -/
theorem C82_tdvp_load_partial (grow : SwObj R → ℕ → SwObj R) (update : SwObj R → SwObj R) (S T : SwObj R) (u : U) (hS : SwOk S)
    (hT : SwOk T) (hN : T.N = S.N) (hl : ∀ a, S.uniL.KleftLast = some a → a.shape = [1, 1] ∧ a.val [0, 0] ≠ 0)
    (hr : ∀ a, S.uniR.K0 = some a → a.shape = [1, 1] ∧ a.val [0, 0] ≠ 0) (autogrow : Bool) :
    ∃ T', T.loadTdvp grow update (S.saveTdvp u) autogrow false = (T', some (some u)) ∧ SwSame T' S ∧
      (∀ a, S.uniL.KleftLast = some a → T'.uniL.KleftLast = some a) ∧ (∀ a, S.uniR.K0 = some a → T'.uniR.K0 = some a) := by
  have h : (S.saveTdvp u).A.length = T.A.length := by
    rw [show (S.saveTdvp u).A = (S.save u).A from rfl, save_len, hS.len, hT.len, hN]
  have hs := (sw_assign S T u hS hN).1
  have ha : T.assign (S.saveTdvp u) = T.assign (S.save u) := rfl
  have ht : ∀ x : Option (Arr R), (∀ a, x = some a → a.shape = [1, 1] ∧ a.val [0, 0] ≠ 0) → truth x = some x.isSome := by
    intro x hx
    cases x with
    | none => rfl
    | some a =>
      obtain ⟨h1, h2⟩ := hx a rfl
      simp [truth, h1, h2]
  unfold SwObj.loadTdvp
  rw [sw_load_len _ _ _ _ h, ha]
  dsimp only
  rw [show (S.saveTdvp u).uniLK = S.uniL.KleftLast from rfl, show (S.saveTdvp u).uniRK = S.uniR.K0 from rfl, ht _ hl, ht _ hr]
  refine ⟨_, rfl, ?_, ?_, ?_⟩
  · cases S.uniL.KleftLast <;> cases S.uniR.K0 <;>
      exact ⟨hs.A, hs.left, hs.right, hs.l0, hs.rN, hs.rN1, hs.leftl, hs.leftr, hs.rightl, hs.rightr, hs.grown, hs.shrunk⟩
  · intro a h
    rw [h]
    cases S.uniR.K0 <;> rfl
  · intro a h
    rw [h]
    cases S.uniL.KleftLast <;> rfl

/-- For bond dimension two or more `load_state` raises on every file that `save_state` has written after the energies have been
computed: the truth value of an array is asked for.  The tensors have been replaced by then. -/
theorem C82_tdvp_load_violated (grow : SwObj R → ℕ → SwObj R) (update : SwObj R → SwObj R) (S T : SwObj R) (u : U) (hS : SwOk S)
    (hT : SwOk T) (hN : T.N = S.N) (a : Arr R) (D : ℕ) (hD : 2 ≤ D) (ha : a.shape = [D, D]) (hK : S.uniL.KleftLast = some a)
    (autogrow doUpdate : Bool) :
    ∃ T', T.loadTdvp grow update (S.saveTdvp u) autogrow doUpdate = (T', none) ∧ SwSame T' S := by
  have h : (S.saveTdvp u).A.length = T.A.length := by
    rw [show (S.saveTdvp u).A = (S.save u).A from rfl, save_len, hS.len, hT.len, hN]
  have ht : truth (some a) = none := by
    have h4 : 4 ≤ a.shape.prod := by
      rw [ha]
      simpa using Nat.mul_le_mul hD hD
    simp only [truth]
    rw [if_neg (by omega), if_neg (by omega)]
  refine ⟨T.assign (S.saveTdvp u), ?_, (sw_assign S T u hS hN).1⟩
  unfold SwObj.loadTdvp
  rw [sw_load_len _ _ _ _ h]
  dsimp only
  rw [show (S.saveTdvp u).uniLK = S.uniL.KleftLast from rfl, hK, ht]
  rfl

omit [DecidableEq R] [Zero R] in
/-- `from_file` passes the tensors of the left uniform state, of the window and of the right uniform state to
`from_tensors`. -/
theorem C82_sandwich_from_file (S : SwObj R) (u : U) (hS : SwOk S) :
    ∃ win, swFromFileArgs (S.save u) = some (S.uniL.A, win, S.uniR.A) ∧ win.length = S.N ∧
      ∀ n < S.N, win[n]? = S.A[n + 1]? := by
  have hlen := hS.len
  refine ⟨((S.save u).A.take (S.N + 1)).drop 1, ?_, by simp [SwObj.save, hlen], ?_⟩
  · unfold swFromFileArgs
    dsimp only
    rw [save_len, hlen, if_neg (by omega), show S.N + 3 - 2 = S.N + 1 by omega]
    have e0 : (S.save u).A.getD 0 .none = S.uniL.A := by
      simp only [SwObj.save]
      rw [List.getD_eq_getElem?_getD, List.getElem?_set_ne (by omega), List.getElem?_set_self (by omega)]; rfl
    have e1 : (S.save u).A.getD (S.N + 1) .none = S.uniR.A := by
      simp only [SwObj.save]
      rw [List.getD_eq_getElem?_getD, List.getElem?_set_self (by simp; omega)]; rfl
    rw [e0, e1]
  · intro n hn
    rw [List.getElem?_drop, List.getElem?_take_of_lt (by omega), show 1 + n = n + 1 by omega]
    simp only [SwObj.save]
    rw [List.getElem?_set_ne (by omega), List.getElem?_set_ne (by omega)]

end

/-! ## The hypotheses are satisfiable -/

/-- A state with two sites per block, bond dimension three. -/
example : UObjOk (⟨3, 2, 2, [⟨[2, 3, 3], fun _ => 1⟩, ⟨[2, 3, 3], fun _ => 2⟩], [⟨[3, 3], fun _ => 1⟩, ⟨[3, 3], fun _ => 4⟩],
    [⟨[3, 3], fun _ => 1⟩, ⟨[3, 3], fun _ => 5⟩], [⟨[3, 3], fun _ => 6⟩, ⟨[3, 3], fun _ => 7⟩], ⟨[3, 3], fun _ => 1⟩,
    ⟨[3, 3], fun _ => 1⟩, "x"⟩ : UObj ℂ String) 3 2 2 := by
  constructor <;> simp

/-- A sandwich state with a window of `N` sites, bond dimension two, and `L` sites per block on the left. -/
def swExample (N L : ℕ) : SwObj ℂ :=
  { N := N, D := fun _ => 2, A := .none :: (List.replicate N (.arr ⟨[2, 2, 2], fun _ => 1⟩) ++ [.none, .none]),
    l := fun _ => ⟨[2, 2], fun _ => 1⟩, r := fun _ => ⟨[2, 2], fun _ => 3⟩,
    uniL := ⟨.list (List.replicate L ⟨[2, 2, 2], fun _ => 1⟩), ⟨[2, 2], fun _ => 1⟩, ⟨[2, 2], fun _ => 1⟩, L,
      some ⟨[2, 2], fun _ => 1⟩, some ⟨[2, 2], fun _ => 1⟩⟩,
    uniR := ⟨.list [⟨[2, 2, 2], fun _ => 1⟩], ⟨[2, 2], fun _ => 1⟩, ⟨[2, 2], fun _ => 1⟩, 1, some ⟨[2, 2], fun _ => 1⟩,
      some ⟨[2, 2], fun _ => 1⟩⟩,
    grownLeft := 0, grownRight := 0, shrunkLeft := 0, shrunkRight := 0 }

theorem swExample_ok (N L : ℕ) : SwOk (swExample N L) := by
  refine ⟨by simp [swExample], rfl, ?_, ⟨_, rfl⟩, ⟨_, rfl⟩⟩
  change (Cell.none :: (List.replicate N (Cell.arr _) ++ [Cell.none, Cell.none]))[N + 1]? = _
  rw [List.getElem?_cons_succ, List.getElem?_append_right (by simp)]
  simp

example : GrowsByBlocks (fun (S : SwObj ℂ) m => swExample (S.N + m * S.uniL.L) S.uniL.L) :=
  fun _ _ _ => ⟨swExample_ok _ _, rfl⟩

/-- A window of five sites is not loaded into a state with a window of three sites and two sites per block. -/
example : ∃ T', (swExample 3 2).load (fun S m => swExample (S.N + m * S.uniL.L) S.uniL.L) id ((swExample 5 2).save ()) true true
    = (T', some none) ∧ 5 < T'.N :=
  C82_autogrow_violated _ (fun _ _ _ => ⟨swExample_ok _ _, rfl⟩) id (swExample 5 2) (swExample 3 2) () (swExample_ok _ _)
    (swExample_ok _ _) (by decide) (by decide) true

/-- A state with bond dimension two, its energies computed, cannot be loaded. -/
example (grow : SwObj ℂ → ℕ → SwObj ℂ) : ∃ T', (swExample 3 1).loadTdvp grow id ((swExample 3 1).saveTdvp ()) false true = (T', none) ∧
    SwSame T' (swExample 3 1) :=
  C82_tdvp_load_violated grow id (swExample 3 1) (swExample 3 1) () (swExample_ok _ _) (swExample_ok _ _) rfl _ 2 le_rfl rfl rfl false true

end EvoMPS
