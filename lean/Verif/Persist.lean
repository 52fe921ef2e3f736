/-!
# Saving and loading uniform and sandwich states

`tdvp_uniform.py:1485-1615`, `mps_sandwich.py:173-215, 764-822`, `tdvp_sandwich.py:915-949`.

`np.save` followed by `np.load` is taken to return the saved objects.  Arrays are their shape together with their entries.
The functions that change bond dimensions, the canonical form and the environments are parameters here: other files model
them, and they do not matter for what is stored where.  The result of a call that can raise is the object as it is left,
and `none` if an exception was raised.
-/

namespace EvoMPS.Persist

/-- A numpy array: shape and entries. -/
structure Arr (R : Type) where
  shape : List Nat
  val : List Nat → R

variable {R U : Type}

/-- `a[i]` for an array with at least one axis. -/
def Arr.slice (a : Arr R) (i : Nat) : Arr R := ⟨a.shape.tail, fun idx => a.val (i :: idx)⟩

/-- `list(a)`. -/
def Arr.toList (a : Arr R) : List (Arr R) := (List.range (a.shape.headD 0)).map a.slice

/-- `sp.array(As)` for a non-empty list of arrays of the same shape. -/
def stack (As : List (Arr R)) : Option (Arr R) :=
  match As with
  | [] => none
  | a :: _ => if As.all (fun b => b.shape == a.shape) then
      some ⟨As.length :: a.shape, fun idx =>
        match idx with
        | [] => a.val []
        | i :: idx => (As.getD i a).val idx⟩
    else none

/-! ## Uniform states -/

/-- The attributes of a uniform state that are saved or loaded; `l`, `r`, `K` are lists with one entry per site of the block. -/
structure UObj (R U : Type) where
  D : Nat
  q : Nat
  L : Nat
  A : List (Arr R)
  l : List (Arr R)
  r : List (Arr R)
  K : List (Arr R)
  lLBefore : Arr R
  rLBefore : Arr R
  userdata : U

/-- The array of five objects returned by `export_state`; old files have no fifth entry. -/
structure Saved (R U : Type) where
  A : Arr R
  lL : Arr R
  rL : Arr R
  K0 : Arr R
  userdata : Option U

/-- `tdvp_uniform.py:1485-1502` `export_state(userdata)`.  `wrap` is what storing `np.asarray(userdata)` in an array of
objects does to the user data. -/
def UObj.export (S : UObj R U) (wrap : U → U) (userdata : Option U) : Option (Saved R U) :=
  let userdata := userdata.getD S.userdata
  S.l.getLast?.bind fun lL =>
  S.r.getLast?.bind fun rL =>
  (if S.L = 1 then S.A.head? else stack S.A).bind fun A =>
  S.K.head?.map fun K0 =>
  { A := A, lL := lL, rL := rL, K0 := K0, userdata := some (wrap userdata) }

/-- `x[-1] = v` for a list; on an empty list this raises, which does not happen for blocks with at least one site. -/
def setLast {α : Type} (xs : List α) (v : α) : List α := xs.set (xs.length - 1) v

/-- The calls that are not modelled here. -/
structure UOps (R U : Type) where
  initArrays : UObj R U → Nat → Nat → Nat → UObj R U
  expandD : UObj R U → Nat → UObj R U
  truncate : UObj R U → Nat → UObj R U
  update : UObj R U → UObj R U

/-- The assignments `tdvp_uniform.py:1522-1525` that are repeated in every branch of `import_state`. -/
def UObj.assign (S : UObj R U) (newA : List (Arr R)) (st : Saved R U) : UObj R U :=
  { S with A := newA, K := S.K.set 0 st.K0, l := setLast S.l st.lL, r := setLast S.r st.rL }

/-- `self.lL_before_CF = self.l[-1]; self.rL_before_CF = self.r[-1]`. -/
def UObj.before (S : UObj R U) : UObj R U :=
  { S with lLBefore := S.l.getLast?.getD S.lLBefore, rLBefore := S.r.getLast?.getD S.rLBefore }

/-- `tdvp_uniform.py:1507-1593` `import_state(state, expand, truncate, expand_q, shrink_q, do_update=...)`.  There are no methods
`expand_q` and `shrink_q`, and the call of `_init_arrays` in the branch for `shrink_q` lacks an argument. -/
def UObj.importState (ops : UOps R U) (S : UObj R U) (st : Saved R U) (expand truncate expandQ shrinkQ doUpdate : Bool) :
    UObj R U × Option Bool :=
  let S := match st.userdata with
    | none => S
    | some u => { S with userdata := u }
  if st.A.shape.length = 0 then (S, none) else
  let newA := if st.A.shape.length = 3 then [st.A] else st.A.toList
  match newA.head?, S.A.head? with
  | some new0, some old0 =>
    if newA.length = S.L ∧ new0.shape = old0.shape then
      let S := (S.assign newA st).before
      (if doUpdate then ops.update S else S, some true)
    else if expand = true ∧ newA.length = S.L ∧ new0.shape.length = 3 ∧ new0.shape.getD 0 0 = old0.shape.getD 0 0
        ∧ new0.shape.getD 1 0 = new0.shape.getD 2 0 ∧ new0.shape.getD 1 0 ≤ old0.shape.getD 1 0 then
      let newD := S.D
      let savedD := new0.shape.getD 1 0
      let S := ops.initArrays S savedD S.q S.L
      let S := (ops.expandD (S.assign newA st) newD).before
      (if doUpdate then ops.update S else S, some true)
    else if truncate = true ∧ newA.length = S.L ∧ new0.shape.length = 3 ∧ new0.shape.getD 0 0 = old0.shape.getD 0 0
        ∧ new0.shape.getD 1 0 = new0.shape.getD 2 0 ∧ new0.shape.getD 1 0 ≥ old0.shape.getD 1 0 then
      let newD := S.D
      let savedD := new0.shape.getD 1 0
      let S := ops.initArrays S savedD S.q S.L
      let S := ops.truncate (ops.update (S.assign newA st)) newD
      (if doUpdate then ops.update S else S, some true)
    else if expandQ = true ∧ newA.length = S.L ∧ new0.shape.length = 3 ∧ new0.shape.getD 0 0 ≤ old0.shape.getD 0 0
        ∧ new0.shape.getD 1 0 = new0.shape.getD 2 0 ∧ new0.shape.getD 1 0 = old0.shape.getD 1 0 then
      let savedQ := new0.shape.getD 0 0
      let S := ops.initArrays S S.D savedQ S.L
      (S.assign newA st, none)
    else if shrinkQ = true ∧ newA.length = S.L ∧ new0.shape.length = 3 ∧ new0.shape.getD 0 0 ≥ old0.shape.getD 0 0
        ∧ new0.shape.getD 1 0 = new0.shape.getD 2 0 ∧ new0.shape.getD 1 0 = old0.shape.getD 1 0 then
      (S, none)
    else (S, some false)
  | _, _ => (S, if newA.length = S.L then none else some false)

/-- `tdvp_uniform.py:1603-1615` `from_file`; `make D q L` is the call of the constructor.  Shapes that cannot be unpacked
raise. -/
def fromFile (ops : UOps R U) (make : Nat → Nat → Nat → UObj R U) (st : Saved R U) (doUpdate : Bool) : Option (UObj R U) :=
  let newA := if st.A.shape.length = 3 then [st.A] else st.A.toList
  newA.head?.bind fun new0 =>
  match new0.shape with
  | [q, D, _] => some ((make D q newA.length).importState ops st false false false false doUpdate).1
  | _ => none

/-! ## Sandwich states -/

/-- An entry of an array of objects. -/
inductive Cell (R : Type) where
  | none
  | arr (a : Arr R)
  | list (as : List (Arr R))

/-- The attributes of one of the two uniform states that are saved or loaded: the tensors, the last entries of `l` and `r`,
the number of sites of the block, the last entry of `K_left` and the first entry of `K`. -/
structure Bulk (R : Type) where
  A : Cell R
  lLast : Arr R
  rLast : Arr R
  L : Nat
  KleftLast : Option (Arr R)
  K0 : Option (Arr R)

/-- The attributes of a sandwich state that are saved or loaded.  `A` has `N + 3` entries. -/
structure SwObj (R : Type) where
  N : Nat
  D : Nat → Nat
  A : List (Cell R)
  l : Nat → Arr R
  r : Nat → Arr R
  uniL : Bulk R
  uniR : Bulk R
  grownLeft : Nat
  grownRight : Nat
  shrunkLeft : Nat
  shrunkRight : Nat

/-- The array of nine objects in a file. -/
structure SwSaved (R U : Type) where
  A : List (Cell R)
  l0 : Arr R
  uniLr : Arr R
  uniLK : Option (Arr R)
  rN : Arr R
  uniRl : Arr R
  uniRK : Option (Arr R)
  grown : Nat × Nat
  shrunk : Nat × Nat
  userdata : U

/-- `mps_sandwich.py:197-215` `save_state(file_name, userdata)`. -/
def SwObj.save (S : SwObj R) (userdata : U) : SwSaved R U :=
  let Asave := S.A
  let Asave := Asave.set 0 S.uniL.A
  let Asave := Asave.set (S.N + 1) S.uniR.A
  { A := Asave, l0 := S.l 0, uniLr := S.uniL.rLast, uniLK := none, rN := S.r S.N, uniRl := S.uniR.lLast, uniRK := none,
    grown := (S.grownLeft, S.grownRight), shrunk := (S.shrunkLeft, S.shrunkRight), userdata := userdata }

/-- `tdvp_sandwich.py:915-933` `save_state`. -/
def SwObj.saveTdvp (S : SwObj R) (userdata : U) : SwSaved R U :=
  { S.save userdata with uniLK := S.uniL.KleftLast, uniRK := S.uniR.K0 }

/-- `mps_sandwich.py:801-811`: a single array with three axes becomes a list with one tensor. -/
def asBlock (c : Cell R) : Cell R :=
  match c with
  | .arr a => if a.shape.length = 3 then .list [a] else .arr a
  | c => c

/-- `mps_sandwich.py:778-814`: the assignments of `load_state`. -/
def SwObj.assign (S : SwObj R) (st : SwSaved R U) : SwObj R :=
  let N := S.N
  let S := { S with A := st.A, l := fun n => if n = 0 then st.l0 else S.l n }
  let S := { S with uniL := { S.uniL with rLast := st.uniLr } }
  let S := { S with r := fun n => if n = N then st.rN else S.r n }
  let rN := S.r N
  let S := { S with r := fun n => if n = N + 1 then rN else S.r n }
  let S := { S with uniR := { S.uniR with lLast := st.uniRl } }
  let S := { S with grownLeft := st.grown.1, grownRight := st.grown.2, shrunkLeft := st.shrunk.1, shrunkRight := st.shrunk.2 }
  let S := { S with uniL := { S.uniL with A := S.A.getD 0 .none, lLast := S.l 0 } }
  let S := { S with uniR := { S.uniR with A := S.A.getD (N + 1) .none, rLast := S.r N } }
  let S := { S with uniL := { S.uniL with A := asBlock S.uniL.A } }
  let S := { S with uniR := { S.uniR with A := asBlock S.uniR.A } }
  { S with A := (S.A.set 0 .none).set (N + 1) .none }

/-- `mps_sandwich.py:764-822` `load_state(file_name, autogrow, do_update)`: the object as it is left, and `none` if it raises,
`some none` if nothing was loaded, `some (some userdata)` otherwise.  A negative argument makes `grow_left` raise. -/
def SwObj.load (growLeft : SwObj R → Nat → SwObj R) (update : SwObj R → SwObj R) (S : SwObj R) (st : SwSaved R U)
    (autogrow doUpdate : Bool) : SwObj R × Option (Option U) :=
  if autogrow = true ∧ st.A.length ≠ S.A.length ∧ st.A.length < S.N + 3 then (S, none) else
  let S := if autogrow = true ∧ st.A.length ≠ S.A.length then
      let newN := st.A.length - 3
      growLeft S (newN - S.N)
    else S
  if st.A.length ≠ S.A.length then (S, some none) else
  let S := S.assign st
  (if doUpdate then update S else S, some (some st.userdata))

/-- `bool(x)` for an object that is `None` or an array: an array with more than one entry raises, one without entries is
false. -/
def truth [DecidableEq R] [Zero R] (x : Option (Arr R)) : Option Bool :=
  match x with
  | none => some false
  | some a => if a.shape.prod = 0 then some false else
    if a.shape.prod = 1 then some (decide (a.val (List.replicate a.shape.length 0) ≠ 0)) else none

/-- `tdvp_sandwich.py:935-949` `load_state(file_name, autogrow, do_update)`. -/
def SwObj.loadTdvp [DecidableEq R] [Zero R] (growLeft : SwObj R → Nat → SwObj R) (update : SwObj R → SwObj R) (S : SwObj R)
    (st : SwSaved R U) (autogrow doUpdate : Bool) : SwObj R × Option (Option U) :=
  match S.load growLeft update st autogrow false with
  | (S, none) => (S, none)
  | (S, some userdata) =>
    match truth st.uniLK with
    | none => (S, none)
    | some b =>
      let S := if b then { S with uniL := { S.uniL with KleftLast := st.uniLK } } else S
      match truth st.uniRK with
      | none => (S, none)
      | some b =>
        let S := if b then { S with uniR := { S.uniR with K0 := st.uniRK } } else S
        (if doUpdate then update S else S, some userdata)

/-- `mps_sandwich.py:173-178` `from_file`: the arguments of `from_tensors`. -/
def swFromFileArgs (st : SwSaved R U) : Option (Cell R × List (Cell R) × Cell R) :=
  let n := st.A.length
  if n < 2 then none else
  some (st.A.getD 0 .none, (st.A.take (n - 2)).drop 1, st.A.getD (n - 2) .none)

end EvoMPS.Persist
