import Verif.SwBuild
import Verif.Props.Sandwich
import Mathlib.Data.List.GetD

/-!
# C93: a sandwich state made from given tensors
-/

namespace EvoMPS

open Matrix SW

variable {R : Type*} [CommRing R] [StarRing R]

/-- The bond dimension to the right of site `n` of the finite part; `DL` is that of the left block. -/
def bondAfter (DL : ℕ) (C : List (AnyTen R)) (n : ℕ) : ℕ :=
  if n = 0 then DL else (C.getD (n - 1) (zeroTen 0 0 0)).b

/-- The tensors of the finite part fit to each other, to the left block with the dimensions `q`, `DL` and to the right block
with the bond dimension `DR`. -/
structure FitsBetween (q DL DR : ℕ) (C : List (AnyTen R)) : Prop where
  site : ∀ n (h : n < C.length), C[n].q = q ∧ C[n].a = bondAfter DL C n
  last : bondAfter DL C C.length = DR

/-- What `update(restore_CF=False)` of a uniform chain with block length `L` and dimensions `D`, `q` leaves: arrays of the right
shapes, and environments that are fixed by the block. -/
structure BulkReady (L D q : ℕ) (u : Bulk R) : Prop where
  L_eq : u.L = L
  D_eq : u.D = D
  q_eq : u.q = q
  shapes : BulkShapes u
  left : ∀ k < u.L, StepL (u.l ((k + u.L - 1) % u.L)) (u.A k) (u.l k)
  right : ∀ k < u.L, StepR (u.r k) (u.A k) (u.r ((k + u.L - 1) % u.L))

/-- The uniform chain `u` with the tensors `As` instead of its own. -/
def withTensors (u : Bulk R) (As : List (AnyTen R)) : Bulk R :=
  ⟨u.L, u.D, u.q, fun k => As.getD k ⟨0, 0, 0, 0⟩, u.l, u.r⟩

/-- A uniform chain with the tensors `As` that was not updated: its environments are matrices of ones. -/
def chainOf (a : AnyTen R) (As : List (AnyTen R)) : Bulk R :=
  ⟨As.length, a.a, a.q, fun k => As.getD k ⟨0, 0, 0, 0⟩, fun _ => ⟨a.a, a.a, fun _ _ => 1⟩,
    fun _ => ⟨a.a, a.a, fun _ _ => 1⟩⟩

omit [StarRing R] in
theorem setAndUpdate_chain (upd : Bulk R → Option (Bulk R)) (rnd : ∀ q D : ℕ, ℕ → Ten R q D D) (a : AnyTen R)
    (As : List (AnyTen R)) : setAndUpdate upd (newBulk rnd a.a a.q As.length) As = upd (chainOf a As) :=
  if_pos le_rfl

omit [StarRing R] in
theorem setAndUpdate_with (upd : Bulk R → Option (Bulk R)) (u : Bulk R) (As : List (AnyTen R)) (h : u.L ≤ As.length) :
    setAndUpdate upd u As = upd (withTensors u As) := if_pos h

omit [StarRing R] in
theorem newBulk_shapes (rnd : ∀ q D : ℕ, ℕ → Ten R q D D) (D q L : ℕ) (hL : 0 < L) : BulkShapes (newBulk rnd D q L) :=
  ⟨hL, fun _ _ => ⟨rfl, rfl, rfl⟩, fun _ _ => ⟨⟨rfl, rfl⟩, ⟨rfl, rfl⟩⟩⟩

/-- `fillTensors` on a state of the constructor. -/
theorem fillTensors_spec (upd : Bulk R → Option (Bulk R)) (q DL DR : ℕ) (AsL C AsR : List (AnyTen R)) (S : State R)
    {LL LR qR : ℕ} (hN : S.N = C.length) (hq : ∀ n, S.q n = q) (hC : FitsBetween q DL DR C) {uL uR : Bulk R}
    (hL : setAndUpdate upd S.uniL AsL = some uL) (okL : BulkReady LL DL q uL)
    (hR : setAndUpdate upd S.uniR AsR = some uR) (okR : BulkReady LR DR qR uR) :
    ∃ S' l r, fillTensors upd DL DR AsL C AsR S = some S' ∧ (S'.N = C.length ∧ S'.D (C.length + 1) = DR)
      ∧ SandwichOf uL.L uL.A C.length (fun n => C.getD (n - 1) (zeroTen 0 0 0)) uR.L uR.A (getA S')
      ∧ (∀ n, (getA S' n).q = getQ S' n ∧ (getA S' n).a = getD S' (n - 1) ∧ (getA S' n).b = getD S' n)
      ∧ LeftEnv (getA S') uL.L uL.l l ∧ RightEnv (getA S') C.length uR.L uR.r r
      ∧ (∀ n : ℤ, n ≤ C.length + 1 ∨ uR.L ∣ C.length → getL S' n = some (l n))
      ∧ (∀ n : ℤ, n ≤ C.length ∨ (C.length + 1 < n ∧ uR.L ∣ C.length) → getR S' n = some (r n))
      ∧ getR S' (C.length + 1) = some (S.r (C.length + 1)) := by
  set T : State R := { S with
    A := fun n => if 1 ≤ n then C.getD (n - 1) (S.A n) else S.A n
    D := fun n => if n = 0 then DL else if n ≤ C.length then (C.getD (n - 1) (S.A n)).b else DR
    uniL := uL
    uniR := uR } with hT
  have hg : ∀ n, 1 ≤ n → n ≤ C.length → ∀ d, C.getD (n - 1) d = C.getD (n - 1) (zeroTen 0 0 0) := by
    intro n h1 h2 d
    rw [List.getD_eq_getElem _ _ (by omega), List.getD_eq_getElem _ _ (by omega)]
  have hD : ∀ n ≤ C.length, T.D n = bondAfter DL C n := by
    intro n hn
    by_cases h : n = 0
    · simp [hT, bondAfter, h]
    · simp only [hT, bondAfter, if_neg h, if_pos hn]
      rw [hg n (by omega) hn]
  have hTN : T.N = C.length := hN
  have hS : Shapes T := by
    refine ⟨okL.shapes.L_pos, okR.shapes.L_pos, okL.shapes.ten, okR.shapes.ten, ?_, ?_, ?_⟩
    · intro n h1 h2
      rw [hTN] at h2
      have hA : T.A n = C[n - 1] := by
        simp only [hT, if_pos h1]
        rw [List.getD_eq_getElem _ _ (by omega)]
      obtain ⟨e1, e2⟩ := hC.site (n - 1) (by omega)
      rw [hA, hD _ (by omega), hD _ h2, e1, e2]
      refine ⟨(hq n).symm, rfl, ?_⟩
      rw [bondAfter, if_neg (by omega), List.getD_eq_getElem _ _ (by omega)]
    · rw [hD 0 (by omega)]
      exact okL.D_eq.symm
    · rw [hTN, hD _ le_rfl, hC.last]
      exact okR.D_eq.symm
  obtain ⟨S', l, r, e1, e2, e3, e4, e5, e6, e7, e8, _⟩ := C49_environments_partial T hS okL.left okR.right
  have hfill : fillTensors upd DL DR AsL C AsR S = updateRaw T := by
    simp only [fillTensors]
    rw [hL, Option.bind_some, hR, Option.bind_some]
  obtain ⟨t1, t2⟩ := C49_tensors T hS
  obtain ⟨l0, hl0⟩ := leftEnv_exists hS.L_left (fun n hn => rep_down t1.left_rep t1.left_block hS.L_left n hn) hS.fit
    okL.left
  obtain ⟨r0, hr0⟩ := rightEnv_exists hS.L_right
    (fun n hn => rep_up t1.right_rep t1.right_block hS.L_right n hn) hS.fit okR.right
  obtain ⟨S'', u1, u2, _, _, u5⟩ := updateRaw_spec hS hl0 hr0
  have hSS : S' = S'' := Option.some_inj.mp (e1.symm.trans u1)
  have hN' : S'.N = C.length := by
    rw [hSS, u2]
    exact hTN
  have hD' : S'.D (C.length + 1) = DR := by
    rw [hSS, u2]
    simp [hT]
  rw [hTN] at e6 e7 e8 t1
  refine ⟨S', l, r, hfill.trans e1, ⟨hN', hD'⟩, ?_, ?_, e2 ▸ e5, e2 ▸ e6, e7, ?_, ?_⟩
  · rw [e2]
    refine ⟨t1.left_block, t1.left_rep, ?_, t1.right_block, t1.right_rep⟩
    intro n h1 h2
    rw [t1.mid n h1 h2]
    simp only [hT, if_pos h1]
    exact hg n h1 h2 _
  · intro n
    rw [e2, e3, e4]
    exact t2 n
  · intro n hn
    refine e8 n ?_
    rcases hn with h | h
    · exact Or.inl h
    · exact Or.inr (Or.inr h)
  · rw [getR, hN', if_pos (by omega), hSS, show ((C.length : ℤ) + 1).toNat = C.length + 1 by omega,
      u5 _ (by omega)]

/-- **C93** `from_tensors(As_L, As_C, As_R)`, partial.  `uL` and `uR` are the uniform chains with the tensors `As_L` and `As_R`
after their update, which keeps the block lengths and the dimensions.  If the tensors of the finite part fit between the
blocks and have the site dimension of the left block, the state returned is the infinite chain with the block `uL` repeated to
the left of `As_C` and `uR` to its right, `get_q` and `get_D` are its dimensions, and `get_l`, `get_r` its environments, as
far as C49 says.  Missing is `get_r(N + 1)`, see `C93_right_end_violated`. -/
theorem C93_from_tensors_partial (upd : Bulk R → Option (Bulk R)) (rndL rndR : ∀ q D : ℕ, ℕ → Ten R q D D)
    (a b : AnyTen R) (AsL C AsR : List (AnyTen R)) (hC : FitsBetween a.q a.a b.a C) {uL uR : Bulk R}
    (hL : upd (chainOf a (a :: AsL)) = some uL)
    (okL : BulkReady (a :: AsL).length a.a a.q uL)
    (hR : upd (chainOf b (b :: AsR)) = some uR)
    (okR : BulkReady (b :: AsR).length b.a b.q uR) :
    ∃ S l r, fromTensorsFull upd rndL rndR (a :: AsL) C (b :: AsR) = some S ∧ (S.N = C.length ∧ S.D (C.length + 1) = b.a)
      ∧ SandwichOf (a :: AsL).length uL.A C.length (fun n => C.getD (n - 1) (zeroTen 0 0 0)) (b :: AsR).length uR.A (getA S)
      ∧ (∀ n, (getA S n).q = getQ S n ∧ (getA S n).a = getD S (n - 1) ∧ (getA S n).b = getD S n)
      ∧ LeftEnv (getA S) (a :: AsL).length uL.l l ∧ RightEnv (getA S) C.length (b :: AsR).length uR.r r
      ∧ (∀ n : ℤ, n ≤ C.length + 1 ∨ (b :: AsR).length ∣ C.length → getL S n = some (l n))
      ∧ (∀ n : ℤ, n ≤ C.length ∨ (C.length + 1 < n ∧ (b :: AsR).length ∣ C.length) → getR S n = some (r n)) := by
  obtain ⟨S, h1, h2, h3, h4, _, h6, _, _⟩ := new_spec C.length
    (newBulk_shapes rndL a.a a.q (a :: AsL).length (by simp)) (some (newBulk rndR b.a b.q (b :: AsR).length))
  obtain ⟨S', l, r, g1, g2, g3, g4, g5, g6, g7, g8, _⟩ := fillTensors_spec upd a.q a.a b.a (a :: AsL) C (b :: AsR) S
    h2 h6 hC (by rw [h3, setAndUpdate_chain]; exact hL) okL
    (by rw [h4, Option.getD_some, setAndUpdate_chain]; exact hR) okR
  rw [okL.L_eq] at g3 g5
  rw [okR.L_eq] at g3 g6 g7 g8
  refine ⟨S', l, r, ?_, g2, g3, g4, g5, g6, g7, g8⟩
  simp only [fromTensorsFull, List.head?_cons, Option.bind_some]
  rw [h1, Option.bind_some]
  exact g1

/-- **C93** is violated at the first cut to the right of the finite part, for all tensors: `get_r(N + 1)` is the matrix of
ones the constructor filled in, with the bond dimension of the left block. -/
theorem C93_right_end_violated (upd : Bulk R → Option (Bulk R)) (rndL rndR : ∀ q D : ℕ, ℕ → Ten R q D D)
    (a b : AnyTen R) (AsL C AsR : List (AnyTen R)) (hC : FitsBetween a.q a.a b.a C) {uL uR : Bulk R}
    (hL : upd (chainOf a (a :: AsL)) = some uL)
    (okL : BulkReady (a :: AsL).length a.a a.q uL)
    (hR : upd (chainOf b (b :: AsR)) = some uR)
    (okR : BulkReady (b :: AsR).length b.a b.q uR) :
    ∃ S, fromTensorsFull upd rndL rndR (a :: AsL) C (b :: AsR) = some S
      ∧ getR S (C.length + 1) = some ⟨a.a, a.a, fun _ _ => 1⟩ := by
  obtain ⟨S, h1, h2, h3, h4, _, h6, _, h8⟩ := new_spec C.length
    (newBulk_shapes rndL a.a a.q (a :: AsL).length (by simp)) (some (newBulk rndR b.a b.q (b :: AsR).length))
  obtain ⟨S', l, r, g1, _, _, _, _, _, _, _, g9⟩ := fillTensors_spec upd a.q a.a b.a (a :: AsL) C (b :: AsR) S
    h2 h6 hC (by rw [h3, setAndUpdate_chain]; exact hL) okL
    (by rw [h4, Option.getD_some, setAndUpdate_chain]; exact hR) okR
  refine ⟨S', ?_, ?_⟩
  · simp only [fromTensorsFull, List.head?_cons, Option.bind_some]
    rw [h1, Option.bind_some]
    exact g1
  · rw [g9, h8 _ le_rfl]
    rfl

/-- In particular it has the wrong shape if the blocks have different bond dimensions. -/
theorem C93_right_end_shape_violated (upd : Bulk R → Option (Bulk R)) (rndL rndR : ∀ q D : ℕ, ℕ → Ten R q D D)
    (a b : AnyTen R) (AsL C AsR : List (AnyTen R)) (hC : FitsBetween a.q a.a b.a C) {uL uR : Bulk R}
    (hL : upd (chainOf a (a :: AsL)) = some uL) (okL : BulkReady (a :: AsL).length a.a a.q uL)
    (hR : upd (chainOf b (b :: AsR)) = some uR) (okR : BulkReady (b :: AsR).length b.a b.q uR) (hab : a.a ≠ b.a) :
    ∃ S, fromTensorsFull upd rndL rndR (a :: AsL) C (b :: AsR) = some S
      ∧ ∀ r, RightEnv (getA S) C.length (b :: AsR).length uR.r r → getR S (C.length + 1) ≠ some (r (C.length + 1)) := by
  obtain ⟨S, h1, h2⟩ := C93_right_end_violated upd rndL rndR a b AsL C AsR hC hL okL hR okR
  refine ⟨S, h1, fun r hr he => hab ?_⟩
  have e := hr.right_block 0 (by simp)
  have hs := (okR.shapes.mat 0 okR.shapes.L_pos).2.1
  rw [h2] at he
  have := congrArg AnyMat.a (Option.some_inj.mp he)
  simp only [Nat.cast_zero, add_zero] at e
  rw [e, hs, okR.D_eq] at this
  exact this

omit [StarRing R] in
/-- **C93** Empty blocks raise. -/
theorem C93_empty (upd : Bulk R → Option (Bulk R)) [StarRing R] (rndL rndR : ∀ q D : ℕ, ℕ → Ten R q D D)
    (As C : List (AnyTen R)) :
    fromTensorsFull upd rndL rndR [] C As = none ∧ fromTensorsFull upd rndL rndR As C [] = none := by
  refine ⟨rfl, ?_⟩
  cases As <;> rfl

/-- **C93** the function `sandwich_from_tensors`, partial: the same holds if the two blocks have the same length and
dimensions.  `u` is the updated chain of random tensors that the constructor makes. -/
theorem C93_function_partial (updF upd : Bulk R → Option (Bulk R)) (rnd : ∀ q D : ℕ, ℕ → Ten R q D D)
    (a b : AnyTen R) (AsL C AsR : List (AnyTen R)) (hC : FitsBetween a.q a.a a.a C) (hb : b.a = a.a)
    (hlen : AsR.length = AsL.length) {u uL uR : Bulk R}
    (hu : updF (newBulk rnd a.a a.q (a :: AsL).length) = some u) (ok : BulkReady (a :: AsL).length a.a a.q u)
    (hL : upd (withTensors u (a :: AsL)) = some uL) (okL : BulkReady (a :: AsL).length a.a a.q uL)
    (hR : upd (withTensors u (b :: AsR)) = some uR) (okR : BulkReady (a :: AsL).length a.a a.q uR) :
    ∃ S l r, sandwichFromTensors updF upd rnd (a :: AsL) C (b :: AsR) = some S ∧ (S.N = C.length ∧ S.D (C.length + 1) = b.a)
      ∧ SandwichOf (a :: AsL).length uL.A C.length (fun n => C.getD (n - 1) (zeroTen 0 0 0)) (b :: AsR).length uR.A (getA S)
      ∧ (∀ n, (getA S n).q = getQ S n ∧ (getA S n).a = getD S (n - 1) ∧ (getA S n).b = getD S n)
      ∧ LeftEnv (getA S) (a :: AsL).length uL.l l ∧ RightEnv (getA S) C.length (b :: AsR).length uR.r r
      ∧ (∀ n : ℤ, n ≤ C.length + 1 ∨ (b :: AsR).length ∣ C.length → getL S n = some (l n))
      ∧ (∀ n : ℤ, n ≤ C.length ∨ (C.length + 1 < n ∧ (b :: AsR).length ∣ C.length) → getR S n = some (r n)) := by
  obtain ⟨S, h1, h2, h3, h4, _, h6, _, _⟩ := new_spec C.length ok.shapes none
  obtain ⟨S', l, r, g1, g2, g3, g4, g5, g6, g7, g8, _⟩ := fillTensors_spec upd a.q a.a a.a (a :: AsL) C (b :: AsR) S
    h2 (fun n => (h6 n).trans ok.q_eq) hC (by rw [h3, setAndUpdate_with _ _ _ ok.L_eq.le]; exact hL) okL
    (by rw [h4, Option.getD_none, setAndUpdate_with _ _ _ (by rw [ok.L_eq]; simp; omega)]; exact hR) okR
  have hlen' : (b :: AsR).length = (a :: AsL).length := by simp [hlen]
  rw [okL.L_eq] at g3 g5
  rw [okR.L_eq, ← hlen'] at g6 g7 g8
  rw [okR.L_eq] at g3
  refine ⟨S', l, r, ?_, by rw [hb]; exact g2, by rw [hlen']; exact g3, g4, g5, g6, g7, g8⟩
  simp only [sandwichFromTensors, List.head?_cons, Option.bind_some]
  rw [hu, Option.bind_some, h1, Option.bind_some, hb]
  exact g1

/-- **C93** is violated by the function `sandwich_from_tensors` if the right block is longer than the left one: the chain it
returns repeats to the right of the finite part with the length of the *left* block, so the tensors of the right
block from that length on do not occur in it. -/
theorem C93_function_length_violated (updF upd : Bulk R → Option (Bulk R)) (rnd : ∀ q D : ℕ, ℕ → Ten R q D D)
    (a b : AnyTen R) (AsL C AsR : List (AnyTen R)) (hC : FitsBetween a.q a.a a.a C) (hb : b.a = a.a)
    (hlen : AsL.length ≤ AsR.length) {u uL uR : Bulk R}
    (hu : updF (newBulk rnd a.a a.q (a :: AsL).length) = some u) (ok : BulkReady (a :: AsL).length a.a a.q u)
    (hL : upd (withTensors u (a :: AsL)) = some uL) (okL : BulkReady (a :: AsL).length a.a a.q uL)
    (hR : upd (withTensors u (b :: AsR)) = some uR) (okR : BulkReady (a :: AsL).length a.a a.q uR) :
    ∃ S, sandwichFromTensors updF upd rnd (a :: AsL) C (b :: AsR) = some S
      ∧ ∀ n > (C.length : ℤ), getA S (n + (a :: AsL).length) = getA S n := by
  obtain ⟨S, h1, h2, h3, h4, _, h6, _, _⟩ := new_spec C.length ok.shapes none
  obtain ⟨S', l, r, g1, _, g3, _⟩ := fillTensors_spec upd a.q a.a a.a (a :: AsL) C (b :: AsR) S
    h2 (fun n => (h6 n).trans ok.q_eq) hC (by rw [h3, setAndUpdate_with _ _ _ ok.L_eq.le]; exact hL) okL
    (by rw [h4, Option.getD_none, setAndUpdate_with _ _ _ (by rw [ok.L_eq]; simp; omega)]; exact hR) okR
  refine ⟨S', ?_, ?_⟩
  · simp only [sandwichFromTensors, List.head?_cons, Option.bind_some]
    rw [hu, Option.bind_some, h1, Option.bind_some, hb]
    exact g1
  · have := g3.right_rep
    rw [okR.L_eq] at this
    exact this

/-- **C93** is violated by the function `sandwich_from_tensors` if the right block is shorter than the left one: it
raises. -/
theorem C93_function_short_violated (updF upd : Bulk R → Option (Bulk R)) (rnd : ∀ q D : ℕ, ℕ → Ten R q D D)
    (a b : AnyTen R) (AsL C AsR : List (AnyTen R)) (hlen : AsR.length < AsL.length) {u : Bulk R}
    (hu : updF (newBulk rnd a.a a.q (a :: AsL).length) = some u) (ok : BulkReady (a :: AsL).length a.a a.q u) :
    sandwichFromTensors updF upd rnd (a :: AsL) C (b :: AsR) = none := by
  obtain ⟨S, h1, _, h3, h4, _⟩ := new_spec C.length ok.shapes none
  have hR : setAndUpdate upd u (b :: AsR) = none := by
    rw [setAndUpdate, if_neg (by rw [ok.L_eq]; simp; omega)]
  have h4' : S.uniR = u := h4
  simp only [sandwichFromTensors, List.head?_cons, Option.bind_some]
  rw [hu, Option.bind_some, h1, Option.bind_some]
  simp only [fillTensors]
  rw [h4', hR]
  cases setAndUpdate upd S.uniL (a :: AsL) <;> rfl

/-! ### The hypotheses can be met -/

/-- A site tensor with one identity matrix. -/
def idTen (n : ℕ) : AnyTen ℂ := ⟨1, n, n, fun _ => 1⟩

/-- An update for chains whose tensors are signs times the identity. -/
def demoUpd (u : Bulk ℂ) : Option (Bulk ℂ) :=
  some { u with l := fun _ => ⟨u.D, u.D, 1⟩, r := fun _ => ⟨u.D, u.D, 1⟩ }

/-- The tensors of the finite part: one site between the bond dimensions one and two. -/
def demoCentre : List (AnyTen ℂ) := [⟨1, 1, 2, fun _ => fun _ _ => 1⟩]

theorem demo_fits : FitsBetween 1 1 2 demoCentre := by
  refine ⟨?_, rfl⟩
  intro n h
  have : n = 0 := by simp only [demoCentre, List.length_singleton] at h; omega
  subst this
  exact ⟨rfl, rfl⟩

theorem stepL_id (n : ℕ) : StepL ⟨n, n, 1⟩ (idTen n) (⟨n, n, 1⟩ : AnyMat ℂ) := by
  refine ⟨1, rfl, ?_⟩
  have h : ∀ f : Fin 1 → Matrix (Fin n) (Fin n) ℂ, f = (fun _ => 1) →
      (⟨n, n, 1⟩ : AnyMat ℂ) = ⟨n, n, ∑ s, (f s)ᴴ * 1 * f s⟩ := by
    rintro f rfl
    simp
  exact h _ rfl

theorem stepR_id (n : ℕ) : StepR ⟨n, n, 1⟩ (idTen n) (⟨n, n, 1⟩ : AnyMat ℂ) := by
  refine ⟨1, rfl, ?_⟩
  have h : ∀ f : Fin 1 → Matrix (Fin n) (Fin n) ℂ, f = (fun _ => 1) →
      (⟨n, n, 1⟩ : AnyMat ℂ) = ⟨n, n, ∑ s, f s * 1 * (f s)ᴴ⟩ := by
    rintro f rfl
    simp
  exact h _ rfl

theorem demo_ready1 (n : ℕ) : ∃ u, demoUpd (chainOf (idTen n) [idTen n]) = some u ∧ BulkReady 1 n 1 u := by
  refine ⟨_, rfl, rfl, rfl, rfl, ⟨Nat.one_pos, ?_, fun _ _ => ⟨⟨rfl, rfl⟩, ⟨rfl, rfl⟩⟩⟩, ?_, ?_⟩
  · intro k hk
    obtain rfl : k = 0 := by simp only [chainOf, List.length_singleton] at hk; omega
    exact ⟨rfl, rfl, rfl⟩
  · intro k hk
    obtain rfl : k = 0 := by simp only [chainOf, List.length_singleton] at hk; omega
    exact stepL_id n
  · intro k hk
    obtain rfl : k = 0 := by simp only [chainOf, List.length_singleton] at hk; omega
    exact stepR_id n

/-- The hypotheses of `C93_from_tensors_partial` and of the two theorems on `get_r(N + 1)` can be met, with different bond
dimensions on the two sides. -/
example : ∃ uL uR, FitsBetween (idTen 1).q (idTen 1).a (idTen 2).a demoCentre
    ∧ demoUpd (chainOf (idTen 1) [idTen 1]) = some uL ∧ BulkReady [idTen 1].length (idTen 1).a (idTen 1).q uL
    ∧ demoUpd (chainOf (idTen 2) [idTen 2]) = some uR ∧ BulkReady [idTen 2].length (idTen 2).a (idTen 2).q uR
    ∧ (idTen 1).a ≠ (idTen 2).a := by
  obtain ⟨uL, h1, h2⟩ := demo_ready1 1
  obtain ⟨uR, h3, h4⟩ := demo_ready1 2
  exact ⟨uL, uR, demo_fits, h1, h2, h3, h4, by decide⟩

/-- The chain of the constructor for the next theorem. -/
def demoChain : Bulk ℂ := ⟨1, 1, 1, fun _ => numTen 1, fun _ => numMat 1, fun _ => numMat 1⟩

/-- An update of a chain with one site per block and the tensor one. -/
def demoUpd1 (u : Bulk ℂ) : Option (Bulk ℂ) := some { u with l := fun _ => numMat 1, r := fun _ => numMat 1 }

theorem demoUpd1_ready (As : List (AnyTen ℂ)) :
    ∃ u, demoUpd1 (withTensors demoChain (numTen 1 :: As)) = some u ∧ BulkReady 1 1 1 u := by
  refine ⟨_, rfl, rfl, rfl, rfl, ⟨Nat.one_pos, ?_, fun _ _ => ⟨⟨rfl, rfl⟩, ⟨rfl, rfl⟩⟩⟩, ?_, ?_⟩
  · intro k hk
    obtain rfl : k = 0 := by simp only [withTensors, demoChain] at hk; omega
    exact ⟨rfl, rfl, rfl⟩
  · intro k hk
    obtain rfl : k = 0 := by simp only [withTensors, demoChain] at hk; omega
    have := stepL_num 1 1
    simpa [withTensors, demoChain] using this
  · intro k hk
    obtain rfl : k = 0 := by simp only [withTensors, demoChain] at hk; omega
    have := stepR_num 1 1
    simpa [withTensors, demoChain] using this

theorem demoChain_ready : BulkReady 1 1 1 demoChain := by
  obtain ⟨u, h1, h2⟩ := demoUpd1_ready []
  refine ⟨rfl, rfl, rfl, ⟨Nat.one_pos, fun _ _ => ⟨rfl, rfl, rfl⟩, fun _ _ => ⟨⟨rfl, rfl⟩, ⟨rfl, rfl⟩⟩⟩, ?_, ?_⟩
  · intro k _
    simpa [demoChain] using stepL_num 1 1
  · intro k _
    simpa [demoChain] using stepR_num 1 1

/-- The hypotheses of the theorems on the function can be met, with blocks of the same length (`As = []`) and with a longer
right block. -/
example (As : List (AnyTen ℂ)) : ∃ uL uR, FitsBetween (numTen 1).q (numTen 1).a (numTen 1).a [numTen 2]
    ∧ BulkReady [numTen 1].length (numTen 1).a (numTen 1).q demoChain
    ∧ demoUpd1 (withTensors demoChain [numTen 1]) = some uL ∧ BulkReady [numTen 1].length (numTen 1).a (numTen 1).q uL
    ∧ demoUpd1 (withTensors demoChain (numTen 1 :: As)) = some uR
    ∧ BulkReady [numTen 1].length (numTen 1).a (numTen 1).q uR := by
  obtain ⟨uL, h1, h2⟩ := demoUpd1_ready []
  obtain ⟨uR, h3, h4⟩ := demoUpd1_ready As
  refine ⟨uL, uR, ⟨?_, rfl⟩, demoChain_ready, h1, h2, h3, h4⟩
  intro n h
  obtain rfl : n = 0 := by simp only [List.length_singleton] at h; omega
  exact ⟨rfl, rfl⟩

end EvoMPS
