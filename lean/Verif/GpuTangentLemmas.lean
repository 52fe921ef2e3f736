import Verif.GpuTangent
import Verif.TangentLemmas

/-!
# Lemmas for the tangent vector on the GPU
-/

namespace EvoMPS.GpuT

open Matrix

section helpers
variable {R : Type*} [CommRing R] [StarRing R]

theorem foldlM_fin {M : Type*} [AddCommMonoid M] {n : ℕ} (step : M → ℕ → Option M) (f : Fin n → M)
    (h : ∀ acc (s : Fin n), step acc s = some (acc + f s)) :
    (List.range n).foldlM step 0 = some (forSum n f) := by
  have key : ∀ (l : List (Fin n)) (acc : M),
      (l.map Fin.val).foldlM step acc = some (l.foldl (fun acc s => acc + f s) acc) := by
    intro l
    induction l with
    | nil => intro acc; rfl
    | cons s l ih =>
      intro acc
      rw [List.map_cons, List.foldlM_cons, h, List.foldl_cons, ← ih]
      rfl
  rw [← List.map_coe_finRange_eq_range]
  exact key _ _

theorem mapM_fin {M : Type*} {n : ℕ} (f : ℕ → Option M) (g : Fin n → M) (h : ∀ s : Fin n, f s = some (g s)) :
    (List.range n).mapM f = some (List.ofFn g) := by
  have key : ∀ l : List (Fin n), (l.map Fin.val).mapM f = some (l.map g) := by
    intro l
    induction l with
    | nil => rfl
    | cons s l ih =>
      rw [List.map_cons, List.mapM_cons, h, ih]
      rfl
  rw [← List.map_coe_finRange_eq_range, key, List.ofFn_eq_map]

theorem mapM_none {M N : Type*} (l : List M) (f : M → Option N) (x : M) (hx : x ∈ l) (h : f x = none) :
    l.mapM f = none := by
  induction l with
  | nil => cases hx
  | cons y l ih =>
    rw [List.mapM_cons]
    rcases List.mem_cons.1 hx with rfl | hx
    · rw [h]; rfl
    · rw [ih hx]; cases f y <;> rfl

theorem ofFn_get {M : Type*} {n : ℕ} (g : Fin n → M) (s : Fin n) : (List.ofFn g)[(s : ℕ)]? = some (g s) := by
  rw [List.getElem?_ofFn]; simp

theorem devCm1_eq {p a b : ℕ} (C : Ten2 R p p a b) :
    devCm1 C = some (List.ofFn fun s => List.ofFn fun t => C t s) := by
  rw [devCm1]
  refine mapM_fin _ _ fun s => mapM_fin _ _ fun t => ?_
  rw [entry2, dif_pos ⟨t.2, s.2⟩]

theorem devCts_eq {p p' a b : ℕ} (C : Ten2 R p p' a b) (h : p = p') :
    devCts (devTen2 C) = some (List.ofFn fun t => List.ofFn fun s => C s t) := by
  subst h
  rw [devCts, devTen2, List.length_ofFn]
  refine mapM_fin _ _ fun t => ?_
  have h0 := ofFn_get (fun s => List.ofFn (C s)) ⟨0, t.pos⟩
  simp only at h0
  rw [h0, Option.bind_some, List.length_ofFn]
  refine mapM_fin _ _ fun s => ?_
  rw [ofFn_get (fun s => List.ofFn (C s)) s, Option.bind_some, ofFn_get]

theorem devCts_none {p p' a b : ℕ} (C : Ten2 R p p' a b) (h : p ≠ p') (hp : 0 < p) (hp' : 0 < p') :
    devCts (devTen2 C) = none := by
  have h0 := ofFn_get (fun s => List.ofFn (C s)) ⟨0, hp⟩
  simp only at h0
  rw [devCts, devTen2, List.length_ofFn]
  rcases Nat.lt_or_gt_of_ne h with hlt | hgt
  · refine mapM_none _ _ 0 (by simpa using hp) ?_
    rw [h0, Option.bind_some, List.length_ofFn]
    refine mapM_none _ _ p (by simpa using hlt) ?_
    rw [List.getElem?_eq_none (by simp)]; rfl
  · refine mapM_none _ _ p' (by simpa using hgt) ?_
    rw [h0, Option.bind_some, List.length_ofFn]
    refine mapM_none _ _ 0 (by simpa using hp') ?_
    rw [h0, Option.bind_some]
    exact List.getElem?_eq_none (by simp)

theorem devCm1_none {p p' a b : ℕ} (C : Ten2 R p p' a b) (h : p ≠ p') (hp : 0 < p) (hp' : 0 < p') :
    devCm1 C = none := by
  rw [devCm1]
  rcases Nat.lt_or_gt_of_ne h with hlt | hgt
  · refine mapM_none _ _ 0 (by simpa using hp) ?_
    refine mapM_none _ _ p (by simpa using hlt) ?_
    rw [entry2, dif_neg (by omega)]
  · refine mapM_none _ _ p' (by simpa using hgt) ?_
    refine mapM_none _ _ 0 (by simpa using hp') ?_
    rw [entry2, dif_neg (by omega)]

theorem epsLG_eq {p z z' a b : ℕ} (x : Matrix (Fin z) (Fin z') R) (A1 : Ten R p z a) (A2 : Ten R p z' b) :
    epsLG x (devTen A1) (List.ofFn A2) = some (epsL x A1 A2) := by
  rw [epsLG, devTen, List.length_ofFn, epsL]
  refine foldlM_fin _ _ fun acc s => ?_
  rw [ofFn_get, Option.bind_some, ofFn_get, Option.bind_some, Matrix.mul_assoc]

theorem epsRG_eq {p z z' a b : ℕ} (x : Matrix (Fin z) (Fin z') R) (A1 : Ten R p a z) (A2 : Ten R p b z') :
    epsRG x (List.ofFn A1) (devTen A2) = some (epsR x A1 A2) := by
  rw [epsRG, devTen, List.length_ofFn, epsR]
  refine foldlM_fin _ _ fun acc s => ?_
  rw [ofFn_get, Option.bind_some, ofFn_get, Option.bind_some]

theorem calcXG1_eq {p pp a b c v : ℕ} (K : Matrix (Fin b) (Fin b) R) (C : Ten2 R p pp a c)
    (rp1 : Matrix (Fin c) (Fin c) R) (A : Ten R p a b) (Ap1 : Ten R pp b c)
    (l_s : Matrix (Fin a) (Fin a) R) (r_si : Matrix (Fin b) (Fin b) R) (Vsh : Fin p → Matrix (Fin b) (Fin v) R) :
    calcXG1 (some K) (some (devTen2 C)) (some rp1) (devTen A) (some (devTen Ap1)) l_s r_si (devTen Vsh) =
      some (l_s * forSum p fun s => (epsR rp1 (C s) Ap1 + A s * K) * (r_si * Vsh s)) := by
  have h := foldlM_fin (n := p) (fun (part : Matrix (Fin a) (Fin v) R) s =>
      (some rp1).bind fun rp1 => (some (devTen Ap1)).bind fun Ap1 => ((devTen2 C)[s]?).bind fun Cs =>
        (epsRG rp1 Cs Ap1).bind fun sub => ((devTen A)[s]?).bind fun As => ((devTen Vsh)[s]?).bind fun V =>
          some (part + ((sub + As * K) * r_si) * V))
    (fun s => (epsR rp1 (C s) Ap1 + A s * K) * (r_si * Vsh s)) (fun acc s => by
      simp only [Option.bind_some]
      rw [devTen2, ofFn_get (fun s => List.ofFn (C s)) s, Option.bind_some, epsRG_eq, Option.bind_some]
      rw [devTen, ofFn_get, Option.bind_some, devTen, ofFn_get, Option.bind_some, Matrix.mul_assoc])
  have hl : (devTen A).length = p := List.length_ofFn
  simp only [calcXG1, hl]
  rw [h, Option.map_some, zero_add]

theorem devTen_head {p a b : ℕ} (A : Ten R p a b) (hp : 0 < p) : (devTen A)[0]? = some (A ⟨0, hp⟩) :=
  ofFn_get A ⟨0, hp⟩

theorem second_eq {pm p z a b v : ℕ} (Cm1 : Ten2 R pm p z b) (lm2 : Matrix (Fin z) (Fin z) R) (Am1 : Ten R pm z a)
    (r_s : Matrix (Fin b) (Fin b) R) (Vsh : Fin p → Matrix (Fin b) (Fin v) R) :
    (List.range p).foldlM (fun (part : Matrix (Fin a) (Fin v) R) s =>
        (some (devTen Am1)).bind fun Am1 => (some (List.ofFn fun s => List.ofFn fun t => Cm1 t s)).bind fun Cm1 =>
          (Cm1[s]?).bind fun Cs => (epsLG lm2 Am1 Cs).bind fun sub =>
          ((devTen Vsh)[s]?).bind fun V => some (part + sub * (r_s * V))) 0 =
      some (forSum p fun s => epsL lm2 Am1 (fun t => Cm1 t s) * (r_s * Vsh s)) := by
  refine foldlM_fin _ _ fun acc s => ?_
  simp only [Option.bind_some]
  rw [ofFn_get (fun s => List.ofFn fun t => Cm1 t s) s, Option.bind_some, epsLG_eq, Option.bind_some, devTen, ofFn_get,
    Option.bind_some]

/-- `calc_x_G` on lists of the right lengths. -/
theorem calcXG_eq {pm p pp z a b c v : ℕ} (hp : 0 < p) (Kp1 : Option (Matrix (Fin b) (Fin b) R))
    (C : Option (Ten2 R p pp a c)) (Cm1 : Option (Ten2 R pm p z b)) (rp1 : Matrix (Fin c) (Fin c) R)
    (lm2 : Matrix (Fin z) (Fin z) R) (Am1 : Ten R pm z a) (A : Ten R p a b) (Ap1 : Ten R pp b c)
    (l_s l_si : Matrix (Fin a) (Fin a) R) (r_s r_si : Matrix (Fin b) (Fin b) R)
    (Vsh : Fin p → Matrix (Fin b) (Fin v) R) (rG : Option (Matrix (Fin c) (Fin c) R))
    (AmG : Option (List (Matrix (Fin z) (Fin a) R))) (ApG : Option (List (Matrix (Fin b) (Fin c) R)))
    (lG : Option (Matrix (Fin z) (Fin z) R)) (CmG : Option (List (List (Matrix (Fin z) (Fin b) R))))
    (hC : C.isSome = Kp1.isSome) (hr : C.isSome → rG = some rp1) (hAp : C.isSome → ApG = some (devTen Ap1))
    (hl : lG = Cm1.map fun _ => lm2) (hAm : Cm1.isSome → AmG = some (devTen Am1))
    (hCm : CmG = Cm1.map fun Cm1 => List.ofFn fun s => List.ofFn fun t => Cm1 t s) :
    calcXG Kp1 (C.map devTen2) CmG rG lG AmG (devTen A) ApG l_s l_si r_s r_si (devTen Vsh) =
      some (calcX Kp1 C Cm1 rp1 lm2 Am1 A Ap1 l_s l_si r_s r_si Vsh) := by
  have hlen : (devTen A).length = p := List.length_ofFn
  have h1 : calcXG1 Kp1 (C.map devTen2) rG (devTen A) ApG l_s r_si (devTen Vsh) =
      some (if C.isSome || Kp1.isSome then
        (0 : Matrix (Fin a) (Fin v) R) + l_s * forSum p fun s =>
          (match Kp1 with
            | none => (match C with | none => 0 | some C => epsR rp1 (C s) Ap1)
            | some K => (match C with | none => 0 | some C => epsR rp1 (C s) Ap1) + A s * K) * (r_si * Vsh s)
        else 0) := by
    cases C with
    | none =>
      cases Kp1 with
      | none => rfl
      | some K => simp at hC
    | some C =>
      cases Kp1 with
      | none => simp at hC
      | some K =>
        rw [hr rfl, hAp rfl, Option.map_some, calcXG1_eq]
        simp
  rw [calcXG, devTen_head A hp, Option.bind_some, h1, Option.bind_some, hlen]
  subst hl hCm
  cases Cm1 with
  | none => rfl
  | some Cm1 =>
    rw [hAm rfl]
    simp only [Option.map_some]
    rw [second_eq]
    rfl

end helpers

end EvoMPS.GpuT
