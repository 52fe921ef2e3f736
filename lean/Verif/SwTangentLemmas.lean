import Verif.SwTangent
import Verif.SwTangentSpec
import Verif.ExcitePrep

/-!
# The inner product of a sandwich state with a tangent vector (helper lemmas)
-/

set_option linter.unusedSectionVars false

namespace EvoMPS

open Matrix Filter Topology

namespace TanOv

open Uni Exc

variable {q D : ℕ}

section
variable {AL AR : Ten ℂ q D D} {N : ℕ} {A : ℕ → Ten ℂ q D D} {B : Ten ℂ q D D} {l r : Matrix (Fin D) (Fin D) ℂ}

theorem sw_le {j : ℤ} (h : j < 1) : sandwichSite AL AR N A j = AL := by rw [sandwichSite, if_pos h]

theorem sw_mid {j : ℕ} (h : 1 ≤ j) (h' : j ≤ N) : sandwichSite AL AR N A j = A j := by
  rw [sandwichSite, if_neg (by omega), if_pos (by omega), Int.toNat_natCast]

theorem sw_gt {j : ℤ} (h : (N : ℤ) < j) : sandwichSite AL AR N A j = AR := by
  rw [sandwichSite, if_neg (by omega), if_neg (by omega)]

theorem braket_eq (hl : lᴴ = l) (k : ℤ) (a b : ℕ) :
    tangentBraket AL AR l r N A B k a b
      = (l * ZT (sandwichSite AL AR N A) (wall AL AR k B) (-a) (a + 1 + N + b) r).trace := by
  rw [tangentBraket, windowBraket_eq, adot_eq_trace, hl]
  simp only [lineTransfer, ZT, fromSite, lineProd]
  congr 3
  funext s
  simp only [Nat.zero_add, sub_eq_neg_add]

variable (AL AR N A l r)

/-- The right part of the sandwich against the tensors of the right bulk. -/
def rpart : ℕ → Matrix (Fin D) (Fin D) ℂ
  | 0 => r
  | i + 1 => mapR (A (N - i)) AR (rpart i)

/-- The left part of the sandwich against the tensors of the left bulk. -/
def lpart : ℕ → Matrix (Fin D) (Fin D) ℂ
  | 0 => l
  | i + 1 => mapL (A (i + 1)) AL (lpart i)

variable {AL AR N A l r}

theorem ZT_congr {X Y X' Y' : ℤ → Ten ℂ q D D} {c : ℤ} {n : ℕ} (h : ∀ i : ℕ, i < n → X (c + i) = X' (c + i) ∧ Y (c + i) = Y' (c + i))
    (x : Matrix (Fin D) (Fin D) ℂ) : ZT X Y c n x = ZT X' Y' c n x := by
  induction n generalizing x with
  | zero => rw [ZT_zero, ZT_zero]
  | succ n ih =>
    rw [ZT_succ, ZT_succ, ih fun i hi => h i (by omega), (h n (by omega)).1, (h n (by omega)).2]

/-- The part of the chain behind site `j`. -/
theorem right_part (hr : mapR AR AR r = r) {k : ℤ} {j : ℕ} (hj : j ≤ N) (hk : k ≤ j) (b : ℕ) :
    ZT (sandwichSite AL AR N A) (wall AL AR k B) (j + 1) (N - j + b) r = rpart AR N A r (N - j) := by
  obtain ⟨i, rfl⟩ : ∃ i, N = j + i := ⟨N - j, by omega⟩
  clear hj
  rw [Nat.add_sub_cancel_left]
  induction i generalizing j k with
  | zero =>
    rw [Nat.zero_add, ZT_const (P := AR) (Q := AR) (fun i hi => ⟨sw_gt (by push_cast; omega), wall_gt (by omega)⟩),
      Function.iterate_fixed hr]
    rfl
  | succ i ih =>
    rw [show i + 1 + b = 1 + (i + b) by omega, ZT_one_add]
    have h2 := ih (k := k) (j := j + 1) (by push_cast; omega)
    rw [show j + 1 + i = j + (i + 1) by omega] at h2
    push_cast at h2
    rw [h2, show ((j : ℤ) + 1) = ((j + 1 : ℕ) : ℤ) by push_cast; rfl, sw_mid (by omega) (by omega), wall_gt (by push_cast; omega),
      rpart, show j + (i + 1) - i = j + 1 by omega]

/-- The part of the chain in front of site `j + 1`. -/
theorem left_part (hA : mapL AL AL l = l) {k : ℤ} {j : ℕ} (hj : j ≤ N) (hk : (j : ℤ) < k) (a : ℕ) (z : Matrix (Fin D) (Fin D) ℂ) :
    (l * ZT (sandwichSite AL AR N A) (wall AL AR k B) (-a) (a + 1 + j) z).trace = (lpart AL A l j * z).trace := by
  induction j generalizing z with
  | zero =>
    rw [Nat.add_zero, trace_ZT (P := AL) (Q := AL) (fun i hi => ⟨sw_le (by omega), wall_lt (by push_cast at hk; omega)⟩),
      Function.iterate_fixed hA]
    rfl
  | succ j ih =>
    rw [show a + 1 + (j + 1) = (a + 1 + j) + 1 by omega, ZT_succ, ih (by omega) (by push_cast at hk; omega), trace_map,
      show (-(a : ℤ) + (a + 1 + j : ℕ)) = ((j + 1 : ℕ) : ℤ) by push_cast; ring, sw_mid (by omega) hj, wall_lt hk]
    rfl

/-- The replaced tensor in the left bulk. -/
theorem braket_neg (hl : lᴴ = l) (hA : mapL AL AL l = l) (hr : mapR AR AR r = r) (n a b : ℕ) (ha : n ≤ a) :
    tangentBraket AL AR l r N A B (-n) a b
      = ((mapL AL AR)^[n] (mapL AL B l) * rpart AR N A r N).trace := by
  have h1 := right_part (AL := AL) (A := A) (B := B) hr (k := -n) (j := 0) (N := N) (by omega) (by omega) b
  rw [Nat.sub_zero] at h1
  rw [braket_eq hl, show a + 1 + N + b = (a - n) + (1 + (n + (N + b))) by omega, ZT_add,
    trace_ZT (P := AL) (Q := AL) (fun i hi => ⟨sw_le (by omega), wall_lt (by omega)⟩), Function.iterate_fixed hA, ZT_one_add,
    show (-(a : ℤ) + (a - n : ℕ)) = -n by omega, wall_at rfl, sw_le (by omega), trace_map, ZT_add,
    trace_ZT (P := AL) (Q := AR) (fun i hi => ⟨sw_le (by omega), wall_gt (by omega)⟩),
    show (-(n : ℤ) + 1 + n) = ((0 : ℕ) : ℤ) + 1 by push_cast; ring, h1]

/-- The replaced tensor in the window. -/
theorem braket_mid (hl : lᴴ = l) (hA : mapL AL AL l = l) (hr : mapR AR AR r = r) (j a b : ℕ) (hj : j < N) :
    tangentBraket AL AR l r N A B (j + 1 : ℕ) a b
      = (lpart AL A l j * mapR (A (j + 1)) B (rpart AR N A r (N - (j + 1)))).trace := by
  rw [braket_eq hl, show a + 1 + N + b = (a + 1 + j) + (1 + (N - (j + 1) + b)) by omega, ZT_add,
    left_part hA (by omega) (by push_cast; omega), ZT_one_add,
    show (-(a : ℤ) + (a + 1 + j : ℕ)) = ((j + 1 : ℕ) : ℤ) by push_cast; ring, wall_at rfl, sw_mid (by omega) (by omega),
    right_part hr (by omega) (by push_cast; omega)]

/-- The replaced tensor in the right bulk. -/
theorem braket_pos (hl : lᴴ = l) (hr : mapR AR AR r = r) (hB : mapR AR B r = 0) {k : ℤ} (a b : ℕ)
    (hk : (N : ℤ) < k) (hb : k ≤ N + b) : tangentBraket AL AR l r N A B k a b = 0 := by
  obtain ⟨c, rfl⟩ : ∃ c : ℕ, k = N + 1 + c := ⟨(k - (N + 1)).toNat, by omega⟩
  have h1 : ZT (sandwichSite AL AR N A) (wall AL AR (N + 1 + c) B) (N + 1 + c + 1) (b - c - 1) r = r := by
    rw [ZT_const (P := AR) (Q := AR) (fun i hi => ⟨sw_gt (by omega), wall_gt (by omega)⟩), Function.iterate_fixed hr]
  rw [braket_eq hl, show a + 1 + N + b = (a + 1 + N + c) + (1 + (b - c - 1)) by omega, ZT_add, ZT_one_add,
    show (-(a : ℤ) + (a + 1 + N + c : ℕ)) = N + 1 + c by push_cast; ring, h1, wall_at rfl,
    sw_gt (by omega), hB, ZT_zero_right, Matrix.mul_zero, Matrix.trace_zero]

end

section
variable (S : SwTan q D)

theorem rs_aux (n : ℕ) (hn : n ≤ S.N) :
    (List.range' (S.N + 1 - n) n).reverse.foldl (fun rs j => epsR (rs.headD 0) (S.A j) (S.AR 0) :: rs) [S.rR 0]
      = (List.range (n + 1)).reverse.map (rpart (S.AR 0) S.N S.A (S.rR 0)) := by
  induction n with
  | zero => simp [rpart]
  | succ n ih =>
    rw [show S.N + 1 - (n + 1) = S.N - n by omega, List.range'_succ, show S.N - n + 1 = S.N + 1 - n by omega, List.reverse_cons,
      List.foldl_append, ih (by omega), List.range_succ (n := n + 1), List.reverse_append, List.reverse_singleton, List.foldl_cons,
      List.foldl_nil, List.singleton_append, List.map_cons]
    congr 1
    rw [List.range_succ, List.reverse_append, List.reverse_singleton, List.singleton_append, List.map_cons, List.headD_cons, rpart,
      epsR_eq]
    rfl

theorem rs_eq : S.rs = (List.range (S.N + 1)).reverse.map (rpart (S.AR 0) S.N S.A (S.rR 0)) := by
  have := rs_aux S S.N le_rfl
  rwa [show S.N + 1 - S.N = 1 by omega] at this

theorem rs_get (j : ℕ) (hj : j ≤ S.N) : S.rs.getD j 0 = rpart (S.AR 0) S.N S.A (S.rR 0) (S.N - j) := by
  rw [rs_eq, List.getD_eq_getElem?_getD, List.getElem?_eq_getElem (by simp; omega), Option.getD_some, List.getElem_map,
    List.getElem_reverse, List.getElem_range]
  congr 1
  simp only [List.length_range]
  omega

theorem lpart_fold (hl : (S.lL 0)ᴴ = S.lL 0) (B : Ten ℂ q D D) (p : ℝ) (n : ℕ) (hn : n ≤ S.N) :
    (List.range' 1 n).foldl (S.winStep B p S.rs) (S.lL 0, [])
      = ((lpart (S.AL 0) S.A (S.lL 0) n)ᴴ, (List.range n).map fun j =>
          Complex.exp (Complex.I * p * (j + 1 : ℕ)) * (lpart (S.AL 0) S.A (S.lL 0) j
            * mapR (S.A (j + 1)) B (rpart (S.AR 0) S.N S.A (S.rR 0) (S.N - (j + 1)))).trace) := by
  induction n with
  | zero => simp [lpart, hl]
  | succ n ih =>
    rw [List.range'_concat, List.foldl_append, ih (by omega), List.foldl_cons, List.foldl_nil, List.range_succ, List.map_append,
      Nat.one_mul, Nat.add_comm 1 n]
    unfold SwTan.winStep
    dsimp only
    refine Prod.ext ?_ ?_
    · dsimp only
      rw [epsL_eq, lpart, mapL_conj]
      rfl
    · dsimp only
      rw [rs_get S _ (by omega), adot_eq_trace, conjTranspose_conjTranspose, epsR_eq]
      rfl

end

/-- The equation of the left bulk. -/
theorem left_solution {AL AR B : Ten ℂ q D D} {l r : Matrix (Fin D) (Fin D) ℂ} (hl : lᴴ = l) (hA : mapL AL AL l = l)
    (hr : mapR AR AR r = r) (hB : mapR AR B r = 0) (topTriv : Bool)
    (hcase : if topTriv then AL = AR ∧ (lᴴ * r).trace = 1 ∧ Mixing AL l r else Decays AL AR)
    (solver : Solver D) (junk : Matrix (Fin D) (Fin D) ℂ) (p : ℝ)
    (hsol : ∀ op x x0, PinvOp.new p [AL] [AR] (some l) (some r) true topTriv = some op →
      op.matvec junk (solver (op.matvec junk) (ravel x) x0).1 = some (ravel x)) :
    ∃ M, pinv1mE solver junk (epsL l AL B) [AL] [AR] (some l) (some r) p true topTriv none = some M ∧
      Mᴴ = mapL AL B l + Complex.exp (Complex.I * p) • mapL AL AR Mᴴ ∧
      Tendsto (fun n => (mapL AL AR)^[n] Mᴴ) atTop (𝓝 0) := by
  have e0 : (epsL l AL B)ᴴ = mapL AL B l := by
    rw [epsL_eq]
    change (mapL B AL l)ᴴ = _
    rw [mapL_conj, hl]
  have ephase : star (Complex.exp (-Complex.I * p)) = Complex.exp (Complex.I * p) := by
    rw [Complex.star_def, ← Complex.exp_conj]
    simp
  cases topTriv with
  | true =>
    obtain ⟨rfl, hn, hmix⟩ : AL = AR ∧ (lᴴ * r).trace = 1 ∧ Mixing AL l r := by simpa using hcase
    have hF : BiFixed [AL] [AL] l r :=
      ⟨rfl, by simp, by rw [blockMap_one]; exact hr, by rw [blockMapL_one]; exact hA, hn⟩
    obtain ⟨M, h1, -, h2, h3⟩ := C44_solution_left solver p [AL] [AL] _ _ hF junk (epsL l AL B) none
      (fun op x0 h => hsol op _ x0 h)
    have e1 : (rᴴ * epsL l AL B).trace = 0 := by
      have : star (rᴴ * epsL l AL B).trace = 0 := by
        rw [← Matrix.trace_conjTranspose, conjTranspose_mul, e0, conjTranspose_conjTranspose, ← trace_map, hB,
          Matrix.mul_zero, Matrix.trace_zero]
      rwa [star_eq_zero] at this
    refine ⟨M, h1, ?_, ?_⟩
    · rw [e1, mul_zero, zero_smul, sub_zero, blockMapL_one, sub_eq_iff_eq_add] at h3
      have h4 := congrArg conjTranspose h3
      rw [conjTranspose_add, e0, conjTranspose_smul, mapL_conj] at h4
      rw [ephase] at h4
      exact h4
    · have h4 : (Mᴴ * r).trace = 0 := by
        have : star (Mᴴ * r).trace = 0 := by
          rw [← Matrix.trace_conjTranspose, conjTranspose_mul, conjTranspose_conjTranspose, h2, e1]
        rwa [star_eq_zero] at this
      refine Exc.left_limit (mixing_iter hmix) fun x => ?_
      rw [Matrix.mul_smul, Matrix.trace_smul, h4, smul_zero, Matrix.zero_mul, Matrix.trace_zero]
  | false =>
    have hdec : Decays AL AR := by simpa using hcase
    obtain ⟨x0, hx0⟩ := pinv1mE_eq solver junk (epsL l AL B) [AL] [AR] (by simp) l r p true false none
    set w := (solver ((PinvOp.mk p [AL] [AR] (some l) (some r) true false).matvec junk) (ravel (epsL l AL B)) x0).1 with hw
    have h := hsol (PinvOp.mk p [AL] [AR] (some l) (some r) true false) (epsL l AL B) x0 (by simp [PinvOp.new])
    rw [← hw, pinv_matvec_left p [AL] [AR] rfl (by simp)] at h
    have h1 : opL [AL] [AR] l r p true.not (reshape w) = epsL l AL B := ravel_inj (Option.some.inj h)
    rw [opL, if_neg (by simp), sub_zero, blockMapL_one] at h1
    have h3 := congrArg conjTranspose (sub_eq_iff_eq_add.1 h1)
    rw [conjTranspose_add, e0, conjTranspose_smul, mapL_conj, ephase] at h3
    refine ⟨_, hx0, h3, Exc.left_limit (decays_iter hdec) fun x => ?_⟩
    rw [Matrix.mul_zero, Matrix.zero_mul]

/-- The sum over all positions. -/
theorem total {AL AR B : Ten ℂ q D D} {l r M : Matrix (Fin D) (Fin D) ℂ} {N : ℕ} {A : ℕ → Ten ℂ q D D} (hl : lᴴ = l)
    (hA : mapL AL AL l = l) (hr : mapR AR AR r = r) (hB : mapR AR B r = 0) (p : ℝ)
    (hM : Mᴴ = mapL AL B l + Complex.exp (Complex.I * p) • mapL AL AR Mᴴ)
    (hM0 : Tendsto (fun n => (mapL AL AR)^[n] Mᴴ) atTop (𝓝 0)) :
    IsTangentOverlap AL AR l r N A B
      (fun k => if k ≤ 0 then Complex.exp (-Complex.I * p * (k + 1)) else Complex.exp (Complex.I * p * k))
      ((Mᴴ * rpart AR N A r N).trace * Complex.exp (-Complex.I * p) + ((List.range N).map fun j =>
          Complex.exp (Complex.I * p * (j + 1 : ℕ)) * (lpart AL A l j
            * mapR (A (j + 1)) B (rpart AR N A r (N - (j + 1)))).trace).sum) := by
  set g : ℕ → ℂ := fun n => ((mapL AL AR)^[n] (mapL AL B l) * rpart AR N A r N).trace with hg
  set w : ℕ → ℂ := fun j => (lpart AL A l j * mapR (A (j + 1)) B (rpart AR N A r (N - (j + 1)))).trace with hw
  set h : ℤ → ℂ := fun k => if k ≤ 0 then g (-k).toNat else if k ≤ N then w (k.toNat - 1) else 0 with hh
  refine ⟨h, fun k => ?_, ?_⟩
  · refine tendsto_const_nhds.congr' ?_
    filter_upwards [eventually_ge_atTop ((k.natAbs, k.natAbs) : ℕ × ℕ)] with ab hab
    have ha : k.natAbs ≤ ab.1 := hab.1
    have hb : k.natAbs ≤ ab.2 := hab.2
    simp only [hh]
    split_ifs with h1 h2
    · obtain ⟨n, rfl⟩ : ∃ n : ℕ, k = -n := ⟨(-k).toNat, by omega⟩
      rw [braket_neg hl hA hr n _ _ (by omega), neg_neg, Int.toNat_natCast]
    · obtain ⟨n, rfl⟩ : ∃ n : ℕ, k = (n + 1 : ℕ) := ⟨k.toNat - 1, by omega⟩
      rw [braket_mid hl hA hr n _ _ (by omega), Int.toNat_natCast, Nat.add_sub_cancel]
    · exact (braket_pos hl hr hB _ _ (by omega) (by omega)).symm
  · have hlim : Tendsto (fun n => (∑ j ∈ Finset.range (n + 1), Complex.exp (Complex.I * p) ^ j * g j) * Complex.exp (-Complex.I * p))
        atTop (𝓝 ((Mᴴ * rpart AR N A r N).trace * Complex.exp (-Complex.I * p))) := by
      refine Tendsto.mul_const _ ?_
      have h1 := geom_limit (mapL_add AL AR) (mapL_smul AL AR) (exp_unit p) hM hM0
      have h2 := ((Continuous.matrix_trace (Continuous.matrix_mul continuous_id (continuous_const (y := rpart AR N A r N)))).tendsto
        Mᴴ).comp h1
      refine (h2.comp (tendsto_add_atTop_nat 1)).congr fun n => ?_
      simp only [Function.comp, id, Matrix.sum_mul, Matrix.trace_sum, Matrix.smul_mul, Matrix.trace_smul, smul_eq_mul, hg]
    have hfin : ∀ m : ℕ × ℕ, N ≤ m.2 → ∑ k ∈ Finset.Icc (-m.1 : ℤ) m.2,
        (if k ≤ 0 then Complex.exp (-Complex.I * p * (k + 1)) else Complex.exp (Complex.I * p * k)) * h k
        = (∑ j ∈ Finset.range (m.1 + 1), Complex.exp (Complex.I * p) ^ j * g j) * Complex.exp (-Complex.I * p)
          + ((List.range N).map fun j => Complex.exp (Complex.I * p * (j + 1 : ℕ)) * w j).sum := by
      rintro ⟨a, b⟩ hb
      dsimp only at hb ⊢
      have hsplit : Finset.Icc (-a : ℤ) b = (Finset.range (a + 1)).image (fun j : ℕ => (-j : ℤ))
          ∪ (Finset.range b).image (fun j : ℕ => (j + 1 : ℤ)) := by
        ext k
        simp only [Finset.mem_Icc, Finset.mem_union, Finset.mem_image, Finset.mem_range]
        constructor
        · intro hk
          by_cases h0 : k ≤ 0
          · exact Or.inl ⟨(-k).toNat, by omega, by omega⟩
          · exact Or.inr ⟨(k - 1).toNat, by omega, by omega⟩
        · rintro (⟨j, h1, rfl⟩ | ⟨j, h1, rfl⟩) <;> omega
      rw [hsplit, Finset.sum_union, Finset.sum_image, Finset.sum_image]
      · congr 1
        · rw [Finset.sum_mul]
          refine Finset.sum_congr rfl fun j _ => ?_
          simp only [hh]
          rw [if_pos (by omega), if_pos (by omega), neg_neg, Int.toNat_natCast, ← Complex.exp_nat_mul,
            mul_right_comm (Complex.exp (j * (Complex.I * p))), ← Complex.exp_add]
          congr 2
          push_cast
          ring
        · rw [show b = N + (b - N) by omega, Finset.sum_range_add, Finset.sum_eq_zero (s := Finset.range (b - N)), add_zero,
            ← List.sum_toFinset _ List.nodup_range, List.toFinset_range]
          · refine Finset.sum_congr rfl fun j hj => ?_
            have hj := Finset.mem_range.1 hj
            simp only [hh]
            rw [if_neg (by omega), if_neg (by omega), if_pos (by omega), show ((j : ℤ) + 1).toNat - 1 = j by omega]
            congr 2
          · intro j _
            simp only [hh]
            rw [if_neg (c := ((N + j : ℕ) : ℤ) + 1 ≤ 0) (by omega), if_neg (c := ((N + j : ℕ) : ℤ) + 1 ≤ 0) (by omega),
              if_neg (by push_cast; omega), mul_zero]
      · intro x _ y _ hxy
        dsimp only at hxy
        omega
      · intro x _ y _ hxy
        dsimp only at hxy
        omega
      · rw [Finset.disjoint_left]
        intro k h1 h2
        obtain ⟨x, -, hx⟩ := Finset.mem_image.1 h1
        obtain ⟨y, -, hy⟩ := Finset.mem_image.1 h2
        omega
    have h3 : Tendsto (fun m : ℕ × ℕ => (∑ j ∈ Finset.range (m.1 + 1), Complex.exp (Complex.I * p) ^ j * g j)
        * Complex.exp (-Complex.I * p) + ((List.range N).map fun j => Complex.exp (Complex.I * p * (j + 1 : ℕ)) * w j).sum)
        atTop (𝓝 _) := (hlim.comp (by rw [← prod_atTop_atTop_eq]; exact tendsto_fst)).add_const _
    refine h3.congr' ?_
    filter_upwards [eventually_ge_atTop ((0, N) : ℕ × ℕ)] with m hm
    exact (hfin m hm.2).symm

end TanOv

end EvoMPS
