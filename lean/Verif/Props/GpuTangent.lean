import Verif.GpuTangentLemmas
import Verif.TangentGauge

/-!
# C92: the tangent vector computed on the GPU
-/

namespace EvoMPS

open Matrix GpuT

section
variable {R : Type*} [CommRing R] [StarRing R]

/-- C92: `calc_x` of the GPU module returns what `calc_x` of `tdvp_common` returns, if the Hamiltonian term on the right and
`K` are both given or both `None`, the left environment is given exactly if the Hamiltonian term on the left is, and then the
two sites of that term have the same dimension. -/
theorem C92_calc_x_partial {pm p pp z a b c v : ℕ} (hp : 0 < p) (Kp1 : Option (Matrix (Fin b) (Fin b) R))
    (C : Option (Ten2 R p pp a c)) (Cm1 : Option (Ten2 R pm p z b)) (rp1 : Matrix (Fin c) (Fin c) R)
    (lm2 : Matrix (Fin z) (Fin z) R) (Am1 : Ten R pm z a) (A : Ten R p a b) (Ap1 : Ten R pp b c)
    (l_s l_si : Matrix (Fin a) (Fin a) R) (r_s r_si : Matrix (Fin b) (Fin b) R)
    (Vsh : Fin p → Matrix (Fin b) (Fin v) R) (rp1? : Option (Matrix (Fin c) (Fin c) R))
    (Am1? : Option (Ten R pm z a)) (Ap1? : Option (Ten R pp b c)) (lm2? : Option (Matrix (Fin z) (Fin z) R))
    (hC : C.isSome = Kp1.isSome) (hr : C.isSome → rp1? = some rp1) (hAp : C.isSome → Ap1? = some Ap1)
    (hl : lm2? = Cm1.map fun _ => lm2) (hAm : Cm1.isSome → Am1? = some Am1) (hdim : Cm1.isSome → pm = p) :
    calcXCuda Kp1 C Cm1 rp1? lm2? Am1? A Ap1? l_s l_si r_s r_si Vsh =
      some (calcX Kp1 C Cm1 rp1 lm2 Am1 A Ap1 l_s l_si r_s r_si Vsh) := by
  have hb : (C.isNone && Kp1.isNone || C.isSome && Kp1.isSome) = true := by
    cases C <;> cases Kp1 <;> simp_all
  cases Cm1 with
  | none =>
    simp only [calcXCuda, hb, if_true]
    exact calcXG_eq hp Kp1 C none rp1 lm2 Am1 A Ap1 l_s l_si r_s r_si Vsh _ _ _ _ none hC hr
      (fun h => by rw [hAp h]; rfl) hl (fun h => by simp at h) rfl
  | some Cm1 =>
    obtain rfl := hdim rfl
    simp only [calcXCuda, hb, if_true, devCm1_eq, Option.bind_some]
    exact calcXG_eq hp Kp1 C (some Cm1) rp1 lm2 Am1 A Ap1 l_s l_si r_s r_si Vsh _ _ _ _ _ hC hr
      (fun h => by rw [hAp h]; rfl) hl (fun h => by rw [hAm h]; rfl) rfl

/-- A site in the middle of a chain: all arguments are given. -/
example (K r l : Matrix (Fin 3) (Fin 3) ℂ) (C : Ten2 ℂ 2 2 3 3) (A : Ten ℂ 2 3 3) (V : Fin 2 → Matrix (Fin 3) (Fin 3) ℂ) :
    calcXCuda (some K) (some C) (some C) (some r) (some l) (some A) A (some A) l l r r V =
      some (calcX (some K) (some C) (some C) r l A A A l l r r V) :=
  C92_calc_x_partial two_pos (some K) (some C) (some C) r l A A A l l r r V _ _ _ _ rfl (fun _ => rfl) (fun _ => rfl) rfl
    (fun _ => rfl) (fun _ => rfl)

/-- C92, disagreement: the GPU version raises if the sites of the left Hamiltonian term differ in dimension, if one of `C`
and `Kp1` is missing, or if `lm2` is given without `Cm1`, whatever the other arguments.  The CPU version returns. -/
theorem C92_calc_x_raises_violated {pm p pp z a b c v : ℕ} (hp : 0 < p) (hpm : 0 < pm)
    (Kp1 : Option (Matrix (Fin b) (Fin b) R)) (C : Option (Ten2 R p pp a c)) (Cm1 : Option (Ten2 R pm p z b))
    (rp1 : Option (Matrix (Fin c) (Fin c) R)) (lm2 : Option (Matrix (Fin z) (Fin z) R)) (Am1 : Option (Ten R pm z a))
    (A : Ten R p a b) (Ap1 : Option (Ten R pp b c)) (l_s l_si : Matrix (Fin a) (Fin a) R)
    (r_s r_si : Matrix (Fin b) (Fin b) R) (Vsh : Fin p → Matrix (Fin b) (Fin v) R)
    (h : (Cm1.isSome ∧ pm ≠ p) ∨ C.isSome ≠ Kp1.isSome ∨ (lm2.isSome ∧ Cm1 = none)) :
    calcXCuda Kp1 C Cm1 rp1 lm2 Am1 A Ap1 l_s l_si r_s r_si Vsh = none := by
  rcases h with ⟨h, hne⟩ | h | ⟨h, rfl⟩
  · obtain ⟨Cm1, rfl⟩ := Option.isSome_iff_exists.1 h
    simp only [calcXCuda, devCm1_none Cm1 hne hpm hp, Option.bind_none]
  · have hb : (C.isNone && Kp1.isNone || C.isSome && Kp1.isSome) = false := by
      cases C <;> cases Kp1 <;> simp_all
    cases Cm1 with
    | none => simp only [calcXCuda, hb, Bool.false_eq_true, if_false]
    | some Cm1 => simp [calcXCuda, hb]
  · obtain ⟨lm2, rfl⟩ := Option.isSome_iff_exists.1 h
    obtain ⟨p, rfl⟩ : ∃ p', p = p' + 1 := ⟨p - 1, by omega⟩
    have hlen : (devTen A).length = p + 1 := List.length_ofFn
    have hf : ∀ (x : Matrix (Fin a) (Fin v) R), (List.range (p + 1)).foldlM
        (fun (part : Matrix (Fin a) (Fin v) R) s =>
        (Am1.map devTen).bind fun Am1 => (none : Option (List (List (Matrix (Fin z) (Fin b) R)))).bind fun Cm1 =>
          (Cm1[s]?).bind fun Cs => (epsLG lm2 Am1 Cs).bind fun sub =>
          ((devTen Vsh)[s]?).bind fun V => some (part + sub * (r_s * V))) x = none := by
      intro x
      rw [List.range_succ_eq_map, List.foldlM_cons]
      cases Am1 <;> rfl
    simp only [calcXCuda]
    split
    · rw [calcXG, devTen_head A hp, Option.bind_some, hlen]
      simp only [hf]
      cases calcXG1 Kp1 (C.map devTen2) rp1 (devTen A) (Ap1.map devTen) l_s r_si (devTen Vsh) <;> rfl
    · rfl

variable {q D v : ℕ → ℕ}

/-- What `calc_B` of a chain with two-site terms (right gauge) puts in the list for site `k`, python's site `k + 1`, if the
roots of the environments and the null spaces `Vsh` are given: `tdvp_gen.py:723-731`.  It does not look at the Hamiltonian
itself. -/
def cpuB (N : ℕ) (S : TDVP R q D) (l_s l_si r_s r_si : Envs R D)
    (Vsh : ∀ k, Option (Fin (q k) → Matrix (Fin (D (k + 1))) (Fin (v k)) R)) (k : ℕ) :
    Option (Ten R (q k) (D k) (D (k + 1))) :=
  (Vsh k).bind fun V => (calcXn N (.two fun _ => none) S k V (l_s k) (l_si k) (r_s (k + 1)) (r_si (k + 1))).map
    (tenR (l_si k) (r_si (k + 1)) V)

/-- What `calc_Bs` needs and the CPU does not: a Hamiltonian term on every pair of neighbours, the same dimension at all
sites, and a number of sites that can be shared out evenly (up to 19 sites, or a multiple of `N // 10`). -/
structure GpuReady (N : ℕ) (S : TDVP R q D) : Prop where
  pos : ∀ k < N, 0 < q k
  dim : ∀ k, k + 2 ≤ N → q k = q (k + 1)
  terms : ∀ k, k + 2 ≤ N → (S.C2 k).isSome
  even : N % max (N / 10) 1 = 0

theorem sum_add_zero_mul {p a b c w : ℕ} (E : Fin p → Matrix (Fin a) (Fin b) R) (A : Ten R p a b)
    (W : Fin p → Matrix (Fin b) (Fin w) R) (l : Matrix (Fin c) (Fin a) R) :
    (l * forSum p fun s => (E s + A s * (0 : Matrix (Fin b) (Fin b) R)) * W s) = l * forSum p fun s => E s * W s := by
  simp

theorem calcX_zero {pm p pp z a b c w : ℕ} (C : Ten2 R p pp a c) (Cm1 : Option (Ten2 R pm p z b))
    (rp1 : Matrix (Fin c) (Fin c) R) (lm2 : Matrix (Fin z) (Fin z) R) (Am1 : Ten R pm z a) (A : Ten R p a b)
    (Ap1 : Ten R pp b c) (l_s l_si : Matrix (Fin a) (Fin a) R) (r_s r_si : Matrix (Fin b) (Fin b) R)
    (Vsh : Fin p → Matrix (Fin b) (Fin w) R) :
    calcX (some 0) (some C) Cm1 rp1 lm2 Am1 A Ap1 l_s l_si r_s r_si Vsh =
      calcX none (some C) Cm1 rp1 lm2 Am1 A Ap1 l_s l_si r_s r_si Vsh := by
  simp only [calcX, Option.isSome_some, Bool.true_or, if_true, sum_add_zero_mul]

theorem siteXG_eq {N : ℕ} {S : TDVP R q D} (h : GpuReady N S) (hK : ∀ k, k + 1 = N → S.K k = 0)
    (ham : ∀ k, Option (Fin (q k) → Fin (q (k + 1)) → Fin (q k) → Fin (q (k + 1)) → R)) (l_s l_si r_s r_si : Envs R D) (k : ℕ) (hk : k < N)
    (V : Fin (q k) → Matrix (Fin (D (k + 1))) (Fin (v k)) R) :
    siteXG N S l_s l_si r_s r_si k V =
      calcXn N (.two ham) S k V (l_s k) (l_si k) (r_s (k + 1)) (r_si (k + 1)) := by
  have hgen : ∀ (j : ℕ) (hj : j < N) {pm z : ℕ} (Cm1 : Option (Ten2 R pm (q j) z (D (j + 1)))) (lm2) (Am1)
      (V : Fin (q j) → Matrix (Fin (D (j + 1))) (Fin (v j)) R) (CmG) (lG) (AmG)
      (_ : lG = Cm1.map fun _ => lm2) (_ : Cm1.isSome → AmG = some (devTen Am1))
      (_ : CmG = Cm1.map fun Cm1 => List.ofFn fun s => List.ofFn fun t => Cm1 t s),
      calcXG (if j + 2 ≤ N then some (S.K (j + 1)) else none)
        ((if j + 2 ≤ N then S.C2 j else none).map devTen2) CmG
        (if j + 2 ≤ N then some (S.r (j + 2)) else none) lG AmG (devTen (S.A j))
        (if j + 2 ≤ N then some (devTen (S.A (j + 1))) else none) (l_s j) (l_si j) (r_s (j + 1)) (r_si (j + 1))
        (devTen V) =
      some (calcX (if j + 1 + 2 ≤ N then some (S.K (j + 1)) else none) (if j + 2 ≤ N then S.C2 j else none) Cm1
        (S.r (j + 2)) lm2 Am1 (S.A j) (S.A (j + 1)) (l_s j) (l_si j) (r_s (j + 1)) (r_si (j + 1)) V) := by
    intro j hj pm z Cm1 lm2 Am1 V CmG lG AmG h1 h2 h3
    rw [calcXG_eq (h.pos j hj) (if j + 2 ≤ N then some (S.K (j + 1)) else none) (if j + 2 ≤ N then S.C2 j else none) Cm1
      (S.r (j + 2)) lm2 Am1 (S.A j) (S.A (j + 1)) _ _ _ _ V _ _ _ _ _ ?_ ?_ ?_ h1 h2 h3]
    · by_cases hN : j + 2 ≤ N
      · obtain ⟨C, hC⟩ := Option.isSome_iff_exists.1 (h.terms j hN)
        by_cases hN' : j + 1 + 2 ≤ N
        · simp only [if_pos hN, if_pos hN']
        · simp only [if_pos hN, if_neg hN', hC, hK (j + 1) (by omega), calcX_zero]
      · simp only [if_neg hN, if_neg (show ¬ j + 1 + 2 ≤ N by omega)]
    · by_cases hN : j + 2 ≤ N
      · simp only [if_pos hN, h.terms j hN, Option.isSome_some]
      · simp only [if_neg hN, Option.isSome_none]
    · by_cases hN : j + 2 ≤ N <;> simp [hN]
    · by_cases hN : j + 2 ≤ N <;> simp [hN]
  match k, hk, V with
  | 0, hk, V =>
    exact hgen 0 hk (pm := 0) (z := 0) none 0 0 V none none none rfl (fun h => by simp at h) rfl
  | 1, hk, V =>
    obtain ⟨C, hC⟩ := Option.isSome_iff_exists.1 (h.terms 0 (by omega))
    refine hgen 1 hk (S.C2 0) (S.l 0) (S.A 0) V ((S.C2 0).bind fun C => devCts (devTen2 C)) (some (S.l 0))
      (some (devTen (S.A 0))) ?_ (fun _ => rfl) ?_
    · rw [hC]; rfl
    · rw [hC, Option.bind_some, devCts_eq C (h.dim 0 (by omega))]; rfl
  | k + 2, hk, V =>
    obtain ⟨C, hC⟩ := Option.isSome_iff_exists.1 (h.terms (k + 1) (by omega))
    refine hgen (k + 2) hk (S.C2 (k + 1)) (S.l (k + 1)) (S.A (k + 1)) V
      ((S.C2 (k + 1)).bind fun C => devCts (devTen2 C)) (some (S.l (k + 1))) (some (devTen (S.A (k + 1)))) ?_ (fun _ => rfl) ?_
    · rw [hC]; rfl
    · rw [hC, Option.bind_some, devCts_eq C (h.dim (k + 1) (by omega))]; rfl

theorem streamsOk_iff (N : ℕ) : streamsOk N = true ↔ N % max (N / 10) 1 = 0 := by
  have hs : 0 < sitesPerStream N := lt_of_lt_of_le one_pos (le_max_right _ _)
  change _ ↔ N % sitesPerStream N = 0
  rw [streamsOk, List.all_eq_true]
  constructor
  · intro h
    by_contra hne
    have h1 := Nat.div_add_mod N (sitesPerStream N)
    have h2 := h (sitesPerStream N * (N / sitesPerStream N)) (by rw [List.mem_range]; omega)
    simp [Nat.mul_div_cancel_left _ hs] at h2
  · intro h m hm
    have hm := List.mem_range.1 hm
    have : m / sitesPerStream N < N / sitesPerStream N :=
      Nat.div_lt_div_of_lt_of_dvd (Nat.dvd_of_mod_eq_zero h) hm
    simp [this]

/-- C92: `calc_Bs` of the GPU module returns the tangent vector `calc_B` computes from the same arrays, roots and null spaces,
if the inverse roots are Hermitian and `K[N]` is zero, as `calc_K` leaves it. -/
theorem C92_calc_Bs_partial (N : ℕ) (S : TDVP R q D) (h : GpuReady N S) (hK : ∀ k, k + 1 = N → S.K k = 0)
    (l_s l_si r_s r_si : Envs R D) (hr : ∀ k < N, (r_si (k + 1))ᴴ = r_si (k + 1))
    (Vsh : ∀ k, Option (Fin (q k) → Matrix (Fin (D (k + 1))) (Fin (v k)) R)) :
    ∃ B, calcBsCuda N S l_s l_si r_s r_si Vsh = some B ∧
      ∀ k < N, B k = cpuB N S l_s l_si r_s r_si Vsh k := by
  have hx : ∀ k < N, siteBG N S l_s l_si r_s r_si Vsh k = some (cpuB N S l_s l_si r_s r_si Vsh k) := by
    intro k hk
    rw [siteBG, cpuB]
    cases hV : Vsh k with
    | none => rfl
    | some V =>
      have hs := siteXG_eq h hK (fun _ => none) l_s l_si r_s r_si k hk V
      have : ∃ x, calcXn N (.two fun _ => none) S k V (l_s k) (l_si k) (r_s (k + 1)) (r_si (k + 1)) = some x := by
        match k with
        | 0 => exact ⟨_, rfl⟩
        | 1 => exact ⟨_, rfl⟩
        | k + 2 => exact ⟨_, rfl⟩
      obtain ⟨x, hx⟩ := this
      simp only [hs, hx, Option.map_some, Option.bind_some]
      congr 2
      funext s
      rw [tenR, conjTranspose_mul, hr k hk, Matrix.mul_assoc]
  refine ⟨_, if_pos ?_, fun k hk => ?_⟩
  · rw [Bool.and_eq_true, Bool.and_eq_true]
    refine ⟨⟨?_, (streamsOk_iff N).2 h.even⟩, ?_⟩
    · rw [List.all_eq_true]
      intro k hk
      have hk := List.mem_range.1 hk
      obtain ⟨C, hC⟩ := Option.isSome_iff_exists.1 (h.terms k (by omega))
      rw [hC, Option.elim_some, devCts_eq C (h.dim k (by omega))]
      rfl
    · rw [List.all_eq_true]
      intro k hk
      rw [hx k (List.mem_range.1 hk)]
      rfl
  · simp only [if_pos hk, hx k hk]
    rfl

/-- C92, disagreement: `calc_Bs` raises if the sites cannot be shared out evenly, whatever the state. -/
theorem C92_calc_Bs_streams_violated (N : ℕ) (hN : N % max (N / 10) 1 ≠ 0) (S : TDVP R q D)
    (l_s l_si r_s r_si : Envs R D) (Vsh : ∀ k, Option (Fin (q k) → Matrix (Fin (D (k + 1))) (Fin (v k)) R)) :
    calcBsCuda N S l_s l_si r_s r_si Vsh = none := by
  have : streamsOk N = false := by
    rw [← Bool.not_eq_true, streamsOk_iff]; exact hN
  simp only [calcBsCuda, this, Bool.and_false, Bool.false_and, Bool.false_eq_true, if_false]

/-- Chains of up to 19 sites are always shared out, one of 21 sites is not. -/
example : (∀ N ≤ 19, N % max (N / 10) 1 = 0) ∧ 21 % max (21 / 10) 1 ≠ 0 :=
  ⟨fun N hN => by
    have : max (N / 10) 1 = 1 := max_eq_right (by omega)
    rw [this, Nat.mod_one], by decide⟩

/-- C92, disagreement: `calc_Bs` raises if neighbouring sites differ in dimension, whatever the rest of the state. -/
theorem C92_calc_Bs_dims_violated (N : ℕ) (S : TDVP R q D) (k : ℕ) (hk : k + 2 ≤ N) (hC : (S.C2 k).isSome)
    (hne : q k ≠ q (k + 1)) (h0 : 0 < q k) (h1 : 0 < q (k + 1)) (l_s l_si r_s r_si : Envs R D)
    (Vsh : ∀ k, Option (Fin (q k) → Matrix (Fin (D (k + 1))) (Fin (v k)) R)) :
    calcBsCuda N S l_s l_si r_s r_si Vsh = none := by
  obtain ⟨C, hC⟩ := Option.isSome_iff_exists.1 hC
  refine if_neg ?_
  rw [Bool.and_eq_true, Bool.and_eq_true, List.all_eq_true]
  rintro ⟨⟨h, _⟩, _⟩
  have := h k (by rw [List.mem_range]; omega)
  rw [hC, Option.elim_some, devCts_none C hne h0 h1] at this
  cases this

/-- C92, disagreement: `calc_Bs` raises if the Hamiltonian has no term on a site and the next one, at the first of which
the tangent vector has parameters. -/
theorem C92_calc_Bs_terms_violated (N : ℕ) (S : TDVP R q D) (k : ℕ) (hk : k + 2 ≤ N) (hC : S.C2 k = none)
    (l_s l_si r_s r_si : Envs R D) (Vsh : ∀ k, Option (Fin (q k) → Matrix (Fin (D (k + 1))) (Fin (v k)) R))
    (hV : (Vsh k).isSome) : calcBsCuda N S l_s l_si r_s r_si Vsh = none := by
  obtain ⟨V, hV⟩ := Option.isSome_iff_exists.1 hV
  refine if_neg ?_
  rw [Bool.and_eq_true, Bool.and_eq_true, List.all_eq_true (l := List.range N)]
  rintro ⟨_, h⟩
  have := h k (by rw [List.mem_range]; omega)
  have hx : siteXG N S l_s l_si r_s r_si k V = none := by
    match k, hk, hC, V with
    | 0, hk, hC, V =>
      simp only [siteXG, if_pos hk, hC, Option.map_none, calcXG, calcXG1, Option.bind_none]
      cases (devTen (S.A 0))[0]? <;> rfl
    | k + 1, hk, hC, V =>
      simp only [siteXG, if_pos hk, hC, Option.map_none, calcXG, calcXG1, Option.bind_none]
      cases (devTen (S.A (k + 1)))[0]? <;> rfl
  simp only [siteBG, hV, hx, Option.map_none] at this
  cases this

end

/-- C92: with the roots and null spaces `calc_B` itself computes, `calc_Bs` returns the list `calc_B` returns. -/
theorem C92_calc_B_partial {q D : ℕ → ℕ} (P : Num) (hP : P.Ok) (N : ℕ) (S : TDVP ℂ q D) (h : GpuReady N S)
    (hK : ∀ k, k + 1 = N → S.K k = 0) (ham : ∀ k, Option (Fin (q k) → Fin (q (k + 1)) → Fin (q k) → Fin (q (k + 1)) → ℂ))
    (lm rm : ∀ n, MM ℂ (D n) (D n)) (hrm : ∀ n, (rm n).toArray.IsHermitian) (T : TangentOut q D)
    (hT : calcB P .right N (.two ham) S lm rm = some T) :
    ∃ B, calcBsCuda (v := fun k => D (k + 1) * q k - D k) N S (fun n => (P.roots (lm n)).1) (fun n => (P.roots (lm n)).2)
        (fun n => (P.roots (rm n)).1) (fun n => (P.roots (rm n)).2)
        (fun k => calcVsh P.qr (S.A k) (P.roots (rm (k + 1))).1) = some B ∧
      ∀ k < N, B k = T.B k := by
  obtain ⟨B, hB, hBk⟩ := C92_calc_Bs_partial (v := fun k => D (k + 1) * q k - D k) N S h hK
    (fun n => (P.roots (lm n)).1) (fun n => (P.roots (lm n)).2)
    (fun n => (P.roots (rm n)).1) (fun n => (P.roots (rm n)).2)
    (fun k _ => (roots_spec hP (rm (k + 1)) (hrm _)).si_herm)
    (fun k => calcVsh P.qr (S.A k) (P.roots (rm (k + 1))).1)
  refine ⟨B, hB, fun k hk => (hBk k hk).trans ?_⟩
  obtain ⟨Bn, h1, h2, -⟩ := (calcB_spec hT).1 k hk
  rw [h2, cpuB]
  simp only [calcBn, calcBrn] at h1
  by_cases hr : D k < q k * D (k + 1)
  · have hV : ∃ V, calcVsh P.qr (S.A k) (P.roots (rm (k + 1))).1 = some V := by
      rw [calcVsh, if_neg (by rw [Nat.mul_comm]; omega)]
      exact ⟨_, rfl⟩
    obtain ⟨V, hV⟩ := hV
    rw [if_pos hr, hV, Option.bind_some, Option.map_eq_some_iff] at h1
    obtain ⟨x, hx, rfl⟩ := h1
    have hx' : calcXn N (.two fun _ => none) S k V (P.roots (lm k)).1 (P.roots (lm k)).2 (P.roots (rm (k + 1))).1
        (P.roots (rm (k + 1))).2 = some x := by
      rw [← hx]
      match k with
      | 0 => rfl
      | 1 => rfl
      | k + 2 => rfl
    rw [hV, Option.bind_some, hx']
    rfl
  · rw [if_neg hr] at h1
    obtain rfl := Option.some.inj h1
    have hV : calcVsh P.qr (S.A k) (P.roots (rm (k + 1))).1 = none := by
      rw [calcVsh, if_pos (by rw [Nat.mul_comm]; omega)]
    rw [hV]
    rfl

/-- A chain of 20 sites of dimension 2, bond dimension 3, with a term on every pair of neighbours. -/
example : ∃ S : TDVP ℂ (fun _ => 2) (fun _ => 3), GpuReady 20 S ∧ (∀ k, k + 1 = 20 → S.K k = 0) ∧ S.K 3 ≠ 0 := by
  refine ⟨⟨⟨fun _ _ => 1, fun _ => 1, fun _ => 1⟩, fun _ _ _ => 1, fun _ _ _ _ => 1, fun _ => some fun _ _ => 1, fun _ => none,
    fun k => if k = 19 then 0 else 1, fun _ => 0, fun _ => 0, none⟩, ⟨fun _ _ => two_pos, fun _ _ => rfl, fun _ _ => rfl, rfl⟩,
    fun k hk => if_pos (by omega), ?_⟩
  change (1 : Matrix (Fin 3) (Fin 3) ℂ) ≠ 0
  exact one_ne_zero

end EvoMPS
