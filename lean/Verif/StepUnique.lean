import Verif.StepLemmas

/-!
# The tangent vector is a function of the tensors (helper lemmas)
-/

namespace EvoMPS

open Matrix

section
variable {q D : ℕ → ℕ} {N : ℕ}

/-- The two objects have the same tensors and agree in the entries of the secondary quantities that
belong to the chain. -/
structure Agree (N : ℕ) (ham : Ham ℂ q) (S T : TDVP ℂ q D) : Prop where
  A : S.A = T.A
  l : ∀ n ≤ N, S.l n = T.l n
  r : ∀ n ≤ N, S.r n = T.r n
  AA : ∀ k, k + 1 < N → S.AA k = T.AA k
  C2 : ∀ h, ham = .two h → ∀ k, k + 1 < N → S.C2 k = T.C2 k
  C3 : ∀ h, ham = .three h → ∀ k, k + 2 < N → S.C3 k = T.C3 k
  K : ∀ k < N, S.K k = T.K k

theorem Agree.c3 {ham : Ham ℂ q} {S T : TDVP ℂ q D} (h : Agree N ham S T) (hm) (hh : ham = .three hm)
    (k : ℕ) : S.c3 N k = T.c3 N k := by
  unfold TDVP.c3
  split
  · next hk => exact h.C3 hm hh k (by omega)
  · rfl

theorem calcX_noC {pm p pp z a b c v : ℕ} (Kp1 : Option (Matrix (Fin b) (Fin b) ℂ))
    (Cm1 : Option (Ten2 ℂ pm p z b)) (rp1 rp1' : Matrix (Fin c) (Fin c) ℂ)
    (lm2 : Matrix (Fin z) (Fin z) ℂ) (Am1 : Ten ℂ pm z a) (A : Ten ℂ p a b) (Ap1 : Ten ℂ pp b c)
    (l_s l_si : Matrix (Fin a) (Fin a) ℂ) (r_s r_si : Matrix (Fin b) (Fin b) ℂ)
    (Vsh : Fin p → Matrix (Fin b) (Fin v) ℂ) :
    calcX Kp1 none Cm1 rp1 lm2 Am1 A Ap1 l_s l_si r_s r_si Vsh
      = calcX Kp1 none Cm1 rp1' lm2 Am1 A Ap1 l_s l_si r_s r_si Vsh := by
  simp only [calcX]

theorem calcX3_noC {pmm pm p pp ppp y z a b c d v : ℕ} (Kp1 : Option (Matrix (Fin b) (Fin b) ℂ))
    (Cm1 : Option (Ten3 ℂ pm p pp z c))
    (Cm2 : Option (Ten3 ℂ pmm pm p y b)) (rp1 : Matrix (Fin c) (Fin c) ℂ)
    (rp2 rp2' : Matrix (Fin d) (Fin d) ℂ) (lm2 : Option (Matrix (Fin z) (Fin z) ℂ))
    (lm3 : Option (Matrix (Fin y) (Fin y) ℂ)) (Am2Am1 : Ten2 ℂ pmm pm y a) (Am1 : Ten ℂ pm z a)
    (A : Ten ℂ p a b) (Ap1 : Ten ℂ pp b c) (X X' : Ten2 ℂ pp ppp b d)
    (l_s l_si : Matrix (Fin a) (Fin a) ℂ) (r_s r_si : Matrix (Fin b) (Fin b) ℂ)
    (Vsh : Fin p → Matrix (Fin b) (Fin v) ℂ) :
    calcX3 Kp1 none Cm1 Cm2 rp1 rp2 lm2 lm3 Am2Am1 Am1 A Ap1 X l_s l_si r_s r_si Vsh
      = calcX3 Kp1 none Cm1 Cm2 rp1 rp2' lm2 lm3 Am2Am1 Am1 A Ap1 X' l_s l_si r_s r_si Vsh := by
  simp only [calcX3]

theorem calcX3_noCm1 {pmm pm p pp ppp y z a b c d v : ℕ} (Kp1 : Option (Matrix (Fin b) (Fin b) ℂ))
    (C : Option (Ten3 ℂ p pp ppp a d))
    (Cm2 : Option (Ten3 ℂ pmm pm p y b)) (rp1 rp1' : Matrix (Fin c) (Fin c) ℂ)
    (rp2 : Matrix (Fin d) (Fin d) ℂ) (lm2 : Option (Matrix (Fin z) (Fin z) ℂ))
    (lm3 : Option (Matrix (Fin y) (Fin y) ℂ)) (Am2Am1 : Ten2 ℂ pmm pm y a) (Am1 : Ten ℂ pm z a)
    (A : Ten ℂ p a b) (Ap1 : Ten ℂ pp b c) (X : Ten2 ℂ pp ppp b d)
    (l_s l_si : Matrix (Fin a) (Fin a) ℂ) (r_s r_si : Matrix (Fin b) (Fin b) ℂ)
    (Vsh : Fin p → Matrix (Fin b) (Fin v) ℂ) :
    calcX3 Kp1 C none Cm2 rp1 rp2 lm2 lm3 Am2Am1 Am1 A Ap1 X l_s l_si r_s r_si Vsh
      = calcX3 Kp1 C none Cm2 rp1' rp2 lm2 lm3 Am2Am1 Am1 A Ap1 X l_s l_si r_s r_si Vsh := by
  cases lm2 <;> simp only [calcX3]

theorem calcXn_agree {ham : Ham ℂ q} {S T : TDVP ℂ q D} (h : Agree N ham S T) (k : ℕ) (hk : k < N)
    {v : ℕ} (Vsh : Fin (q k) → Matrix (Fin (D (k + 1))) (Fin v) ℂ) (l_s l_si r_s r_si) :
    calcXn N ham S k Vsh l_s l_si r_s r_si = calcXn N ham T k Vsh l_s l_si r_s r_si := by
  have hKp : ∀ m, (if m + 1 + ham.sites ≤ N then some (S.K (m + 1)) else none)
      = if m + 1 + ham.sites ≤ N then some (T.K (m + 1)) else none := by
    intro m
    split
    · next hm => rw [h.K (m + 1) (by have := ham.two_le_sites; omega)]
    · rfl
  have hC : ∀ hm, ham = .two hm → ∀ m, (if m + 2 ≤ N then S.C2 m else none)
      = if m + 2 ≤ N then T.C2 m else none := by
    intro hm hh m
    split
    · next hm' => rw [h.C2 hm hh m (by omega)]
    · rfl
  have hr : ∀ n, n ≤ N → S.r n = T.r n := h.r
  match k, Vsh, l_s, l_si, r_s, r_si with
  | 0, Vsh, l_s, l_si, r_s, r_si =>
    have e := hKp 0
    cases ham with
    | two hm =>
      simp only [calcXn, e, hC hm rfl 0, h.A]
      by_cases h2 : 0 + 2 ≤ N
      · rw [hr 2 (by omega)]
      · simp only [if_neg h2]
        rw [calcX_noC]
    | three hm =>
      simp only [calcXn, e, h.c3 hm rfl, h.A]
      rw [calcX3_noCm1 _ _ _ (S.r 2) (T.r 2)]
      by_cases h2 : 0 + 3 ≤ N
      · rw [hr 3 (by omega), h.AA 1 (by omega)]
      · have : T.c3 N 0 = none := if_neg h2
        rw [this, calcX3_noC]
  | 1, Vsh, l_s, l_si, r_s, r_si =>
    have e := hKp 1
    cases ham with
    | two hm =>
      simp only [calcXn, e, hC hm rfl 1, h.A, h.C2 hm rfl 0 hk, h.l 0 (by omega)]
      by_cases h2 : 1 + 2 ≤ N
      · rw [hr 3 (by omega)]
      · simp only [if_neg h2]
        rw [calcX_noC]
    | three hm =>
      simp only [calcXn, e, h.c3 hm rfl, h.A, h.l 0 (by omega)]
      have e1 : ∀ (X : Matrix (Fin (D 4)) (Fin (D 4)) ℂ) Y, calcX3 (pmm := 0) (y := 0)
          (if 1 + 1 + (Ham.three hm).sites ≤ N then some (T.K 2) else none)
          (T.c3 N 1) (T.c3 N 0) none (S.r 3) X (some (T.l 0)) none 0 (T.A 0) (T.A 1) (T.A 2) Y
          l_s l_si r_s r_si Vsh = calcX3 (pmm := 0) (y := 0)
          (if 1 + 1 + (Ham.three hm).sites ≤ N then some (T.K 2) else none)
          (T.c3 N 1) (T.c3 N 0) none (T.r 3) X (some (T.l 0)) none 0 (T.A 0) (T.A 1) (T.A 2) Y
          l_s l_si r_s r_si Vsh := by
        intro X Y
        by_cases h2 : 0 + 3 ≤ N
        · rw [hr 3 (by omega)]
        · have : T.c3 N 0 = none := if_neg h2
          rw [this, calcX3_noCm1]
      rw [e1]
      by_cases h2 : 1 + 3 ≤ N
      · rw [hr 4 (by omega), h.AA 2 (by omega)]
      · have : T.c3 N 1 = none := if_neg h2
        rw [this, calcX3_noC]
  | k + 2, Vsh, l_s, l_si, r_s, r_si =>
    have e := hKp (k + 2)
    cases ham with
    | two hm =>
      simp only [calcXn, e, hC hm rfl (k + 2), h.A, h.C2 hm rfl (k + 1) hk, h.l (k + 1) (by omega)]
      by_cases h2 : k + 2 + 2 ≤ N
      · rw [hr (k + 2 + 1 + 1) (by omega)]
      · simp only [if_neg h2]
        rw [calcX_noC]
    | three hm =>
      simp only [calcXn, e, h.c3 hm rfl, h.A, h.l (k + 1) (by omega), h.l k (by omega),
        h.AA k (by omega)]
      have e1 : ∀ (X : Matrix (Fin (D (k + 2 + 2 + 1))) (Fin (D (k + 2 + 2 + 1))) ℂ) Y, calcX3
          (if k + 2 + 1 + (Ham.three hm).sites ≤ N then some (T.K (k + 2 + 1)) else none)
          (T.c3 N (k + 2)) (T.c3 N (k + 1)) (T.c3 N k) (S.r (k + 2 + 1 + 1)) X (some (T.l (k + 1)))
          (some (T.l k)) (T.AA k) (T.A (k + 1)) (T.A (k + 2)) (T.A (k + 2 + 1)) Y
          l_s l_si r_s r_si Vsh = calcX3
          (if k + 2 + 1 + (Ham.three hm).sites ≤ N then some (T.K (k + 2 + 1)) else none)
          (T.c3 N (k + 2)) (T.c3 N (k + 1)) (T.c3 N k) (T.r (k + 2 + 1 + 1)) X (some (T.l (k + 1)))
          (some (T.l k)) (T.AA k) (T.A (k + 1)) (T.A (k + 2)) (T.A (k + 2 + 1)) Y
          l_s l_si r_s r_si Vsh := by
        intro X Y
        by_cases h2 : k + 1 + 3 ≤ N
        · rw [hr (k + 2 + 1 + 1) (by omega)]
        · have : T.c3 N (k + 1) = none := if_neg h2
          rw [this, calcX3_noCm1]
      rw [e1]
      by_cases h2 : k + 2 + 3 ≤ N
      · rw [hr (k + 2 + 2 + 1) (by omega), h.AA (k + 2 + 1) (by omega)]
      · have : T.c3 N (k + 2) = none := if_neg h2
        rw [this, calcX3_noC]

theorem calcBrn_agree {P : Num} {ham : Ham ℂ q} {S T : TDVP ℂ q D} (h : Agree N ham S T)
    {lm rm lm' rm' : ∀ n, MM ℂ (D n) (D n)} (k : ℕ) (hk : k < N) (hl : lm k = lm' k)
    (hr : rm (k + 1) = rm' (k + 1)) : calcBrn P N ham S lm rm k = calcBrn P N ham T lm' rm' k := by
  unfold calcBrn
  rw [hl, hr, h.A]
  split
  · obtain ⟨l_s, l_si⟩ := P.roots (lm' k)
    obtain ⟨r_s, r_si⟩ := P.roots (rm' (k + 1))
    refine congrArg (Option.bind _) (funext fun Vsh => ?_)
    rw [calcXn_agree h k hk]
  · rfl

theorem foldl_bind_congr {α β : Type*} (F G : α → β → Option α) (L : List β) (X : Option α)
    (h : ∀ b ∈ L, ∀ a, F a b = G a b) :
    L.foldl (fun (X : Option α) b => X.bind fun a => F a b) X
      = L.foldl (fun (X : Option α) b => X.bind fun a => G a b) X := by
  induction L generalizing X with
  | nil => rfl
  | cons b L ih =>
    rw [List.foldl_cons, List.foldl_cons, ih _ fun c hc => h c (List.mem_cons_of_mem _ hc)]
    have e : (fun a => F a b) = fun a => G a b := funext fun a => h b List.mem_cons_self a
    rw [e]

/-- Objects that agree have the same tangent vector. -/
theorem calcB_agree {P : Num} {ham : Ham ℂ q} {S T : TDVP ℂ q D} (h : Agree N ham S T)
    {lm rm lm' rm' : ∀ n, MM ℂ (D n) (D n)} (hl : ∀ n ≤ N, lm n = lm' n) (hr : ∀ n ≤ N, rm n = rm' n) :
    calcB P .right N ham S lm rm = calcB P .right N ham T lm' rm' := by
  unfold calcB
  refine congrArg _ (foldl_bind_congr _ _ _ _ fun k hk X => ?_)
  have hk : k < N := by
    rw [List.mem_range'_1] at hk
    omega
  have hn : calcBn P .right N ham S lm rm k = calcBn P .right N ham T lm' rm' k :=
    calcBrn_agree h k hk (hl k hk.le) (hr (k + 1) hk)
  unfold calcBIter
  rw [hn]

/-- After `update` the secondary quantities are functions of the tensors. -/
theorem tdvpUpdate_agree {ham : Ham ℂ q} {h0 : D 0 = 1} {hN : D N = 1} {S T S' T' : TDVP ℂ q D}
    (hA : S.A = T.A) (hl : S.l 0 = T.l 0) (hr : S.r N = T.r N)
    (hS : tdvpUpdate .right N ham h0 hN S = some S') (hT : tdvpUpdate .right N ham h0 hN T = some T') :
    Agree N ham S' T' := by
  simp only [tdvpUpdate, Option.some.injEq] at hS hT
  have mk : ∀ X : TDVP ℂ q D, ∀ Y : TDVP ℂ q D,
      calcKs N ham h0 (calcCs N ham { X with toMPS := updateNoCF N X.toMPS }) = Y →
      Y.A = X.A ∧ Y.l 0 = X.l 0 ∧ (∀ n < N, Y.l (n + 1) = epsL (Y.l n) (X.A n) (X.A n)) ∧
      Y.r N = X.r N ∧ (∀ n < N, Y.r n = epsR (Y.r (n + 1)) (X.A n) (X.A n)) ∧ CurrentC N ham Y ∧
      ∀ k < N, Y.K k = if k + ham.sites ≤ N then epsR (Y.K (k + 1)) (X.A k) (X.A k) + hrOf ham Y k
        else 0 := by
    rintro X Y rfl
    have hM : (calcKs N ham h0 (calcCs N ham { X with toMPS := updateNoCF N X.toMPS })).toMPS
        = updateNoCF N X.toMPS := by
      rw [(calcKs_spec (N := N) ham h0 _).1, (calcCs_spec (N := N) ham _).1]
    obtain ⟨a1, a2, a3, a4⟩ := calcL_default N X.toMPS
    obtain ⟨b1, b2, b3, b4⟩ := calcR_default N (calcL N X.toMPS)
    rw [hM]
    refine ⟨by rw [updateNoCF, b1, a1], by rw [updateNoCF, b2, a3], fun n hn => ?_,
      by rw [updateNoCF, b3 N le_rfl, a2], fun n hn => ?_,
      calcKs_current (N := N) ham h0 _ (calcCs_spec (N := N) ham _).2, fun k hk => ?_⟩
    · rw [updateNoCF, b2, a4 n hn]
    · rw [updateNoCF, b4 n hn, a1]
    · rw [(calcKs_spec (N := N) ham h0 _).2.1 k hk, calcKs_hrOf, (calcCs_spec (N := N) ham _).1]
      simp only [updateNoCF, b1, a1]
  obtain ⟨s1, s2, s3, s4, s5, s6, s7⟩ := mk S S' hS
  obtain ⟨t1, t2, t3, t4, t5, t6, t7⟩ := mk T T' hT
  have eA : S'.A = T'.A := by rw [s1, t1, hA]
  have el : ∀ n ≤ N, S'.l n = T'.l n := by
    intro n
    induction n with
    | zero => intro _; rw [s2, t2, hl]
    | succ n ih => intro hn; rw [s3 n hn, t3 n hn, ih (by omega), hA]
  have er : ∀ m, ∀ n ≤ N, N ≤ n + m → S'.r n = T'.r n := by
    intro m
    induction m with
    | zero =>
      intro n hn h
      obtain rfl : n = N := by omega
      rw [s4, t4, hr]
    | succ m ih =>
      intro n hn h
      obtain rfl | hlt := hn.eq_or_lt
      · rw [s4, t4, hr]
      · rw [s5 n hlt, t5 n hlt, ih (n + 1) hlt (by omega), hA]
  have er' : ∀ n ≤ N, S'.r n = T'.r n := fun n hn => er N n hn (by omega)
  have eAA : ∀ k, k + 1 < N → S'.AA k = T'.AA k := by
    intro k hk
    rw [s6.AA k hk, t6.AA k hk, eA]
  have e2 : ∀ h, ham = .two h → ∀ k, k + 1 < N → S'.C2 k = T'.C2 k := by
    intro h hh k hk
    rw [s6.C2 h hh k hk, t6.C2 h hh k hk, eA]
  have e3 : ∀ h, ham = .three h → ∀ k, k + 2 < N → S'.C3 k = T'.C3 k := by
    intro h hh k hk
    rw [s6.C3 h hh k hk, t6.C3 h hh k hk, eA]
  have ehr : ∀ k, k + ham.sites ≤ N → hrOf ham S' k = hrOf ham T' k := by
    intro k hk
    cases ham with
    | two h =>
      simp only [Ham.sites] at hk
      simp only [hrOf, e2 h rfl k (by omega), er' (k + 1 + 1) (by omega), eAA k (by omega)]
    | three h =>
      simp only [Ham.sites] at hk
      simp only [hrOf, e3 h rfl k (by omega), er' (k + 2 + 1) (by omega), s6.AAA rfl k (by omega),
        t6.AAA rfl k (by omega), eA]
  have eK : ∀ m, ∀ k < N, N ≤ k + m → S'.K k = T'.K k := by
    intro m
    induction m with
    | zero => intro k hk h; omega
    | succ m ih =>
      intro k hk h
      rw [s7 k hk, t7 k hk]
      split
      · next hk2 =>
        have := ham.two_le_sites
        rw [ih (k + 1) (by omega) (by omega), ehr k hk2, hA]
      · rfl
  exact ⟨eA, el, er', eAA, e2, e3, fun k hk => eK N k hk (by omega)⟩

/-- The environments of the sites of the chain are functions of the tensors. -/
theorem UpToDate.ext {A : Tensors ℂ q D} {l r l' r' : Envs ℂ D} (h : UpToDate N A l r)
    (h' : UpToDate N A l' r') : ∀ n ≤ N, l n = l' n ∧ r n = r' n := by
  have el : ∀ n ≤ N, l n = l' n := by
    intro n
    induction n with
    | zero => intro _; rw [h.l_zero, h'.l_zero]
    | succ n ih => intro hn; rw [h.l_succ n hn, h'.l_succ n hn, ih (by omega)]
  have er : ∀ m, ∀ n ≤ N, N ≤ n + m → r n = r' n := by
    intro m
    induction m with
    | zero =>
      intro n hn hm
      obtain rfl : n = N := by omega
      rw [h.r_last, h'.r_last]
    | succ m ih =>
      intro n hn hm
      obtain rfl | hlt := hn.eq_or_lt
      · rw [h.r_last, h'.r_last]
      · rw [h.r_pred n hlt, h'.r_pred n hlt, ih (n + 1) hlt (by omega)]
  exact fun n hn => ⟨el n hn, er N n hn (by omega)⟩

/-- The last loop of `take_step_RK4` returns if `calc_B` would. -/
theorem rkLast_isSome {P : Num} {g : Gauge} {ham : Ham ℂ q} {S : TDVP ℂ q D} {lm rm}
    {out : TangentOut q D} (hout : calcB P g N ham S lm rm = some out) (F : BList q D)
    (hF : ∀ k, (F k).isSome ↔ k < N ∧ room g q D k) : ∃ F', rkLast P g N ham S lm rm F = some F' := by
  have h1 := (calcB_spec hout).1
  have := foldUp_inv (fun (F : Option (BList q D)) k => F.bind fun F =>
    (calcBn P g N ham S lm rm k).bind fun Bn =>
      Bn.elim (some F) fun b => (F k).map fun f => Function.update F k (some (f + b.1)))
    (fun _ X => ∃ F, X = some F ∧ ∀ k, (F k).isSome ↔ k < N ∧ room g q D k) 0 N (some F) ⟨F, rfl, hF⟩
    (by
      rintro n _ hn X ⟨F, rfl, hF⟩
      obtain ⟨Bn, hBn, _⟩ := h1 n (by omega)
      have hroom := calcBn_isSome_iff hBn
      rw [Option.bind_some, hBn, Option.bind_some]
      cases Bn with
      | none => exact ⟨F, rfl, hF⟩
      | some b =>
        obtain ⟨f, hf⟩ := Option.isSome_iff_exists.mp ((hF n).mpr ⟨by omega, hroom.mp rfl⟩)
        refine ⟨Function.update F n (some (f + b.1)), by simp [hf], fun k => ?_⟩
        rw [← hF k]
        by_cases hk : k = n
        · subst hk; simp [hf]
        · rw [Function.update_of_ne hk])
  obtain ⟨F', hF', _⟩ := this
  exact ⟨F', hF'⟩

end

end EvoMPS
