import Verif.PairTangent
import Verif.StepLemmas

/-!
# Gauge-fixed pairs and the singular value decomposition (helper lemmas)
-/

set_option linter.unusedSectionVars false

namespace EvoMPS

open Matrix

section
variable {R : Type*} [CommRing R] [StarRing R] {p p' p'' a b c d v w : ℕ}

/-- The two-site tensor with parameters `y`. -/
def wten (l_si : Matrix (Fin a) (Fin a) R) (r_si : Matrix (Fin c) (Fin c) R) (Vl : Fin p → Matrix (Fin v) (Fin a) R)
    (Vr : Fin p' → Matrix (Fin c) (Fin w) R) (y : Matrix (Fin v) (Fin w) R) : Ten2 R p p' a c :=
  fun s t => l_si * (Vl s)ᴴ * y * ((Vr t)ᴴ * r_si)

variable {l l_s l_si : Matrix (Fin a) (Fin a) R} {r r_s r_si : Matrix (Fin c) (Fin c) R}
  {A : Ten R p a b} {A' : Ten R p' b c} {qr : FullQR R}

theorem wten_left {Vl} (h : calcVshl qr A l_s = some Vl) (hs : l_sᴴ = l_s) (hl : l * l_si = l_s)
    (Vr : Fin p' → Matrix (Fin c) (Fin w) R) (y) : LeftGauge2 A l (wten l_si r_si Vl Vr y) := by
  intro t
  have : ∀ s, (A s)ᴴ * l * wten l_si r_si Vl Vr y s t = (A s)ᴴ * l_sᴴ * (Vl s)ᴴ * (y * ((Vr t)ᴴ * r_si)) := by
    intro s
    rw [hs, ← hl]
    simp only [wten, Matrix.mul_assoc]
  simp only [this]
  rw [← Matrix.sum_mul, vshl_null h, Matrix.zero_mul]

theorem wten_right {Vr} (h : calcVsh qr A' r_s = some Vr) (hr : r_si * r = r_s)
    (Vl : Fin p → Matrix (Fin v) (Fin a) R) (y) : RightGauge2 A' r (wten l_si r_si Vl Vr y) := by
  intro s
  have hn := congrArg conjTranspose (vsh_null h)
  simp only [conjTranspose_sum, conjTranspose_mul, conjTranspose_conjTranspose, conjTranspose_zero] at hn
  have : ∀ t, wten l_si r_si Vl Vr y s t * r * (A' t)ᴴ
      = l_si * (Vl s)ᴴ * y * ((Vr t)ᴴ * (r_s * (A' t)ᴴ)) := by
    intro t
    rw [← hr]
    simp only [wten, Matrix.mul_assoc]
  simp only [this]
  rw [← Matrix.mul_sum, hn, Matrix.mul_zero]

theorem ov2_wten {Vl Vr} (hVl : calcVshl qr A l_s = some Vl) (hVr : calcVsh qr A' r_s = some Vr)
    (hlh : lᴴ = l) (hlsi : l_siᴴ = l_si) (hl : l_si * l = l_s) (hli : l_s * l_si = 1)
    (hrsi : r_siᴴ = r_si) (hr : r_si * r = r_s) (hri : r_s * r_si = 1) (y y') :
    ov2 l r (wten l_si r_si Vl Vr y') (wten l_si r_si Vl Vr y) = adot y' y := by
  have e : ∀ s t, wten l_si r_si Vl Vr y s t * r * (wten l_si r_si Vl Vr y' s t)ᴴ
      = l_si * (Vl s)ᴴ * y * ((Vr t)ᴴ * Vr t) * (y'ᴴ * (Vl s * l_si)) := by
    intro s t
    have : r_si * (r * (r_si * (Vr t * (y'ᴴ * (Vl s * l_si))))) = Vr t * (y'ᴴ * (Vl s * l_si)) := by
      rw [← Matrix.mul_assoc r_si r, hr, ← Matrix.mul_assoc, hri, Matrix.one_mul]
    simp only [wten, conjTranspose_mul, conjTranspose_conjTranspose, hlsi, hrsi, Matrix.mul_assoc]
    rw [this]
  rw [ov2]
  simp only [e]
  simp only [← Matrix.sum_mul, ← Matrix.mul_sum, vsh_iso hVr, Matrix.mul_one]
  rw [adot_eq_trace, adot_eq_trace, hlh, Matrix.mul_sum, Matrix.trace_sum]
  have e2 : ∀ s, (l * (l_si * (Vl s)ᴴ * y * (y'ᴴ * (Vl s * l_si)))).trace
      = ((Vl s * (Vl s)ᴴ) * (y * y'ᴴ)).trace := by
    intro s
    rw [show l * (l_si * (Vl s)ᴴ * y * (y'ᴴ * (Vl s * l_si)))
      = (l * l_si * (Vl s)ᴴ * y * y'ᴴ) * (Vl s * l_si) by simp only [Matrix.mul_assoc],
      Matrix.trace_mul_comm]
    congr 1
    rw [show Vl s * l_si * (l * l_si * (Vl s)ᴴ * y * y'ᴴ)
      = Vl s * ((l_si * l) * l_si * ((Vl s)ᴴ * (y * y'ᴴ))) by simp only [Matrix.mul_assoc], hl, hli,
      Matrix.one_mul, Matrix.mul_assoc]
  simp only [e2]
  rw [← Matrix.trace_sum, ← Matrix.sum_mul, vshl_iso hVl, Matrix.one_mul, Matrix.trace_mul_comm]

theorem wten_surj {Vl Vr} (hVl : calcVshl qr A l_s = some Vl) (hVr : calcVsh qr A' r_s = some Vr)
    (hls : l_sᴴ = l_s) (hll : l_s * l_s = l) (hli : l_si * l_s = 1)
    (hrs : r_sᴴ = r_s) (hrh : rᴴ = r) (hrr : r_s * r_s = r) (hri : r_s * r_si = 1)
    (hul : IsUnit (∑ s, (A s)ᴴ * l * A s).det) (hur : IsUnit (∑ s, A' s * r * (A' s)ᴴ).det)
    (Z : Ten2 R p p' a c) (hL : LeftGauge2 A l Z) (hR : RightGauge2 A' r Z) :
    wten l_si r_si Vl Vr (∑ s, ∑ t, Vl s * (l_s * Z s t * r_s * Vr t)) = Z := by
  funext s t
  have h1 : ∀ s, (∑ t, l_s * Z s t * r_s * Vr t) * ((Vr t)ᴴ) = l_s * Z s t * r_s := by
    intro s
    have hc := vsh_complete hVr (by rw [hrs, hrr]; exact hur) (fun t => (l_s * Z s t * r_s)ᴴ) (by
      have := rightGauge2_conj hrh hR s
      have e := congrArg (· * l_s) this
      simp only [Matrix.zero_mul, Matrix.sum_mul] at e
      rw [← e]
      refine Finset.sum_congr rfl fun t _ => ?_
      rw [← hrr]
      simp only [conjTranspose_mul, hrs, hls, Matrix.mul_assoc]) t
    have := congrArg conjTranspose hc
    simp only [conjTranspose_mul, conjTranspose_sum, conjTranspose_conjTranspose, hrs, hls] at this
    exact this
  have h2 := vshl_complete hVl (by rw [hls, hll]; exact hul) (fun s => l_s * Z s t * r_s) (by
    have e := congrArg (· * r_s) (hL t)
    simp only [Matrix.zero_mul, Matrix.sum_mul] at e
    rw [← e]
    refine Finset.sum_congr rfl fun s _ => ?_
    rw [← hll, hls]
    simp only [Matrix.mul_assoc]) s
  rw [wten]
  have h3 : (∑ s, ∑ t, Vl s * (l_s * Z s t * r_s * Vr t)) * (Vr t)ᴴ = ∑ s, Vl s * (l_s * Z s t * r_s) := by
    rw [Matrix.sum_mul]
    refine Finset.sum_congr rfl fun s _ => ?_
    rw [← Matrix.mul_sum, Matrix.mul_assoc, h1]
  rw [show l_si * (Vl s)ᴴ * (∑ s, ∑ t, Vl s * (l_s * Z s t * r_s * Vr t)) * ((Vr t)ᴴ * r_si)
    = l_si * ((Vl s)ᴴ * ((∑ s, ∑ t, Vl s * (l_s * Z s t * r_s * Vr t)) * (Vr t)ᴴ)) * r_si by
      simp only [Matrix.mul_assoc], h3, h2, show l_si * (l_s * Z s t * r_s) * r_si
    = (l_si * l_s) * Z s t * (r_s * r_si) by simp only [Matrix.mul_assoc], hli, hri, Matrix.one_mul,
    Matrix.mul_one]

variable (l r) in
theorem ov2_calcBBY (C : Ten2 R p p' a c) (Vl : Fin p → Matrix (Fin v) (Fin a) R)
    (Vr : Fin p' → Matrix (Fin c) (Fin w) R) (hlh : lᴴ = l) (hlsi : l_siᴴ = l_si) (hl : l_si * l = l_s)
    (hrsi : r_siᴴ = r_si) (hr : r * r_si = r_s) (y) :
    ov2 l r (wten l_si r_si Vl Vr y) C = adot y (calcBBY C Vl Vr l_s r_s) := by
  rw [ov2, calcBBY, forSum_eq]
  simp only [adot_eq_trace, epsR_eq, Matrix.mul_sum, Matrix.trace_sum, hlh]
  refine Finset.sum_congr rfl fun s _ => Finset.sum_congr rfl fun t _ => ?_
  rw [← hl, ← hr]
  simp only [wten, conjTranspose_mul, conjTranspose_conjTranspose, hlsi, hrsi]
  rw [show l * (C s t * r * (r_si * Vr t * (yᴴ * (Vl s * l_si))))
    = (l * C s t * r * r_si * Vr t) * (yᴴ * Vl s * l_si) by simp only [Matrix.mul_assoc], Matrix.trace_mul_comm]
  simp only [Matrix.mul_assoc]

variable (l) in
theorem ov_calcBBY3_right (C : Ten3 R p p' p'' a d) (A2 : Ten R p'' c d) (r3 : Matrix (Fin d) (Fin d) R)
    (Vl : Fin p → Matrix (Fin v) (Fin a) R)
    (Vr : Fin p' → Matrix (Fin c) (Fin w) R) (hlh : lᴴ = l) (hlsi : l_siᴴ = l_si) (hl : l_si * l = l_s)
    (y) :
    adot l (∑ s, ∑ t, ∑ u, C s t u * r3 * (wten l_si r_si Vl Vr y s t * A2 u)ᴴ)
      = adot y (∑ s, Vl s * (l_s * epsR2C12 r3 (C s) (fun s => (Vr s)ᴴ * r_si) A2)) := by
  simp only [adot_eq_trace, epsR2C12_eq, Matrix.mul_sum, Matrix.trace_sum, hlh]
  refine Finset.sum_congr rfl fun s _ => Finset.sum_congr rfl fun t _ => Finset.sum_congr rfl fun u _ => ?_
  rw [← hl]
  simp only [wten, conjTranspose_mul, conjTranspose_conjTranspose, hlsi]
  rw [show l * (C s t u * r3 * ((A2 u)ᴴ * (r_siᴴ * Vr t * (yᴴ * (Vl s * l_si)))))
    = (l * C s t u * r3 * (A2 u)ᴴ * r_siᴴ * Vr t) * (yᴴ * Vl s * l_si) by simp only [Matrix.mul_assoc],
    Matrix.trace_mul_comm]
  simp only [Matrix.mul_assoc]

variable (r) in
theorem ov_calcBBY3_left {pm z : ℕ} (C : Ten3 R pm p p' z c) (Am : Ten R pm z a) (lm : Matrix (Fin z) (Fin z) R)
    (hlm : lmᴴ = lm) (Vl : Fin p → Matrix (Fin v) (Fin a) R)
    (Vr : Fin p' → Matrix (Fin c) (Fin w) R) (hlsi : l_siᴴ = l_si)
    (hrsi : r_siᴴ = r_si) (hr : r * r_si = r_s) (y) :
    adot lm (∑ s, ∑ t, ∑ u, C s t u * r * (Am s * wten l_si r_si Vl Vr y t u)ᴴ)
      = adot y (∑ u, epsL2A1A2C34 lm Am (fun s => l_si * (Vl s)ᴴ) (fun s t => C s t u) * (r_s * Vr u)) := by
  simp only [adot_eq_trace, epsL2A1A2C34_eq, Matrix.mul_sum, Matrix.sum_mul, Matrix.trace_sum, hlm]
  rw [sum_rot3]
  refine Finset.sum_congr rfl fun u _ => Finset.sum_congr rfl fun s _ => Finset.sum_congr rfl fun t _ => ?_
  rw [← hr]
  simp only [wten, conjTranspose_mul, conjTranspose_conjTranspose, hlsi, hrsi]
  rw [show lm * (C s t u * r * (r_si * Vr u * (yᴴ * (Vl t * l_si)) * (Am s)ᴴ))
    = (lm * C s t u * r * r_si * Vr u) * (yᴴ * (Vl t * l_si) * (Am s)ᴴ) by simp only [Matrix.mul_assoc],
    Matrix.trace_mul_comm]
  simp only [Matrix.mul_assoc]

end

/-! ## The singular value decomposition -/

section
variable {m n : ℕ} {Y : Matrix (Fin m) (Fin n) ℂ}

/-- The matrix with the singular vectors of `Y` and other singular values. -/
def svdMk (f : SvdOf Y) (c : Fin (min m n) → ℂ) : Matrix (Fin m) (Fin n) ℂ :=
  Matrix.of fun i j => ∑ k : Fin (min m n), f.U i ⟨k, by omega⟩ * c k * f.Vh ⟨k, by omega⟩ j

theorem svdMk_sv (f : SvdOf Y) : svdMk f (fun k => (f.sv k : ℂ)) = Y := by
  ext i j
  rw [f.eq]
  rfl

theorem svdMk_sub (f : SvdOf Y) (c c') : svdMk f c - svdMk f c' = svdMk f (c - c') := by
  ext i j
  simp only [svdMk, Matrix.sub_apply, Matrix.of_apply, ← Finset.sum_sub_distrib, Pi.sub_apply]
  exact Finset.sum_congr rfl fun k _ => by ring

theorem adot_svdMk (f : SvdOf Y) (c c' : Fin (min m n) → ℂ) :
    adot (svdMk f c) (svdMk f c') = ∑ k, star (c k) * c' k := by
  have hU : ∀ k k' : Fin (min m n), ∑ i, star (f.U i ⟨k, by omega⟩) * f.U i ⟨k', by omega⟩
      = if k = k' then 1 else 0 := by
    intro k k'
    have := congrFun (congrFun f.unitU ⟨k, by omega⟩) ⟨k', by omega⟩
    rw [Matrix.mul_apply, Matrix.one_apply] at this
    simpa [Fin.ext_iff] using this
  have hV : ∀ k k' : Fin (min m n), ∑ j, f.Vh ⟨k', by omega⟩ j * star (f.Vh ⟨k, by omega⟩ j)
      = if k' = k then 1 else 0 := by
    intro k k'
    have := congrFun (congrFun f.unitV ⟨k', by omega⟩) ⟨k, by omega⟩
    rw [Matrix.mul_apply, Matrix.one_apply] at this
    simpa [Fin.ext_iff] using this
  have e : adot (svdMk f c) (svdMk f c') = ∑ k : Fin (min m n), ∑ k' : Fin (min m n), star (c k) * c' k'
      * (∑ i, star (f.U i ⟨k, by omega⟩) * f.U i ⟨k', by omega⟩)
      * (∑ j, f.Vh ⟨k', by omega⟩ j * star (f.Vh ⟨k, by omega⟩ j)) := by
    simp only [adot_eq_trace, Matrix.trace, Matrix.diag_apply, Matrix.mul_apply, conjTranspose_apply, svdMk,
      Matrix.of_apply, star_sum, star_mul', Finset.sum_mul, Finset.mul_sum]
    rw [Finset.sum_comm' (t' := Finset.univ) (s' := fun _ => Finset.univ) (by simp)]
    rw [Finset.sum_congr rfl fun i _ => Finset.sum_comm]
    rw [Finset.sum_comm]
    rw [Finset.sum_congr rfl fun k _ => Finset.sum_congr rfl fun i _ => Finset.sum_comm]
    rw [Finset.sum_congr rfl fun k _ => Finset.sum_comm]
    rw [Finset.sum_comm]
    refine Finset.sum_congr rfl fun k _ => Finset.sum_congr rfl fun k' _ => ?_
    rw [Finset.sum_comm]
    refine Finset.sum_congr rfl fun j _ => Finset.sum_congr rfl fun i _ => ?_
    ring
  rw [e]
  refine Finset.sum_congr rfl fun k _ => ?_
  rw [Finset.sum_eq_single k (fun k' _ hk => by rw [hU, if_neg (Ne.symm hk)]; ring) (by simp), hU, hV, if_pos rfl]
  ring

theorem bbZ1_bbZ2 (f : SvdOf Y) (d : ℕ) (hd : d ≤ min m n) :
    bbZ1 f d hd * bbZ2 f d hd = svdMk f (fun k => if (k : ℕ) < d then (f.sv k : ℂ) else 0) := by
  ext i j
  rw [Matrix.mul_apply, svdMk, Matrix.of_apply]
  obtain ⟨e, he⟩ := Nat.exists_eq_add_of_le hd
  have hsum : ∀ g : Fin (min m n) → ℂ, (∀ k : Fin (min m n), d ≤ (k : ℕ) → g k = 0) →
      ∑ k, g k = ∑ k : Fin d, g ⟨k, by omega⟩ := by
    intro g hg
    have : ∑ k, g k = ∑ k ∈ Finset.univ.filter (fun k : Fin (min m n) => (k : ℕ) < d), g k := by
      rw [Finset.sum_filter]
      refine Finset.sum_congr rfl fun k _ => ?_
      split
      · rfl
      · exact hg k (by omega)
    rw [this]
    symm
    refine Finset.sum_bij (fun k _ => ⟨k, by omega⟩) (by simp) (by simp [Fin.ext_iff]) ?_ (by simp)
    intro b hb
    exact ⟨⟨b, (Finset.mem_filter.mp hb).2⟩, by simp, rfl⟩
  rw [hsum _ fun k hk => by rw [if_neg (by omega)]; ring]
  refine Finset.sum_congr rfl fun k _ => ?_
  rw [if_pos k.2]
  have hs : ((Real.sqrt (f.sv ⟨k, by omega⟩) : ℝ) : ℂ) * ((Real.sqrt (f.sv ⟨k, by omega⟩) : ℝ) : ℂ)
      = (f.sv ⟨k, by omega⟩ : ℂ) := by
    rw [← Complex.ofReal_mul, Real.mul_self_sqrt (f.nonneg _)]
  rw [bbZ1, bbZ2, ← hs]
  simp [mmulDiagL, mmulDiagR]
  ring

end

/-! ## The parameters the code computes -/

section
variable {q D : ℕ → ℕ} {N : ℕ}

theorem calcKls_current {R : Type*} [CommRing R] [StarRing R] (ham : Ham R q) (hN : D N = 1)
    {S S' : TDVP R q D} (h : calcKls N ham hN S = some S') (hC : CurrentC N ham S) : CurrentC N ham S' := by
  have hM := calcKls_toMPS ham hN h
  have hF : S'.AA = S.AA ∧ S'.AAA = S.AAA ∧ S'.C2 = S.C2 ∧ S'.C3 = S.C3 := by
    unfold calcKls at h
    split at h
    · simp at h
    · obtain ⟨T, hT, rfl⟩ := Option.map_eq_some_iff.mp h
      have key := foldUp_inv (fun (S : Option (TDVP R q D)) j => S.bind fun S => calcKlIter ham S j)
        (fun _ X => ∀ T, X = some T → T.AA = S.AA ∧ T.AAA = S.AAA ∧ T.C2 = S.C2 ∧ T.C3 = S.C3) 0
        (N + 1 - ham.sites)
        (some { S with Kl := Function.update (Function.update S.Kl 1 0) 2 0 })
        (by rintro T h; obtain rfl := Option.some.inj h; exact ⟨rfl, rfl, rfl, rfl⟩)
        (by
          intro n _ _ X ih T hT
          obtain rfl | ⟨T0, rfl⟩ : X = none ∨ ∃ T0, X = some T0 := by cases X <;> simp
          · simp at hT
          rw [Option.bind_some] at hT
          obtain ⟨i1, i2, i3, i4⟩ := ih T0 rfl
          unfold calcKlIter at hT
          cases ham <;>
          · obtain ⟨C, _, rfl⟩ := Option.map_eq_some_iff.mp hT
            exact ⟨i1, i2, i3, i4⟩)
      exact key T hT
  obtain ⟨h1, h2, h3, h4⟩ := hF
  have hA : S'.A = S.A := congrArg MPS.A hM
  constructor
  · rw [h1, hA]; exact hC.AA
  · rw [h2, hA]; exact hC.AAA
  · rw [h3, hA]; exact hC.C2
  · rw [h4, hA]; exact hC.C3

theorem tdvpUpdate_current {R : Type*} [CommRing R] [StarRing R] {g : Gauge} {ham : Ham R q} {h0 : D 0 = 1}
    {hN : D N = 1} {S S' : TDVP R q D} (h : tdvpUpdate g N ham h0 hN S = some S') : CurrentC N ham S' := by
  cases g
  · simp only [tdvpUpdate, Option.some.injEq] at h
    rw [← h]
    exact calcKs_current ham h0 _ (calcCs_spec (N := N) ham _).2
  · simp only [tdvpUpdate] at h
    exact calcKls_current ham hN h (calcCs_spec (N := N) ham _).2

theorem calcBBY3_some {pm p p' p'' z a c d v w : ℕ} {Am1 : Option (Ten ℂ pm z a)} {Ap2 : Option (Ten ℂ p'' c d)}
    {C : Option (Ten3 ℂ p p' p'' a d)} {Cm1 : Option (Ten3 ℂ pm p p' z c)}
    {Vlh : Fin p → Matrix (Fin v) (Fin a) ℂ} {Vrh : Fin p' → Matrix (Fin c) (Fin w) ℂ}
    {lm2 : Matrix (Fin z) (Fin z) ℂ} {rp2 : Matrix (Fin d) (Fin d) ℂ} {l_s l_si : Matrix (Fin a) (Fin a) ℂ}
    {r_s r_si : Matrix (Fin c) (Fin c) ℂ} {y}
    (h : calcBBY3 Am1 Ap2 C Cm1 Vlh Vrh lm2 rp2 l_s l_si r_s r_si = some y) :
    (∀ x, Ap2 = some x → ∃ C', C = some C') ∧ (∀ x, Am1 = some x → ∃ C', Cm1 = some C') ∧
    y = ((Ap2.elim 0 fun A2 => C.elim 0 fun C => ∑ s, Vlh s * (l_s * epsR2C12 rp2 (C s)
        (fun s => (Vrh s)ᴴ * r_si) A2))
      + (Am1.elim 0 fun Am => Cm1.elim 0 fun C => ∑ u, epsL2A1A2C34 lm2 Am (fun s => l_si * (Vlh s)ᴴ)
        (fun s t => C s t u) * (r_s * Vrh u))) := by
  unfold calcBBY3 at h
  cases Ap2 <;> cases C <;> cases Am1 <;> cases Cm1 <;>
    simp only [Option.elim, Option.map_none, Option.map_some, Option.bind_none, Option.bind_some, forSum_eq,
      zero_add, add_zero, reduceCtorEq, Option.some.injEq] at h ⊢ <;>
    simp_all

/-- The parameters computed for a pair give its overlap with `H|ψ⟩`. -/
theorem bbY_matElem (P : Num) (g : Gauge) {ham : Ham ℂ q} {T : TDVP ℂ q D} (hC : CurrentC N ham T)
    (h : UpToDate N T.A T.l T.r) (h0 : D 0 = 1) (hN : D N = 1) {lm rm} {k : ℕ} (hk : k + 1 < N)
    (Rl : Roots (T.l k) (P.roots (lm k)).1 (P.roots (lm k)).2 P.tol)
    (Rr : Roots (T.r (k + 1 + 1)) (P.roots (rm (k + 1 + 1))).1 (P.roots (rm (k + 1 + 1))).2 P.tol)
    {y} (hy : bbY N ham T (precompute P g true T lm rm) k = some (some y)) {Vl Vr}
    (hVl : calcVshl P.qr (T.A k) (P.roots (lm k)).1 = some Vl)
    (hVr : calcVsh P.qr (T.A (k + 1)) (P.roots (rm (k + 1 + 1))).1 = some Vr)
    (Z : Pairs ℂ q D) (y') (hZ : Z k = wten (P.roots (lm k)).2 (P.roots (rm (k + 1 + 1))).2 Vl Vr y') :
    matElem (twoSite T.A h0 hN Z k) (ham.total (N := N)) (psi T.A h0 hN) = adot y' y := by
  have hVl' : (precompute P g true T lm rm).Vlh k = some Vl := by
    cases g <;> exact hVl
  have hVr' : (precompute P g true T lm rm).Vrh (k + 1) = some Vr := by
    cases g <;> exact hVr
  have hL : LeftGauge2 (T.A k) (T.l k) (Z k) := by
    rw [hZ]; exact wten_left hVl Rl.s_herm Rl.mul_si Vr y'
  have hR : RightGauge2 (T.A (k + 1)) (T.r (k + 1 + 1)) (Z k) := by
    rw [hZ]; exact wten_right hVr Rr.si_mul Vl y'
  have hlh := h.l_herm k (by omega)
  rw [matElem_total]
  unfold bbY at hy
  rw [hVl', hVr'] at hy
  cases ham with
  | two hm =>
    rw [Finset.sum_eq_single k]
    · simp only [hC.C2 hm rfl k hk, Option.map_map] at hy
      obtain ⟨op, hop, e⟩ := Option.map_eq_some_iff.mp hy
      rw [Ham.term, dif_pos hk, hop, Option.elim_some, matElem_pair_two h h0 hN Z k hk, hZ]
      rw [← Option.some.inj e]
      exact ov2_calcBBY _ _ _ Vl Vr hlh Rl.si_herm Rl.si_mul Rr.si_herm Rr.mul_si y'
    · intro j hj hne
      refine matElem_pair_far h h0 hN _ Z k hk hL hR j ?_
      simp only [Ham.sites]
      omega
    · intro hk'
      simp at hk'
      omega
  | three hm =>
    have hright : ∀ {C}, (k + 3 ≤ N → C = T.C3 k) → (∀ x, (if k + 3 ≤ N then some (T.A (k + 2)) else none) = some x →
        ∃ C', C = some C') →
        matElem (twoSite T.A h0 hN Z k) ((Ham.three hm).term (N := N) k) (psi T.A h0 hN)
        = adot y' ((if k + 3 ≤ N then some (T.A (k + 2)) else none).elim 0 fun A2 => C.elim 0 fun C =>
          ∑ s, Vl s * ((P.roots (lm k)).1 * epsR2C12 (T.r (k + 2 + 1)) (C s)
            (fun s => (Vr s)ᴴ * (P.roots (rm (k + 1 + 1))).2) A2)) := by
      intro C hCeq hex
      by_cases hk3 : k + 3 ≤ N
      · rw [if_pos hk3] at hex ⊢
        obtain ⟨C', hC'⟩ := hex _ rfl
        rw [hCeq hk3, hC.C3 hm rfl k (by omega)] at hC'
        obtain ⟨op, hop, rfl⟩ := Option.map_eq_some_iff.mp hC'
        rw [Ham.term, dif_pos (show k + 2 < N by omega), hop, hCeq hk3, hC.C3 hm rfl k (by omega), hop]
        simp only [Option.map_some, Option.elim_some]
        rw [matElem_pair_three h h0 hN Z k (by omega), hZ]
        exact ov_calcBBY3_right _ _ _ _ Vl Vr hlh Rl.si_herm Rl.si_mul y'
      · rw [if_neg hk3, Ham.term, dif_neg (by omega)]
        simp [matElem, adot_zero_right]
    cases k with
    | zero =>
      rw [Finset.sum_eq_single 0]
      · simp only [Option.map_eq_some_iff] at hy
        obtain ⟨y0, hy0, e⟩ := hy
        obtain ⟨c1, c2, c3⟩ := calcBBY3_some hy0
        rw [← Option.some.inj e, c3, Option.elim_none, add_zero]
        exact hright (fun hh => by rw [TDVP.c3, if_pos hh]) c1
      · intro j hj hne
        exact matElem_pair_far h h0 hN _ Z 0 hk hL hR j (by omega)
      · intro hk'
        simp at hk'
        omega
    | succ j =>
      have hsum : ∑ i ∈ Finset.range N,
          matElem (twoSite T.A h0 hN Z (j + 1)) ((Ham.three hm).term (N := N) i) (psi T.A h0 hN)
          = matElem (twoSite T.A h0 hN Z (j + 1)) ((Ham.three hm).term (N := N) (j + 1)) (psi T.A h0 hN)
            + matElem (twoSite T.A h0 hN Z (j + 1)) ((Ham.three hm).term (N := N) j) (psi T.A h0 hN) := by
        rw [← Finset.sum_pair (f := fun i => matElem (twoSite T.A h0 hN Z (j + 1))
          ((Ham.three hm).term (N := N) i) (psi T.A h0 hN)) (show j + 1 ≠ j by omega)]
        symm
        refine Finset.sum_subset ?_ ?_
        · intro i hi
          simp at hi ⊢
          omega
        · intro i _ hi
          simp only [Finset.mem_insert, Finset.mem_singleton, not_or] at hi
          refine matElem_pair_far h h0 hN _ Z (j + 1) hk hL hR i ?_
          simp only [Ham.sites]
          omega
      rw [hsum]
      simp only [Option.map_eq_some_iff] at hy
      obtain ⟨y0, hy0, e⟩ := hy
      obtain ⟨c1, c2, c3⟩ := calcBBY3_some hy0
      rw [← Option.some.inj e, c3, adot_add_right]
      congr 1
      · exact hright (fun hh => by rw [TDVP.c3, if_pos hh]) c1
      · obtain ⟨C', hC'⟩ := c2 _ rfl
        have hc3 : T.c3 N j = T.C3 j := by rw [TDVP.c3, if_pos (by omega)]
        rw [hc3, hC.C3 hm rfl j (by omega)] at hC'
        obtain ⟨op, hop, rfl⟩ := Option.map_eq_some_iff.mp hC'
        rw [Ham.term, dif_pos (show j + 2 < N by omega), hop, hc3, hC.C3 hm rfl j (by omega), hop]
        simp only [Option.map_some, Option.elim_some]
        rw [matElem_pair_three' h h0 hN Z j (by omega), hZ]
        exact ov_calcBBY3_left _ _ _ _ (h.l_herm j (by omega)) Vl Vr Rl.si_herm Rr.si_herm Rr.mul_si y'

end

end EvoMPS
