import Verif.GenSweepLemmas

/-!
# The iterations of the ground state search of `tdvp_gen.py` (helper lemmas)
-/

set_option linter.unusedSectionVars false

namespace EvoMPS

open Matrix Sweep Eff

namespace GenSweep

variable {q D M : ℕ → ℕ} {N : ℕ} {ham : Ham ℂ q} {W : Option (Mpo q M)}

/-! ## The accumulated matrices -/

theorem heffLocalL_val {k : ℕ} {S S' : St q D M} (hl : ∀ n ≤ k, S.l n = 1)
    (haa : ham.sites = 3 → ∀ n, n + 1 < k → S.AA n = calcAA (S.A n) (S.A (n + 1)))
    (h : heffLocalL ham k S = some S') :
    ∃ AA' KL', S' = { S with AA := AA', KL := KL' } ∧ heffLeft ham S.A S.KL k = some KL' ∧
      (∀ n, n + 1 ≠ k → AA' n = S.AA n) ∧
      (ham.sites = 3 → ∀ n, n + 1 = k → AA' n = calcAA (S.A n) (S.A (n + 1))) ∧
      (2 ≤ k → (KL' (k + 1)).isSome) := by
  cases ham with
  | two hm =>
    rcases k with _ | k
    · obtain rfl := Option.some.inj h
      exact ⟨_, _, rfl, rfl, fun _ _ => rfl, fun h3 => by simp [Ham.sites] at h3, fun h2 => by omega⟩
    · obtain ⟨op, ho, h⟩ := Option.bind_eq_some_iff.1 h
      obtain ⟨K, hK, rfl⟩ := Option.map_eq_some_iff.1 h
      dsimp only at hK ⊢
      refine ⟨_, _, rfl, ?_, fun n hn => Function.update_of_ne (by omega) _ _, fun h3 => by simp [Ham.sites] at h3,
        fun _ => by simp⟩
      simp only [heffLeft, ho, hK, Option.map_some, Option.getD_some, Function.update_self, hl k (by omega)]
  | three hm =>
    rcases k with _ | _ | k
    · obtain rfl := Option.some.inj h
      exact ⟨_, _, rfl, rfl, fun _ _ => rfl, fun _ n hn => by omega, fun h2 => by omega⟩
    · obtain rfl := Option.some.inj h
      refine ⟨_, _, rfl, rfl, fun n hn => Function.update_of_ne (by omega) _ _, fun _ n hn => ?_, fun h2 => by omega⟩
      obtain rfl : n = 0 := by omega
      exact Function.update_self ..
    · obtain ⟨op, ho, h⟩ := Option.bind_eq_some_iff.1 h
      obtain ⟨K, hK, rfl⟩ := Option.map_eq_some_iff.1 h
      dsimp only at hK ⊢
      refine ⟨_, _, rfl, ?_, fun n hn => Function.update_of_ne (by omega) _ _, fun _ n hn => ?_, fun _ => by simp⟩
      · simp only [heffLeft, ho, hK, Option.map_some, Option.getD_some, hl k (by omega)]
        rw [Function.update_of_ne (by omega), haa rfl k (by omega)]
        rfl
      · obtain rfl : n = k + 1 := by omega
        exact Function.update_self ..

theorem heffLocalL_isSome (hham : ∀ j, j + ham.sites ≤ N → Has ham j) {k : ℕ} (hk : k < N) {S : St q D M}
    (hs : ∀ n, 1 ≤ n → n ≤ max k 2 → (S.KL n).isSome) : (heffLocalL ham k S).isSome := by
  cases ham with
  | two hm =>
    rcases k with _ | k
    · rfl
    · obtain ⟨op, ho⟩ := Option.isSome_iff_exists.1 (hham k (by simp only [Ham.sites]; omega))
      obtain ⟨K, hK⟩ := Option.isSome_iff_exists.1 (hs (k + 1) (by omega) (by omega))
      simp [heffLocalL, ho, hK]
  | three hm =>
    rcases k with _ | _ | k
    · rfl
    · rfl
    · obtain ⟨op, ho⟩ := Option.isSome_iff_exists.1 (hham k (by simp only [Ham.sites]; omega))
      obtain ⟨K, hK⟩ := Option.isSome_iff_exists.1 (hs (k + 2) (by omega) (by omega))
      simp [heffLocalL, ho, hK]

theorem heffLocalR_val {k : ℕ} (hk : k < N) {S S' : St q D M} (hr1 : ∀ n, k ≤ n → n ≤ N → S.r n = 1)
    (h : heffLocalR N ham k S = some S') :
    ∃ AA' K', S' = { S with AA := AA', K := K' } ∧
      (∀ n, n ≠ k → AA' n = S.AA n) ∧
      (k + 1 < N → AA' k = calcAA (S.A k) (S.A (k + 1))) ∧
      (∀ n, n ≠ k → K' n = S.K n) ∧ (k + 1 = N → K' = S.K) ∧
      (k + 1 < N → K' k = if k + ham.sites ≤ N then epsR (S.K (k + 1)) (S.A k) (S.A k) + hr ham S.A k else 0) := by
  cases ham with
  | two hm =>
    simp only [heffLocalR] at h
    split at h
    · next hlt =>
      obtain ⟨op, ho, rfl⟩ := Option.map_eq_some_iff.1 h
      refine ⟨_, _, rfl, fun n hn => Function.update_of_ne hn _ _, fun _ => Function.update_self ..,
        fun n hn => Function.update_of_ne hn _ _, fun hc => by omega, fun _ => ?_⟩
      rw [Function.update_self, if_pos (by simp only [Ham.sites]; omega), Function.update_self,
        hr1 (k + 1 + 1) (by omega) (by omega)]
      simp only [hr, ho]
      rfl
    · obtain rfl := Option.some.inj h
      exact ⟨_, _, rfl, fun _ _ => rfl, fun hc => by omega, fun _ _ => rfl, fun _ => rfl, fun hc => by omega⟩
  | three hm =>
    simp only [heffLocalR] at h
    split at h
    · next hlt =>
      split at h
      · next hlt2 =>
        obtain ⟨op, ho, rfl⟩ := Option.map_eq_some_iff.1 h
        refine ⟨_, _, rfl, fun n hn => Function.update_of_ne hn _ _, fun _ => Function.update_self ..,
          fun n hn => Function.update_of_ne hn _ _, fun hc => by omega, fun _ => ?_⟩
        rw [Function.update_self, if_pos (by simp only [Ham.sites]; omega), Function.update_self,
          hr1 (k + 2 + 1) (by omega) (by omega)]
        simp only [hr, ho]
        rfl
      · obtain rfl := Option.some.inj h
        refine ⟨_, _, rfl, fun n hn => Function.update_of_ne hn _ _, fun _ => Function.update_self ..,
          fun n hn => Function.update_of_ne hn _ _, fun hc => by omega, fun _ => ?_⟩
        rw [Function.update_self, if_neg (by simp only [Ham.sites]; omega)]
    · obtain rfl := Option.some.inj h
      exact ⟨_, _, rfl, fun _ _ => rfl, fun hc => by omega, fun _ _ => rfl, fun _ => rfl, fun hc => by omega⟩

theorem heffLocalR_isSome (hham : ∀ j, j + ham.sites ≤ N → Has ham j) {k : ℕ} {S : St q D M} :
    (heffLocalR N ham k S).isSome := by
  cases ham with
  | two hm =>
    simp only [heffLocalR]
    split
    · rw [Option.isSome_map]
      exact hham k (by simp only [Ham.sites]; omega)
    · rfl
  | three hm =>
    simp only [heffLocalR]
    split
    · split
      · rw [Option.isSome_map]
        exact hham k (by simp only [Ham.sites]; omega)
      · rfl
    · rfl

/-- The bond behind site `k` after the tensor has been made left orthonormal. -/
theorem Inv.moveL {k : ℕ} (hk : k < N) {S S1 S2 : St q D M} (h : Inv N ham W k (k + 1) S)
    {Q : Ten ℂ (q k) (D k) (D (k + 1))} (hQ : LOrth Q)
    (h1 : heffLocalL ham k { S with A := Function.update S.A k Q, l := Function.update S.l (k + 1) 1 } = some S1)
    (h2 : heffMpoL W k S1 = some S2) :
    Inv N ham W (k + 1) (k + 1) S2 ∧ S2.A = Function.update S.A k Q := by
  have ht := h.touch (j := k) le_rfl (by omega) Q
  set A' := Function.update S.A k Q with hA'
  have hl : ∀ n ≤ k + 1, Function.update S.l (k + 1) 1 n = 1 := by
    intro n hn
    by_cases hc : n = k + 1
    · subst hc
      exact Function.update_self ..
    · rw [Function.update_of_ne hc]
      exact h.l n (by omega)
  obtain ⟨AA', KL', rfl, v1, v2, v3, v4⟩ := heffLocalL_val
    (S := { S with A := A', l := Function.update S.l (k + 1) 1 }) (fun n hn => hl n (by omega))
    (fun h3 n hn => ht.aa h3 n (.inl hn)) h1
  dsimp only at v1 v2 v3
  have hleft := heffLeft_spec le_rfl ht.left v1
  rw [max_eq_right (by omega)] at hleft
  have hval := heffLeft_val v1
  have base : ∀ HML', (∀ w, W = some w → ∀ n ≤ k + 1, HML' n
        = some (mixL (D := fun n => D n * M n) (D' := D) (mpoT w A') A' oneEntry n)) →
      Inv N ham W (k + 1) (k + 1)
        { S with A := A', l := Function.update S.l (k + 1) 1, AA := AA', KL := KL', HML := HML' } := by
    intro HML' hm
    refine ⟨fun n hn => ?_, ht.gaugeR, hl, h.r, fun h3 n hn => ?_, hleft, fun n hn1 hn2 => ?_, ht.right, h.last, hm, ht.hmr⟩
    · by_cases hc : n = k
      · subst hc
        dsimp only
        rw [hA', Function.update_self]
        exact hQ
      · exact ht.gaugeL n (by omega)
    · by_cases hc : n + 1 = k
      · exact v3 h3 n hc
      · exact (v2 n hc).trans (ht.aa h3 n (by omega))
    · dsimp only
      by_cases hc : n = k + 1
      · subst hc
        by_cases h2k : 2 ≤ k
        · exact v4 h2k
        · by_cases hsm : k + 1 < ham.sites
          · rw [hval.2.1 hsm]
            exact h.isSome (k + 1) (by omega) (by omega)
          · have : heffLeft ham A' S.KL k = some KL' := v1
            cases ham with
            | two hm =>
              rcases k with _ | k
              · simp [Ham.sites] at hsm
              · obtain ⟨op, ho, rfl⟩ := Option.map_eq_some_iff.1 this
                simp
            | three hm =>
              simp only [Ham.sites] at hsm
              omega
      · rw [hval.1 n hc]
        exact h.isSome n hn1 (by omega)
  cases W with
  | none =>
    obtain rfl := Option.some.inj h2
    exact ⟨base S.HML (fun w hw => by simp at hw), rfl⟩
  | some w =>
    obtain ⟨ML, hML, rfl⟩ := Option.map_eq_some_iff.1 h2
    dsimp only at hML ⊢
    refine ⟨base _ fun w' hw n hn => ?_, rfl⟩
    obtain rfl := Option.some.inj hw
    by_cases hc : n = k + 1
    · subst hc
      rw [Function.update_self]
      congr 1
      have e := ht.hml w rfl k le_rfl
      dsimp only at e
      rw [hML] at e
      obtain rfl := Option.some.inj e
      rw [calcMPOl, mixL]
      have : (if k = 0 then oneEntry else mixL (D := fun n => D n * M n) (D' := D) (mpoT w A') A' oneEntry k)
          = mixL (D := fun n => D n * M n) (D' := D) (mpoT w A') A' oneEntry k := by
        split
        · next hz => subst hz; rfl
        · rfl
      rw [this, epsL_eq]
      rfl
    · rw [Function.update_of_ne hc]
      exact ht.hml w rfl n (by omega)

/-- The bond in front of site `k` after the tensor has been made right orthonormal. -/
theorem Inv.moveR {k : ℕ} (hk : k < N) {S S1 S2 : St q D M} (h : Inv N ham W k (k + 1) S)
    {Q : Ten ℂ (q k) (D k) (D (k + 1))} (hQ : ROrth Q)
    (h1 : heffLocalR N ham k { S with A := Function.update S.A k Q, r := Function.update S.r k 1 } = some S1)
    (h2 : heffMpoR N W k S1 = some S2) :
    Inv N ham W k k S2 ∧ S2.A = Function.update S.A k Q := by
  have ht := h.touch (j := k) le_rfl (by omega) Q
  have hsites := sites_pos ham
  set A' := Function.update S.A k Q with hA'
  have hr1 : ∀ n, k ≤ n → n ≤ N → Function.update S.r k 1 n = 1 := by
    intro n hn hn2
    by_cases hc : n = k
    · subst hc
      exact Function.update_self ..
    · rw [Function.update_of_ne hc]
      exact h.r n (by omega) hn2
  obtain ⟨AA', K', rfl, v1, v2, v3, v4, v5⟩ := heffLocalR_val hk hr1 h1
  dsimp only at v1 v2 v3 v4 v5
  have hright : IsRight N ham A' k fun n => (kr N K' n).getD 0 := by
    intro n hn hn2
    dsimp only
    by_cases hc : n = k
    · subst hc
      rcases Nat.lt_or_ge (n + 1) N with hlt | hge
      · simp only [kr, if_pos hk, if_pos hlt, Option.getD_some]
        rw [v5 hlt, v3 (n + 1) (by omega)]
      · simp only [kr, if_pos hk, Option.getD_some]
        rw [if_neg (by omega), v4 (by omega)]
        obtain rfl : n = N - 1 := by omega
        exact h.last
    · have e1 : kr N K' n = kr N S.K n := by
        unfold kr
        rw [v3 n hc]
      have e2 : kr N K' (n + 1) = kr N S.K (n + 1) := by
        unfold kr
        rw [v3 (n + 1) (by omega)]
      rw [e1, e2]
      exact ht.right n (by omega) hn2
  have hlast : K' (N - 1) = 0 := by
    by_cases hc : N - 1 = k
    · rw [v4 (by omega)]
      exact h.last
    · rw [v3 _ hc]
      exact h.last
  have base : ∀ HMR', (∀ w, W = some w → ∀ n, k ≤ n → n ≤ N → HMR' n = some (mpoHR N w A' n)) →
      Inv N ham W k k
        { S with A := A', r := Function.update S.r k 1, AA := AA', K := K', HMR := HMR' } := by
    intro HMR' hm
    refine ⟨ht.gaugeL, fun n hn hn2 => ?_, h.l, hr1, fun h3 n hn => ?_, ht.left, h.isSome, hright, hlast, ht.hml, hm⟩
    · by_cases hc : n = k
      · subst hc
        dsimp only
        rw [hA', Function.update_self]
        exact hQ
      · exact ht.gaugeR n (by omega) hn2
    · by_cases hc : n = k
      · subst hc
        exact v2 (by omega)
      · exact (v1 n hc).trans (ht.aa h3 n (by omega))
  cases W with
  | none =>
    obtain rfl := Option.some.inj h2
    exact ⟨base S.HMR (fun w hw => by simp at hw), rfl⟩
  | some w =>
    obtain ⟨MR, hMR, rfl⟩ := Option.map_eq_some_iff.1 h2
    dsimp only at hMR ⊢
    refine ⟨base _ fun w' hw n hn hn2 => ?_, rfl⟩
    obtain rfl := Option.some.inj hw
    by_cases hc : n = k
    · subst hc
      rw [Function.update_self]
      congr 1
      have e := ht.hmr w rfl (n + 1) le_rfl (by omega)
      dsimp only at e
      rw [hMR] at e
      obtain rfl := Option.some.inj e
      rw [calcMPOrm1, mpoHR_step w A' n hk]
      have : (if n + 1 = N then oneEntry else mpoHR N w A' (n + 1)) = mpoHR N w A' (n + 1) := by
        split
        · next hz => subst hz; exact (mpoHR_last w A').symm
        · rfl
      rw [this]
      rfl
    · rw [Function.update_of_ne hc]
      exact ht.hmr w rfl n (by omega) hn2

/-! ## The state -/

theorem adot_small {m n : ℕ} (hm : m = 1) (hn : n = 1) (a b : Matrix (Fin m) (Fin n) ℂ) (ha : ∀ i j, a i j = 1) :
    b ⟨0, by omega⟩ ⟨0, by omega⟩ = adot a b := by
  subst hm hn
  simp [adot, forSum_eq, ha]

/-- The object at the start. -/
def init0 (S : TDVP ℂ q D) (R : ∀ n, Option (Matrix (Fin (D n * M n)) (Fin (D n)) ℂ)) : St q D M :=
  { A := S.A, l := S.l, r := S.r, AA := S.AA, K := S.K
    KL := Function.update (Function.update (fun _ => none) 1 (some 0)) 2 (some 0)
    HML := Function.update (fun _ => none) 0 (some oneEntry), HMR := R }

variable (h0 : D 0 = 1) (hN : D N = 1)

theorem matElem_smul_smul (H : Matrix (Cfg q N) (Cfg q N) ℂ) (g : ℂ) (ψ : Cfg q N → ℂ) :
    matElem (g • ψ) H (g • ψ) = (star g * g) * matElem ψ H ψ := by
  rw [matElem_dot, matElem_dot, star_smul, Matrix.mulVec_smul, smul_dotProduct, dotProduct_smul, smul_eq_mul,
    smul_eq_mul, mul_assoc]

/-- A phase does not matter. -/
theorem Optimal.phase {H : Matrix (Cfg q N) (Cfg q N) ℂ} {V : Set (Cfg q N → ℂ)} {ψ ψ' : Cfg q N → ℂ} {g : ℂ}
    (h : Optimal H V ψ) (hg : ψ = g • ψ') (hV : ψ' ∈ V) (hn : braket ψ' ψ' = 1) : Optimal H V ψ' := by
  have h1 : star g * g = 1 := by
    have := h.2.1
    rw [hg, braket_dot, star_smul, smul_dotProduct, dotProduct_smul, smul_eq_mul, smul_eq_mul, ← mul_assoc,
      ← braket_dot, hn, mul_one] at this
    exact this
  refine ⟨hV, hn, ?_⟩
  have := h.2.2
  rw [hg, matElem_smul_smul, h1, one_mul] at this
  exact this

theorem trivial_mat {m : ℕ} (hm : m = 1) (G : Matrix (Fin m) (Fin m) ℂ) : ∃ g : ℂ, G = g • 1 := by
  subst hm
  refine ⟨G 0 0, ?_⟩
  ext i j
  obtain rfl : i = 0 := Subsingleton.elim _ _
  obtain rfl : j = 0 := Subsingleton.elim _ _
  simp

/-- The last tensor of a left orthonormal chain. -/
theorem last_left {k : ℕ} (hk : k + 1 = N) {H : Matrix (Cfg q N) (Cfg q N) ℂ} {A : Tensors ℂ q D} (hA : Central N A k)
    {Q : Ten ℂ (q k) (D k) (D (k + 1))} (hQ : LOrth Q) {G : Matrix (Fin (D (k + 1))) (Fin (D (k + 1))) ℂ}
    {V : Set (Cfg q N → ℂ)} (hV : ∀ X, oneSite A h0 hN k X ∈ V)
    (ho : Optimal H V (oneSite A h0 hN k fun s => Q s * G)) : Optimal H V (oneSite A h0 hN k Q) := by
  obtain ⟨g, rfl⟩ := trivial_mat (by rw [hk]; exact hN) G
  refine Optimal.phase ho (g := g) ?_ (hV Q) ?_
  · funext s
    rw [show (fun s => Q s * (g • (1 : Matrix (Fin (D (k + 1))) (Fin (D (k + 1))) ℂ))) = g • Q from
      funext fun s => by rw [Matrix.mul_smul, Matrix.mul_one]; rfl]
    exact oneSite_smul A h0 hN (by omega) g Q s
  · rw [site_inner h0 hN k (by omega) Q Q hA.1 hA.2, pair]
    have := congrArg Matrix.trace hQ
    rw [Matrix.trace_sum] at this
    simp only [Matrix.trace_mul_comm (Q _)ᴴ] at this
    rw [this, Matrix.trace_one, Fintype.card_fin, hk, hN, Nat.cast_one]

/-- The first tensor of a right orthonormal chain. -/
theorem first_right (hpos : 0 < N) {H : Matrix (Cfg q N) (Cfg q N) ℂ} {A : Tensors ℂ q D} (hA : Central N A 0)
    {Q : Ten ℂ (q 0) (D 0) (D (0 + 1))} (hQ : ROrth Q) {G : Matrix (Fin (D 0)) (Fin (D 0)) ℂ}
    {V : Set (Cfg q N → ℂ)} (hV : ∀ X, oneSite A h0 hN 0 X ∈ V)
    (ho : Optimal H V (oneSite A h0 hN 0 fun s => G * Q s)) : Optimal H V (oneSite A h0 hN 0 Q) := by
  obtain ⟨g, rfl⟩ := trivial_mat h0 G
  refine Optimal.phase ho (g := g) ?_ (hV Q) ?_
  · funext s
    rw [show (fun s => (g • (1 : Matrix (Fin (D 0)) (Fin (D 0)) ℂ)) * Q s) = g • Q from
      funext fun s => by rw [Matrix.smul_mul, Matrix.one_mul]; rfl]
    exact oneSite_smul A h0 hN hpos g Q s
  · rw [site_inner h0 hN 0 hpos Q Q hA.1 hA.2, pair]
    have := congrArg Matrix.trace hQ
    rw [Matrix.trace_sum] at this
    rw [this, Matrix.trace_one, Fintype.card_fin, h0, Nat.cast_one]

theorem Central.upd {k : ℕ} {A : Tensors ℂ q D} (h : Central N A k) (X : Ten ℂ (q k) (D k) (D (k + 1))) :
    Central N (Function.update A k X) k :=
  ⟨fun n hn => by rw [Function.update_of_ne (by omega)]; exact h.1 n hn,
    fun n h1 h2 => by rw [Function.update_of_ne (by omega)]; exact h.2 n h1 h2⟩

theorem right_step {qr : QR ℂ} {L : Solvers} (hL : L.Ok) {k : ℕ} (hk : k < N) (hM0 : M 0 = 1) (hMN : M N = 1) {ul : Bool}
    (hH : (sweepH N ham ul W hM0 hMN).IsHermitian) {S S' : St q D M}
    (h : Inv N ham W k (k + 1) S) (hs : rightIter qr L N ham ul W S k = some S') :
    Inv N ham W (min (k + 1) (N - 1)) (min (k + 1) (N - 1) + 1) S' ∧
      OptStep D (sweepH N ham ul W hM0 hMN) h0 hN (k + 1) (psi S.A h0 hN) (psi S'.A h0 hN) := by
  obtain ⟨S1, hS1, hs⟩ := Option.bind_eq_some_iff.1 hs
  obtain ⟨QG, hQ, hs⟩ := Option.bind_eq_some_iff.1 hs
  obtain ⟨S2, hS2, hs⟩ := Option.bind_eq_some_iff.1 hs
  obtain ⟨S3, hS3, rfl⟩ := Option.map_eq_some_iff.1 hs
  obtain ⟨i1, ho, X, hX⟩ := optA_spec h0 hN hL hk hM0 hMN hH h hS1
  obtain ⟨o1, o2⟩ := orthLeft_spec hQ
  obtain ⟨i2, hA3⟩ := i1.moveL hk o1 hS2 hS3
  have hfac : psi (N := N) S1.A h0 hN = oneSite S1.A h0 hN k fun s => QG.1 s * QG.2 := by
    simp only [o2]
    exact (oneSite_same h0 hN k).symm
  have hV : ∀ Y, oneSite S1.A h0 hN k Y ∈ siteSpace (N := N) S.A h0 hN k := by
    intro Y
    rw [hX, oneSite_upd]
    exact ⟨Y, rfl⟩
  by_cases hlt : k + 1 < N
  · rw [if_pos hlt, min_eq_left (by omega)]
    refine ⟨(i2.weaken le_rfl (by omega)).touch (j := k + 1) le_rfl (by omega) _, hk, S.A, h.central,
      ⟨S.A k, oneSite_same h0 hN k⟩, ?_⟩
    have e : psi (N := N) (Function.update S3.A (k + 1) fun s => QG.2 * S3.A (k + 1) s) h0 hN = psi S1.A h0 hN := by
      change oneSite S3.A h0 hN (k + 1) (fun s => QG.2 * S3.A (k + 1) s) = _
      rw [← oneSite_move _ h0 hN k hlt, hA3, oneSite_upd, Function.update_self, hfac]
    dsimp only
    rw [e]
    exact ho
  · rw [if_neg hlt, min_eq_right (by omega), show N - 1 + 1 = N by omega]
    refine ⟨i2.weaken (by omega) (by omega), hk, S.A, h.central, ⟨S.A k, oneSite_same h0 hN k⟩, ?_⟩
    rw [hfac] at ho
    rw [hA3]
    exact last_left h0 hN (by omega) i1.central o1 hV ho

theorem left_step {qr : QR ℂ} {L : Solvers} (hL : L.Ok) {k : ℕ} (hk : k < N) (hM0 : M 0 = 1) (hMN : M N = 1) {ul : Bool}
    (hH : (sweepH N ham ul W hM0 hMN).IsHermitian) {S S' : St q D M}
    (h : Inv N ham W k (k + 1) S) (hs : leftIter qr L N ham ul W S k = some S') :
    Inv N ham W (k - 1) k S' ∧
      OptStep D (sweepH N ham ul W hM0 hMN) h0 hN (k + 1) (psi S.A h0 hN) (psi S'.A h0 hN) := by
  obtain ⟨S1, hS1, hs⟩ := Option.bind_eq_some_iff.1 hs
  obtain ⟨QG, hQ, hs⟩ := Option.bind_eq_some_iff.1 hs
  obtain ⟨S2, hS2, hs⟩ := Option.bind_eq_some_iff.1 hs
  obtain ⟨S3, hS3, rfl⟩ := Option.map_eq_some_iff.1 hs
  obtain ⟨i1, ho, X, hX⟩ := optA_spec h0 hN hL hk hM0 hMN hH h hS1
  obtain ⟨o1, o2⟩ := orthRight_spec hQ
  obtain ⟨i2, hA3⟩ := i1.moveR hk o1 hS2 hS3
  have hfac : psi (N := N) S1.A h0 hN = oneSite S1.A h0 hN k fun s => QG.2 * QG.1 s := by
    simp only [o2]
    exact (oneSite_same h0 hN k).symm
  have hV : ∀ Y, oneSite S1.A h0 hN k Y ∈ siteSpace (N := N) S.A h0 hN k := by
    intro Y
    rw [hX, oneSite_upd]
    exact ⟨Y, rfl⟩
  cases k with
  | succ k =>
    refine ⟨(i2.weaken (by omega) le_rfl).touch (j := k) (by omega) (by omega) _, hk, S.A, h.central,
      ⟨S.A (k + 1), oneSite_same h0 hN (k + 1)⟩, ?_⟩
    have e : psi (N := N) (Function.update S3.A k fun s => S3.A k s * QG.2) h0 hN = psi S1.A h0 hN := by
      change oneSite S3.A h0 hN k (fun s => S3.A k s * QG.2) = _
      rw [oneSite_move _ h0 hN k hk, hA3, oneSite_upd, Function.update_self, hfac]
    change Optimal _ _ (psi (N := N) (Function.update S3.A k fun s => S3.A k s * QG.2) h0 hN)
    rw [e]
    exact ho
  | zero =>
    refine ⟨i2, hk, S.A, h.central, ⟨S.A 0, oneSite_same h0 hN 0⟩, ?_⟩
    rw [hfac] at ho
    change Optimal _ _ (psi (N := N) S3.A h0 hN)
    rw [hA3]
    exact first_right h0 hN hk i1.central o1 hV ho

theorem right_returns {qr : QR ℂ} {L : Solvers} (hL : L.Ok) (hR : L.Returns) (hD : Dims q D N) {k : ℕ} (hk : k < N)
    (h2 : 2 ≤ N) (hM0 : M 0 = 1) (hMN : M N = 1) {ul : Bool} (hham : ∀ j, j + ham.sites ≤ N → Has ham j)
    (hH : (sweepH N ham ul W hM0 hMN).IsHermitian) {S : St q D M}
    (h : Inv N ham W k (k + 1) S) (hψ : psi (N := N) S.A h0 hN ≠ 0) : (rightIter qr L N ham ul W S k).isSome := by
  obtain ⟨S1, hS1⟩ := Option.isSome_iff_exists.1 (optA_returns (L := L) h0 hN hR hD hk h2 hM0 hMN hham hH h hψ)
  obtain ⟨i1, ho, X, hX⟩ := optA_spec h0 hN hL hk hM0 hMN hH h hS1
  obtain ⟨QG, hQ⟩ : ∃ QG, orthLeft qr (S1.A k) = some QG := by
    unfold orthLeft
    rw [dif_pos (hD.left k hk)]
    exact ⟨_, rfl⟩
  obtain ⟨S2, hS2⟩ := Option.isSome_iff_exists.1 (heffLocalL_isSome (S := { S1 with
    A := Function.update S1.A k QG.1, l := Function.update S1.l (k + 1) 1 }) hham hk i1.isSome)
  have hM : (heffMpoL W k S2).isSome := by
    cases W with
    | none => rfl
    | some w =>
      have hHML : S2.HML = S1.HML := by
        have ht := i1.touch (j := k) le_rfl (by omega) QG.1
        obtain ⟨AA', KL', rfl, -⟩ := heffLocalL_val (S := { S1 with
            A := Function.update S1.A k QG.1, l := Function.update S1.l (k + 1) 1 }) (fun n hn => by
          dsimp only
          rw [Function.update_of_ne (by omega)]
          exact i1.l n hn) (fun h3 n hn => ht.aa h3 n (.inl hn)) hS2
        rfl
      simp only [heffMpoL, Option.isSome_map]
      rw [hHML, i1.hml w rfl k le_rfl]
      rfl
  obtain ⟨S3, hS3⟩ := Option.isSome_iff_exists.1 hM
  simp only [rightIter, hS1, hQ, hS2, hS3, Option.bind_some, Option.map_some, Option.isSome_some]

theorem left_returns {qr : QR ℂ} {L : Solvers} (hL : L.Ok) (hR : L.Returns) (hD : Dims q D N) {k : ℕ} (hk : k < N)
    (h2 : 2 ≤ N) (hM0 : M 0 = 1) (hMN : M N = 1) {ul : Bool} (hham : ∀ j, j + ham.sites ≤ N → Has ham j)
    (hH : (sweepH N ham ul W hM0 hMN).IsHermitian) {S : St q D M}
    (h : Inv N ham W k (k + 1) S) (hψ : psi (N := N) S.A h0 hN ≠ 0) : (leftIter qr L N ham ul W S k).isSome := by
  obtain ⟨S1, hS1⟩ := Option.isSome_iff_exists.1 (optA_returns (L := L) h0 hN hR hD hk h2 hM0 hMN hham hH h hψ)
  obtain ⟨i1, ho, X, hX⟩ := optA_spec h0 hN hL hk hM0 hMN hH h hS1
  obtain ⟨QG, hQ⟩ : ∃ QG, orthRight qr (S1.A k) = some QG := by
    unfold orthRight
    rw [dif_pos (hD.right k hk)]
    exact ⟨_, rfl⟩
  obtain ⟨S2, hS2⟩ := Option.isSome_iff_exists.1 (heffLocalR_isSome (N := N) (k := k) (S := { S1 with
    A := Function.update S1.A k QG.1, r := Function.update S1.r k 1 }) hham)
  have hM : (heffMpoR N W k S2).isSome := by
    cases W with
    | none => rfl
    | some w =>
      have hHMR : S2.HMR = S1.HMR := by
        obtain ⟨AA', KL', rfl, -⟩ := heffLocalR_val (S := { S1 with
            A := Function.update S1.A k QG.1, r := Function.update S1.r k 1 }) hk (fun n hn hn2 => by
          dsimp only
          by_cases hc : n = k
          · subst hc
            exact Function.update_self ..
          · rw [Function.update_of_ne hc]
            exact i1.r n (by omega) hn2) hS2
        rfl
      simp only [heffMpoR, Option.isSome_map]
      rw [hHMR, i1.hmr w rfl (k + 1) le_rfl (by omega)]
      rfl
  obtain ⟨S3, hS3⟩ := Option.isSome_iff_exists.1 hM
  simp only [leftIter, hS1, hQ, hS2, hS3, Option.bind_some, Option.map_some, Option.isSome_some]

/-! ## The whole sweep -/

theorem right_path {qr : QR ℂ} {L : Solvers} (hL : L.Ok) (hM0 : M 0 = 1) (hMN : M N = 1) {ul : Bool}
    (hH : (sweepH N ham ul W hM0 hMN).IsHermitian) (j : ℕ) : ∀ (k : ℕ) (S S' : St q D M), k + j + 1 = N →
    Inv N ham W k (k + 1) S → (List.range' k (j + 1)).foldlM (rightIter qr L N ham ul W) S = some S' →
    Inv N ham W (N - 1) N S' ∧
      Steps (OptStep D (sweepH N ham ul W hM0 hMN) h0 hN) (List.range' (k + 1) (j + 1)) (psi S.A h0 hN)
        (psi S'.A h0 hN) := by
  induction j with
  | zero =>
    intro k S S' hk h hs
    rw [List.range'_succ, List.foldlM_cons] at hs
    obtain ⟨S1, h1, hs⟩ := Option.bind_eq_some_iff.1 hs
    obtain rfl := Option.some.inj hs
    obtain ⟨i1, s1⟩ := right_step h0 hN hL (by omega) hM0 hMN hH h h1
    rw [min_eq_right (by omega), show N - 1 + 1 = N by omega] at i1
    exact ⟨i1, .cons s1 (.nil _)⟩
  | succ j ih =>
    intro k S S' hk h hs
    rw [List.range'_succ, List.foldlM_cons] at hs
    obtain ⟨S1, h1, hs⟩ := Option.bind_eq_some_iff.1 hs
    obtain ⟨i1, s1⟩ := right_step h0 hN hL (by omega) hM0 hMN hH h h1
    rw [min_eq_left (by omega)] at i1
    obtain ⟨i2, s2⟩ := ih (k + 1) S1 S' (by omega) i1 hs
    exact ⟨i2, by rw [List.range'_succ]; exact .cons s1 s2⟩

theorem range'_zero_reverse (j : ℕ) : (List.range' 0 (j + 1)).reverse = j :: (List.range' 0 j).reverse := by
  rw [List.range'_1_concat, List.reverse_append]
  simp

theorem range'_one_reverse (j : ℕ) : (List.range' 1 (j + 1)).reverse = (j + 1) :: (List.range' 1 j).reverse := by
  rw [List.range'_1_concat, List.reverse_append]
  simp [Nat.add_comm]

theorem left_path {qr : QR ℂ} {L : Solvers} (hL : L.Ok) (hM0 : M 0 = 1) (hMN : M N = 1) {ul : Bool}
    (hH : (sweepH N ham ul W hM0 hMN).IsHermitian) (j : ℕ) : ∀ (S S' : St q D M), j ≤ N →
    Inv N ham W (j - 1) j S → (List.range' 0 j).reverse.foldlM (leftIter qr L N ham ul W) S = some S' →
    Inv N ham W 0 0 S' ∧
      Steps (OptStep D (sweepH N ham ul W hM0 hMN) h0 hN) (List.range' 1 j).reverse (psi S.A h0 hN)
        (psi S'.A h0 hN) := by
  induction j with
  | zero =>
    intro S S' hj h hs
    obtain rfl := Option.some.inj hs
    exact ⟨h, .nil _⟩
  | succ j ih =>
    intro S S' hj h hs
    rw [range'_zero_reverse, List.foldlM_cons] at hs
    obtain ⟨S1, h1, hs⟩ := Option.bind_eq_some_iff.1 hs
    obtain ⟨i1, s1⟩ := left_step h0 hN hL (by omega) hM0 hMN hH h h1
    obtain ⟨i2, s2⟩ := ih S1 S' (by omega) i1 hs
    exact ⟨i2, by rw [range'_one_reverse]; exact .cons s1 s2⟩

theorem right_path_returns {qr : QR ℂ} {L : Solvers} (hL : L.Ok) (hR : L.Returns) (hD : Dims q D N) (h2 : 2 ≤ N)
    (hM0 : M 0 = 1) (hMN : M N = 1) {ul : Bool} (hham : ∀ j, j + ham.sites ≤ N → Has ham j)
    (hH : (sweepH N ham ul W hM0 hMN).IsHermitian) (j : ℕ) : ∀ (k : ℕ) (S : St q D M), k + j = N →
    Inv N ham W k (k + 1) S ∨ j = 0 → psi (N := N) S.A h0 hN ≠ 0 →
    ∃ S', (List.range' k j).foldlM (rightIter qr L N ham ul W) S = some S' ∧ psi (N := N) S'.A h0 hN ≠ 0 := by
  induction j with
  | zero => exact fun k S _ _ hψ => ⟨S, rfl, hψ⟩
  | succ j ih =>
    intro k S hk h hψ
    have h := h.resolve_right (by omega)
    obtain ⟨S1, h1⟩ := Option.isSome_iff_exists.1
      (right_returns (qr := qr) h0 hN hL hR hD (by omega) h2 hM0 hMN hham hH h hψ)
    obtain ⟨i1, s1⟩ := right_step h0 hN hL (by omega) hM0 hMN hH h h1
    obtain ⟨S', hS', hψ'⟩ := ih (k + 1) S1 (by omega) (by
      rcases Nat.eq_zero_or_pos j with hz | hp
      · exact .inr hz
      · left
        rwa [min_eq_left (by omega)] at i1) (ne_zero_of (Sweep.OptStep.energy s1 hψ).1)
    refine ⟨S', ?_, hψ'⟩
    rw [List.range'_succ, List.foldlM_cons, h1]
    exact hS'

theorem left_path_returns {qr : QR ℂ} {L : Solvers} (hL : L.Ok) (hR : L.Returns) (hD : Dims q D N) (h2 : 2 ≤ N)
    (hM0 : M 0 = 1) (hMN : M N = 1) {ul : Bool} (hham : ∀ j, j + ham.sites ≤ N → Has ham j)
    (hH : (sweepH N ham ul W hM0 hMN).IsHermitian) (j : ℕ) : ∀ (S : St q D M), j ≤ N →
    Inv N ham W (j - 1) j S → psi (N := N) S.A h0 hN ≠ 0 →
    ((List.range' 0 j).reverse.foldlM (leftIter qr L N ham ul W) S).isSome := by
  induction j with
  | zero => exact fun S _ _ _ => rfl
  | succ j ih =>
    intro S hj h hψ
    rw [Nat.add_sub_cancel] at h
    obtain ⟨S1, h1⟩ := Option.isSome_iff_exists.1
      (left_returns (qr := qr) h0 hN hL hR hD (by omega) h2 hM0 hMN hham hH h hψ)
    obtain ⟨i1, s1⟩ := left_step h0 hN hL (by omega) hM0 hMN hH h h1
    rw [range'_zero_reverse, List.foldlM_cons, h1]
    exact ih S1 (by omega) i1 (ne_zero_of (Sweep.OptStep.energy s1 hψ).1)

/-! ## Start and end -/

theorem fill_hmr (w : Mpo q M) (j : ℕ) : ∀ (S : St q D M), j ≤ N →
    (∀ n, j ≤ n → n ≤ N → S.HMR n = some (mpoHR N w S.A n)) →
    ∃ R, (List.range' 0 j).reverse.foldlM (fun S k => heffMpoR N (some w) k S) S = some { S with HMR := R } ∧
      ∀ n ≤ N, R n = some (mpoHR N w S.A n) := by
  induction j with
  | zero => exact fun S _ h => ⟨S.HMR, rfl, fun n hn => h n (Nat.zero_le _) hn⟩
  | succ j ih =>
    intro S hj h
    have e := h (j + 1) le_rfl hj
    obtain ⟨R, hR, hv⟩ := ih { S with HMR := Function.update S.HMR j (some (mpoHR N w S.A j)) } (by omega)
      (fun n h1 h2 => by
        dsimp only
        by_cases hc : n = j
        · subst hc
          exact Function.update_self ..
        · rw [Function.update_of_ne hc]
          exact h n (by omega) h2)
    refine ⟨R, ?_, hv⟩
    rw [range'_zero_reverse, List.foldlM_cons]
    have : heffMpoR N (some w) j S = some { S with HMR := Function.update S.HMR j (some (mpoHR N w S.A j)) } := by
      simp only [heffMpoR, e, Option.map_some]
      congr 4
      rw [calcMPOrm1, mpoHR_step w S.A j (by omega)]
      have : (if j + 1 = N then oneEntry else mpoHR N w S.A (j + 1)) = mpoHR N w S.A (j + 1) := by
        split
        · next hz => subst hz; exact (mpoHR_last w S.A).symm
        · rfl
      rw [this]
      rfl
    rw [this]
    exact hR

/-- The object after `update()` in right canonical form. -/
theorem start_inv (h2 : 2 ≤ N) (hM0 : M 0 = 1) (hMN : M N = 1) {S0 : TDVP ℂ q D} (hA : ∀ n, 1 ≤ n → n < N → ROrth (S0.A n))
    (hl : S0.l 0 = 1) (hr1 : ∀ n, 1 ≤ n → n ≤ N → S0.r n = 1) :
    ∃ S : St q D M, start N W (calcKs N ham h0 (calcCs N ham S0)) = some S ∧ S.A = S0.A ∧ Inv N ham W 0 1 S := by
  obtain ⟨c1, c2⟩ := calcCs_spec (N := N) ham S0
  obtain ⟨k1, k2, -, -⟩ := calcKs_spec (N := N) ham h0 (calcCs N ham S0)
  have hAAs : (calcKs N ham h0 (calcCs N ham S0)).AA = (calcCs N ham S0).AA := (calcKs_fields (N := N) ham h0 _).1
  set S1 := calcCs N ham S0
  set S2 := calcKs N ham h0 S1
  have hmps : S2.toMPS = S0.toMPS := k1.trans c1
  have hsites := sites_pos ham
  have eA : S2.A = S0.A := congrArg MPS.A hmps
  have eA1 : S1.A = S0.A := congrArg MPS.A c1
  have el : S2.l = S0.l := congrArg MPS.l hmps
  have er : S2.r = S0.r := congrArg MPS.r hmps
  have er1 : S1.r = S0.r := congrArg MPS.r c1
  have hhr : ∀ n, 1 ≤ n → n + ham.sites ≤ N → hrOf ham S1 n = hr ham S0.A n := by
    intro n h1 hn
    cases ham with
    | two hm =>
      simp only [Ham.sites] at hn
      simp only [hrOf, hr, c2.C2 hm rfl n (by omega), er1, hr1 (n + 1 + 1) (by omega) (by omega), c2.AA n (by omega), eA1]
      cases hm n <;> rfl
    | three hm =>
      simp only [Ham.sites] at hn
      simp only [hrOf, hr, c2.C3 hm rfl n (by omega), er1, hr1 (n + 2 + 1) (by omega) (by omega),
        c2.AAA rfl n (by omega), eA1]
      cases hm n <;> rfl
  have hlast : S2.K (N - 1) = 0 := by
    rw [k2 (N - 1) (by omega), if_neg (by omega)]
  have base : ∀ HMR', (∀ w, W = some w → ∀ n, 1 ≤ n → n ≤ N → HMR' n = some (mpoHR N w S2.A n)) →
      Inv N ham W 0 1 (init0 S2 HMR') := by
    intro HMR' hm
    refine ⟨fun n hn => by omega, fun n h1 hn => by dsimp only [init0]; rw [eA]; exact hA n h1 hn, fun n hn => ?_, fun n h1 hn => ?_,
      fun h3 n hn => ?_, ⟨fun n hn => ?_, fun j hj => by omega⟩, fun n h1 hn => ?_, fun n h1 hn => ?_, hlast,
      fun w hw n hn => ?_, hm⟩
    · obtain rfl : n = 0 := by omega
      dsimp only [init0]
      rw [el]
      exact hl
    · dsimp only [init0]
      rw [er]
      exact hr1 n h1 hn
    · dsimp only [init0]
      rw [hAAs, c2.AA n (by omega), eA, eA1]
    · have : n < 3 := by
        cases ham with
        | two hm => simp only [Ham.sites] at hn; omega
        | three hm => exact hn
      dsimp only [init0]
      interval_cases n
      · rw [Function.update_of_ne (by omega), Function.update_of_ne (by omega)]
        rfl
      · rw [Function.update_of_ne (by omega), Function.update_self]
        rfl
      · rw [Function.update_self]
        rfl
    · dsimp only [init0]
      have : n = 1 ∨ n = 2 := by omega
      rcases this with rfl | rfl
      · rw [Function.update_of_ne (by omega), Function.update_self]
        rfl
      · rw [Function.update_self]
        rfl
    · dsimp only [init0]
      rcases Nat.lt_or_ge n N with hlt | hge
      · simp only [kr, if_pos hlt, Option.getD_some]
        rw [k2 n hlt]
        by_cases hc : n + ham.sites ≤ N
        · rw [if_pos hc, if_pos hc, if_pos (by omega), Option.getD_some, hhr n h1 hc, eA1, eA]
        · rw [if_neg hc, if_neg hc]
      · simp only [kr, if_neg (by omega : ¬ n < N), Option.getD_none]
        rw [if_neg (by omega)]
    · obtain rfl : n = 0 := by omega
      dsimp only [init0]
      rw [Function.update_self]
      rfl
  simp only [start, if_neg (by omega : ¬ N < 2)]
  cases W with
  | none => exact ⟨_, rfl, eA, base _ fun w hw => by simp at hw⟩
  | some w =>
    dsimp only
    rw [if_pos ⟨hM0, hMN⟩]
    obtain ⟨R, hR, hv⟩ := fill_hmr w N (init0 S2 (Function.update (fun _ => none) N (some oneEntry))) le_rfl (fun n h1 hn => by
          obtain rfl : n = N := by omega
          dsimp only [init0]
          rw [Function.update_self, mpoHR_last])
    exact ⟨_, hR, eA, base R fun w' hw n _ hn => by obtain rfl := Option.some.inj hw; exact hv n hn⟩

/-- The stored mean energy. -/
theorem final_energy (hpos : 1 ≤ N) (hM0 : M 0 = 1) (hMN : M N = 1) {S : St q D M} (h : Inv N ham W 0 0 S) :
    S.K 0 ⟨0, by omega⟩ ⟨0, by omega⟩ = matElem (psi S.A h0 hN) (ham.total (N := N)) (psi S.A h0 hN) ∧
    ∀ w, W = some w → ∃ MR, S.HMR 0 = some MR ∧ MR ⟨0, by rw [h0, hM0]; omega⟩ ⟨0, by omega⟩
      = matElem (psi S.A h0 hN) (mpoOp (N := N) 0 N hM0 hMN w) (psi S.A h0 hN) := by
  constructor
  · obtain ⟨rr, hrr⟩ := exists_mixed N S.A S.A
    have := sum_right (m := 0) h.right hrr (fun _ _ _ => rfl) (fun _ _ _ => rfl)
      (fun n _ hn => h.gaugeR n (Nat.zero_le _) hn) (Nat.zero_le _) h0 hN
    rw [← Finset.range_eq_Ico, ← matElem_total] at this
    rw [← this]
    simp only [kr, if_pos (show 0 < N by omega), Option.getD_some, mixL]
    exact adot_small h0 h0 1 _ fun i j => by
      have : i = j := Fin.ext (by omega)
      rw [this, Matrix.one_apply_eq]
  · intro w hw
    refine ⟨_, h.hmr w hw 0 le_rfl (Nat.zero_le _), ?_⟩
    rw [matElem_mpo w S.A h0 hN hM0 hMN S.A 0 (Nat.zero_le _) (fun _ _ _ => rfl)]
    exact adot_small (by rw [h0, hM0]) h0 _ _ fun i j => rfl

end GenSweep

end EvoMPS
