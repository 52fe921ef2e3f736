import Verif.SweepLemmas

/-!
# One operation of the sweep (helper lemmas)
-/

set_option linter.unusedSectionVars false

namespace EvoMPS

open Matrix Split Eff

namespace Sweep

section
variable {q D : ℕ → ℕ} {N : ℕ}

/-- The number of left orthonormal tensors. -/
def lo : Centre → ℕ
  | .site n => n - 1
  | .bond n => n

/-- The first right orthonormal tensor. -/
def hi : Centre → ℕ
  | .site n => n
  | .bond n => n

/-- The bookkeeping `e` is true of the state `S`. -/
structure Inv (N : ℕ) (ham : Ham ℂ q) (S : St q D) (e : Env) : Prop where
  gaugeL : ∀ m < lo e.centre, LOrth (S.A m)
  gaugeR : ∀ m, hi e.centre ≤ m → m < N → ROrth (S.A m)
  left : IsLeft ham S.A e.left fun n => (S.KL n).getD 0
  right : IsRight N ham S.A (e.right - 1) fun n => (S.KR n).getD 0
  right_pos : 1 ≤ e.right
  last : ∀ n, N < n + ham.sites → (S.KR n).getD 0 = 0

/-- The state vector. -/
noncomputable def vec (S : St q D) (h0 : D 0 = 1) (hN : D N = 1) : Centre → Cfg q N → ℂ
  | .site _ => psi S.A h0 hN
  | .bond 0 => oneSite S.A h0 hN 0 fun s => S.G 0 * S.A 0 s
  | .bond (k + 1) => oneSite S.A h0 hN k fun s => S.A k s * S.G (k + 1)

/-- What an operation does to the state vector. -/
def Rel (D : ℕ → ℕ) (H : Matrix (Cfg q N) (Cfg q N) ℂ) (h0 : D 0 = 1) (hN : D N = 1) (fac : ℂ) :
    Op → (Cfg q N → ℂ) → (Cfg q N → ℂ) → Prop
  | .site n t, ψ, ψ' => EvoStep D H h0 hN fac (.site n, t) ψ ψ'
  | .bond n t, ψ, ψ' => EvoStep D H h0 hN fac (.bond n, t) ψ ψ'
  | .optSite n, ψ, ψ' => OptStep D H h0 hN n ψ ψ'
  | _, ψ, ψ' => ψ' = ψ

/-- A change of one tensor. -/
theorem Inv.touch {ham : Ham ℂ q} {S S' : St q D} {e : Env} (h : Inv N ham S e) (k : ℕ)
    (hA : ∀ n, n ≠ k → S'.A n = S.A n) (hKL : S'.KL = S.KL) (hKR : S'.KR = S.KR) (c : Centre)
    (h1 : ∀ m < lo c, LOrth (S'.A m)) (h2 : ∀ m, hi c ≤ m → m < N → ROrth (S'.A m)) :
    Inv N ham S' { e.touch (k + 1) with centre := c } := by
  refine ⟨h1, h2, ?_, ?_, ?_, ?_⟩
  · rw [hKL]
    exact IsLeft.congr h.left (by simp [Env.touch]) fun n hn => hA n (by
      simp only [Env.touch] at hn
      omega)
  · rw [hKR]
    exact IsRight.congr h.right (by simp only [Env.touch]; omega) fun n hn _ => hA n (by
      simp only [Env.touch] at hn
      omega)
  · have := h.right_pos
    simp only [Env.touch]
    omega
  · rw [hKR]
    exact h.last

theorem oneSite_same {A : Tensors ℂ q D} (h0 : D 0 = 1) (hN : D N = 1) (k : ℕ) :
    oneSite (N := N) A h0 hN k (A k) = psi A h0 hN := funext (oneSite_self A h0 hN k)

theorem oneSite_upd {A : Tensors ℂ q D} (h0 : D 0 = 1) (hN : D N = 1) (k : ℕ) (X Y) :
    oneSite (N := N) (Function.update A k X) h0 hN k Y = oneSite A h0 hN k Y := by
  rw [oneSite, oneSite, Function.update_idem]

theorem central_of {ham : Ham ℂ q} {S : St q D} {e : Env} (h : Inv N ham S e) {k : ℕ} (hc : e.centre = .site (k + 1)) :
    Central N S.A k := by
  have h1 := h.gaugeL
  have h2 := h.gaugeR
  rw [hc] at h1 h2
  exact ⟨fun n hn => h1 n hn, fun n a b => h2 n a b⟩

variable (h0 : D 0 = 1) (hN : D N = 1)

theorem site_op {ham : Ham ℂ q} {S : St q D} {k : ℕ} (hk : k < N) (hcen : Central N S.A k)
    (hleft : IsLeft ham S.A k fun n => (S.KL n).getD 0)
    (hright : IsRight N ham S.A (k + 1) fun n => (S.KR n).getD 0) (tau : ℂ) :
    (∀ v, (siteMatvec N ham S.A k (S.KL k) (S.KR (k + 1)) tau (tens v)).map flatT = none) ∨
    ∀ v, (siteMatvec N ham S.A k (S.KL k) (S.KR (k + 1)) tau (tens v)).map flatT
      = some ((tau • effM (siteT S.A h0 hN k hk) (Matrix.of (ham.total (N := N)))) *ᵥ v) := by
  by_cases hex : ∀ j, j ≤ k → k < j + ham.sites → j + ham.sites ≤ N → Has ham j
  · right
    refine op_eq _ tau _ (fun x => ?_) fun x y r hr => ?_
    · rw [Option.isSome_map]
      exact (site_isSome ham S.A k hk _ _ tau _).2 hex
    · obtain ⟨res, hres, rfl⟩ := Option.map_eq_some_iff.1 hr
      obtain ⟨r, hr', rfl⟩ := Option.map_eq_some_iff.1 hres
      have := siteLocal_eq h0 hN ham k hk (tens x) (tens y) hcen.1 hcen.2 hleft hright hr'
      rw [elem1, pair_flat, flatT_tens] at this
      change star y ⬝ᵥ (tau • flatT r) = tau * matElem (oneSite S.A h0 hN k (tens y)) ham.total
        (oneSite S.A h0 hN k (tens x))
      rw [this, dotProduct_smul, smul_eq_mul]
  · left
    intro v
    rw [Option.map_eq_none_iff, ← Option.not_isSome_iff_eq_none, site_isSome ham S.A k hk]
    exact hex

theorem bond_op {ham : Ham ℂ q} {S : St q D} {k : ℕ} (hk : k + 1 < N) (hcen : Central N S.A k) (hA : LOrth (S.A k))
    (hleft : IsLeft ham S.A (k + 1) fun n => (S.KL n).getD 0)
    (hright : IsRight N ham S.A (k + 1) fun n => (S.KR n).getD 0) (tau : ℂ) :
    (∀ v, (bondMatvec N ham S.A k (S.KL (k + 1)) (S.KR (k + 1)) tau (mat v)).map flatM = none) ∨
    ∀ v, (bondMatvec N ham S.A k (S.KL (k + 1)) (S.KR (k + 1)) tau (mat v)).map flatM
      = some ((tau • effM (bondT S.A h0 hN k (by omega)) (Matrix.of (ham.total (N := N)))) *ᵥ v) := by
  by_cases hex : ∀ j, j ≤ k → k + 1 < j + ham.sites → j + ham.sites ≤ N → Has ham j
  · right
    refine op_eq _ tau _ (fun x => ?_) fun x y r hr => ?_
    · rw [Option.isSome_map]
      exact (bond_isSome ham S.A k hk _ _ tau _).2 hex
    · obtain ⟨res, hres, rfl⟩ := Option.map_eq_some_iff.1 hr
      obtain ⟨r, hr', rfl⟩ := Option.map_eq_some_iff.1 hres
      have := bondLocal_eq h0 hN ham k hk (mat x) (mat y) (fun n hn => by
        rcases Nat.lt_or_ge n k with h | h
        · exact hcen.1 n h
        · obtain rfl : n = k := by omega
          exact hA) hcen.2 hleft hright hr'
      rw [elem1, trace_flat, flatM_mat] at this
      change star y ⬝ᵥ (tau • flatM r) = tau * matElem (oneSite S.A h0 hN k fun s => S.A k s * mat y) ham.total
        (oneSite S.A h0 hN k fun s => S.A k s * mat x)
      rw [this, dotProduct_smul, smul_eq_mul]
  · left
    intro v
    rw [Option.map_eq_none_iff, ← Option.not_isSome_iff_eq_none, bond_isSome ham S.A k hk]
    exact hex

theorem step_spec {qr : QR ℂ} {L : Solvers} (hLok : L.Ok) {ham : Ham ℂ q} {fac : ℂ} {o : Op} {S S' : St q D} {e e' : Env}
    (hherm : (∃ n, o = .optSite n) → (Matrix.of (ham.total (N := N))).IsHermitian)
    (h : Inv N ham S e) (hc : check N e o = some e') (ha : act qr L N ham fac o S = some S') :
    Inv N ham S' e' ∧
      Rel D (Matrix.of (ham.total (N := N))) h0 hN fac o (vec S h0 hN e.centre) (vec S' h0 hN e'.centre) := by
  cases o with
  | site n t =>
    match n with
    | 0 => simp [act] at ha
    | k + 1 =>
      simp only [check] at hc
      split at hc
      · next hcond =>
        obtain ⟨c1, c2, c3, c4, c5⟩ := hcond
        obtain rfl := Option.some.inj hc
        obtain ⟨w, hw, rfl⟩ := Option.map_eq_some_iff.1 ha
        have hcen := central_of h c1
        have hk : k < N := by omega
        have hop := site_op h0 hN hk hcen (IsLeft.congr h.left (by omega) fun _ _ => rfl)
          (IsRight.congr h.right (by omega) fun _ _ _ => rfl) fac
        rcases hop with hop | hop
        · rw [hLok.expmv_none _ _ _ hop] at hw
          exact absurd hw (by simp)
        · have hw' := hLok.expmv_eq _ _ _ _ _ hop hw
          have gl := h.gaugeL
          have gr := h.gaugeR
          rw [c1] at gl gr
          refine ⟨?_, ?_⟩
          · have := h.touch (S' := { S with A := Function.update S.A k (tens (normed w)) }) k
              (fun n hn => Function.update_of_ne hn _ _) rfl rfl e.centre
              (fun m hm => by
                rw [c1] at hm
                simp only [lo, Nat.add_sub_cancel] at hm gl
                dsimp only
                rw [Function.update_of_ne (by omega)]
                exact gl m hm)
              (fun m hm hmN => by
                rw [c1] at hm
                simp only [hi] at hm gr
                dsimp only
                rw [Function.update_of_ne (by omega)]
                exact gr m hm hmN)
            exact this
          · simp only [Rel, EvoStep]
            refine ⟨hk, S.A, hcen, ?_⟩
            have := (siteT_iso h0 hN k hk hcen).evolved (Matrix.of (ham.total (N := N))) fac t (flatT (S.A k))
            rw [siteT_range, ← hw'] at this
            rw [show (e.touch (k + 1)).centre = e.centre from rfl, c1]
            simp only [vec]
            rw [← oneSite_same (A := S.A) h0 hN k]
            exact this
      · exact absurd hc (by simp)
  | bond n t =>
    match n with
    | 0 => simp [act] at ha
    | k + 1 =>
      simp only [check] at hc
      split at hc
      · next hcond =>
        obtain ⟨c1, c2, c3, c4, c5⟩ := hcond
        obtain rfl := Option.some.inj hc
        obtain ⟨w, hw, rfl⟩ := Option.map_eq_some_iff.1 ha
        have gl := h.gaugeL
        have gr := h.gaugeR
        rw [c1] at gl gr
        simp only [lo, hi] at gl gr
        have hcen : Central N S.A k := ⟨fun n hn => gl n (by omega), fun n a b => gr n a b⟩
        have hk : k + 1 < N := by omega
        have hop := bond_op h0 hN hk hcen (gl k (by omega)) (IsLeft.congr h.left (by omega) fun _ _ => rfl)
          (IsRight.congr h.right (by omega) fun _ _ _ => rfl) fac
        rcases hop with hop | hop
        · rw [hLok.expmv_none _ _ _ hop] at hw
          exact absurd hw (by simp)
        · have hw' := hLok.expmv_eq _ _ _ _ _ hop hw
          refine ⟨⟨h.gaugeL, h.gaugeR, h.left, h.right, h.right_pos, h.last⟩, ?_⟩
          simp only [Rel, EvoStep]
          refine ⟨hk, S.A, hcen, gl k (by omega), ?_⟩
          have := (bondT_iso h0 hN k hk hcen (gl k (by omega))).evolved (Matrix.of (ham.total (N := N))) fac t
            (flatM (S.G (k + 1)))
          rw [bondT_range, ← hw'] at this
          rw [c1]
          simp only [vec, Function.update_self]
          exact this
      · exact absurd hc (by simp)
  | optSite n =>
    match n with
    | 0 => simp [act] at ha
    | k + 1 =>
      simp only [check] at hc
      split at hc
      · next hcond =>
        obtain ⟨c1, c2, c3, c4, c5⟩ := hcond
        obtain rfl := Option.some.inj hc
        obtain ⟨w, hw, rfl⟩ := Option.map_eq_some_iff.1 ha
        have hcen := central_of h c1
        have hk : k < N := by omega
        have hop := site_op h0 hN hk hcen (IsLeft.congr h.left (by omega) fun _ _ => rfl)
          (IsRight.congr h.right (by omega) fun _ _ _ => rfl) 1
        rcases hop with hop | hop
        · rw [hLok.eigsh_none _ _ hop] at hw
          exact absurd hw (by simp)
        · simp only [one_smul] at hop
          obtain ⟨hw0, ev, hev, hmin⟩ := hLok.eigsh_eq _ _ _ _ (effM_herm _ (hherm ⟨_, rfl⟩)) hop hw
          have gl := h.gaugeL
          have gr := h.gaugeR
          rw [c1] at gl gr
          refine ⟨?_, ?_⟩
          · have := h.touch (S' := { S with A := Function.update S.A k (tens (normed w)) }) k
              (fun n hn => Function.update_of_ne hn _ _) rfl rfl e.centre
              (fun m hm => by
                rw [c1] at hm
                simp only [lo, Nat.add_sub_cancel] at hm gl
                dsimp only
                rw [Function.update_of_ne (by omega)]
                exact gl m hm)
              (fun m hm hmN => by
                rw [c1] at hm
                simp only [hi] at hm gr
                dsimp only
                rw [Function.update_of_ne (by omega)]
                exact gr m hm hmN)
            exact this
          · simp only [Rel, OptStep]
            rw [show (e.touch (k + 1)).centre = e.centre from rfl, c1]
            simp only [vec]
            refine ⟨hk, S.A, hcen, ⟨S.A k, oneSite_same h0 hN k⟩, ?_⟩
            have := (siteT_iso h0 hN k hk hcen).optimal (Matrix.of (ham.total (N := N))) w hw0 ev hev hmin
            rw [siteT_range] at this
            exact this
      · exact absurd hc (by simp)
  | orthL n =>
    match n with
    | 0 => simp [act] at ha
    | k + 1 =>
      simp only [check] at hc
      split at hc
      · next hcond =>
        obtain ⟨c1, c2, c3⟩ := hcond
        obtain rfl := Option.some.inj hc
        obtain ⟨QG, hQ, rfl⟩ := Option.map_eq_some_iff.1 ha
        obtain ⟨o1, o2⟩ := orthLeft_spec hQ
        have hcen := central_of h c1
        refine ⟨?_, ?_⟩
        · refine h.touch (S' := { S with A := Function.update S.A k QG.1, G := Function.update S.G (k + 1) QG.2 }) k
              (fun n hn => Function.update_of_ne hn _ _) rfl rfl (.bond (k + 1)) (fun m hm => ?_) fun m hm hmN => ?_
          · simp only [lo] at hm
            dsimp only
            by_cases hmk : m = k
            · subst hmk
              rw [Function.update_self]
              exact o1
            · rw [Function.update_of_ne hmk]
              exact hcen.1 m (by omega)
          · simp only [hi] at hm
            dsimp only
            rw [Function.update_of_ne (by omega)]
            exact hcen.2 m (by omega) hmN
        · simp only [Rel, vec, c1]
          rw [oneSite_upd, Function.update_self, Function.update_self]
          simp only [o2]
          exact oneSite_same h0 hN k
      · exact absurd hc (by simp)
  | orthR n =>
    match n with
    | 0 => simp [act] at ha
    | k + 1 =>
      simp only [check] at hc
      split at hc
      · next hcond =>
        obtain ⟨c1, c2, c3⟩ := hcond
        obtain rfl := Option.some.inj hc
        obtain ⟨QG, hQ, rfl⟩ := Option.map_eq_some_iff.1 ha
        obtain ⟨o1, o2⟩ := orthRight_spec hQ
        have hcen := central_of h c1
        refine ⟨?_, ?_⟩
        · refine h.touch (S' := { S with A := Function.update S.A k QG.1, G := Function.update S.G k QG.2 }) k
              (fun n hn => Function.update_of_ne hn _ _) rfl rfl (.bond k) (fun m hm => ?_) fun m hm hmN => ?_
          · simp only [lo] at hm
            dsimp only
            rw [Function.update_of_ne (by omega)]
            exact hcen.1 m (by omega)
          · simp only [hi] at hm
            dsimp only
            by_cases hmk : m = k
            · subst hmk
              rw [Function.update_self]
              exact o1
            · rw [Function.update_of_ne hmk]
              exact hcen.2 m (by omega) hmN
        · simp only [Rel, vec, c1, Nat.add_sub_cancel]
          have key : oneSite (N := N) (Function.update S.A k QG.1) h0 hN k
              (fun s => QG.2 * Function.update S.A k QG.1 k s) = psi S.A h0 hN := by
            rw [oneSite_upd, Function.update_self]
            simp only [o2]
            exact oneSite_same h0 hN k
          match k with
          | 0 =>
            simp only [vec, Function.update_self] at key ⊢
            exact key
          | k + 1 =>
            simp only [vec]
            rw [oneSite_move _ h0 hN k (by omega), Function.update_self]
            exact key
      · exact absurd hc (by simp)
  | mulL n =>
    match n with
    | 0 => simp [act] at ha
    | k + 1 =>
      simp only [check] at hc
      split at hc
      · next hcond =>
        obtain ⟨c1, c2, c3⟩ := hcond
        rw [Nat.add_sub_cancel] at c1
        obtain rfl := Option.some.inj hc
        obtain rfl := Option.some.inj ha
        have gl := h.gaugeL
        have gr := h.gaugeR
        rw [c1] at gl gr
        simp only [lo, hi] at gl gr
        refine ⟨?_, ?_⟩
        · refine h.touch (S' := { S with A := Function.update S.A k fun s => S.G k * S.A k s }) k
              (fun n hn => Function.update_of_ne hn _ _) rfl rfl (.site (k + 1)) (fun m hm => ?_) fun m hm hmN => ?_
          · simp only [lo] at hm
            dsimp only
            rw [Function.update_of_ne (by omega)]
            exact gl m (by omega)
          · simp only [hi] at hm
            dsimp only
            rw [Function.update_of_ne (by omega)]
            exact gr m (by omega) hmN
        · simp only [Rel, c1]
          match k with
          | 0 => rfl
          | k + 1 =>
            simp only [vec]
            rw [oneSite_move _ h0 hN k (by omega)]
            rfl
      · exact absurd hc (by simp)
  | mulR n =>
    match n with
    | 0 => simp [act] at ha
    | k + 1 =>
      simp only [check] at hc
      split at hc
      · next hcond =>
        obtain ⟨c1, c2, c3⟩ := hcond
        obtain rfl := Option.some.inj hc
        obtain rfl := Option.some.inj ha
        have gl := h.gaugeL
        have gr := h.gaugeR
        rw [c1] at gl gr
        simp only [lo, hi] at gl gr
        refine ⟨?_, ?_⟩
        · refine h.touch (S' := { S with A := Function.update S.A k fun s => S.A k s * S.G (k + 1) }) k
              (fun n hn => Function.update_of_ne hn _ _) rfl rfl (.site (k + 1)) (fun m hm => ?_) fun m hm hmN => ?_
          · simp only [lo] at hm
            dsimp only
            rw [Function.update_of_ne (by omega)]
            exact gl m (by omega)
          · simp only [hi] at hm
            dsimp only
            rw [Function.update_of_ne (by omega)]
            exact gr m (by omega) hmN
        · simp only [Rel, c1]
          rfl
      · exact absurd hc (by simp)
  | heffL n =>
    match n with
    | 0 => simp [act] at ha
    | k + 1 =>
      simp only [check] at hc
      split at hc
      · next hcond =>
        obtain rfl := Option.some.inj hc
        obtain ⟨KL, hK, rfl⟩ := Option.map_eq_some_iff.1 ha
        refine ⟨⟨h.gaugeL, h.gaugeR, ?_, h.right, h.right_pos, h.last⟩, ?_⟩
        · exact heffLeft_spec (by omega) h.left hK
        · simp only [Rel]
          cases e.centre with
          | site n => rfl
          | bond n => cases n <;> rfl
      · exact absurd hc (by simp)
  | heffR n =>
    match n with
    | 0 => simp [act] at ha
    | k + 1 =>
      simp only [check] at hc
      split at hc
      · next hcond =>
        obtain rfl := Option.some.inj hc
        obtain ⟨KR, hK, rfl⟩ := Option.map_eq_some_iff.1 ha
        have hp := h.right_pos
        obtain ⟨r1, r2⟩ := heffRight_spec (l := e.right - 1) (by omega) h.right h.last hK
        refine ⟨⟨h.gaugeL, h.gaugeR, h.left, ?_, ?_, r2⟩, ?_⟩
        · dsimp only
          rw [show min e.right (k + 1) - 1 = min (e.right - 1) k by omega]
          exact r1
        · dsimp only
          omega
        · simp only [Rel]
          cases e.centre with
          | site n => rfl
          | bond n => cases n <;> rfl
      · exact absurd hc (by simp)
  | cb i =>
    simp only [check] at hc
    split at hc
    · obtain rfl := Option.some.inj hc
      obtain rfl := Option.some.inj ha
      exact ⟨h, rfl⟩
    · exact absurd hc (by simp)
  | pair n t r => simp [act] at ha
  | optPair n r => simp [act] at ha

end

end Sweep

end EvoMPS
