import Verif.MpsGen

/-!
# Hamiltonian terms, `C` and `K` (`tdvp_gen.py`, `tdvp_common.py`)

Index convention: python's `C[n]`, `AA[n]`, `AAA[n]`, `h_expect[n]`, `ham[n]` are the
entries `n - 1` here; `K[n]` of `calc_K` (shape `D[n-1] x D[n-1]`) is `K (n - 1)`;
`K[n]` of `calc_K_l` (shape `D[n] x D[n]`) is `Kl n`.
-/

namespace EvoMPS

open Matrix

variable {R : Type*} [CommRing R] [StarRing R] {q D : ℕ → ℕ}

/-- `self.ham_sites`. -/
def Ham.sites : Ham R q → ℕ
  | .two _ => 2
  | .three _ => 3

/-- The part of the object's state that the energy functions use (`tdvp_gen.py:276-322`). -/
structure TDVP (R : Type*) (q D : ℕ → ℕ) extends MPS R q D where
  AA : ∀ k, Ten2 R (q k) (q (k + 1)) (D k) (D (k + 1 + 1))
  AAA : ∀ k, Ten3 R (q k) (q (k + 1)) (q (k + 2)) (D k) (D (k + 2 + 1))
  C2 : ∀ k, Option (Ten2 R (q k) (q (k + 1)) (D k) (D (k + 1 + 1)))
  C3 : ∀ k, Option (Ten3 R (q k) (q (k + 1)) (q (k + 2)) (D k) (D (k + 2 + 1)))
  K : Envs R D
  Kl : Envs R D
  h : ℕ → R
  H : Option R

/-- `tdvp_gen.py:349-358`: the products of neighbouring tensors. -/
def calcAAs (N : ℕ) (ham : Ham R q) (S : TDVP R q D) : TDVP R q D :=
  let S := (List.range' 0 (N - 1)).foldl (fun S k =>
    { S with AA := Function.update S.AA k (calcAA (S.A k) (S.A (k + 1))) }) S
  if ham.sites = 3 then
    (List.range' 0 (N - 2)).foldl (fun S k =>
      { S with AAA := Function.update S.AAA k (calcAAA_AA (S.AA k) (S.A (k + 2))) }) S
  else S

/-- `tdvp_gen.py:325-377` `calc_C()` with default arguments.  Python's loop variable is
`k + 1` with `n_high = N - ham_sites + 1`. -/
def calcCs (N : ℕ) (ham : Ham R q) (S : TDVP R q D) : TDVP R q D :=
  let S := calcAAs N ham S
  match ham with
  | .two h => (List.range' 0 (N + 1 - 2)).foldl (fun S k =>
      { S with C2 := Function.update S.C2 k ((h k).map fun op => calcC op (S.AA k)) }) S
  | .three h => (List.range' 0 (N + 1 - 3)).foldl (fun S k =>
      { S with C3 := Function.update S.C3 k ((h k).map fun op => calcC3 op (S.AAA k)) }) S

/-- `tdvp_common.py:145-154` `calc_K(Kp1, C, lm1, rp1, A, AAp1)`. -/
def calcKSite2 {p p' a b c : ℕ} (Kp1 : Matrix (Fin b) (Fin b) R) (C : Ten2 R p p' a c)
    (lm1 : Matrix (Fin a) (Fin a) R) (rp1 : Matrix (Fin c) (Fin c) R) (A : Ten R p a b)
    (AAp1 : Ten2 R p p' a c) : Matrix (Fin a) (Fin a) R × R :=
  let K := epsR Kp1 A A
  let Hr := epsR2 rp1 C AAp1
  let ex := adot lm1 Hr
  (K + Hr, ex)

/-- `tdvp_common.py:183-192` `calc_K_3s(Kp1, C, lm1, rp2, A, AAp1Ap2)`. -/
def calcKSite3 {p p' p'' a b c : ℕ} (Kp1 : Matrix (Fin b) (Fin b) R) (C : Ten3 R p p' p'' a c)
    (lm1 : Matrix (Fin a) (Fin a) R) (rp2 : Matrix (Fin c) (Fin c) R) (A : Ten R p a b)
    (AAA : Ten3 R p p' p'' a c) : Matrix (Fin a) (Fin a) R × R :=
  let K := epsR Kp1 A A
  let Hr := epsR3 rp2 C AAA
  let ex := adot lm1 Hr
  (K + Hr, ex)

/-- One iteration of the loop in `tdvp_gen.py:402-416`, python's loop variable is `k + 1`. -/
def calcKIter (N : ℕ) (ham : Ham R q) (S : TDVP R q D) (k : ℕ) : TDVP R q D :=
  if k + ham.sites ≤ N then
    let (K, ex) : Matrix (Fin (D k)) (Fin (D k)) R × R :=
      match ham with
      | .two _ => match S.C2 k with
        | none => (epsR (S.K (k + 1)) (S.A k) (S.A k), 0)
        | some C => calcKSite2 (S.K (k + 1)) C (S.l k) (S.r (k + 1 + 1)) (S.A k) (S.AA k)
      | .three _ => match S.C3 k with
        | none => (epsR (S.K (k + 1)) (S.A k) (S.A k), 0)
        | some C => calcKSite3 (S.K (k + 1)) C (S.l k) (S.r (k + 2 + 1)) (S.A k) (S.AAA k)
    { S with K := Function.update S.K k K, h := Function.update S.h k ex }
  else
    { S with K := Function.update S.K k 0 }

/-- `tdvp_gen.py:379-417` `calc_K()` with default arguments. -/
def calcKs (N : ℕ) (ham : Ham R q) (h0 : D 0 = 1) (S : TDVP R q D) : TDVP R q D :=
  let S := (List.range' 0 N).reverse.foldl (calcKIter N ham) S
  { S with H := some (S.K 0 ⟨0, by omega⟩ ⟨0, by omega⟩) }

/-- `tdvp_common.py:167-181` `calc_K_l(Km1, Cm1, lm2, r, A, Am1A)`. -/
def calcKlSite2 {p p' a b c : ℕ} (Km1 : Matrix (Fin b) (Fin b) R) (Cm1 : Ten2 R p p' a c)
    (lm2 : Matrix (Fin a) (Fin a) R) (r : Matrix (Fin c) (Fin c) R) (A : Ten R p' b c)
    (Am1A : Ten2 R p p' a c) : Matrix (Fin c) (Fin c) R × R :=
  let K := epsL Km1 A A
  let Hl := epsL2 lm2 Am1A Cm1
  let ex := adotNoconj Hl r
  (K + Hl, ex)

/-- `tdvp_common.py:194-203` `calc_K_3s_l(Km1, Cm2, lm3, r, A, Am2Am1A)`. -/
def calcKlSite3 {p p' p'' a b c : ℕ} (Km1 : Matrix (Fin b) (Fin b) R)
    (Cm2 : Ten3 R p p' p'' a c) (lm3 : Matrix (Fin a) (Fin a) R) (r : Matrix (Fin c) (Fin c) R)
    (A : Ten R p'' b c) (AAA : Ten3 R p p' p'' a c) : Matrix (Fin c) (Fin c) R × R :=
  let K := epsL Km1 A A
  let Hl := epsL3 lm3 AAA Cm2
  let ex := adotNoconj Hl r
  (K + Hl, ex)

/-- One iteration of the loop in `tdvp_gen.py:432-443`.  `j` is the first site of the
term; python's loop variable is `n = j + 2` (two-site terms), `n = j + 3` (three-site
terms).  The expectation value goes to `h_expect[n - 1]`, entry `n - 2` here.  A missing
term raises (`None` has no shape). -/
def calcKlIter (ham : Ham R q) (S : TDVP R q D) (j : ℕ) : Option (TDVP R q D) :=
  match ham with
  | .two _ => (S.C2 j).map fun C =>
      let (K, ex) := calcKlSite2 (S.Kl (j + 1)) C (S.l j) (S.r (j + 1 + 1)) (S.A (j + 1)) (S.AA j)
      { S with Kl := Function.update S.Kl (j + 1 + 1) K, h := Function.update S.h j ex }
  | .three _ => (S.C3 j).map fun C =>
      let (K, ex) := calcKlSite3 (S.Kl (j + 2)) C (S.l j) (S.r (j + 2 + 1)) (S.A (j + 2)) (S.AAA j)
      { S with Kl := Function.update S.Kl (j + 2 + 1) K, h := Function.update S.h (j + 1) ex }

/-- `tdvp_gen.py:420-447` `calc_K_l()` with default arguments.  `self.K[2]` does not exist
for `N = 1`.  The loop runs over `n = ham_sites..N`, i.e. `N - ham_sites + 1` terms. -/
def calcKls (N : ℕ) (ham : Ham R q) (hN : D N = 1) (S : TDVP R q D) : Option (TDVP R q D) :=
  if N < 2 then none else
    let S := { S with Kl := Function.update (Function.update S.Kl 1 0) 2 0 }
    ((List.range' 0 (N + 1 - ham.sites)).foldl
      (fun (S : Option (TDVP R q D)) j => S.bind fun S => calcKlIter ham S j) (some S)).map fun S =>
      { S with H := some (S.Kl N ⟨0, by omega⟩ ⟨0, by omega⟩) }

end EvoMPS
