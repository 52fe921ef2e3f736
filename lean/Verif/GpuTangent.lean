import Verif.Tangent

/-!
# The tangent vector on the GPU (`cuda_alternatives.py`)

`calc_x` and `calc_Bs`, the counterparts of `calc_x` in `tdvp_common.py` and of `calc_B` of the finite chains with two-site
terms.  Tensors are lists of matrices on the device, so that python's index errors are visible: `none` is a raised
exception.

Simplified: exact arithmetic; `cla.dot` is the matrix product, with `'C'` that of the conjugate transpose; the copies to the
device and back do not change the arrays; the operations are carried out in the order of the program (the additions run on
the default stream, which waits for the others, and products issued on one stream keep their order); a matrix that is
`None` is an error wherever the loop that reads it is reached, also if the inner loop has no iterations; running out of
device memory is not modelled.
-/

namespace EvoMPS.GpuT

open Matrix

variable {R : Type*} [CommRing R] [StarRing R]

/-- `list(map(garr.to_gpu, A))`: one array per basis state of the site. -/
def devTen {p a b : ℕ} (A : Fin p → Matrix (Fin a) (Fin b) R) : List (Matrix (Fin a) (Fin b) R) := List.ofFn A

/-- `[[garr.to_gpu(C[s, t]) for t in range(C.shape[1])] for s in range(C.shape[0])]`, `cuda_alternatives.py:226`, and the
loops of lines 327-338. -/
def devTen2 {p p' a b : ℕ} (C : Ten2 R p p' a b) : List (List (Matrix (Fin a) (Fin b) R)) :=
  List.ofFn fun s => List.ofFn (C s)

/-- `C[s, t]` of numpy for non-negative indices. -/
def entry2 {p p' a b : ℕ} (C : Ten2 R p p' a b) (s t : ℕ) : Option (Matrix (Fin a) (Fin b) R) :=
  if h : s < p ∧ t < p' then some (C ⟨s, h.1⟩ ⟨t, h.2⟩) else none

/-- `cuda_alternatives.py:223`: `[[to_gpu(Cm1[t, s]) for t in range(Cm1.shape[1])] for s in range(Cm1.shape[0])]`. -/
def devCm1 {p p' a b : ℕ} (C : Ten2 R p p' a b) : Option (List (List (Matrix (Fin a) (Fin b) R))) :=
  (List.range p).mapM fun s => (List.range p').mapM fun t => entry2 C t s

/-- `cuda_alternatives.py:341-352`: `GCts[n]`, the lists of `GC[n]` with the indices exchanged. -/
def devCts {M : Type*} (GC : List (List M)) : Option (List (List M)) :=
  (List.range GC.length).mapM fun t =>
    (GC[0]?).bind fun row => (List.range row.length).mapM fun s => (GC[s]?).bind fun r => r[t]?

/-- `cuda_alternatives.py:23-32` `eps_l(x, A1, A2, out, handle)`. -/
def epsLG {z z' a b : ℕ} (x : Matrix (Fin z) (Fin z') R) (A1 : List (Matrix (Fin z) (Fin a) R))
    (A2 : List (Matrix (Fin z') (Fin b) R)) : Option (Matrix (Fin a) (Fin b) R) :=
  (List.range A1.length).foldlM (fun out s =>
    (A1[s]?).bind fun m1 => (A2[s]?).bind fun m2 => some (out + (m1ᴴ * x) * m2)) 0

/-- `cuda_alternatives.py:34-43` `eps_r(x, A1, A2, out, handle)`. -/
def epsRG {z z' a b : ℕ} (x : Matrix (Fin z) (Fin z') R) (A1 : List (Matrix (Fin a) (Fin z) R))
    (A2 : List (Matrix (Fin b) (Fin z') R)) : Option (Matrix (Fin a) (Fin b) R) :=
  (List.range A1.length).foldlM (fun out s =>
    (A1[s]?).bind fun m1 => (A2[s]?).bind fun m2 => some (out + (m1 * x) * m2ᴴ)) 0

/-- `cuda_alternatives.py:244-254`: the first and the third line of the formula for `x`; the assertion of line 245. -/
def calcXG1 {a b c v : ℕ} (Kp1 : Option (Matrix (Fin b) (Fin b) R))
    (C : Option (List (List (Matrix (Fin a) (Fin c) R)))) (rp1 : Option (Matrix (Fin c) (Fin c) R))
    (A : List (Matrix (Fin a) (Fin b) R)) (Ap1 : Option (List (Matrix (Fin b) (Fin c) R)))
    (l_s : Matrix (Fin a) (Fin a) R) (r_si : Matrix (Fin b) (Fin b) R) (Vsh : List (Matrix (Fin b) (Fin v) R)) :
    Option (Matrix (Fin a) (Fin v) R) :=
  match C, Kp1 with
  | none, none => some 0
  | some C, some K =>
    ((List.range A.length).foldlM (fun part s =>
      rp1.bind fun rp1 => Ap1.bind fun Ap1 => (C[s]?).bind fun Cs => (epsRG rp1 Cs Ap1).bind fun sub =>
        (A[s]?).bind fun As => (Vsh[s]?).bind fun V => some (part + ((sub + As * K) * r_si) * V)) 0).map
      fun part => 0 + l_s * part
  | _, _ => none

/-- `cuda_alternatives.py:235-263` `calc_x_G(...)`.  Line 236 reads `A[0]`. -/
def calcXG {z a b c v : ℕ} (Kp1 : Option (Matrix (Fin b) (Fin b) R))
    (C : Option (List (List (Matrix (Fin a) (Fin c) R)))) (Cm1 : Option (List (List (Matrix (Fin z) (Fin b) R))))
    (rp1 : Option (Matrix (Fin c) (Fin c) R)) (lm2 : Option (Matrix (Fin z) (Fin z) R))
    (Am1 : Option (List (Matrix (Fin z) (Fin a) R))) (A : List (Matrix (Fin a) (Fin b) R))
    (Ap1 : Option (List (Matrix (Fin b) (Fin c) R))) (l_s l_si : Matrix (Fin a) (Fin a) R)
    (r_s r_si : Matrix (Fin b) (Fin b) R) (Vsh : List (Matrix (Fin b) (Fin v) R)) :
    Option (Matrix (Fin a) (Fin v) R) :=
  (A[0]?).bind fun _ => (calcXG1 Kp1 C rp1 A Ap1 l_s r_si Vsh).bind fun x =>
    match lm2 with
    | none => some x
    | some lm2 =>
      ((List.range A.length).foldlM (fun part s =>
        Am1.bind fun Am1 => Cm1.bind fun Cm1 => (Cm1[s]?).bind fun Cs => (epsLG lm2 Am1 Cs).bind fun sub =>
          (Vsh[s]?).bind fun V => some (part + sub * (r_s * V))) 0).map fun part => x + l_si * part

/-- `cuda_alternatives.py:200-233` `calc_x(...)`.  Unless both `C` and `Kp1` are `None`, both are copied to the device, which
fails for `None`. -/
def calcXCuda {pm p pp z a b c v : ℕ} (Kp1 : Option (Matrix (Fin b) (Fin b) R))
    (C : Option (Ten2 R p pp a c)) (Cm1 : Option (Ten2 R pm p z b)) (rp1 : Option (Matrix (Fin c) (Fin c) R))
    (lm2 : Option (Matrix (Fin z) (Fin z) R)) (Am1 : Option (Ten R pm z a)) (A : Ten R p a b)
    (Ap1 : Option (Ten R pp b c)) (l_s l_si : Matrix (Fin a) (Fin a) R) (r_s r_si : Matrix (Fin b) (Fin b) R)
    (Vsh : Fin p → Matrix (Fin b) (Fin v) R) : Option (Matrix (Fin a) (Fin v) R) :=
  let run (Cm1 : Option (List (List (Matrix (Fin z) (Fin b) R)))) : Option (Matrix (Fin a) (Fin v) R) :=
    if C.isNone && Kp1.isNone || C.isSome && Kp1.isSome then
      calcXG Kp1 (C.map devTen2) Cm1 rp1 lm2 (Am1.map devTen) (devTen A) (Ap1.map devTen) l_s l_si r_s r_si
        (devTen Vsh)
    else none
  match Cm1 with
  | none => run none
  | some Cm1 => (devCm1 Cm1).bind fun c => run (some c)

variable {q D v : ℕ → ℕ}

/-- `cuda_alternatives.py:356-360`: the number of sites worked on by one stream. -/
def sitesPerStream (N : ℕ) : ℕ := max (N / 10) 1

/-- `cuda_alternatives.py:363-372`: the streams that are made, and whether the stream of every site that begins a new one is
among them; `m` is `n - 1`. -/
def streamsOk (N : ℕ) : Bool :=
  (List.range N).all fun m =>
    !(m % sitesPerStream N == 0) || decide (m / sitesPerStream N < N / sitesPerStream N)

/-- `cuda_alternatives.py:373-380`: the call of `calc_x_G` at site `n = k + 1`.  The lists `GK`, `GC`, `Gr`, `GA` end with a
`None` appended to them. -/
def siteXG (N : ℕ) (S : TDVP R q D) (l_s l_si r_s r_si : Envs R D) : ∀ k : ℕ,
    (Fin (q k) → Matrix (Fin (D (k + 1))) (Fin (v k)) R) → Option (Matrix (Fin (D k)) (Fin (v k)) R)
  | 0, V =>
    calcXG (z := 0) (if 0 + 2 ≤ N then some (S.K (0 + 1)) else none)
      ((if 0 + 2 ≤ N then S.C2 0 else none).map devTen2) none
      (if 0 + 2 ≤ N then some (S.r (0 + 2)) else none) none none (devTen (S.A 0))
      (if 0 + 2 ≤ N then some (devTen (S.A (0 + 1))) else none) (l_s 0) (l_si 0) (r_s (0 + 1)) (r_si (0 + 1)) (devTen V)
  | k + 1, V =>
    calcXG (if k + 1 + 2 ≤ N then some (S.K (k + 1 + 1)) else none)
      ((if k + 1 + 2 ≤ N then S.C2 (k + 1) else none).map devTen2)
      ((S.C2 k).bind fun C => devCts (devTen2 C))
      (if k + 1 + 2 ≤ N then some (S.r (k + 1 + 2)) else none) (some (S.l k)) (some (devTen (S.A k)))
      (devTen (S.A (k + 1))) (if k + 1 + 2 ≤ N then some (devTen (S.A (k + 1 + 1))) else none) (l_s (k + 1))
      (l_si (k + 1)) (r_s (k + 1 + 1)) (r_si (k + 1 + 1)) (devTen V)

/-- `cuda_alternatives.py:373-389`: one site.  The outer `none` is a raised exception, the inner one the entry `None`. -/
def siteBG (N : ℕ) (S : TDVP R q D) (l_s l_si r_s r_si : Envs R D)
    (Vsh : ∀ k, Option (Fin (q k) → Matrix (Fin (D (k + 1))) (Fin (v k)) R)) (k : ℕ) :
    Option (Option (Ten R (q k) (D k) (D (k + 1)))) :=
  match Vsh k with
  | none => some none
  | some V => (siteXG N S l_s l_si r_s r_si k V).map fun x =>
      some fun s => ((l_si k * x) * (V s)ᴴ) * r_si (k + 1)

/-- `cuda_alternatives.py:265-405` `calc_Bs(N, A, l, l_s, l_si, r, r_s, r_si, C, K, Vsh)` with the arrays `A`, `l`, `r`, `C`,
`K` of a TDVP object with two-site terms.  `none` is a raised exception.  `GCts` is made for all sites before the first product;
as the entries of the lists differ in type, the loops are a check that no iteration raises, and the entries are computed where
they are used. -/
def calcBsCuda (N : ℕ) (S : TDVP R q D) (l_s l_si r_s r_si : Envs R D)
    (Vsh : ∀ k, Option (Fin (q k) → Matrix (Fin (D (k + 1))) (Fin (v k)) R)) :
    Option (∀ k, Option (Ten R (q k) (D k) (D (k + 1)))) :=
  let ctsOk := (List.range (N - 1)).all fun k =>
    (S.C2 k).elim true fun C => (devCts (devTen2 C)).isSome
  let sitesOk := (List.range N).all fun k => (siteBG N S l_s l_si r_s r_si Vsh k).isSome
  if ctsOk && streamsOk N && sitesOk then
    some fun k => if k < N then (siteBG N S l_s l_si r_s r_si Vsh k).join else none
  else none

end EvoMPS.GpuT
