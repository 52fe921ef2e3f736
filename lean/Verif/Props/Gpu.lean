import Verif.GpuLemmas
import Mathlib.Tactic.IntervalCases

/-!
# C90: the operators on the GPU are those on the CPU

`Caller` is any program that calls an operator, each call depending on the answers so far.  The schedules say in which order
the streams carry out their operations; all that is asked is that every stream gets to do its work.
-/

namespace EvoMPS

open Matrix EvoMPS.Uni EvoMPS.Gpu

variable {R : Type*} [CommRing R] [StarRing R] {q D : ℕ}

/-- In every call, at every site, in both phases, every one of the `q` streams is given at least two turns (it has at most
two operations). -/
def SchedOk (q : ℕ) (sched : ℕ → ℕ → ℕ → List ℕ) : Prop := ∀ call site phase, ∀ s < q, 2 ≤ (sched call site phase).count s

/-- **C90** (transfer operator).  Whatever was in the device memory, however the streams are scheduled, in batch mode and
with streams, a program that calls the GPU operator gets the result it would get with the CPU operator. -/
theorem C90_transfer {W : Type*} (A1 A2 : List (Ten R q D D)) (hlen : A1.length = A2.length) (h0 : 0 < A1.length) (hq : q ≠ 0)
    (left : Bool) (maxD : ℕ) (sched : ℕ → ℕ → ℕ → List ℕ) (hs : SchedOk q sched) (junk : Dev R)
    (junk' : Matrix (Fin D) (Fin D) R) (prog : Caller (Fin (D * D) → R) W) :
    withEOpCuda A1 A2 left maxD sched junk prog = prog.run ((EOp.mk A1 A2 left).matvec junk') := by
  have hE : ¬ (A1.isEmpty = true ∨ q = 0) := by
    rintro (h | h)
    · cases A1 <;> simp_all
    · exact hq h
  rw [withEOpCuda, if_neg hE]
  exact run_eq _ _ (Ready A1 A2 (decide (D ≤ maxD)))
    (fun c v m hm => eMatvec_spec left hlen h0 (fun k ph s h => hs c k ph s h) m hm junk' v) prog 0 _ (init_ready _ _ _ _)

/-- **C90** (transfer operator, in full).  Two calls, the second on the answer of the first, return the results of the
two-fold application of `x ↦ ∑ A1[s] x A2[s]^H` for a block of one site, with the schedules of each call independent. -/
theorem C90_transfer_twice (A1 A2 : Ten R q D D) (hq : q ≠ 0) (maxD : ℕ) (sched : ℕ → ℕ → ℕ → List ℕ) (hs : SchedOk q sched)
    (junk : Dev R) (x : Matrix (Fin D) (Fin D) R) :
    withEOpCuda [A1] [A2] false maxD sched junk (.call (ravel x) fun y => .call y fun z => .done (reshape y, reshape z))
      = some (∑ s, A1 s * x * (A2 s)ᴴ, ∑ t, A1 t * (∑ s, A1 s * x * (A2 s)ᴴ) * (A2 t)ᴴ) := by
  rw [C90_transfer [A1] [A2] rfl (by simp) hq false maxD sched hs junk 0]
  have e : ∀ v : Fin (D * D) → R, (EOp.mk [A1] [A2] false).matvec 0 v = some (ravel (epsR (reshape v) A1 A2)) := by
    intro v
    simp [EOp.matvec, EOp.site, List.range_succ]
  simp only [Caller.run, e, Option.bind_some, reshape_ravel_pinv]
  simp only [epsR, forSum_eq]

/-- **C90** (pseudo-inverse).  `pinv_1mE` with `use_CUDA=True` and any solver returns what the solver returns for the CPU
operator. -/
theorem C90_pinv (solver : (Fin (D * D) → ℂ) → (Fin (D * D) → ℂ) → Caller (Fin (D * D) → ℂ) ((Fin (D * D) → ℂ) × ℤ))
    (x : Matrix (Fin D) (Fin D) ℂ) (A1 A2 : List (Ten ℂ q D D)) (hlen : A1.length = A2.length)
    (l r : Matrix (Fin D) (Fin D) ℂ) (p : ℝ) (left pseudo useBatch : Bool) (out : Option (Matrix (Fin D) (Fin D) ℂ))
    (sched : ℕ → ℕ → ℕ → List ℕ) (hs : SchedOk q sched) (junk : Dev ℂ) (junk' : Matrix (Fin D) (Fin D) ℂ)
    (cpu : Solver D) (hcpu : ∀ f b x0 w, (solver b x0).run f = some w → cpu f b x0 = w) :
    pinv1mECuda solver x A1 A2 l r p left pseudo useBatch out sched junk
      = pinv1mE cpu junk' x A1 A2 (some l) (some r) p left pseudo out := by
  unfold pinv1mECuda pinv1mE PinvCuda.new PinvOp.new
  simp only [Option.isNone_some, Bool.or_self, Bool.and_false, Bool.false_eq_true, if_false]
  by_cases hE : A1.isEmpty = true
  · simp only [hE, if_true, Option.bind_none]
  · simp only [hE, Bool.false_eq_true, if_false, Option.bind_some]
    have key := fun c v m (hm : Ready A1 A2 useBatch m ∧ Holds (m .lG) l ∧ Holds (m .rG) r) =>
      pMatvec_spec left pseudo hlen (fun k ph s h => hs c k ph s h) p l r m hm.1 hm.2.1 hm.2.2 junk' v
    have hi : Ready A1 A2 useBatch (pinvDev A1 A2 l r useBatch junk) ∧ Holds (pinvDev A1 A2 l r useBatch junk .lG) l ∧
        Holds (pinvDev A1 A2 l r useBatch junk .rG) r := by
      have hh := fun (M : Matrix (Fin D) (Fin D) ℂ) old => holds_set (ravel M) old
      simp only [reshape_ravel_pinv] at hh
      have hr := init_ready A1 A2 useBatch junk
      exact ⟨⟨hr.t1, hr.t2, hr.c⟩, hh l _, hh r _⟩
    have fin : ∀ o : Fin (D * D) → ℂ,
        ((solver (ravel x) o).runMem (fun c v m => (PinvCuda.mk p A1.length A2.length l r left pseudo useBatch).matvec q
          (sched c) v m) 0 (pinvDev A1 A2 l r useBatch junk)).map (fun res => (reshape res.1 : Matrix (Fin D) (Fin D) ℂ))
        = some (reshape (cpu ((PinvOp.mk p A1 A2 (some l) (some r) left pseudo).matvec junk') (ravel x) o).1) := by
      intro o
      rw [run_eq _ ((PinvOp.mk p A1 A2 (some l) (some r) left pseudo).matvec junk') _ key _ 0 _ hi]
      obtain ⟨w, hw⟩ := run_some ((PinvOp.mk p A1 A2 (some l) (some r) left pseudo).matvec junk')
        (fun v => by
          obtain ⟨y, _, _, h, _⟩ := key 0 v _ hi
          exact ⟨y, h⟩) (solver (ravel x) o)
      rw [hw, Option.map_some, hcpu _ _ _ _ hw]
    cases out with
    | none => exact fin _
    | some out => exact fin _

/-- Every program is a solver in the sense of `pinv_1mE` on the CPU. -/
theorem C90_solver_exists (solver : (Fin (D * D) → ℂ) → (Fin (D * D) → ℂ) → Caller (Fin (D * D) → ℂ) ((Fin (D * D) → ℂ) × ℤ)) :
    ∃ cpu : Solver D, ∀ f b x0 w, (solver b x0).run f = some w → cpu f b x0 = w :=
  ⟨fun f b x0 => ((solver b x0).run f).getD (x0, 1), fun f b x0 w h => by dsimp only; rw [h, Option.getD_some]⟩

/-! ## Examples -/

/-- The streams in order, one after the other and then all again. -/
theorem schedOk_range (q : ℕ) : SchedOk q fun _ _ _ => List.range q ++ List.range q := by
  intro _ _ _ s hs
  rw [List.count_append]
  have : 1 ≤ (List.range q).count s := List.count_pos_iff.2 (List.mem_range.2 hs)
  omega

/-- The last stream overtakes the first, with idle turns; a different order in later calls. -/
example : SchedOk 2 fun c _ _ => if c = 0 then [1, 1, 5, 0, 1, 0] else [0, 1, 0, 1] := by
  intro c site phase s hs
  interval_cases s <;> by_cases h : c = 0 <;> simp [h]

/-- A solver that makes two steps of a simple iteration with the operator and stops. -/
def twoSteps (b x0 : Fin (2 * 2) → ℂ) : Caller (Fin (2 * 2) → ℂ) ((Fin (2 * 2) → ℂ) × ℤ) :=
  .call x0 fun y => .call (x0 + (b - y)) fun z => .done (x0 + (b - y) + (b - z), 0)

/-- The hypotheses of `C90_pinv` hold for it, a block of two sites, both modes and directions. -/
example (x l r : Matrix (Fin 2) (Fin 2) ℂ) (T U : Ten ℂ 3 2 2) (left useBatch : Bool) (junk : Dev ℂ) :
    pinv1mECuda twoSteps x [T, U] [U, T] l r 0.5 left true useBatch none (fun _ _ _ => List.range 3 ++ List.range 3) junk
      = pinv1mE (fun f b x0 => ((twoSteps b x0).run f).getD (x0, 1)) 0 x [T, U] [U, T] (some l) (some r) 0.5 left true none :=
  C90_pinv twoSteps x [T, U] [U, T] rfl l r 0.5 left true useBatch none _ (schedOk_range 3) junk 0 _
    (fun f b x0 w h => by rw [h, Option.getD_some])

/-- The schedules matter: a stream that never runs leaves old memory in the result.  With one site, `q = D = 1` and `A = 1`,
the answer to `0` is whatever the scratch array held. -/
theorem C90_unfair (j : ℂ) :
    withEOpCuda [fun _ => (1 : Matrix (Fin 1) (Fin 1) ℂ)] [fun _ : Fin 1 => (1 : Matrix (Fin 1) (Fin 1) ℂ)] false 0
      (fun _ _ _ => []) (fun _ _ => j) (.call (fun _ => 0) fun y => .done (y 0)) = some j := by
  simp [withEOpCuda, Caller.runMem, eMatvec, gpuSites, epsDev, epsRDev, runStreams, gather, axpy, zaxpy, fillBuf, getBuf,
    initDev, List.range_succ]

end EvoMPS
