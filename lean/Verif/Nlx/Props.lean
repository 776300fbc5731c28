import Verif.Nlx.Meaning

/-!
# Exits and cleanup clauses: the properties

`spec` in `Spec.lean` is the meaning of a program, `exec` in `Model.lean` is
what the C code does, and `init` is a thread that has just been created.
-/

namespace Verif.Nlx

/-! ## C64: exits go to their block, with their values -/

/-- A program run by a thread does what its meaning says: the same calls in the
same order, the same values at the end, and the thread is again outside of all
blocks.  Not for every program: `Tame` says which exits in cleanup clauses are
left out. -/
theorem exits_follow_meaning_partial (w : World) (p : Prog) (hc : Compiled p [])
    (ht : Tame w p .body [] [] [] 1) (hv : (spec w p [] [] 1).out ≠ .invalid) :
    ∃ vs, (spec w p [] [] 1).out = .normal vs ∧ (exec w p init).1 = .normal ∧
      (exec w p init).2.ret = vs ∧ (exec w p init).2.tr = (spec w p [] [] 1).tr ∧
      (exec w p init).2.cur = some 0 := by
  have h := sim w p [] [] [] .body [] 1 init 0 hc ht
    ⟨rfl, by omega, rfl, rfl, by simp, by simp, by simp, by simp, by simp⟩
  unfold Matches at h
  cases ho : (spec w p [] [] 1).out with
  | invalid => exact absurd ho hv
  | exiting g vs => exact absurd (spec_exiting_mem w p [] [] 1 g vs ho) (by simp)
  | normal vs =>
    rw [ho] at h
    exact ⟨vs, rfl, h.1, h.2.1, h.2.2.1.tr, h.2.2.1.cur⟩

/-- For programs with no exits in cleanup clauses this holds without more ado,
as long as no more than 64 values are returned at once. -/
theorem exits_follow_meaning_plain (w : World) (hw : ∀ t, (w t).length ≤ 64) (p : Prog)
    (hc : Compiled p []) (hp : PlainCleanups p) (hf : FewValues p)
    (hv : (spec w p [] [] 1).out ≠ .invalid) :
    ∃ vs, (spec w p [] [] 1).out = .normal vs ∧ (exec w p init).1 = .normal ∧
      (exec w p init).2.ret = vs ∧ (exec w p init).2.tr = (spec w p [] [] 1).tr ∧
      (exec w p init).2.cur = some 0 :=
  exits_follow_meaning_partial w p hc (tame_plain w hw p [] [] [] 1 hp hf) hv

/-- Two nested blocks with cleanup clauses, left by an exit with two values
from the inner one. -/
def sample : Prog :=
  .bindExit false
    (fun h =>
      .protect
        (.protect (.act 1 fun _ => .exit h [10, 20]) (.act 2 fun _ => .done []) fun _ => .done [])
        (.act 3 fun _ => .done [7]) fun _ => .act 4 fun _ => .done [])
    fun vs => .act 5 fun _ => .done (vs.take 64)

example : Compiled sample [] ∧ PlainCleanups sample ∧ FewValues sample := by
  refine ⟨⟨fun h hl => ?_, ?_⟩, ?_, ?_⟩
  · simp [Compiled, hl]
  · simp [Compiled]
  · simp [sample, PlainCleanups, NoExit]
  · simp [sample, FewValues, valuesMax]
    intro vs
    omega

example : (spec (fun _ => []) sample [] [] 1).out = .normal [10, 20] ∧
    (spec (fun _ => []) sample [] [] 1).tr =
      [.enter 2, .enter 3, .act 1, .clean 3, .act 2, .clean 2, .act 3, .act 5] := by
  decide

/-- A cleanup clause that runs because of an exit may leave by another exit:
not plain, but tame. -/
def detour : Prog :=
  .bindExit false
    (fun a =>
      .bindExit false
        (fun b => .protect (.exit b [1]) (.act 2 fun _ => .exit a [3]) fun _ => .done [])
        fun _ => .act 9 fun _ => .done [])
    fun _ => .done [5]

example : Compiled detour [] ∧ Tame (fun _ => []) detour .body [] [] [] 1 ∧
    (spec (fun _ => []) detour [] [] 1).out = .normal [5] ∧
    (spec (fun _ => []) detour [] [] 1).tr = [.enter 3, .clean 3, .act 2] := by
  refine ⟨?_, ?_, by decide, by decide⟩
  · refine ⟨fun h hl => ⟨fun h' hl' => ?_, fun _ => ?_⟩, fun _ => ?_⟩ <;>
      simp_all [Compiled]
  · simp [detour, Tame, spec, SRes.cleanup, SRes.andThen, arrive, resume, valuesMax]

/-- The code does not follow the meaning of every program.  A cleanup clause
that runs because of an exit, and that uses a block with an exit of its own,
makes the first exit be forgotten: the code after the block (`act 9`) is run,
and the thread has lost its outermost frame. -/
theorem exit_forgotten_violated :
    let p : Prog := .bindExit false
      (fun a =>
        .protect (.exit a [1])
          (.bindExit false (fun b => .exit b []) fun _ => .done [])
          fun _ => .act 9 fun _ => .done [2])
      .done
    Compiled p [] ∧
    (spec (fun _ => []) p [] [] 1).out = .normal [1] ∧
    (spec (fun _ => []) p [] [] 1).tr = [.enter 2, .clean 2] ∧
    (exec (fun _ => []) p init).1 = .normal ∧
    (exec (fun _ => []) p init).2.ret = [2] ∧
    (exec (fun _ => []) p init).2.tr = [.enter 2, .clean 2, .act 9] ∧
    (exec (fun _ => []) p init).2.cur = none := by
  refine ⟨?_, ?_⟩
  · refine ⟨fun h hl => ⟨?_, ?_, ?_⟩, ?_⟩ <;> simp_all [Compiled]
  · decide

/-- The next exit of that thread follows a null pointer. -/
theorem exit_forgotten_crash_violated :
    let p : Prog := .bindExit false
      (fun a =>
        .protect (.exit a [1])
          (.bindExit false (fun b => .exit b []) fun _ => .done [])
          fun _ => .act 9 fun _ => .done [2])
      fun _ => .bindExit false (fun c => .exit c [3]) fun _ => .done []
    (spec (fun _ => []) p [] [] 1).out = .normal [] ∧
    (exec (fun _ => []) p init).1 = .ub := by
  decide

/-- An exit by `goto` out of a cleanup clause that runs because of another exit
forgets where the first cleanup clause was going: the program goes to the block
`b` instead of the block `a`. -/
theorem exit_to_wrong_block_violated :
    let p : Prog := .bindExit false
      (fun a =>
        .bindExit false
          (fun b =>
            .protect (.exit a [1])
              (.bindExit true (fun l => .protect (.exit b [2]) (.exit l []) fun _ => .done [])
                fun _ => .done [])
              fun _ => .done [])
          fun _ => .act 9 fun _ => .done [4])
      fun _ => .done [5]
    Compiled p [] ∧
    (spec (fun _ => []) p [] [] 1).out = .normal [5] ∧
    (spec (fun _ => []) p [] [] 1).tr = [.enter 3, .clean 3, .enter 5, .clean 5] ∧
    (exec (fun _ => []) p init).1 = .normal ∧
    (exec (fun _ => []) p init).2.tr = [.enter 3, .clean 3, .enter 5, .clean 5, .act 9] := by
  refine ⟨?_, ?_⟩
  · refine ⟨fun a ha => ⟨fun b hb => ⟨?_, ⟨fun l hl => ?_, ?_⟩, ?_⟩, ?_⟩, ?_⟩ <;>
      simp_all [Compiled]
  · decide

/-- The values of an exit under way are lost when a cleanup clause calls the
same exit procedure and then changes its mind. -/
theorem exit_values_lost_violated :
    let p : Prog := .bindExit false
      (fun a =>
        .protect (.exit a [1])
          (.protect
            (.bindExit false (fun b => .protect (.exit a [2]) (.exit b []) fun _ => .done [])
              fun _ => .done [])
            (.done []) fun _ => .done [])
          fun _ => .done [])
      fun vs => .done (vs.take 1)
    Compiled p [] ∧
    (spec (fun _ => []) p [] [] 1).out = .normal [1] ∧
    (exec (fun _ => []) p init).1 = .normal ∧
    (exec (fun _ => []) p init).2.ret = [2] := by
  refine ⟨?_, ?_⟩
  · refine ⟨fun a ha => ⟨?_, ⟨⟨fun b hb => ?_, ?_⟩, ?_, ?_⟩, ?_⟩, ?_⟩ <;> simp_all [Compiled]
  · decide

/-- 65 values are written past the end of the array for multiple values. -/
theorem too_many_values_violated :
    (exec (fun _ => []) (.done (List.replicate 65 0)) init).1 = .ub ∧
      (exec (fun _ => []) (.done (List.replicate 64 0)) init).1 = .normal := by
  decide

/-! ## C65: cleanup clauses run exactly once, the inner ones first -/

/-- In what a thread does while it runs a program, every protected body that is
entered has its cleanup clause started exactly once, after the body, inner ones
before outer ones.  `Tame` says which exits in cleanup clauses are left out. -/
theorem cleanups_run_once_partial (w : World) (p : Prog) (hc : Compiled p [])
    (ht : Tame w p .body [] [] [] 1) (hv : (spec w p [] [] 1).out ≠ .invalid) :
    Balanced (exec w p init).2.tr ∧
      ∀ u, Event.enter u ∈ (exec w p init).2.tr →
        (exec w p init).2.tr.count (.enter u) = 1 ∧ (exec w p init).2.tr.count (.clean u) = 1 := by
  obtain ⟨vs, -, -, -, htr, -⟩ := exits_follow_meaning_partial w p hc ht hv
  obtain ⟨t, h1, h2, h3⟩ := spec_events w p [] [] 1 hv
  rw [List.nil_append] at h1
  rw [htr, h1]
  refine ⟨h2, fun u hu => ?_⟩
  have h4 := List.count_pos_iff.mpr hu
  have h5 := (h3 u).1
  rw [h2.count u]
  omega

/-- For programs with no exits in cleanup clauses. -/
theorem cleanups_run_once_plain (w : World) (hw : ∀ t, (w t).length ≤ 64) (p : Prog)
    (hc : Compiled p []) (hp : PlainCleanups p) (hf : FewValues p)
    (hv : (spec w p [] [] 1).out ≠ .invalid) :
    Balanced (exec w p init).2.tr ∧
      ∀ u, Event.enter u ∈ (exec w p init).2.tr →
        (exec w p init).2.tr.count (.enter u) = 1 ∧ (exec w p init).2.tr.count (.clean u) = 1 :=
  cleanups_run_once_partial w p hc (tame_plain w hw p [] [] [] 1 hp hf) hv

example : Event.enter 3 ∈ (exec (fun _ => []) sample init).2.tr := by
  decide

/-- A cleanup clause that runs after the body ended normally, and that exits,
is run twice. -/
theorem cleanup_twice_violated :
    let p : Prog := .bindExit false
      (fun a => .protect (.done [1]) (.act 7 fun _ => .exit a [2]) fun _ => .done [])
      fun _ => .done []
    Compiled p [] ∧
    (spec (fun _ => []) p [] [] 1).out = .normal [] ∧
    (spec (fun _ => []) p [] [] 1).tr = [.enter 2, .clean 2, .act 7] ∧
    (exec (fun _ => []) p init).1 = .normal ∧
    (exec (fun _ => []) p init).2.tr = [.enter 2, .clean 2, .act 7, .clean 2, .act 7] := by
  refine ⟨?_, ?_⟩
  · refine ⟨fun a ha => ⟨?_, ?_, ?_⟩, ?_⟩ <;> simp_all [Compiled]
  · decide

/-- If that exit is a `goto`, the frame of the block that was left stays the
current one, and the next exit, here to `a`, jumps back into the block that is
over. -/
theorem cleanup_stale_frame_violated :
    let p : Prog := .bindExit false
      (fun a =>
        .bindExit true (fun l => .protect (.done [1]) (.exit l []) fun _ => .done [])
          fun _ => .act 8 fun _ => .exit a [3])
      fun _ => .done []
    Compiled p [] ∧
    (spec (fun _ => []) p [] [] 1).out = .normal [] ∧
    (exec (fun _ => []) p init).1 = .jump (.toUwp 3) ∧
    (exec (fun _ => []) p init).2.tr = [.enter 3, .clean 3, .act 8] := by
  refine ⟨?_, ?_⟩
  · refine ⟨fun a ha => ⟨fun l hl => ⟨?_, ?_, ?_⟩, ?_⟩, ?_⟩ <;> simp_all [Compiled]
  · decide

end Verif.Nlx
