import Verif.Threads.SimpleLock.Lemmas
/-
Property C24: simple locks give mutual exclusion and truthful ownership.
-/
namespace Verif.Threads.SimpleLock
open Spec
variable {T : Type} [DecidableEq T]

/-- C24, the lock itself: every history of every interleaving of any number of threads is a history of
the abstract lock, which has at most one holder, grants a claim only while free, accepts a release
exactly from its holder, answers any other release with an error and no effect on the holder, and gives a
notified waiter the lock back. -/
theorem simpleLock_refines {h : List (Event T)} {s : State T} (hr : Exec h s) :
    ∃ l, after h = some l := by
  obtain ⟨l, hl, _⟩ := exec_inv hr
  exact ⟨l, hl⟩

/-- C24, mutual exclusion: two threads never hold the lock at the same time. -/
theorem simpleLock_exclusive {h : List (Event T)} {s : State T} (_ : Exec h s) {t u : T}
    (ht : Holds h t) (hu : Holds h u) : t = u := by
  obtain ⟨l, hl, h1⟩ := ht
  obtain ⟨l', hl', h2⟩ := hu
  rw [hl] at hl'
  cases hl'
  rw [h1] at h2
  exact Option.some.inj h2

/-- C24, a second thread gets the lock only after the first gave it up: no claim succeeds while the lock
is held. -/
theorem simpleLock_claim_only_when_free {h : List (Event T)} {s : State T} {t : T}
    (hr : Exec (.claimed t :: h) s) (u : T) : ¬ Holds h u := by
  obtain ⟨l, hl⟩ := simpleLock_refines hr
  rintro ⟨l', hl', hu⟩
  simp [after, hl', Lock.next, hu] at hl

/-- C24, `owned?` never answers `#t` to a thread that does not hold the lock. -/
theorem simpleLock_owned_sound {h : List (Event T)} {s : State T} {t : T}
    (hr : Exec (.owned t true :: h) s) : Holds h t := by
  generalize he : Event.owned t true :: h = h' at hr
  induction hr with
  | start _ => simp at he
  | tau _ _ ih => exact ih he
  | @emit h₁ s₁ e s₂ hr₁ st ih =>
    obtain ⟨rfl, rfl⟩ := List.cons.inj he
    obtain ⟨l, hl, hi⟩ := exec_inv hr₁
    cases st with
    | owned hidle ha => exact ⟨l, hl, (hi.owner t (of_decide_eq_true ha.symm)).1 hidle⟩

/-- The ownership word under the discipline. -/
private structure Inv2 (l : Lock T) (s : State T) : Prop where
  inv : Inv l s
  owner : ∀ t, l.holder = some t → s.owner = some t
  rel : ∀ t, s.pc t = .clear ∨ s.pc t = .unlock → s.mutex = some t
  nowait : ∀ t, s.pc t ≠ .condCall ∧ s.pc t ≠ .sleep

private theorem inv2_tau {l : Lock T} {s s' : State T} (hi : Inv2 l s) (h : Step s none s') :
    Inv2 l s' := by
  refine ⟨inv_tau hi.inv h, ?_, ?_, ?_⟩ <;>
  · obtain ⟨⟨i1, i2, i3, i4, i5, i6, i7⟩, o, r, n⟩ := hi
    cases h <;> intro u <;> simp only [Function.update_apply] <;> grind

private theorem exec_inv2 {h : List (Event T)} {s : State T} (hr : Exec h s) (hd : Disciplined h) :
    ∃ l, after h = some l ∧ Inv2 l s := by
  induction hr with
  | start hi =>
    refine ⟨_, rfl, inv_init hi, ?_, ?_, ?_⟩ <;>
    · obtain ⟨h1, h2, h3⟩ := hi
      simp [Lock.new, h3]
  | tau _ st ih => obtain ⟨l, hl, hi⟩ := ih hd; exact ⟨l, hl, inv2_tau hi st⟩
  | @emit h₁ s₁ e s₂ hr₁ st ih =>
    have hd₁ : Disciplined h₁ := by
      cases e <;> simp_all [Disciplined]
    obtain ⟨l, hl, hi⟩ := ih hd₁
    obtain ⟨l', h', hi'⟩ := inv_emit hi.inv st
    suffices hs : (∀ t, l'.holder = some t → s₂.owner = some t) ∧
        (∀ t, s₂.pc t = .clear ∨ s₂.pc t = .unlock → s₂.mutex = some t) ∧
        (∀ t, s₂.pc t ≠ .condCall ∧ s₂.pc t ≠ .sleep) from
      ⟨l', by simp only [after, hl, Option.bind_some]; exact h', hi', hs.1, hs.2.1, hs.2.2⟩
    obtain ⟨⟨i1, i2, i3, i4, i5, i6, i7⟩, o, r, n⟩ := hi
    cases st with
    | @releasing t h1 =>
      have hh : l.holder = some t := by
        obtain ⟨⟨l2, e1, e2⟩, _⟩ := hd
        rw [hl] at e1; cases e1; exact e2
      simp only [Lock.next, (i2 t h1).1, hh, if_true, Option.some.injEq] at h'
      subst h'
      refine ⟨?_, ?_, ?_⟩ <;> intro u <;> simp only [Function.update_apply] <;> grind
    | @waiting t h1 => exact hd.elim
    | @store t h1 =>
      simp only [Lock.next] at h'
      split at h'
      · cases h'
        refine ⟨?_, ?_, ?_⟩ <;> intro u <;> simp only [Function.update_apply] <;> grind
      · cases h'
    | @unlock t h1 h2 =>
      simp only [Lock.next] at h'
      split at h'
      · cases h'
        refine ⟨?_, ?_, ?_⟩ <;> intro u <;> simp only [Function.update_apply] <;> grind
      · cases h'
    | _ =>
      simp only [Lock.next] at h'
      split at h' <;> cases h' <;>
      · refine ⟨?_, ?_, ?_⟩ <;> intro u <;> (try simp only [Function.update_apply]) <;> grind

/-- C24, `owned?`: as long as only holders call `release` and nobody waits on a notification of the
lock, every answer of `owned?` is the truth.  Missing: the two cases below, where the answer is wrong. -/
theorem simpleLock_owned_exact_partial {h : List (Event T)} {s : State T} (hr : Exec h s)
    (hd : Disciplined h) : OwnedExact h := by
  induction hr with
  | start _ => trivial
  | tau _ _ ih => exact ih hd
  | @emit h₁ s₁ e s₂ hr₁ st ih =>
    have hd₁ : Disciplined h₁ := by
      cases e <;> simp_all [Disciplined]
    cases st with
    | @owned t b h1 h2 =>
      refine ⟨?_, ih hd₁⟩
      obtain ⟨l, hl, hi⟩ := exec_inv2 hr₁ hd₁
      rw [h2, decide_eq_true_iff]
      constructor
      · intro ho; exact ⟨l, hl, (hi.inv.owner t ho).1 h1⟩
      · rintro ⟨l', hl', hh⟩
        rw [hl] at hl'; cases hl'
        exact hi.owner t hh
    | _ => exact ih hd₁

/-- Two threads, and the lock just made. -/
private def s0 : State Bool := ⟨none, none, fun _ => .idle⟩

/-- The hypotheses are met by a run in which both threads use the lock in turn and ask `owned?`. -/
example : ∃ s, Exec [.owned false false, .owned true true, .claimed true, .released false,
    .releasing false, .claimed false] s ∧
    Disciplined [.owned false false, .owned true true, Event.claimed true, .released false,
    .releasing false, .claimed false] := by
  refine exists_and_right.mpr ⟨⟨_, .emit (.emit (.emit (.tau (.emit (.tau (.emit (.emit (.tau (.start (s := s0)
      ⟨rfl, rfl, fun _ => rfl⟩) (.lock (t := false) rfl rfl)) (.store rfl)) (.releasing rfl))
      (.clear (t := false) rfl)) (.unlock rfl rfl)) (.lock (t := true) rfl rfl)) (.store rfl))
      (.owned rfl rfl)) (.owned rfl rfl)⟩, ⟨⟨_, rfl, rfl⟩, trivial⟩⟩

/-- C24 fails: after a release by a thread that does not hold the lock — which is answered by an error —
the holder is told by `owned?` that it does not hold the lock. -/
theorem simpleLock_failed_release_violated :
    ∃ s, Exec [.owned true false, .releaseFailed false, .releasing false, .claimed true] s ∧
      Holds [.releaseFailed false, .releasing false, .claimed true] true := by
  refine exists_and_right.mpr ⟨⟨_, .emit (.emit (.tau (.emit (.emit (.tau (.start (s := s0) ⟨rfl, rfl, fun _ => rfl⟩)
    (.lock (t := true) rfl rfl)) (.store rfl)) (.releasing rfl)) (.clear (t := false) rfl))
    (.eperm rfl (by decide))) (.owned rfl rfl)⟩, _, rfl, rfl⟩

/-- C24 fails: a thread that returns from waiting on a notification holds the lock, but when another
thread used the lock meanwhile, `owned?` says it does not. -/
theorem simpleLock_notification_violated :
    ∃ s, Exec [.owned true false, .woke true false, .released false, .releasing false, .claimed false,
      .waiting true, .claimed true] s ∧
      Holds [.woke true false, .released false, .releasing false, .claimed false, .waiting true,
        .claimed true] true := by
  refine exists_and_right.mpr ⟨⟨_, .emit (.emit (.emit (.tau (.emit (.emit (.tau (.tau (.emit (.emit (.tau (.start (s := s0)
    ⟨rfl, rfl, fun _ => rfl⟩) (.lock (t := true) rfl rfl)) (.store rfl)) (.waiting rfl))
    (.condWait (t := true) rfl rfl)) (.lock (t := false) rfl rfl)) (.store rfl)) (.releasing rfl))
    (.clear (t := false) rfl)) (.unlock rfl rfl)) (.wake rfl rfl)) (.owned rfl rfl)⟩, _, rfl, rfl⟩

end Verif.Threads.SimpleLock
