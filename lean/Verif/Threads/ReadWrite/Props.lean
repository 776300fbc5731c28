import Verif.Threads.ReadWrite.Lemmas
/-
Property C50: read-write locks.
-/
namespace Verif.Threads.ReadWrite
open Function (update)
open Spec
variable {T : Type} [DecidableEq T]

/-- C50, for all programs: every history of every interleaving of any number of threads is a history of the
documented lock, with the calls of `wait-for` and `release` taking effect when they return. -/
theorem readWrite_documented {h : List (Event T)} {s : State T} (hr : Exec h s) : ∃ d, DocAfter h d := by
  obtain ⟨d, hd, -⟩ := exec_tracks hr
  exact ⟨_, hd⟩

/-- C50: the documented lock is the only one a history leaves. -/
theorem documented_unique {h : List (Event T)} {d d' : Doc T} (h1 : DocAfter h d) (h2 : DocAfter h d') : d = d' := by
  induction h1 generalizing d' with
  | new => cases h2; rfl
  | write _ ih => cases h2; rfl
  | read _ ih => cases h2 with | read h2 => cases ih h2; rfl
  | releasing _ ih => cases h2 with | releasing h2 => exact ih h2
  | freed h0 ih =>
    cases h2 with
    | freed h2 => rfl
    | lowered h2 => cases ih h2
  | lowered _ ih =>
    cases h2 with
    | freed h2 => cases ih h2
    | lowered h2 => cases ih h2; rfl
  | free _ ih =>
    cases h2 with
    | free h2 => rfl
    | foreign h2 => cases ih h2
  | foreign _ _ ih =>
    cases h2 with
    | free h2 => cases ih h2
    | foreign h2 => exact ih h2
  | timedOut _ ih => cases h2 with | timedOut h2 => exact ih h2
  | owns _ ih => cases h2 with | owns h2 => exact ih h2
  | ownsNot _ _ ih => cases h2 with | ownsNot h2 => exact ih h2
  | ownedForReading _ ih => cases h2 with | ownedForReading h2 => exact ih h2

/-- C50: where threads release only what they have claimed, every history is one of the lock with known
readers.  In particular no release fails. -/
theorem readWrite_refines {h : List (Event T)} {s : State T} (hr : Exec h s) (hd : Disciplined h) :
    ∃ l, After h l := by
  obtain ⟨l, hl, -⟩ := exec_inv hr hd
  exact ⟨l, hl⟩

/-- What the abstract lock means: a thread that holds it for writing is the only one to hold it. -/
theorem readWrite_exclusive {h : List (Event T)} {l : Lock T} (hl : After h l) {t u : T}
    (ht : l.writer = some t) (hu : l.Holds u) : u = t ∧ l.reads t = 0 := by
  have key : ∀ w, l.writer = some w → ∀ v, l.reads v = 0 := by
    clear ht hu
    induction hl with
    | new => intro w hw; cases hw
    | write _ h1 h2 ih => intro w _; exact h2
    | read _ h1 ih => intro w hw; simp only at hw; rw [h1] at hw; cases hw
    | endWrite _ h1 ih => intro w hw; cases hw
    | @endRead h l t _ h1 ih =>
      intro w hw
      have := ih w hw t
      omega
    | released _ ih => exact ih
    | timedOut _ ih => exact ih
    | owned _ _ ih => exact ih
    | ownedForReading _ ih => exact ih
  have h0 := key t ht
  refine ⟨?_, h0 t⟩
  rcases hu with hu | hu
  · rw [ht] at hu; exact (Option.some.inj hu).symm
  · rw [h0 u] at hu; cases hu

/-- C50, in terms of the history alone: whenever a thread gets the lock for writing, no thread has claimed
it more often than it has released it. -/
theorem readWrite_write_alone {h : List (Event T)} {s : State T} {t : T}
    (hr : Exec (.acquired t .write :: h) s) (hd : Disciplined h) (u : T) : outstanding u h = 0 := by
  obtain ⟨l, hl, -⟩ := exec_inv hr hd
  cases hl with
  | write hl h1 h2 => rw [Inv.outstanding hl u, h1, h2]; simp

/-- C50, readers share: whenever a thread gets the lock for reading, no thread holds it for writing. -/
theorem readWrite_read_shared {h : List (Event T)} {s : State T} {t : T}
    (hr : Exec (.acquired t .read :: h) s) (hd : Disciplined h) : ∃ l, After h l ∧ l.writer = none := by
  obtain ⟨l, hl, -⟩ := exec_inv hr hd
  cases hl with
  | read hl h1 => exact ⟨_, hl, h1⟩

/-- C50: a release by a thread that has claimed the lock does not fail. -/
theorem readWrite_release_succeeds {h : List (Event T)} {s : State T} {t : T}
    (hr : Exec (.releaseFailed t :: h) s) (hd : Disciplined h) : False := by
  obtain ⟨l, hl, -⟩ := exec_inv hr hd
  cases hl

/-- C50, no lost wake-ups, for all programs: whenever the inner lock is free, a thread that waits and has
not been notified waits for a mode for which the lock is not free. -/
theorem readWrite_no_lost_wakeup {h : List (Event T)} {s : State T} (hr : Exec h s) (hn : s.inner = none)
    {t : T} (hw : s.waiting t = true) :
    ∃ m, s.pc t = .sleep m ∧ (s.state ≠ .reading 0) ∧ (m = .read → ∃ u, s.state = .writing u) := by
  have ha := exec_awake hr
  have hx := exec_mutex hr
  obtain ⟨m, hm⟩ := ha.asleep t hw
  have hfree : s.state.freeFor m = false := by
    cases hf : s.state.freeFor m with
    | false => rfl
    | true =>
      obtain ⟨u, hu⟩ := ha.soon t m hw hm hf
      have : (s.pc u).inside = true := by rw [hu]; rfl
      rw [hx u, hn] at this; cases this
  refine ⟨m, hm, ?_, ?_⟩
  · intro h0
    rw [h0] at hfree
    cases m <;> cases hfree
  · rintro rfl
    cases hs : s.state with
    | reading n => rw [hs] at hfree; cases hfree
    | writing u => exact ⟨u, rfl⟩

/-- C50, no deadlock inside the lock: where threads release only what they have claimed, and nobody holds
the lock or is inside a call other than `wait-for`, every thread asleep in `wait-for` has been notified
and can get the lock with its own next steps. -/
theorem readWrite_waiters_get_it {h : List (Event T)} {s : State T} (hr : Exec h s) (hd : Disciplined h)
    (hq : ∀ u, s.pc u = .idle ∨ ∃ m, s.pc u = .sleep m) (hf : ∀ u, outstanding u h = 0) {t : T} {m : Mode}
    (ht : s.pc t = .sleep m) :
    s.waiting t = false ∧ ∃ s1 s2 s3, Step s none s1 ∧ Step s1 none s2 ∧ Step s2 (some (.acquired t m)) s3 := by
  have hx := exec_mutex hr
  have hn : s.inner = none := by
    cases hi : s.inner with
    | none => rfl
    | some u =>
      have := (hx u).mpr hi
      rcases hq u with h1 | ⟨m', h1⟩ <;> rw [h1] at this <;> cases this
  obtain ⟨l, hl, hi⟩ := exec_inv hr hd
  have hs : s.state = .reading 0 := by
    have ha := hi.agree
    have hex : ∀ u, (s.pc u).extra = 0 := by
      intro u; rcases hq u with h1 | ⟨m', h1⟩ <;> rw [h1] <;> rfl
    have hc : ∀ u, claims l s u = 0 := by
      intro u
      have h1 := hf u
      rw [Inv.outstanding hl u] at h1
      simp only [claims, hex]
      split at h1
      · omega
      · rename_i hne
        rw [if_neg hne]
        omega
    cases hst : s.state with
    | reading n =>
      simp only [Agree, hst] at ha
      obtain ⟨⟨L, hL, hcn⟩, -, -⟩ := ha
      cases L with
      | nil => simp at hL; rw [← hL]
      | cons v L =>
        have := hcn v
        rw [hc v, List.count_cons_self] at this
        omega
    | writing w =>
      simp only [Agree, hst] at ha
      have := ha.1
      rw [hc w] at this; cases this
  refine ⟨?_, ?_⟩
  · cases hw : s.waiting t with
    | false => rfl
    | true =>
      obtain ⟨m', -, h2, -⟩ := readWrite_no_lost_wakeup hr hn hw
      exact absurd hs h2
  · refine ⟨_, _, _, .wake (m := m) ht hn, .grant (t := t) (m := m) (by simp) ?_, .wUnlock (t := t) (m := m) (by simp)⟩
    simp only [hs]
    cases m <;> rfl

/-! ### A run of the model -/

/-- A new lock for threads that are numbers. -/
def fresh : State Nat := ⟨.reading 0, none, fun _ => .idle, fun _ => false⟩

theorem fresh_exec : Exec [] fresh := .start ⟨rfl, rfl, fun _ => rfl, fun _ => rfl⟩

theorem acquire_read {h : List (Event Nat)} {s : State Nat} (hr : Exec h s) (t n : Nat) (h1 : s.pc t = .idle)
    (h2 : s.inner = none) (h3 : s.state = .reading n) : ∃ s', Exec (.acquired t .read :: h) s' ∧
      s'.state = .reading (n + 1) ∧ s'.inner = none ∧ s'.pc t = .idle ∧ ∀ u, u ≠ t → s'.pc u = s.pc u := by
  have a := Run.tau hr (Step.wLock (m := .read) h1 h2)
  have b := Run.tau a (Step.grant (t := t) (m := .read) (by simp) (by simp [h3, LState.freeFor]))
  have c := Run.emit b (Step.wUnlock (t := t) (m := .read) (by simp))
  exact ⟨_, c, by simp [h3, LState.grant], rfl, by simp, fun u hu => by simp [Function.update_of_ne hu]⟩

theorem acquire_write {h : List (Event Nat)} {s : State Nat} (hr : Exec h s) (t : Nat) (h1 : s.pc t = .idle)
    (h2 : s.inner = none) (h3 : s.state = .reading 0) : ∃ s', Exec (.acquired t .write :: h) s' ∧
      s'.state = .writing t ∧ s'.inner = none ∧ s'.pc t = .idle ∧ ∀ u, u ≠ t → s'.pc u = s.pc u := by
  have a := Run.tau hr (Step.wLock (m := .write) h1 h2)
  have b := Run.tau a (Step.grant (t := t) (m := .write) (by simp) (by simp [h3, LState.freeFor]))
  have c := Run.emit b (Step.wUnlock (t := t) (m := .write) (by simp))
  exact ⟨_, c, by simp [LState.grant], rfl, by simp, fun u hu => by simp [Function.update_of_ne hu]⟩

theorem release_last {h : List (Event Nat)} {s : State Nat} (hr : Exec h s) (t : Nat) (h1 : s.pc t = .idle)
    (h2 : s.inner = none) (h3 : s.state = .reading 1) : ∃ s', Exec (.released t :: .releasing t :: h) s' ∧
      s'.state = .reading 0 ∧ s'.inner = none ∧ s'.pc t = .idle ∧ ∀ u, u ≠ t → s'.pc u = s.pc u := by
  have a := Run.emit hr (Step.releasing h1)
  have b := Run.tau a (Step.rLock (t := t) (by simp) h2)
  have c := Run.tau b (Step.rReader (t := t) (n := 0) (by simp) h3)
  have d := Run.tau c (Step.rAll (t := t) (by simp))
  have e := Run.emit d (Step.rUnlock (t := t) (by simp))
  exact ⟨_, e, rfl, rfl, by simp, fun u hu => by simp [Function.update_of_ne hu]⟩

/-- The hypotheses are met: two readers, one of whom releases. -/
example : ∃ s, Exec (T := Nat) [.acquired 1 .read, .acquired 0 .read] s ∧
    Disciplined (T := Nat) [.releasing 0, .acquired 1 .read, .acquired 0 .read] ∧ s.state = .reading 2 := by
  obtain ⟨s1, r1, e1, i1, p1, q1⟩ := acquire_read fresh_exec 0 0 rfl rfl rfl
  obtain ⟨s2, r2, e2, i2, p2, q2⟩ := acquire_read r1 1 1 (by rw [q1 1 (by decide)]; rfl) i1 e1
  exact ⟨s2, r2, ⟨by decide, trivial⟩, e2⟩

/-- The hypotheses are met: a writer gets the lock after a reader has released it. -/
example : ∃ s, Exec (T := Nat) [.acquired 1 .write, .released 0, .releasing 0, .acquired 0 .read] s ∧
    Disciplined (T := Nat) [.released 0, .releasing 0, .acquired 0 .read] := by
  obtain ⟨s1, r1, e1, i1, p1, q1⟩ := acquire_read fresh_exec 0 0 rfl rfl rfl
  obtain ⟨s2, r2, e2, i2, p2, q2⟩ := release_last r1 0 p1 i1 e1
  obtain ⟨s3, r3, -⟩ := acquire_write r2 1 (by rw [q2 1 (by decide), q1 1 (by decide)]; rfl) i2 e2
  exact ⟨s3, r3, by decide, trivial⟩

/-- The hypotheses are met: a writer sleeps while a reader holds the lock; a reader's release notifies it. -/
example : ∃ s, Exec (T := Nat) [.acquired 0 .read] s ∧ s.inner = none ∧ s.waiting 1 = true ∧ s.pc 1 = .sleep .write := by
  obtain ⟨s1, r1, e1, i1, p1, q1⟩ := acquire_read fresh_exec 0 0 rfl rfl rfl
  have a := Run.tau r1 (Step.wLock (t := 1) (m := .write) (by rw [q1 1 (by decide)]; rfl) i1)
  have b := Run.tau a (Step.wBlock (t := 1) (m := .write) (by simp) (by simp [e1, LState.freeFor]))
  exact ⟨_, b, rfl, by simp, by simp⟩

/-- The discipline is needed: a release by a thread that has claimed nothing is not refused (the documentation
counts releases and does not look at who makes them).  Such a release succeeds while another
thread reads, and a third thread then gets the lock for writing while the first still holds it. -/
theorem readWrite_foreign_release : ∃ s, Exec (T := Nat)
    [.acquired 2 .write, .released 1, .releasing 1, .acquired 0 .read] s := by
  obtain ⟨s1, r1, e1, i1, p1, q1⟩ := acquire_read fresh_exec 0 0 rfl rfl rfl
  obtain ⟨s2, r2, e2, i2, p2, q2⟩ := release_last r1 1 (by rw [q1 1 (by decide)]; rfl) i1 e1
  obtain ⟨s3, r3, -⟩ := acquire_write r2 2 (by rw [q2 2 (by decide), q1 2 (by decide)]; rfl) i2 e2
  exact ⟨s3, r3⟩

/-- `owned-for-reading?` answers `#t` to a thread that has claimed nothing, while another thread reads. -/
theorem readWrite_owned_for_reading : ∃ s, Exec (T := Nat)
    [.ownedForReading 1 true, .acquired 0 .read] s := by
  obtain ⟨s1, r1, e1, i1, p1, q1⟩ := acquire_read fresh_exec 0 0 rfl rfl rfl
  have a := Run.emit r1 (Step.ownedForReading (t := 1) (by rw [q1 1 (by decide)]; rfl))
  rw [e1] at a
  exact ⟨_, a⟩

/-- A thread that holds the lock for writing and claims it again waits for itself: no error is signalled,
and nothing but its own release could notify it. -/
theorem readWrite_self_deadlock : ∃ s, Exec (T := Nat) [.acquired 0 .write] s ∧ s.inner = none ∧
    s.state = .writing 0 ∧ s.pc 0 = .sleep .read ∧ s.waiting 0 = true := by
  obtain ⟨s1, r1, e1, i1, p1, q1⟩ := acquire_write fresh_exec 0 rfl rfl rfl
  have a := Run.tau r1 (Step.wLock (t := 0) (m := .read) p1 i1)
  have b := Run.tau a (Step.wBlock (t := 0) (m := .read) (by simp) (by simp [e1, LState.freeFor]))
  exact ⟨_, b, rfl, e1, by simp, by simp⟩

end Verif.Threads.ReadWrite
