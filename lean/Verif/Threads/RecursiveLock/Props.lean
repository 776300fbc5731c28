import Verif.Threads.RecursiveLock.Lemmas
/-
Property C25: recursive locks nest correctly.
-/
namespace Verif.Threads.RecursiveLock
open Spec
variable {T : Type} [DecidableEq T]

/-- C25, the lock itself: every history of every interleaving of any number of threads is a history of
the abstract recursive lock, which is granted only to its holder or when free, and is given up by the
last of as many releases as there were claims; releases by others are answered by an error and have no
effect. -/
theorem recursiveLock_refines {h : List (Event T)} {s : State T} (hr : Exec h s) :
    ∃ l, after h = some l := by
  obtain ⟨l, hl, _⟩ := exec_inv hr
  exact ⟨l, hl⟩

/-- What the abstract lock means in terms of counting events. -/
theorem outstanding_eq {h : List (Event T)} {l : Lock T} (hl : after h = some l) (t : T) :
    outstanding t h = (if l.holder = some t then (l.claims : Int) else 0) -
      (if l.phase t = .releasing false then 1 else 0) ∧ (l.holder = some t → 1 ≤ l.claims) ∧
      (l.holder = none → l.claims = 0) := by
  induction h generalizing l with
  | nil => cases hl; simp [outstanding, Lock.new]
  | cons e h ih =>
    simp only [after] at hl
    cases hb : after h with
    | none => simp [hb] at hl
    | some l₀ =>
      rw [hb, Option.bind_some] at hl
      obtain ⟨i1, i2, i3⟩ := ih hb
      cases e <;> simp only [Lock.next] at hl <;> (repeat' split at hl) <;>
        simp only [Option.some.injEq, reduceCtorEq] at hl <;> subst hl <;>
        simp only [outstanding, Function.update_apply] <;> (try rw [i1]) <;> grind

/-- C25, nesting: whenever a thread's claim succeeds, every other thread has released the lock as often
as it had claimed it. -/
theorem recursiveLock_all_released {h : List (Event T)} {s : State T} {t u : T}
    (hr : Exec (.claimed u :: h) s) (htu : t ≠ u) : outstanding t h ≤ 0 := by
  obtain ⟨l', hl'⟩ := recursiveLock_refines hr
  simp only [after] at hl'
  cases hb : after h with
  | none => simp [hb] at hl'
  | some l =>
    have ho := (outstanding_eq hb t).1
    rw [hb, Option.bind_some] at hl'
    simp only [Lock.next] at hl'
    split at hl'
    · rename_i hc
      have : l.holder ≠ some t := by
        rcases hc.2 with h | h <;> rw [h] <;> simp [Ne.symm htu]
      rw [ho, if_neg this]
      split <;> omega
    · cases hl'

/-- C25, mutual exclusion. -/
theorem recursiveLock_exclusive {h : List (Event T)} {s : State T} (_ : Exec h s) {t u : T}
    (ht : Holds h t) (hu : Holds h u) : t = u := by
  obtain ⟨l, hl, h1⟩ := ht
  obtain ⟨l', hl', h2⟩ := hu
  rw [hl] at hl'
  cases hl'
  rw [h1] at h2
  exact Option.some.inj h2

/-- C25, `owned?` always answers `#t` to the holder. -/
theorem recursiveLock_owned_complete {h : List (Event T)} {s : State T} {t : T} {b : Bool}
    (hr : Exec (.owned t b :: h) s) (hh : Holds h t) : b = true := by
  generalize he : Event.owned t b :: h = h' at hr
  induction hr with
  | start _ => simp at he
  | tau _ _ ih => exact ih he
  | @emit h₁ s₁ e s₂ hr₁ st ih =>
    obtain ⟨rfl, rfl⟩ := List.cons.inj he
    obtain ⟨l, hl, hi, F, hF, c1, c2⟩ := exec_inv hr₁
    obtain ⟨l', hl', hh⟩ := hh
    rw [hl] at hl'; cases hl'
    cases st with
    | owned hidle ha =>
      obtain ⟨hm, ho⟩ := hi.holder t hh
      rw [ha, decide_eq_true_iff]
      refine ⟨ho, ?_⟩
      have := c2 (by intro u hu; rw [hm] at hu; cases hu; simp [hidle])
      have := hi.dpos (by simp [hm])
      omega

/-- C25, `owned?` answers the truth whenever no other thread is inside a claim or a release of the same
lock at that moment.  Missing: a call that overlaps with another thread's, see below. -/
theorem recursiveLock_owned_exact_partial {h : List (Event T)} {s s' : State T} {t : T} {b : Bool}
    (hr : Exec h s) (st : Step s (some (.owned t b)) s') (hq : ∀ u, u ≠ t → s.pc u = .idle) :
    b = true ↔ Holds h t := by
  refine ⟨?_, recursiveLock_owned_complete (.emit hr st)⟩
  obtain ⟨l, hl, hi, F, hF, c1, c2⟩ := exec_inv hr
  cases st with
  | owned hidle ha =>
    have hall : ∀ u, s.pc u = .idle := by
      intro u
      by_cases hu : u = t
      · rw [hu]; exact hidle
      · exact hq u hu
    rintro rfl
    have ha' := of_decide_eq_true ha.symm
    have hF0 : F = ∅ := by
      apply Finset.eq_empty_of_forall_notMem
      intro u
      rw [hF, hall u]; simp
    have hc := c2 (by intro u _; rw [hall u]; simp)
    rw [hF0] at hc
    have hd : s.depth ≠ 0 := by
      intro h0; rw [h0] at hc; exact ha'.2 (by simpa using hc)
    cases hm : s.mutex with
    | none => exact absurd (hi.free hm) hd
    | some u =>
      have hdep := hi.depth u hm
      rw [hall u] at hdep
      simp only [extra] at hdep
      cases hl' : l.holder with
      | none => have := hi.zero hl'; omega
      | some v =>
        have := (hi.holder v hl').2
        rw [ha'.1] at this
        cases this
        exact ⟨l, hl, hl'⟩

/-- Two threads, and the lock just made. -/
private def s0 : State Bool := ⟨none, 0, none, 0, fun _ => .idle⟩

/-- The hypotheses are met by a run with a nested claim. -/
example : ∃ s, Exec [.owned true true, .released true, .releasing true, .claimed true, .claimed true] s ∧
    Holds [.released true, .releasing true, .claimed true, .claimed true] true := by
  refine exists_and_right.mpr ⟨⟨_, .emit (.emit (.tau (.emit (.emit (.tau (.tau (.emit (.tau (.tau
    (.start (s := s0) ⟨rfl, rfl, rfl, rfl, fun _ => rfl⟩) (.lock (t := true) rfl (.inl rfl)))
    (.incr (t := true) rfl)) (.store rfl)) (.lock (t := true) rfl (.inr rfl))) (.incr (t := true) rfl))
    (.store rfl)) (.releasing rfl)) (.unlock (t := true) rfl rfl)) (.decr rfl)) (.owned rfl rfl)⟩,
    _, rfl, rfl⟩

/-- C25 fails: a thread that gave the lock up is told by `owned?` that it holds it, when another thread
is just claiming it. -/
theorem recursiveLock_owned_violated :
    ∃ s, Exec [.owned true true, .released true, .releasing true, .claimed true] s ∧
      ¬ Holds [.released true, .releasing true, .claimed true] true := by
  refine exists_and_right.mpr ⟨⟨_, .emit (.tau (.tau (.emit (.tau (.emit (.emit (.tau (.tau
    (.start (s := s0) ⟨rfl, rfl, rfl, rfl, fun _ => rfl⟩) (.lock (t := true) rfl (.inl rfl)))
    (.incr (t := true) rfl)) (.store rfl)) (.releasing rfl)) (.unlock (t := true) rfl rfl)) (.decr rfl))
    (.lock (t := false) rfl (.inl rfl))) (.incr (t := false) rfl)) (.owned rfl rfl)⟩, ?_⟩
  rintro ⟨l, hl, hh⟩
  have : after [.released true, .releasing true, .claimed true] =
    some (Lock.mk (T := Bool) none 0 (Function.update (Function.update (fun _ => .free) true
      (.releasing true)) true .free)) := rfl
  rw [this] at hl
  cases hl
  cases hh

end Verif.Threads.RecursiveLock
