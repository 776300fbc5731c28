import Verif.Threads.Semaphore.Lemmas
/-
Property C26: semaphores count exactly and stay usable after errors.
-/
namespace Verif.Threads.Semaphore
open Spec
variable {T : Type} [DecidableEq T]

/-! ## On POSIX semaphores -/

/-- C26, counting, POSIX: the value is the initial count plus the successful releases minus the
successful waits, and never exceeds the system's limit. -/
theorem posix_counts {semMax initial : Nat} {h : List (Event T)} {s : Posix.State T}
    (hr : Posix.Exec semMax initial h s) :
    s.value + waits h = initial + releases h ∧ (initial ≤ semMax → s.value ≤ semMax) := by
  induction hr with
  | start hi => simp [hi.1, waits, releases]
  | tau _ st ih => cases st
  | emit _ st ih => cases st <;> simp only [waits, releases] <;> grind

/-- C26, POSIX: the number of successful waits never exceeds the initial count plus the successful
releases, in every interleaving of any number of threads. -/
theorem posix_waits_le {semMax initial : Nat} {h : List (Event T)} {s : Posix.State T}
    (hr : Posix.Exec semMax initial h s) : waits h ≤ initial + releases h := by
  have := (posix_counts hr).1
  omega

/-- A wait succeeds whenever more was put in than taken out; in particular the semaphore stays usable
after a failed release.  (The step exists for every thread not inside a release.) -/
theorem posix_usable {semMax initial : Nat} {h : List (Event T)} {s : Posix.State T}
    (hr : Posix.Exec semMax initial h s) (t : T) (ht : s.inRelease t = false)
    (hav : waits h < initial + releases h) :
    ∃ s', Posix.Exec semMax initial (.waited t :: h) s' := by
  have := (posix_counts hr).1
  exact ⟨_, .emit hr (.wait ht (by omega))⟩

/-- C26 fails on POSIX semaphores: the maximum count is ignored.  A semaphore made with initial count 1
and maximum count 1 (and any larger system limit) accepts a release, and then lets two waits through. -/
theorem posix_maximum_violated (semMax : Nat) (hm : 1 < semMax) :
    ∃ s, Posix.Exec semMax 1 [.waited true, .waited false, .released true, .releasing true] s := by
  refine ⟨_, .emit (.emit (.emit (.emit (.start (s := ⟨1, fun _ => false⟩) ⟨rfl, fun _ => rfl⟩)
    (.releasing rfl)) (.post rfl hm)) (.wait rfl ?_)) (.wait rfl ?_)⟩ <;> decide

/-! ## Emulated -/

/-- C26, counting, emulated: the number of successful waits never exceeds the initial count plus the
releases begun and not failed, in every interleaving of any number of threads. -/
theorem emulated_waits_le {max initial : Int} (h0 : 0 ≤ initial) {h : List (Event T)}
    {s : Emulated.State T} (hr : Emulated.Exec max initial h s) :
    (waits h : Int) + failures h ≤ initial + releaseCalls h := by
  obtain ⟨_, i2, _, W, R, D, _, _, _, c1, c2⟩ := Emulated.exec_inv hr
  have := i2 h0
  omega

/-- C26, counting, emulated: when no thread is inside a call, the count is exactly the initial count
plus the successful releases minus the successful waits, and within its bounds. -/
theorem emulated_counts {max initial : Int} (h0 : 0 ≤ initial) (h1 : initial ≤ max)
    {h : List (Event T)} {s : Emulated.State T} (hr : Emulated.Exec max initial h s)
    (hq : ∀ t, s.pc t = .idle ∨ s.pc t = .sleep) :
    s.count = initial + releases h - waits h ∧ 0 ≤ s.count ∧ s.count ≤ max ∧
      releaseCalls h = releases h + failures h := by
  obtain ⟨_, i2, i3, W, R, D, w, r, d, c1, c2⟩ := Emulated.exec_inv hr
  have hW : W = ∅ := by
    apply Finset.eq_empty_of_forall_notMem; intro t; rw [w]; have := hq t; grind
  have hR : R = ∅ := by
    apply Finset.eq_empty_of_forall_notMem; intro t; rw [r]; have := hq t; grind
  have hD : D = ∅ := by
    apply Finset.eq_empty_of_forall_notMem; intro t; rw [d]; have := hq t; grind
  subst hW hR hD
  simp only [Finset.card_empty] at c1 c2
  refine ⟨by omega, i2 h0, i3 h1, by omega⟩

/-- C26, emulated: a release fails only when the releases begun before, less the failed ones and the
successful waits, already fill the semaphore. -/
theorem emulated_failure_justified {max initial : Int} {h : List (Event T)} {s s' : Emulated.State T}
    {t : T} (hr : Emulated.Exec max initial h s)
    (st : Emulated.Step max s (some (.releaseFailed t)) s') :
    max < initial + releaseCalls h - failures h - waits h := by
  obtain ⟨_, i2, i3, W, R, D, w, r, d, c1, c2⟩ := Emulated.exec_inv hr
  cases st with
  | exceeded h1 h2 =>
    have ht : t ∈ R := by rw [r]; simp [h1]
    have := Finset.card_pos.mpr ⟨t, ht⟩
    omega

/-- C26, emulated: as long as no release failed, the semaphore stays usable: when no thread is inside a
call (waiting threads may be blocked) the internal mutex is free.  Missing: after a failed release, see
below. -/
theorem emulated_usable_partial {max initial : Int} {h : List (Event T)} {s : Emulated.State T}
    (hr : Emulated.Exec max initial h s) (hf : failures h = 0)
    (hq : ∀ t, s.pc t = .idle ∨ s.pc t = .sleep) : s.mutex = none := by
  have key : ∀ t, s.mutex = some t → Emulated.Inside (s.pc t) := by
    clear hq
    induction hr with
    | start hi => intro t; rw [hi.1]; simp
    | tau hr₁ st ih =>
      have ih := ih hf
      have im := (Emulated.exec_inv hr₁).mutex
      cases st <;> intro u <;> simp only [Function.update_apply] <;> grind [Emulated.Inside]
    | emit hr₁ st ih =>
      have im := (Emulated.exec_inv hr₁).mutex
      cases st <;> simp only [failures] at hf <;> (try omega) <;>
      · have ih := ih hf
        intro u
        simp only [Function.update_apply]
        grind [Emulated.Inside]
  cases hm : s.mutex with
  | none => rfl
  | some t =>
    have := key t hm
    have := hq t
    grind [Emulated.Inside]

/-- The mutex is held by a thread that is not going to unlock it. -/
private def Stuck (s : Emulated.State T) : Prop :=
  s.mutex ≠ none ∧ ∀ t, ¬ Emulated.Inside (s.pc t)

private theorem stuck_step {max : Int} {s s' : Emulated.State T} {e : Option (Event T)}
    (hs : Stuck s) (st : Emulated.Step max s e s') :
    Stuck s' ∧ (∀ t, s.pc t = .rLock → s'.pc t = .rLock) ∧
    ∀ x, e = some x → ((∃ t, x = .releasing t ∧ s'.pc t = .rLock) ∨
      (∃ t, x = .released t ∧ s.pc t = .rSignal)) := by
  obtain ⟨h1, h2⟩ := hs
  cases st <;> simp only [Stuck, Function.update_apply] <;> grind [Emulated.Inside]

/-- C26 fails in the emulation: once a release was answered by an error, no wait, timed wait or failing
release ever returns again, and no release called afterwards ever returns. -/
theorem emulated_wedged_violated {max initial : Int} {h₂ h₁ : List (Event T)} {t : T}
    {s : Emulated.State T} (hr : Emulated.Exec max initial (h₂ ++ .releaseFailed t :: h₁) s) :
    (∀ u, .waited u ∉ h₂ ∧ .timedOut u ∉ h₂ ∧ .releaseFailed u ∉ h₂) ∧
    (∀ u a b, h₂ = a ++ .releasing u :: b → ∀ e ∈ a, e.thread ≠ u) := by
  have key : Stuck s ∧ (∀ u, .waited u ∉ h₂ ∧ .timedOut u ∉ h₂ ∧ .releaseFailed u ∉ h₂) ∧
      (∀ u a b, h₂ = a ++ .releasing u :: b → s.pc u = .rLock ∧ ∀ e ∈ a, e.thread ≠ u) := by
    generalize he : h₂ ++ .releaseFailed t :: h₁ = h' at hr
    induction hr generalizing h₂ with
    | start _ => simp at he
    | tau _ st ih =>
      obtain ⟨hs, hn, hl⟩ := ih he
      obtain ⟨hs', hk, _⟩ := stuck_step hs st
      exact ⟨hs', hn, fun u a b hab => ⟨hk u (hl u a b hab).1, (hl u a b hab).2⟩⟩
    | @emit h s₁ e s₂ hr₁ st ih =>
      cases h₂ with
      | nil =>
        obtain ⟨rfl, rfl⟩ := List.cons.inj he
        have im := (Emulated.exec_inv hr₁).mutex
        refine ⟨?_, by simp, by simp⟩
        cases st with
        | exceeded g1 g2 =>
          simp only [Stuck, Function.update_apply]
          grind [Emulated.Inside]
      | cons x h₂ =>
        obtain ⟨rfl, he'⟩ := List.cons.inj he
        obtain ⟨hs, hn, hl⟩ := ih he'
        obtain ⟨hs', hk, hx⟩ := stuck_step hs st
        refine ⟨hs', ?_, ?_⟩
        · intro u
          have := hn u
          rcases hx x rfl with ⟨v, rfl, _⟩ | ⟨v, rfl, _⟩ <;> simpa using this
        · intro u a b hab
          cases a with
          | nil =>
            obtain ⟨rfl, rfl⟩ := List.cons.inj hab
            rcases hx _ rfl with ⟨v, hv, hp⟩ | ⟨v, hv, _⟩
            · cases hv; exact ⟨hp, by simp⟩
            · cases hv
          | cons y a =>
            obtain ⟨rfl, rfl⟩ := List.cons.inj hab
            obtain ⟨hp, ha⟩ := hl u a b rfl
            refine ⟨hk u hp, ?_⟩
            intro e he
            rcases List.mem_cons.mp he with rfl | he
            · rcases hx _ rfl with ⟨v, rfl, hv⟩ | ⟨v, rfl, hv⟩
              · rintro rfl
                simp only [Event.thread] at hp
                cases st with
                | releasing g => rw [g] at hp; cases hp
              · rintro rfl
                simp only [Event.thread] at hp
                rw [hp] at hv; cases hv
            · exact ha e he
  exact ⟨key.2.1, fun u a b hab => (key.2.2 u a b hab).2⟩

/-- The hypothesis of the last theorem is met: a semaphore with initial count 1 and maximum 1, released
once and then again. -/
example : ∃ s, Emulated.Exec (T := Bool) 1 1 ([.releasing false] ++ .releaseFailed true :: [.releasing true]) s :=
  ⟨_, .emit (.emit (.tau (.emit (.start (s := ⟨none, 1, fun _ => .idle⟩) ⟨rfl, rfl, fun _ => rfl⟩)
    (.releasing rfl)) (.rLock (t := true) rfl rfl)) (.exceeded rfl (by decide))) (.releasing rfl)⟩

/-- The hypotheses of the counting theorems are met by a run in which a waiter blocks and is served by
a release. -/
example : ∃ s, Emulated.Exec (T := Bool) 1 0 [.waited false, .released true, .releasing true] s ∧
    ∀ t, s.pc t = .idle ∨ s.pc t = .sleep := by
  refine ⟨⟨none, 0, _⟩, .emit (.tau (.tau (.emit (.tau (.tau (.tau (.emit (.tau (.tau (.start
    (s := ⟨none, 0, fun _ => .idle⟩) ⟨rfl, rfl, fun _ => rfl⟩) (.wLock (t := false) rfl rfl))
    (.wBlock (t := false) rfl (by decide))) (.releasing (t := true) rfl)) (.rLock (t := true) rfl rfl))
    (.rIncr (t := true) rfl (by decide))) (.rUnlock (t := true) rfl)) (.rSignal (t := true) rfl))
    (.wake (t := false) rfl rfl)) (.wDecr (t := false) rfl (by decide))) (.wUnlock (t := false) rfl), ?_⟩
  intro t
  cases t <;> exact .inl rfl

end Verif.Threads.Semaphore
