import Verif.Threads.Join.Lemmas
/-
Property C27: thread join is exactly-once and never wedges.
-/
namespace Verif.Threads.Join
open Spec
variable {T : Type} [DecidableEq T]

/-- C27: in every interleaving of completions, single joins and multiple joins by any number of threads,
each thread is joined successfully at most once. -/
theorem join_at_most_once {h : List (Event T)} {s : State T} (hr : Exec h s) (x : T) :
    joins x h ≤ 1 := by
  rw [(exec_inv hr).joins x]
  split <;> omega

/-- C27: a thread is joined only after its function has returned, and only by a call that names it. -/
theorem join_only_completed {h : List (Event T)} {s : State T} {t x : T}
    (hr : Exec (.joined t x :: h) s) :
    Event.exited x ∈ h ∧ ∃ xs, current t h = some xs ∧ x ∈ xs := by
  generalize he : Event.joined t x :: h = h' at hr
  induction hr with
  | start _ => simp at he
  | tau _ _ ih => exact ih he
  | @emit h₁ s₁ e s₂ hr₁ st ih =>
    obtain ⟨rfl, rfl⟩ := List.cons.inj he
    have hi := exec_inv hr₁
    rw [← hi.completed x, hi.current t]
    cases st with
    | oneNow h1 h2 h3 h4 => exact ⟨h4, by simp [h1, callArgs]⟩
    | oneDone h1 h2 h3 => exact ⟨h3, by simp [h1, callArgs]⟩
    | manyNow h1 h2 h3 h4 =>
      obtain ⟨g1, g2⟩ := firstCompleted_some h4
      rw [markAll_apply, if_pos g1] at g2
      exact ⟨g2, by simpa [h1, callArgs] using g1⟩
    | manyDone h1 h2 h3 =>
      obtain ⟨g1, g2⟩ := firstCompleted_some h3
      exact ⟨g2, by simpa [h1, callArgs] using g1⟩

private theorem joins_pos_mono {h₂ h₁ : List (Event T)} {x : T} (hx : 0 < joins x h₁) :
    0 < joins x (h₂ ++ h₁) := by
  induction h₂ with
  | nil => exact hx
  | cons e h ih => cases e <;> simp only [List.cons_append, joins] <;> omega

/-- C27: a call of `join-thread` that names a thread already joined never returns successfully; the
answer, if there is one, is the duplicate join error. -/
theorem join_duplicate_fails {a b : List (Event T)} {s : State T} {t x y : T} {xs : List T}
    (hr : Exec (.joined t y :: (a ++ .joining t xs :: b)) s)
    (ha : ∀ e ∈ a, e.thread ≠ t) (hx : x ∈ xs) : joins x b = 0 := by
  -- the call is answered while `xs` are the arguments, and its arguments were unjoined when marked
  have hcur : ∀ (a : List (Event T)), (∀ e ∈ a, e.thread ≠ t) →
      current t (a ++ .joining t xs :: b) = some xs := by
    intro a
    induction a with
    | nil => intro _; simp [current]
    | cons e a ih =>
      intro ha
      have h1 := ha e (by simp)
      have h2 := ih (fun e he => ha e (by simp [he]))
      cases e <;> simp_all [current, Event.thread]
  generalize he : Event.joined t y :: (a ++ .joining t xs :: b) = h' at hr
  induction hr with
  | start _ => simp at he
  | tau _ _ ih => exact ih he
  | @emit h₁ s₁ e s₂ hr₁ st ih =>
    obtain ⟨rfl, rfl⟩ := List.cons.inj he
    have hi := exec_inv hr₁
    have hc := hcur a ha
    rw [hi.current t] at hc
    have hz : joins x (a ++ .joining t xs :: b) = 0 := by
      rw [hi.joins x]
      cases st with
      | oneNow h1 h2 h3 h4 =>
        rw [h1] at hc; cases hc
        have : (s₁.flags y).marked = false ∧ (s₁.flags y).joined = false := by simpa [busy] using h3
        simp_all
      | oneDone h1 h2 h3 =>
        rw [h1] at hc; cases hc
        have := hi.waiting t y (by simp [h1, waitingFor])
        simp_all
      | manyNow h1 h2 h3 h4 =>
        rw [h1] at hc; cases hc
        have := busy_any h3 x hx
        simp_all
      | manyDone h1 h2 h3 =>
        rw [h1] at hc; cases hc
        have := hi.waiting t x (by simpa [h1, waitingFor] using hx)
        simp_all
    by_contra hne
    have h3 : 0 < joins x (.joining t xs :: b) := by simpa [joins] using Nat.pos_of_ne_zero hne
    have := joins_pos_mono (h₂ := a) h3
    omega

/-- Marks are exactly the arguments of the joins under way. -/
private structure Inv2 (h : List (Event T)) (s : State T) : Prop where
  inv : Inv h s
  lock : s.lock = none
  marks : ∀ x, (s.flags x).marked = true → ∃ t, x ∈ waitingFor (s.pc t)
  nodup : ∀ t xs, s.pc t = .callMany xs ∨ s.pc t = .waitMany xs → xs.Nodup

private theorem exec_inv2 {h : List (Event T)} {s : State T} (hr : Exec h s) (h1 : NoRepeats h)
    (h2 : NoFailedMany h) : Inv2 h s := by
  induction hr with
  | start hi =>
    refine ⟨inv_init hi, hi.1, ?_, ?_⟩
    · intro x; rw [hi.2.1]; simp
    · intro t xs; rw [hi.2.2]; simp
  | tau hr₁ st ih =>
    obtain ⟨hi, hl, hm, hn⟩ := ih h1 h2
    refine ⟨inv_tau hi st, ?_, ?_, ?_⟩
    · cases st <;> exact hl
    · cases st with
      | @oneBlock t x g1 g2 g3 g4 =>
        intro y hy
        simp only [Function.update_apply] at hy
        by_cases hyx : y = x
        · exact ⟨t, by simp [waitingFor, hyx]⟩
        · rw [if_neg hyx] at hy
          obtain ⟨u, hu⟩ := hm y hy
          refine ⟨u, ?_⟩
          have : u ≠ t := by rintro rfl; simp [g1, waitingFor] at hu
          simpa [Function.update_of_ne this] using hu
      | @manyBlock t xs g1 g2 g3 g4 =>
        intro y hy
        simp only [markAll_apply] at hy
        by_cases hyx : y ∈ xs
        · exact ⟨t, by simp [waitingFor, hyx]⟩
        · rw [if_neg hyx] at hy
          obtain ⟨u, hu⟩ := hm y hy
          refine ⟨u, ?_⟩
          have : u ≠ t := by rintro rfl; simp [g1, waitingFor] at hu
          simpa [Function.update_of_ne this] using hu
    · cases st with
      | @oneBlock t x g1 g2 g3 g4 => intro u xs; simp only [Function.update_apply]; grind
      | @manyBlock t xs g1 g2 g3 g4 => intro u xs; simp only [Function.update_apply]; grind
  | @emit h₁ s₁ e s₂ hr₁ st ih =>
    have h1' : NoRepeats h₁ := by cases e <;> simp_all [NoRepeats]
    have h2' : NoFailedMany h₁ := by cases e <;> simp_all [NoFailedMany]
    obtain ⟨hi, hl, hm, hn⟩ := ih h1' h2'
    have hkeep : ∀ (t : T) (y : T) (p : PC T), waitingFor (s₁.pc t) = [] →
        (∃ u, y ∈ waitingFor (s₁.pc u)) → ∃ u, y ∈ waitingFor (Function.update s₁.pc t p u) := by
      rintro t y p h0 ⟨u, hu⟩
      refine ⟨u, ?_⟩
      have : u ≠ t := by rintro rfl; simp [h0] at hu
      simpa [Function.update_of_ne this] using hu
    suffices hs : s₂.lock = none ∧ (∀ x, (s₂.flags x).marked = true → ∃ t, x ∈ waitingFor (s₂.pc t)) ∧
        (∀ t xs, s₂.pc t = .callMany xs ∨ s₂.pc t = .waitMany xs → xs.Nodup) from
      ⟨inv_emit hi st, hs.1, hs.2.1, hs.2.2⟩
    cases st with
    | @exit t g1 g2 =>
      refine ⟨hl, ?_, ?_⟩
      · intro y hy
        apply hkeep t y _ (by simp [g1, waitingFor])
        apply hm
        simp only [Function.update_apply] at hy
        grind
      · intro u xs; simp only [Function.update_apply]; grind
    | @callOne t x g1 =>
      refine ⟨hl, fun y hy => hkeep t y _ (by simp [g1, waitingFor]) (hm y hy), ?_⟩
      intro u xs; simp only [Function.update_apply]; grind
    | @callMany t xs g1 g2 =>
      refine ⟨hl, fun y hy => hkeep t y _ (by simp [g1, waitingFor]) (hm y hy), ?_⟩
      have := h1.1
      intro u xs; simp only [Function.update_apply]; grind
    | @oneDuplicate t x g1 g2 g3 =>
      refine ⟨hl, fun y hy => hkeep t y _ (by simp [g1, waitingFor]) (hm y hy), ?_⟩
      intro u xs; simp only [Function.update_apply]; grind
    | @oneNow t x g1 g2 g3 g4 =>
      have hb : (s₁.flags x).marked = false ∧ (s₁.flags x).joined = false := by simpa [busy] using g3
      refine ⟨hl, ?_, ?_⟩
      · intro y hy
        simp only [finishOne, Function.update_apply] at hy
        by_cases hyx : y = x
        · simp [hyx] at hy
        · simp only [hyx, if_false] at hy
          exact hkeep t y _ (by simp [g1, waitingFor]) (hm y hy)
      · intro u xs; simp only [Function.update_apply]; grind
    | @oneDone t x g1 g2 g3 =>
      have hb := hi.waiting t x (by simp [g1, waitingFor])
      refine ⟨hl, ?_, ?_⟩
      · intro y hy
        simp only [finishOne, Function.update_apply] at hy
        by_cases hyx : y = x
        · simp [hyx, hb.1] at hy
        · simp only [hyx, if_false] at hy
          obtain ⟨u, hu⟩ := hm y hy
          refine ⟨u, ?_⟩
          have : u ≠ t := by rintro rfl; simp [g1, waitingFor, hyx] at hu
          simpa [Function.update_of_ne this] using hu
      · intro u xs; simp only [Function.update_apply]; grind
    | @manyDuplicate t xs g1 g2 g3 =>
      exfalso
      have := h2.1 xs (by rw [hi.current t, g1]; rfl)
      have := hi.many t xs (.inl g1)
      omega
    | @manyNow t xs x g1 g2 g3 g4 =>
      have hnd := hn t xs (.inl g1)
      refine ⟨hl, ?_, ?_⟩
      · intro y hy
        simp only [finishMany] at hy
        by_cases hyx : y ∈ xs
        · rw [toggleAll_mem _ _ _ hnd hyx] at hy
          simp only [Function.update_apply, markAll_apply] at hy
          grind
        · rw [toggleAll_notMem _ _ _ hyx] at hy
          have hne : y ≠ x := by rintro rfl; exact hyx (firstCompleted_some g4).1
          rw [Function.update_of_ne hne, markAll_apply, if_neg hyx] at hy
          exact hkeep t y _ (by simp [g1, waitingFor]) (hm y hy)
      · intro u xs; simp only [Function.update_apply]; grind
    | @manyDone t xs x g1 g2 g3 =>
      have hnd := hn t xs (.inr g1)
      refine ⟨hl, ?_, ?_⟩
      · intro y hy
        simp only [finishMany] at hy
        by_cases hyx : y ∈ xs
        · rw [toggleAll_mem _ _ _ hnd hyx] at hy
          have hb := hi.waiting t y (by simpa [g1, waitingFor] using hyx)
          simp only [Function.update_apply] at hy
          grind
        · rw [toggleAll_notMem _ _ _ hyx] at hy
          have hne : y ≠ x := by rintro rfl; exact hyx (firstCompleted_some g3).1
          rw [Function.update_of_ne hne] at hy
          obtain ⟨u, hu⟩ := hm y hy
          refine ⟨u, ?_⟩
          have : u ≠ t := by rintro rfl; simp [g1, waitingFor, hyx] at hu
          simpa [Function.update_of_ne this] using hu
      · intro u xs; simp only [Function.update_apply]; grind

/-- C27, never wedged: as long as no `join-thread` named a thread twice and none with several arguments
was answered by an error, any thread not inside a call can join any thread that has completed, was not
joined and is not being joined.  Missing: the two cases below, where this fails. -/
theorem join_possible_partial {h : List (Event T)} {s : State T} (hr : Exec h s) (h1 : NoRepeats h)
    (h2 : NoFailedMany h) {t x : T} (ht : s.pc t = .idle) (hx : Event.exited x ∈ h)
    (hj : joins x h = 0) (hb : ¬ BeingJoined x h) :
    ∃ s', Exec (.joined t x :: .joining t [x] :: h) s' := by
  obtain ⟨hi, hl, hm, _⟩ := exec_inv2 hr h1 h2
  refine ⟨_, .emit (.emit hr (.callOne ht)) (.oneNow (t := t) (x := x) (by simp) hl ?_ ?_)⟩
  · have h3 : (s.flags x).joined = false := by
      have := hi.joins x
      cases hj' : (s.flags x).joined with
      | false => rfl
      | true => simp [hj', hj] at this
    have h4 : (s.flags x).marked = false := by
      by_contra hmk
      obtain ⟨u, hu⟩ := hm x (by simpa using hmk)
      apply hb
      refine ⟨u, waitingFor (s.pc u), ?_, hu⟩
      rw [hi.current u]
      revert hu
      cases s.pc u <;> simp [waitingFor, callArgs]
    simp [busy, h3, h4]
  · exact (hi.completed x).mpr hx

/-- C27: under the same conditions an error is signalled only when one of the threads was joined or is
being joined by another call. -/
theorem join_failure_justified_partial {h : List (Event T)} {s s' : State T} (hr : Exec h s)
    (h1 : NoRepeats h) (h2 : NoFailedMany h) {t : T} (st : Step s (some (.joinFailed t)) s') :
    ∃ xs, current t h = some xs ∧ ∃ x ∈ xs, joins x h = 1 ∨
      ∃ u, u ≠ t ∧ ∃ ys, current u h = some ys ∧ x ∈ ys := by
  obtain ⟨hi, hl, hm, _⟩ := exec_inv2 hr h1 h2
  have key : ∀ x, busy (s.flags x) = true → waitingFor (s.pc t) = [] → joins x h = 1 ∨
      ∃ u, u ≠ t ∧ ∃ ys, current u h = some ys ∧ x ∈ ys := by
    intro x hb h0
    rw [hi.joins x]
    by_cases hj : (s.flags x).joined = true
    · exact .inl (by simp [hj])
    · right
      have hmk : (s.flags x).marked = true := by simpa [busy, hj] using hb
      obtain ⟨u, hu⟩ := hm x hmk
      refine ⟨u, ?_, waitingFor (s.pc u), ?_, hu⟩
      · rintro rfl; simp [h0] at hu
      · rw [hi.current u]
        revert hu
        cases s.pc u <;> simp [waitingFor, callArgs]
  cases st with
  | @oneDuplicate _ x g1 g2 g3 =>
    exact ⟨[x], by rw [hi.current t, g1]; rfl, x, by simp, key x g3 (by simp [g1, waitingFor])⟩
  | @manyDuplicate _ xs g1 g2 g3 =>
    obtain ⟨x, hx, hb⟩ := List.any_eq_true.mp g3
    exact ⟨xs, by rw [hi.current t, g1]; rfl, x, hx, key x hb (by simp [g1, waitingFor])⟩

/-- C27 fails: once a `join-thread` with several arguments was answered by the duplicate join error, no
join ever returns again and no thread ever completes. -/
theorem join_wedged_violated {h₂ h₁ : List (Event T)} {t : T} {s : State T}
    (hr : Exec (h₂ ++ .joinFailed t :: h₁) s) {xs : List T} (hc : current t h₁ = some xs)
    (hlen : 2 ≤ xs.length) :
    ∀ u, Event.exited u ∉ h₂ ∧ Event.joinFailed u ∉ h₂ ∧ ∀ x, Event.joined u x ∉ h₂ := by
  have key : s.lock = some t ∧
      ∀ u, Event.exited u ∉ h₂ ∧ Event.joinFailed u ∉ h₂ ∧ ∀ x, Event.joined u x ∉ h₂ := by
    generalize he : h₂ ++ .joinFailed t :: h₁ = h' at hr
    induction hr generalizing h₂ with
    | start _ => simp at he
    | tau _ st ih =>
      obtain ⟨hs, hn⟩ := ih he
      refine ⟨?_, hn⟩
      cases st <;> simp_all
    | @emit h s₁ e s₂ hr₁ st ih =>
      cases h₂ with
      | nil =>
        obtain ⟨rfl, rfl⟩ := List.cons.inj he
        refine ⟨?_, by simp⟩
        have hi := exec_inv hr₁
        rw [hi.current t] at hc
        cases st with
        | oneDuplicate g1 g2 g3 => rw [g1] at hc; cases hc; simp at hlen
        | manyDuplicate g1 g2 g3 => rfl
      | cons x h₂ =>
        obtain ⟨rfl, he'⟩ := List.cons.inj he
        obtain ⟨hs, hn⟩ := ih he'
        cases st <;> simp_all
  exact key.2

private def s0 : State (Fin 4) := ⟨none, fun _ => ⟨false, false, false⟩, fun _ => .idle⟩

/-- The hypotheses of the last theorem are met: thread 1 completed and was joined by thread 0; joining
threads 1 and 2 together gives the error, and thread 3 then tries to join thread 2. -/
example : ∃ s, Exec (T := Fin 4) ([.joining 3 [2]] ++ .joinFailed 0 :: [.joining 0 [1, 2], .joined 0 1,
    .joining 0 [1], .exited 1]) s ∧ current 0 [.joining 0 [1, 2], .joined 0 1, .joining 0 [1],
    .exited 1] = some [1, 2] := by
  refine exists_and_right.mpr ⟨⟨_, .emit (.emit (.emit (.emit (.emit (.emit (.start (s := s0)
    ⟨rfl, fun _ => rfl, fun _ => rfl⟩) (.exit rfl rfl)) (.callOne rfl)) (.oneNow rfl rfl rfl rfl))
    (.callMany rfl (by decide))) (.manyDuplicate rfl rfl rfl)) (.callOne rfl)⟩, rfl⟩

/-- C27 fails: thread 0 joins one of threads 1 (completed), 2, 2.  Afterwards thread 2, which completed
and was never joined nor is being joined, cannot be joined: the duplicate join error is signalled. -/
theorem join_repeated_violated :
    ∃ s, Exec (T := Fin 4) [.joinFailed 3, .joining 3 [2], .exited 2, .joined 0 1, .joining 0 [1, 2, 2],
      .exited 1] s ∧ joins (2 : Fin 4) [.joining 3 [2], .exited 2, .joined 0 1, .joining 0 [1, 2, 2],
      .exited 1] = 0 ∧ ∀ u : Fin 4, u ≠ 3 → current u [.joining 3 [2], .exited 2, .joined 0 1,
      .joining 0 [1, 2, 2], .exited (1 : Fin 4)] = none := by
  refine exists_and_right.mpr ⟨⟨_, .emit (.emit (.emit (.emit (.emit (.emit (.start (s := s0)
    ⟨rfl, fun _ => rfl, fun _ => rfl⟩) (.exit rfl rfl)) (.callMany rfl (by decide)))
    (.manyNow rfl rfl rfl rfl)) (.exit rfl rfl)) (.callOne rfl)) (.oneDuplicate rfl rfl rfl)⟩, rfl, ?_⟩
  decide

/-- The hypotheses of `join_possible_partial` are met after a join that had to wait. -/
example : ∃ s, Exec (T := Fin 4) [.exited 2, .joined 0 1, .exited 1, .joining 0 [1]] s ∧
    s.pc 3 = .idle ∧ joins (2 : Fin 4) [.exited 2, .joined 0 1, .exited 1, .joining 0 [1]] = 0 := by
  exact ⟨⟨none, _, Function.update (Function.update (Function.update (Function.update (Function.update
    (fun _ => .idle) 0 (.callOne 1)) 0 (.waitOne 1)) 1 .exited) 0 .idle) 2 .exited⟩,
    .emit (.emit (.emit (.tau (.emit (.start (s := s0) ⟨rfl, fun _ => rfl, fun _ => rfl⟩)
      (.callOne (t := 0) (x := 1) rfl)) (.oneBlock (t := 0) (x := 1) rfl rfl rfl rfl)) (.exit rfl rfl))
      (.oneDone rfl rfl rfl)) (.exit rfl rfl), rfl, rfl⟩

end Verif.Threads.Join
