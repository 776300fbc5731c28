import Verif.JamBuild.Lemmas

/-!
# The order of the commands of a build: the properties
-/

namespace Verif.JamBuild

/-- **C153.**  In every state of a build, in every interleaving and whatever the statuses of the commands are: a command is begun
only after all commands that must be complete before it are complete; and no command is begun twice. -/
theorem commands_in_order {b : Build} (hb : b.Ok) {k : Nat} {s : State} (h : Reach b k s) :
    (∀ p c, Before b p c → c ∈ s.begun → p ∈ s.done) ∧ s.begun.Nodup :=
  ⟨fun _ _ hp => before_done hb (inv_reach hb h) hp, List.nodup_iff_count.2 (begun_le (inv_reach hb h))⟩

/-- Two commands for which a third one waits, a placeholder, and the sentinel; one edge is given twice. -/
def sample : Build where
  n := 5
  calls := [(3, 4), (2, 3), (0, 2), (1, 2), (0, 2), (1, 4)]
  real := fun c => c < 3
  ignore := fun _ => false
  sentinel := 4
  status := fun _ => 0

theorem sample_ok : sample.Ok := ⟨by decide, by decide⟩

/-- The build of the sample: first one command ends, then the other one, and then the third one is begun. -/
example : (init sample).pool = [0, 1] ∧
    ∃ s, Reach sample 2 s ∧ s.pool = [2] ∧ s.done = [0, 1] ∧ s.pend = [] ∧ s.ok = false :=
  ⟨by decide +kernel, _, .step (.step .init (.run [0] [] 1 (by decide +kernel))) (.run [] [] 0 (by decide +kernel)),
    by decide +kernel, by decide +kernel, by decide +kernel, by decide +kernel⟩

/-- **C153.**  The build is successful exactly if the sentinel is complete, and then all commands that it depends on are. -/
theorem success {b : Build} (hb : b.Ok) {k : Nat} {s : State} (h : Reach b k s) :
    (s.ok = true ↔ b.sentinel ∈ s.done) ∧ (s.ok = true → ∀ c, Before b c b.sentinel → c ∈ s.done) := by
  have hi := inv_reach hb h
  exact ⟨hi.ok, fun ho c hc => before_done hb hi hc (done_begun (hi.ok.1 ho))⟩

/-- **C153.**  After a command has failed, none of the commands that depend on it is begun, and if the sentinel is one of them then
the build is not successful. -/
theorem failure_stops {b : Build} (hb : b.Ok) {k : Nat} {s : State} (h : Reach b k s) (f : Nat)
    (hf : f ∈ s.failed ∨ f ∈ s.crashed) :
    (∀ c, Before b f c → c ∉ s.begun) ∧ (Before b f b.sentinel → s.ok = false) := by
  have hi := inv_reach hb h
  have hnd : f ∉ s.done := by
    have h1 := begun_le hi f
    rw [count_begun] at h1
    have h2 : 1 ≤ s.failed.count f + s.crashed.count f := by
      rcases hf with hf | hf
      · have := List.count_pos_iff.2 hf
        omega
      · have := List.count_pos_iff.2 hf
        omega
    rw [← List.count_eq_zero]
    omega
  have h1 : ∀ c, Before b f c → c ∉ s.begun := fun c hc hm => hnd (before_done hb hi hc hm)
  refine ⟨h1, fun hs => ?_⟩
  cases ho : s.ok with
  | false => rfl
  | true => exact absurd (done_begun (hi.ok.1 ho)) (h1 _ hs)

/-- If the first command of the sample fails. -/
example : ∃ s, Reach { sample with status := fun _ => 1 } 1 s ∧ s.failed = [0] ∧ s.pool = [1] ∧
    Before { sample with status := fun _ => 1 } 0 2 :=
  ⟨_, .step .init (.run [] [1] 0 (by decide +kernel)), by decide +kernel, by decide +kernel, .call (by decide)⟩

/-- **C153.**  A build never takes more steps than there are commands.  If no command depends on itself, then in a state in which
no command runs or is to be completed and none has failed, all commands are complete and the build is successful. -/
theorem build_completes {b : Build} (hb : b.Ok) {k : Nat} {s : State} (h : Reach b k s) :
    k ≤ b.n ∧ (b.Acyclic → s.pool = [] → s.pend = [] → s.failed = [] → s.crashed = [] →
      (∀ c, c < b.n → c ∈ s.done) ∧ s.ok = true) := by
  have hi := inv_reach hb h
  refine ⟨by have := reach_left hb h; omega, ?_⟩
  rintro ⟨rank, hr⟩ hp hq hf hc
  have hall : ∀ (m c : Nat), rank c ≤ m → c < b.n → c ∈ s.done := by
    intro m
    induction m with
    | zero =>
      intro c hm hcn
      have : c ∈ s.begun := by
        rw [mem_begun hi]
        refine ⟨hcn, ?_⟩
        rw [hi.count c, rem, List.length_eq_zero_iff, List.filter_eq_nil_iff]
        intro p _ hx
        simp only [Bool.and_eq_true, decide_eq_true_eq, (graph_ok hb).succ] at hx
        have := hr _ hx.1
        simp only at this
        omega
      simpa [State.begun, hp, hq, hf, hc] using this
    | succ m ih =>
      intro c hm hcn
      have : c ∈ s.begun := by
        rw [mem_begun hi]
        refine ⟨hcn, ?_⟩
        rw [hi.count c, rem, List.length_eq_zero_iff, List.filter_eq_nil_iff]
        intro p _ hx
        simp only [Bool.and_eq_true, decide_eq_true_eq, (graph_ok hb).succ] at hx
        have hrank := hr _ hx.1
        simp only at hrank
        exact hx.2 (ih p (by omega) (hb.bound _ hx.1).1)
      simpa [State.begun, hp, hq, hf, hc] using this
  refine ⟨fun c hcn => hall (rank c) c (Nat.le_refl _) hcn, hi.ok.2 ?_⟩
  exact hall _ _ (Nat.le_refl _) hb.sentinel.1

example : sample.Acyclic := ⟨id, by decide⟩

/-- The whole build of the sample, in five steps. -/
example : ∃ s, Reach sample 5 s ∧ s.pool = [] ∧ s.pend = [] ∧ s.done = [4, 3, 2, 1, 0] ∧ s.ok = true :=
  ⟨_, .step (.step (.step (.step (.step .init (.run [] [1] 0 (by decide +kernel))) (.run [] [] 1 (by decide +kernel)))
    (.run [] [] 2 (by decide +kernel))) (.place [] [] 3 0 (by decide +kernel))) (.place [] [] 4 0 (by decide +kernel)),
    by decide +kernel, by decide +kernel, by decide +kernel, by decide +kernel⟩

/-- **C153.**  The full claim is that a build in which only commands of `actions ignore` fail does not fail.  This is so if the
commands that wait directly for one that fails have commands of their own; what is missing are the others
(`ignored_violated`). -/
theorem ignored_partial {b : Build} (hb : b.Ok) {k : Nat} {s : State} (h : Reach b k s)
    (ht : ∀ c, b.real c = true → b.status c ≠ 0 → b.ignore c = true ∧ ∀ x, (c, x) ∈ b.calls → b.real x = true) :
    s.failed = [] ∧ s.crashed = [] :=
  (tame_reach hb ht h).2

/-- The first two commands of the sample fail and are ignored. -/
example : ∀ c, ({ sample with status := fun c => if c < 2 then 1 else 0, ignore := fun _ => true, calls := [(0, 2), (1, 2), (2, 4)] } :
      Build).real c = true →
    (if c < 2 then 1 else 0) ≠ 0 → true = true ∧ ∀ x, (c, x) ∈ [(0, 2), (1, 2), (2, 4)] → (decide (x < 3)) = true := by
  intro c _ h2
  have hc : c < 2 := by
    by_cases h : c < 2
    · exact h
    · simp [h] at h2
  refine ⟨rfl, fun x hx => ?_⟩
  simp only [List.mem_cons, Prod.mk.injEq, List.not_mem_nil, or_false] at hx
  rcases hx with ⟨_, rfl⟩ | ⟨_, rfl⟩ | ⟨h, _⟩
  · rfl
  · rfl
  · omega

/-- **C153, not so.**  A build with one command, from `actions ignore`, which fails: its status is passed on to the sentinel, for
which there is then no string to make the message of, and the build does not succeed. -/
theorem ignored_violated : ∃ b : Build, b.Ok ∧ b.calls = [(0, 1)] ∧ b.sentinel = 1 ∧ b.ignore 0 = true ∧ b.status 0 ≠ 0 ∧
    ∃ s, Reach b 2 s ∧ s.crashed = [1] ∧ s.pool = [] ∧ s.pend = [] ∧ s.ok = false :=
  ⟨⟨2, [(0, 1)], fun c => c == 0, fun c => c == 0, 1, fun _ => 1⟩, ⟨by decide, by decide⟩, rfl, rfl, rfl, by decide, _,
    .step (.step .init (.run [] [] 0 (by decide +kernel))) (.place [] [] 1 1 (by decide +kernel)),
    by decide +kernel, by decide +kernel, by decide +kernel, by decide +kernel⟩

/-- **C153, not so.**  If commands depend on one another in a circle, then nothing is begun, nothing fails, and nothing tells the
build to stop: it waits for ever. -/
theorem circle_violated : ∃ b : Build, b.Ok ∧ b.calls = [(0, 2), (1, 0), (0, 1)] ∧
    ∀ k s, Reach b k s → s.pool = [] ∧ s.pend = [] ∧ s.failed = [] ∧ s.crashed = [] ∧ s.ok = false := by
  refine ⟨⟨3, [(0, 2), (1, 0), (0, 1)], fun c => c < 2, fun _ => false, 2, fun _ => 0⟩, ⟨by decide, by decide⟩, rfl, ?_⟩
  intro k s h
  induction h with
  | init =>
    refine ⟨?_, rfl, rfl, rfl, rfl⟩
    decide +kernel
  | step _ hs ih =>
    cases hs with
    | run l₁ l₂ c hp =>
      rw [ih.1] at hp
      simp at hp
    | place l₁ l₂ c st hp =>
      rw [ih.2.1] at hp
      simp at hp

end Verif.JamBuild
