import Verif.Pool.Lemmas

/-!
# The thread pool and the blocking queue: the properties
-/

namespace Verif.Pool

/-- Some states of a pool of two that are used below: both workers wait; a task is added, one worker is released but has not run. -/
theorem reach_waiting : Reach 2 ⟨2, .running, [], [.waiting, .waiting], [0, 1], .none, [], [], 1⟩ :=
  .step (.step (.step .make (.start rfl)) (.worker (.turn 0 (.inl rfl)))) (.worker (.turn 1 (.inl rfl)))

/-- One task runs, another was added while the released worker had not yet run. -/
theorem reach_idle : Reach 2 ⟨2, .running, [8], [.running 7, .waiting], [0, 1], .none, [7, 8], [7], 1⟩ :=
  .step (.step (.step reach_waiting (.addFirst 7 _ rfl (.one 0 rfl))) (.addMore 8 (by simp [Pool.add])))
    (.worker (.turn 0 (.inr rfl)))

/-- The pool was stopped while one worker ran a task and the other one was ready. -/
theorem reach_stopped : Reach 2 ⟨2, .stopped, [], [.running 7, .ended], [], .none, [7], [7], 1⟩ :=
  .step (.step (.step (.step (.step (.step (.step .make (.start rfl))
    (.addFirst 7 _ rfl (.nobody (by decide)))) (.worker (.turn 0 (.inl rfl)))) (.stopBegin rfl))
    (.worker (.turn 1 (.inl rfl)))) (.stopJoin 1 rfl (by decide) rfl)) (.stopEnd rfl)

/-- It was started again, and two more tasks were added. -/
theorem reach_three :
    Reach 2 ⟨2, .running, [], [.running 7, .ended, .running 8, .running 9], [2, 3], .none, [7, 8, 9], [7, 8, 9], 2⟩ :=
  .step (.step (.step (.step (.step reach_stopped (.start rfl)) (.addFirst 8 _ rfl (.nobody (by decide))))
    (.worker (.turn 2 (.inl rfl)))) (.addFirst 9 _ rfl (.nobody (by decide)))) (.worker (.turn 3 (.inl rfl)))

/-- **C150.**  For every history of a pool, with any number of threads and in any interleaving, the tasks are started in the order
in which they were added, each of them once: the tasks that were added are those that were started, and then those that still
wait. -/
theorem tasks_in_order {n : Nat} {s : Pool} (h : Reach n s) : s.added = s.started ++ s.queue :=
  (inv_reach h).tasks

example : Reach 2 ⟨2, .running, [8], [.running 7, .waiting], [0, 1], .none, [7, 8], [7], 1⟩ := reach_idle

/-- **C150.**  If a running pool has threads, its tasks end and none is added, then the workers cannot go on for ever, and when
none of them can go on, then every task that was added has been started and has ended. -/
theorem all_tasks_run {n : Nat} {s s' : Pool} {k : Nat} (h : Reach n s) (hn : 0 < n) (hs : s.state = .running)
    (hr : WRun s k s') :
    k ≤ 3 * s.queue.length + 2 * s.workers.length ∧
      ((∀ s'', ¬ WStep s' s'') → s'.started = s.added ∧ ∀ t, Worker.running t ∉ s'.workers) := by
  constructor
  · have h1 := wrun_measure hr
    have h2 := sum_weight s.workers
    unfold measure at h1
    omega
  · intro hst
    obtain ⟨k1, k2, _⟩ := wrun_kept hr
    have hi := inv_reach (wrun_reach h hr)
    have hq : s'.queue = [] := by
      cases hq : s'.queue with
      | nil => rfl
      | cons t q =>
        obtain ⟨w, hw, h1, h2⟩ := hi.active (k1.trans hs) hn (by simp [hq])
        rcases stuck hst w hw with h | h
        · exact absurd h h1
        · exact absurd h h2
    refine ⟨?_, fun t ht => ?_⟩
    · rw [← k2, hi.tasks, hq, List.append_nil]
    · rcases stuck hst _ ht with h | h <;> cases h

/-- Both tasks of the state above are run, by the one worker that is awake. -/
example : WRun ⟨2, .running, [8], [.running 7, .waiting], [0, 1], .none, [7, 8], [7], 1⟩ 4
    ⟨2, .running, [], [.waiting, .waiting], [0, 1], .none, [7, 8], [7, 8], 1⟩ :=
  .step (.finish 0 7 rfl) (.step (.turn 0 (.inl rfl)) (.step (.finish 0 8 rfl) (.step (.turn 0 (.inl rfl)) (.refl _))))

/-- **C150.**  While a pool is not running, no task is started, whatever is done; and the workers then all end as soon as the tasks
that they run have ended. -/
theorem none_started_when_stopped {n : Nat} {s : Pool} (h : Reach n s) (hs : s.state ≠ .running) :
    (∀ s', Step s s' → s'.started = s.started) ∧
      ∀ s' k, WRun s k s' → s'.started = s.started ∧ ((∀ s'', ¬ WStep s' s'') → ∀ w ∈ s'.workers, w = .ended) := by
  have hw : ∀ {s s' : Pool}, WStep s s' → s.state ≠ .running → s'.started = s.started := by
    intro s s' hst hne
    cases hst with
    | turn i hi =>
      unfold Pool.turn
      rw [if_neg hne]
    | finish i t hi => rfl
  constructor
  · intro s' hst
    cases hst with
    | worker hst => exact hw hst hs
    | stopBegin hr => exact absurd hr hs
    | _ => rfl
  · intro s' k hr
    constructor
    · clear h
      induction hr with
      | refl s => rfl
      | step hst _ ih =>
        have := ih (by rw [(wstep_kept hst).1]; exact hs)
        rw [this, hw hst hs]
    · intro hst w hm
      have hi := inv_reach (wrun_reach h hr)
      rcases stuck hst w hm with h1 | h1
      · exact absurd h1 (hi.awake (by rw [(wrun_kept hr).1]; exact hs) w hm)
      · exact h1

example : Reach 2 ⟨2, .stopped, [], [.running 7, .ended], [], .none, [7], [7], 1⟩ := reach_stopped

/-- **C150, not so.**  One would also rely on it that a task does not wait while a thread has nothing to do.  But a task that is
added when the queue is not empty wakes up nobody: here a task waits and a thread sleeps, and nothing that the workers can do
changes this before the other task ends.  If that task waits for the one in the queue, then both wait for ever. -/
theorem idle_violated : ∃ s, Reach 2 s ∧ s.state = .running ∧ s.queue = [8] ∧ s.workers = [.running 7, .waiting] ∧
    ∀ s', WStep s s' → s' = { s with workers := [.ready, .waiting] } := by
  refine ⟨_, reach_idle, rfl, rfl, rfl, ?_⟩
  intro s' h
  cases h with
  | turn i hi =>
    match i, hi with
    | 0, hi => rcases hi with hi | hi <;> cases hi
    | 1, hi => rcases hi with hi | hi <;> cases hi
    | i + 2, hi => rcases hi with hi | hi <;> cases hi
  | finish i t hi =>
    match i, hi with
    | 0, hi => rfl
    | 1, hi => cases hi
    | i + 2, hi => cases hi

/-- The number of tasks that run. -/
def busy (s : Pool) : Nat := (s.workers.filter fun w => match w with | .running _ => true | _ => false).length

/-- **C151.**  The full claim is that a pool of `n` threads never runs more than `n` tasks at a time, and that when
`thread-pool-stop` returns, no task is running and all threads have ended.  Proved is this for pools of one thread, in all
histories; what is missing are pools of more (`stop_violated`, `limit_violated`). -/
theorem one_thread_partial {s : Pool} (h : Reach 1 s) :
    busy s ≤ 1 ∧ (s.state = .stopped → ∀ w ∈ s.workers, w = .ended) := by
  have ho := one_reach h
  refine ⟨?_, fun hs => (ho.idle hs).1⟩
  have hb : ∀ l : List Worker, (∀ w ∈ l, w = .ended) →
      l.filter (fun w => match w with | .running _ => true | _ => false) = [] := by
    intro l hl
    rw [List.filter_eq_nil_iff]
    intro w hw
    rw [hl w hw]
    simp
  unfold busy
  by_cases hs : s.state = .stopped
  · rw [hb _ (ho.idle hs).1]
    exact Nat.zero_le _
  · obtain ⟨k, x, hw, _⟩ := ho.busy hs
    rw [hw, List.filter_append, hb _ fun w hw => List.eq_of_mem_replicate hw, List.nil_append]
    exact Nat.le_trans (List.length_filter_le _ _) (by simp)

/-- A pool of one that ran a task, was stopped and was started again. -/
example : Reach 1 ⟨1, .running, [], [.ended, .running 8], [1], .none, [7, 8], [7, 8], 2⟩ :=
  .step (.step (.step (.step (.step (.step (.step (.step (.step (.step .make (.start rfl))
    (.addFirst 7 _ rfl (.nobody (by decide)))) (.worker (.turn 0 (.inl rfl)))) (.addFirst 8 _ rfl (.nobody (by decide))))
    (.stopBegin rfl)) (.worker (.finish 0 7 rfl))) (.worker (.turn 0 (.inl rfl)))) (.stopJoin 0 rfl (by decide) rfl))
    (.stopEnd rfl)) (.start rfl) |> fun h => .step h (.worker (.turn 1 (.inl rfl)))

/-- **C151.**  For all pools: after one start there are never more than `n` tasks running, and after several never more than `n` for
each start. -/
theorem limit_partial {n : Nat} {s : Pool} (h : Reach n s) : busy s ≤ n * s.starts := by
  rw [← (inv_reach h).count]
  exact List.length_filter_le _ _

/-- **C151, not so.**  `thread-pool-stop` of a pool of two has returned, and a task is still running: `join-thread` of several
threads returns when one of them has ended. -/
theorem stop_violated : ∃ s, Reach 2 s ∧ s.state = .stopped ∧ s.stop = .none ∧ Worker.running 7 ∈ s.workers :=
  ⟨_, reach_stopped, rfl, rfl, by decide⟩

/-- **C151, not so.**  If the pool is then started again, a pool of two runs three tasks. -/
theorem limit_violated : ∃ s, Reach 2 s ∧ s.size = 2 ∧ busy s = 3 :=
  ⟨_, reach_three, rfl, by decide⟩

/-- **C152.**  For every history of a blocking queue, with any number of threads that push and that wait for elements, the elements
are returned in the order in which they were pushed, each of them once; and if a thread sleeps, then for each element in the queue
there is another thread that was woken for it, so that if nobody has been woken, the queue is empty. -/
theorem blocking_queue {n : Nat} {d : BDeque} (h : DReach n d) :
    d.pushed = d.popped ++ d.queue ∧
      (Worker.waiting ∈ d.callers →
        d.queue.length ≤ (d.callers.filter fun w => w = .woken).length ∧ (Worker.woken ∉ d.callers → d.queue = [])) := by
  have hi := dinv_reach h
  refine ⟨hi.order, fun hw => ?_⟩
  have hc : ∀ l : List Worker, woken l = (l.filter fun w => w = .woken).length := by
    intro l
    induction l with
    | nil => rfl
    | cons w l ih =>
      have : woken (w :: l) = (if w = .woken then 1 else 0) + woken l := by simp [woken]
      rw [this, ih]
      by_cases hw : w = .woken
      · simp [hw, Nat.add_comm]
      · simp [hw]
  have h1 := hi.enough hw
  rw [hc] at h1
  refine ⟨h1, fun hn => ?_⟩
  have : d.callers.filter (fun w => w = .woken) = [] := by
    rw [List.filter_eq_nil_iff]
    intro w hm
    simp only [decide_eq_true_eq]
    rintro rfl
    exact hn hm
  rw [this] at h1
  exact List.length_eq_zero_iff.1 (Nat.le_zero.1 h1)

/-- Three threads wait, and two elements are pushed: two threads are woken. -/
example : DReach 3 ⟨[7, 8], [.woken, .waiting, .woken], [7, 8], []⟩ :=
  .step (.step (.step (.step (.step .make (.turn 0 (.inl rfl))) (.turn 1 (.inl rfl))) (.turn 2 (.inl rfl)))
    (.push 7 _ (.one 0 rfl))) (.push 8 _ (.one 2 rfl))

end Verif.Pool
