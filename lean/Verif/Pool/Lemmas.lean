import Verif.Pool.Model

/-!
# Lemmas on the thread pool
-/

namespace Verif.Pool

theorem lt_of_get {α : Type} {l : List α} {i : Nat} {x : α} (h : l[i]? = some x) : i < l.length := by
  rcases Nat.lt_or_ge i l.length with h1 | h1
  · exact h1
  · rw [List.getElem?_eq_none h1] at h
    cases h

theorem mem_set {α : Type} {l : List α} {i : Nat} {x : α} (y : α) (h : l[i]? = some x) : y ∈ l.set i y := by
  have hi := lt_of_get h
  have : (l.set i y)[i]? = some y := by
    rw [List.getElem?_set_self hi]
  exact List.mem_of_getElem? this

/-- A worker that does not sleep and has not ended. -/
def Active (w : Worker) : Prop := w ≠ .waiting ∧ w ≠ .ended

/-- What holds in all states that can be reached. -/
structure Inv (n : Nat) (s : Pool) : Prop where
  size : s.size = n
  tasks : s.added = s.started ++ s.queue
  alive : s.state = .running → 0 < n → ∃ w ∈ s.workers, w ≠ .ended
  active : s.state = .running → 0 < n → s.queue ≠ [] → ∃ w ∈ s.workers, Active w
  awake : s.state ≠ .running → ∀ w ∈ s.workers, w ≠ .waiting
  stop : s.stop = .none ↔ s.state ≠ .stopping
  count : s.workers.length = n * s.starts

theorem inv_make (n : Nat) : Inv n (Pool.make n) := by
  constructor <;> simp [Pool.make]

theorem released_length {ws ws' : List Worker} (h : Released ws ws') : ws'.length = ws.length := by
  cases h with
  | nobody _ => rfl
  | one i h => simp

/-- After a release some worker is awake, if there is one that has not ended. -/
theorem released_active {ws ws' : List Worker} (h : Released ws ws') (ha : ∃ w ∈ ws, w ≠ .ended) : ∃ w ∈ ws', Active w := by
  cases h with
  | nobody h =>
    obtain ⟨w, hw, he⟩ := ha
    exact ⟨w, hw, h w hw, he⟩
  | one i h => exact ⟨.woken, mem_set _ h, by simp, by simp⟩

theorem released_mem {ws ws' : List Worker} (h : Released ws ws') {w : Worker} (hw : w ∈ ws') : w ∈ ws ∨ w = .woken := by
  cases h with
  | nobody h => exact .inl hw
  | one i h =>
    rcases List.mem_or_eq_of_mem_set hw with h | h
    · exact .inl h
    · exact .inr h

theorem inv_wstep {n : Nat} {s s' : Pool} (h : Inv n s) (hs : WStep s s') : Inv n s' := by
  cases hs with
  | turn i hi =>
    have hi2 : ∃ x, s.workers[i]? = some x := by
      rcases hi with hi | hi <;> exact ⟨_, hi⟩
    obtain ⟨x, hx⟩ := hi2
    unfold Pool.turn
    by_cases hr : s.state = .running
    · rw [if_pos hr]
      cases hq : s.queue with
      | nil =>
        have ht := h.tasks
        rw [hq] at ht
        refine ⟨h.size, ?_, ?_, ?_, ?_, h.stop, ?_⟩
        · simpa using ht
        · intro _ _
          exact ⟨.waiting, mem_set _ hx, by simp⟩
        · intro _ _ hne
          exact absurd rfl hne
        · intro hne
          exact absurd hr hne
        · simpa using h.count
      | cons t q =>
        have ht := h.tasks
        rw [hq] at ht
        refine ⟨h.size, ?_, ?_, ?_, ?_, h.stop, ?_⟩
        · simp [ht]
        · intro _ _
          exact ⟨.running t, mem_set _ hx, by simp⟩
        · intro _ _ hne
          exact ⟨.running t, mem_set _ hx, by simp, by simp⟩
        · intro hne
          exact absurd hr hne
        · simpa using h.count
    · rw [if_neg hr]
      refine ⟨h.size, h.tasks, fun hr' => absurd hr' hr, fun hr' => absurd hr' hr, ?_, h.stop, ?_⟩
      · intro _ w hw
        rcases List.mem_or_eq_of_mem_set hw with hw | hw
        · exact h.awake hr w hw
        · simp [hw]
      · simpa using h.count
  | finish i t hi =>
    refine ⟨h.size, h.tasks, ?_, ?_, ?_, h.stop, ?_⟩
    · intro _ _
      exact ⟨.ready, mem_set _ hi, by simp⟩
    · intro _ _ hne
      exact ⟨.ready, mem_set _ hi, by simp, by simp⟩
    · intro hr w hw
      rcases List.mem_or_eq_of_mem_set hw with hw | hw
      · exact h.awake hr w hw
      · simp [hw]
    · simpa using h.count

theorem inv_step {n : Nat} {s s' : Pool} (h : Inv n s) (hs : Step s s') : Inv n s' := by
  cases hs with
  | worker hs => exact inv_wstep h hs
  | spurious i hi =>
    refine ⟨h.size, h.tasks, ?_, ?_, ?_, h.stop, ?_⟩
    · intro _ _
      exact ⟨.woken, mem_set _ hi, by simp⟩
    · intro _ _ hne
      exact ⟨.woken, mem_set _ hi, by simp, by simp⟩
    · intro hr w hw
      rcases List.mem_or_eq_of_mem_set hw with hw | hw
      · exact h.awake hr w hw
      · simp [hw]
    · simpa using h.count
  | start hr =>
    have hm : ∀ (m : Nat), 0 < m → Worker.ready ∈ s.workers ++ List.replicate m .ready := by
      intro m hm
      exact List.mem_append_right _ (List.mem_replicate.2 ⟨by omega, rfl⟩)
    refine ⟨h.size, h.tasks, ?_, ?_, ?_, ?_, ?_⟩
    · intro _ hn
      exact ⟨.ready, hm _ (by rw [h.size]; exact hn), by simp⟩
    · intro _ hn _
      exact ⟨.ready, hm _ (by rw [h.size]; exact hn), by simp, by simp⟩
    · intro hne
      exact absurd rfl hne
    · have := h.stop.2 (by rw [hr]; simp)
      simp [Pool.start, this]
    · simp [Pool.start, h.count, h.size, Nat.mul_add]
  | addFirst t ws hq hrel =>
    refine ⟨h.size, ?_, ?_, ?_, ?_, h.stop, ?_⟩
    · simp [Pool.add, h.tasks]
    · intro hr hn
      obtain ⟨w, hw, ha⟩ := released_active hrel (h.alive hr hn)
      exact ⟨w, hw, ha.2⟩
    · intro hr hn _
      exact released_active hrel (h.alive hr hn)
    · intro hr w hw
      rcases released_mem hrel hw with hw | hw
      · exact h.awake hr w hw
      · simp [hw]
    · show ws.length = _
      rw [released_length hrel]
      exact h.count
  | addMore t hq =>
    refine ⟨h.size, ?_, h.alive, ?_, h.awake, h.stop, h.count⟩
    · simp [Pool.add, h.tasks]
    · intro hr hn _
      exact h.active hr hn hq
  | stopBegin hr =>
    refine ⟨h.size, h.tasks, ?_, ?_, ?_, ?_, ?_⟩
    · intro hr' _
      cases hr'
    · intro hr' _
      cases hr'
    · intro _ w hw
      obtain ⟨v, _, rfl⟩ := List.mem_map.1 hw
      by_cases hv : v = .waiting <;> simp [hv]
    · simp
    · simpa [wakeAll] using h.count
  | stopJoin i hj hm he =>
    refine ⟨h.size, h.tasks, h.alive, h.active, h.awake, ?_, h.count⟩
    have := h.stop
    rw [hj] at this
    simpa using this
  | stopEnd hj =>
    have hne : s.state = .stopping := by
      have := h.stop
      rw [hj] at this
      simpa using this
    refine ⟨h.size, h.tasks, ?_, ?_, ?_, ?_, h.count⟩
    · intro hr' _
      cases hr'
    · intro hr' _
      cases hr'
    · intro _
      exact h.awake (by rw [hne]; simp)
    · simp

theorem inv_reach {n : Nat} {s : Pool} (h : Reach n s) : Inv n s := by
  induction h with
  | make => exact inv_make n
  | step _ hs ih => exact inv_step ih hs

/-! ### The workers alone -/

/-- How many steps a worker can take before it needs another task. -/
def weight : Worker → Nat
  | .ready => 1
  | .waiting => 0
  | .woken => 1
  | .running _ => 2
  | .ended => 0

theorem sum_set (f : Worker → Nat) : ∀ (l : List Worker) (i : Nat) (x y : Worker), l[i]? = some x →
    ((l.set i y).map f).sum + f x = (l.map f).sum + f y
  | [], i, x, y, h => by simp at h
  | w :: l, 0, x, y, h => by
    simp only [List.getElem?_cons_zero, Option.some.injEq] at h
    subst h
    simp only [List.set_cons_zero, List.map_cons, List.sum_cons]
    omega
  | w :: l, i + 1, x, y, h => by
    rw [List.getElem?_cons_succ] at h
    have := sum_set f l i x y h
    simp only [List.set_cons_succ, List.map_cons, List.sum_cons]
    omega

def measure (s : Pool) : Nat := 3 * s.queue.length + (s.workers.map weight).sum

theorem wstep_measure {s s' : Pool} (hs : WStep s s') : measure s' < measure s := by
  cases hs with
  | turn i hi =>
    have hx : ∃ x, s.workers[i]? = some x ∧ weight x = 1 := by
      rcases hi with hi | hi <;> exact ⟨_, hi, rfl⟩
    obtain ⟨x, hx, hw⟩ := hx
    unfold Pool.turn measure
    split
    · split
      · rename_i hq
        have := sum_set weight s.workers i x .waiting hx
        rw [hw, show weight .waiting = 0 from rfl] at this
        simp only [hq, List.length_nil]
        omega
      · rename_i t q hq
        have := sum_set weight s.workers i x (.running t) hx
        rw [hw, show weight (.running t) = 2 from rfl] at this
        simp only [hq, List.length_cons]
        omega
    · have := sum_set weight s.workers i x .ended hx
      rw [hw, show weight .ended = 0 from rfl] at this
      simp only
      omega
  | finish i t hi =>
    have := sum_set weight s.workers i _ .ready hi
    unfold measure
    simp only [weight] at this ⊢
    omega

theorem sum_weight : ∀ l : List Worker, (l.map weight).sum ≤ 2 * l.length
  | [] => by simp
  | w :: l => by
    have := sum_weight l
    have h : weight w ≤ 2 := by cases w <;> simp [weight]
    simp only [List.map_cons, List.sum_cons, List.length_cons]
    omega

theorem wstep_kept {s s' : Pool} (hs : WStep s s') : s'.state = s.state ∧ s'.added = s.added ∧ s'.size = s.size := by
  cases hs with
  | turn i hi =>
    unfold Pool.turn
    split
    · split <;> exact ⟨rfl, rfl, rfl⟩
    · exact ⟨rfl, rfl, rfl⟩
  | finish i t hi => exact ⟨rfl, rfl, rfl⟩

theorem wrun_kept {s s' : Pool} {k : Nat} (hr : WRun s k s') : s'.state = s.state ∧ s'.added = s.added ∧ s'.size = s.size := by
  induction hr with
  | refl s => exact ⟨rfl, rfl, rfl⟩
  | step hs _ ih =>
    obtain ⟨h1, h2, h3⟩ := wstep_kept hs
    exact ⟨ih.1.trans h1, ih.2.1.trans h2, ih.2.2.trans h3⟩

theorem wrun_measure {s s' : Pool} {k : Nat} (hr : WRun s k s') : measure s' + k ≤ measure s := by
  induction hr with
  | refl s => simp
  | step hs _ ih =>
    have := wstep_measure hs
    omega

theorem wrun_reach {n : Nat} {s s' : Pool} {k : Nat} (h : Reach n s) (hr : WRun s k s') : Reach n s' := by
  induction hr with
  | refl s => exact h
  | step hs _ ih => exact ih (.step h (.worker hs))

/-- If no worker can go on, then all sleep or have ended. -/
theorem stuck {s : Pool} (h : ∀ s', ¬ WStep s s') : ∀ w ∈ s.workers, w = .waiting ∨ w = .ended := by
  intro w hw
  obtain ⟨i, hi⟩ := List.getElem?_of_mem hw
  cases w with
  | ready => exact absurd (.turn i (.inl hi)) (h _)
  | woken => exact absurd (.turn i (.inr hi)) (h _)
  | running t => exact absurd (.finish i t hi) (h _)
  | waiting => exact .inl rfl
  | ended => exact .inr rfl

/-! ### A pool of one -/

/-- What holds for a pool with one thread. -/
structure One (s : Pool) : Prop where
  idle : s.state = .stopped → (∀ w ∈ s.workers, w = .ended) ∧ s.threads = []
  busy : s.state ≠ .stopped → ∃ k x, s.workers = List.replicate k .ended ++ [x] ∧ s.threads = [k] ∧
    (s.stop = .joined → x = .ended)

theorem get_one {k i : Nat} {x y : Worker} (h : (List.replicate k Worker.ended ++ [x])[i]? = some y) (hy : y ≠ .ended) :
    i = k ∧ x = y := by
  rcases Nat.lt_trichotomy i k with hi | hi | hi
  · rw [List.getElem?_append_left (by simpa using hi), List.getElem?_replicate, if_pos hi] at h
    exact absurd (Option.some.inj h).symm hy
  · subst hi
    rw [List.getElem?_append_right (by simp)] at h
    simp at h
    exact ⟨rfl, h⟩
  · rw [List.getElem?_eq_none (by simp; omega)] at h
    cases h

theorem set_one (k : Nat) (x y : Worker) : (List.replicate k Worker.ended ++ [x]).set k y = List.replicate k .ended ++ [y] := by
  rw [List.set_append_right _ _ (by simp)]
  simp

theorem one_set {s : Pool} (h : One s) {i : Nat} {y : Worker} (z : Worker) (hi : s.workers[i]? = some y) (hy : y ≠ .ended) :
    s.state ≠ .stopped ∧ ∃ k, s.workers.set i z = List.replicate k .ended ++ [z] ∧ s.threads = [k] ∧ s.stop ≠ .joined := by
  have hne : s.state ≠ .stopped := by
    intro hs
    exact hy ((h.idle hs).1 y (List.mem_of_getElem? hi))
  refine ⟨hne, ?_⟩
  obtain ⟨k, x, hw, ht, hj⟩ := h.busy hne
  rw [hw] at hi
  obtain ⟨rfl, rfl⟩ := get_one hi hy
  exact ⟨i, by rw [hw, set_one], ht, fun hs => hy (hj hs)⟩

theorem one_step {s s' : Pool} (h : One s) (hi : Inv 1 s) (hs : Step s s') : One s' := by
  have upd : ∀ (i : Nat) (y z : Worker) (q st : List Nat), s.workers[i]? = some y → y ≠ .ended →
      One { s with queue := q, workers := s.workers.set i z, started := st } := by
    intro i y z q st hg hy
    obtain ⟨hne, k, hw, ht, hj⟩ := one_set h z hg hy
    refine ⟨fun hs => absurd hs hne, fun _ => ⟨k, z, hw, ht, fun hs => absurd hs hj⟩⟩
  cases hs with
  | worker hs =>
    cases hs with
    | turn i hg =>
      have hx : ∃ x, s.workers[i]? = some x ∧ x ≠ .ended := by
        rcases hg with hg | hg <;> exact ⟨_, hg, by simp⟩
      obtain ⟨x, hx, hne⟩ := hx
      unfold Pool.turn
      split
      · split
        · exact upd i x .waiting s.queue s.started hx hne
        · exact upd i x _ _ _ hx hne
      · exact upd i x .ended s.queue s.started hx hne
    | finish i t hg => exact upd i _ .ready s.queue s.started hg (by simp)
  | spurious i hg => exact upd i _ .woken s.queue s.started hg (by simp)
  | start hr =>
    obtain ⟨h1, h2⟩ := h.idle hr
    have hn := hi.stop.2 (by rw [hr]; simp)
    refine ⟨fun hs => (by cases hs), fun _ => ⟨s.workers.length, .ready, ?_, ?_, ?_⟩⟩
    · show s.workers ++ List.replicate s.size .ready = _
      rw [hi.size, ← List.eq_replicate_iff.2 ⟨rfl, h1⟩]
      rfl
    · show s.threads ++ List.range' s.workers.length s.size = _
      rw [h2, hi.size]
      rfl
    · intro hs
      simp only [Pool.start] at hs
      rw [hn] at hs
      cases hs
  | addFirst t ws hq hrel =>
    cases hrel with
    | nobody _ => exact ⟨h.idle, h.busy⟩
    | one i hg =>
      obtain ⟨hne, k, hw, ht, hj⟩ := one_set h .woken hg (by simp)
      exact ⟨fun hs => absurd hs hne, fun _ => ⟨k, .woken, hw, ht, fun hs => absurd hs hj⟩⟩
  | addMore t hq => exact ⟨h.idle, h.busy⟩
  | stopBegin hr =>
    refine ⟨fun hs => (by cases hs), fun _ => ?_⟩
    obtain ⟨k, x, hw, ht, _⟩ := h.busy (by rw [hr]; simp)
    refine ⟨k, if x = .waiting then .woken else x, ?_, ht, fun hs => (by cases hs)⟩
    show wakeAll s.workers = _
    rw [hw, wakeAll]
    simp
  | stopJoin i hj hm he =>
    refine ⟨h.idle, fun hne => ?_⟩
    obtain ⟨k, x, hw, ht, _⟩ := h.busy hne
    refine ⟨k, x, hw, ht, fun _ => ?_⟩
    rw [ht, List.mem_singleton] at hm
    subst hm
    rw [hw, List.getElem?_append_right (by simp)] at he
    simpa using he
  | stopEnd hj =>
    have hne : s.state ≠ .stopped := by
      intro hs
      have := hi.stop.2 (by rw [hs]; simp)
      rw [hj] at this
      cases this
    obtain ⟨k, x, hw, ht, hx⟩ := h.busy hne
    refine ⟨fun _ => ⟨?_, rfl⟩, fun hs => absurd rfl hs⟩
    intro w hm
    have hm : w ∈ s.workers := hm
    rw [hw, hx hj] at hm
    rcases List.mem_append.1 hm with hm | hm
    · exact List.eq_of_mem_replicate hm
    · exact List.mem_singleton.1 hm

theorem one_reach {s : Pool} (h : Reach 1 s) : One s := by
  induction h with
  | make => exact ⟨fun _ => ⟨by simp [Pool.make], rfl⟩, fun hs => absurd rfl hs⟩
  | step hr hs ih => exact one_step ih (inv_reach hr) hs

/-! ### The blocking queue -/

/-- How many callers were released and have not yet run. -/
def woken (ws : List Worker) : Nat := (ws.map fun w => if w = .woken then 1 else 0).sum

theorem woken_set {l : List Worker} {i : Nat} {x : Worker} (y : Worker) (h : l[i]? = some x) :
    woken (l.set i y) + (if x = .woken then 1 else 0) = woken l + if y = .woken then 1 else 0 :=
  sum_set (fun w => if w = .woken then 1 else 0) l i x y h

structure DInv (d : BDeque) : Prop where
  order : d.pushed = d.popped ++ d.queue
  enough : Worker.waiting ∈ d.callers → d.queue.length ≤ woken d.callers

theorem dinv_step {d d' : BDeque} (h : DInv d) (hs : DStep d d') : DInv d' := by
  cases hs with
  | push x ws hrel =>
    refine ⟨by simp [BDeque.push, h.order], fun hw => ?_⟩
    cases hrel with
    | nobody hn => exact absurd rfl (hn _ hw)
    | one i hi =>
      have h1 := h.enough (List.mem_of_getElem? hi)
      have h2 := woken_set .woken hi
      simp only [BDeque.push, List.length_append, List.length_singleton]
      simp only [if_true, reduceCtorEq, if_false] at h2
      omega
  | turn i hi =>
    have hx : ∃ x, d.callers[i]? = some x ∧ x ≠ .waiting := by
      rcases hi with hi | hi <;> exact ⟨_, hi, by simp⟩
    obtain ⟨x, hx, hne⟩ := hx
    have ho := h.order
    unfold BDeque.turn
    cases hq : d.queue with
    | nil =>
      refine ⟨by rw [hq] at ho; simpa [hq] using ho, fun _ => ?_⟩
      exact Nat.zero_le _
    | cons y q =>
      rw [hq] at ho
      refine ⟨by simp [ho], fun hw => ?_⟩
      have hw : Worker.waiting ∈ d.callers.set i (.running y) := hw
      rcases List.mem_or_eq_of_mem_set hw with hw | hw
      · have h1 := h.enough hw
        have h2 := woken_set (.running y) hx
        rw [hq, List.length_cons] at h1
        show q.length ≤ woken (d.callers.set i (.running y))
        simp only [reduceCtorEq, if_false] at h2
        split at h2 <;> omega
      · cases hw
  | spurious i hi =>
    refine ⟨h.order, fun _ => ?_⟩
    have h1 := h.enough (List.mem_of_getElem? hi)
    have h2 := woken_set .woken hi
    simp only [if_true, reduceCtorEq, if_false] at h2
    show d.queue.length ≤ woken (d.callers.set i .woken)
    omega
  | again i x hi =>
    refine ⟨h.order, fun hw => ?_⟩
    have hw : Worker.waiting ∈ d.callers.set i .ready := hw
    rcases List.mem_or_eq_of_mem_set hw with hw | hw
    · have h1 := h.enough hw
      have h2 := woken_set .ready hi
      simp only [reduceCtorEq, if_false] at h2
      show d.queue.length ≤ woken (d.callers.set i .ready)
      omega
    · cases hw

theorem dinv_reach {n : Nat} {d : BDeque} (h : DReach n d) : DInv d := by
  induction h with
  | make => exact ⟨rfl, fun _ => Nat.zero_le _⟩
  | step _ hs ih => exact dinv_step ih hs

end Verif.Pool
