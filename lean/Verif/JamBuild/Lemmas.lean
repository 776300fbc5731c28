import Verif.JamBuild.Spec

/-!
# Lemmas on the order of commands
-/

namespace Verif.JamBuild

theorem update_same {α : Type} (f : Nat → α) (i : Nat) (x : α) : update f i x i = x := by simp [update]

theorem update_other {α : Type} (f : Nat → α) {i j : Nat} (x : α) (h : j ≠ i) : update f i x j = f j := by simp [update, h]

/-! ### The graph -/

/-- How many commands of a list are predecessors and not among some. -/
def rem (succ : Nat → List Nat) (done : List Nat) (l : List Nat) (c : Nat) : Nat :=
  (l.filter fun p => decide (c ∈ succ p) && decide (p ∉ done)).length

/-- Taking one element of a list without duplicates out of a filter. -/
theorem filter_out (f g : Nat → Bool) (p : Nat) (hg : ∀ q, q ≠ p → g q = f q) (hp : g p = false) : ∀ l : List Nat, l.Nodup →
    (l.filter f).length = (l.filter g).length + if p ∈ l ∧ f p = true then 1 else 0
  | [], _ => by simp
  | q :: l, hn => by
    rw [List.nodup_cons] at hn
    have ih := filter_out f g p hg hp l hn.2
    by_cases hq : q = p
    · subst hq
      rw [List.filter_cons, List.filter_cons, hp]
      have : ¬ (q ∈ l ∧ f q = true) := fun h => hn.1 h.1
      rw [if_neg this] at ih
      by_cases hf : f q = true
      · simp [hf, ih]
      · simp [hf, ih]
    · have hm : (p ∈ q :: l ∧ f p = true) ↔ (p ∈ l ∧ f p = true) := by simp [Ne.symm hq]
      rw [List.filter_cons, List.filter_cons, hg q hq]
      simp only [hm]
      cases f q <;> simp [ih] <;> omega

/-- What the calls make. -/
structure GInv (n : Nat) (calls : List (Nat × Nat)) (g : Graph) : Prop where
  succ : ∀ p s, s ∈ g.succ p ↔ (p, s) ∈ calls
  nodup : ∀ p, (g.succ p).Nodup
  count : ∀ s, g.count s = rem g.succ [] (List.range n) s

theorem ginv_add {n : Nat} {calls : List (Nat × Nat)} {g : Graph} (h : GInv n calls g) {p s : Nat} (hp : p < n) :
    GInv n (calls ++ [(p, s)]) (addSuccessor g p s) := by
  unfold addSuccessor
  by_cases hm : s ∈ g.succ p
  · rw [if_pos hm]
    refine ⟨fun q t => ?_, h.nodup, h.count⟩
    rw [h.succ, List.mem_append, List.mem_singleton]
    constructor
    · exact .inl
    · rintro (h1 | h1)
      · exact h1
      · cases h1
        exact (h.succ p s).1 hm
  · rw [if_neg hm]
    refine ⟨fun q t => ?_, fun q => ?_, fun t => ?_⟩
    · show t ∈ update g.succ p (g.succ p ++ [s]) q ↔ _
      by_cases hq : q = p
      · subst hq
        rw [update_same, List.mem_append, List.mem_append, h.succ, List.mem_singleton, List.mem_singleton]
        simp
      · rw [update_other _ _ hq, h.succ, List.mem_append, List.mem_singleton]
        simp [hq]
    · show (update g.succ p (g.succ p ++ [s]) q).Nodup
      by_cases hq : q = p
      · subst hq
        rw [update_same, List.nodup_append]
        refine ⟨h.nodup q, by simp, ?_⟩
        intro a ha b hb
        rw [List.mem_singleton] at hb
        subst hb
        rintro rfl
        exact hm ha
      · rw [update_other _ _ hq]
        exact h.nodup q
    · show update g.count s (g.count s + 1) t = _
      have hf := filter_out (fun q => decide (t ∈ update g.succ p (g.succ p ++ [s]) q) && decide (q ∉ ([] : List Nat)))
        (fun q => decide (t ∈ update g.succ p (g.succ p ++ [s]) q) && decide (q ∉ ([] : List Nat)) && decide (q ≠ p)) p
        (fun q hq => by simp [hq]) (by simp) (List.range n) List.nodup_range
      have hf2 := filter_out (fun q => decide (t ∈ g.succ q) && decide (q ∉ ([] : List Nat)))
        (fun q => decide (t ∈ update g.succ p (g.succ p ++ [s]) q) && decide (q ∉ ([] : List Nat)) && decide (q ≠ p)) p
        (fun q hq => by simp [hq, update_other]) (by simp) (List.range n) List.nodup_range
      have hc := h.count t
      unfold rem at hc ⊢
      simp only [update_same, List.mem_range, hp, true_and, List.not_mem_nil, not_false_eq_true, decide_true, Bool.and_true,
        decide_eq_true_eq, List.mem_append, List.mem_singleton] at hf hf2 hc ⊢
      by_cases ht : t = s
      · subst ht
        simp only [hm, if_false, or_true, if_true, update_same] at hf hf2 ⊢
        omega
      · rw [update_other _ _ ht]
        simp only [ht, or_false] at hf
        omega

theorem ginv_fold {n : Nat} : ∀ (calls pre : List (Nat × Nat)) (g : Graph), GInv n pre g → (∀ c ∈ calls, c.1 < n) →
    GInv n (pre ++ calls) (calls.foldl (fun g c => addSuccessor g c.1 c.2) g)
  | [], pre, g, h, _ => by simpa using h
  | c :: calls, pre, g, h, hb => by
    have := ginv_fold calls (pre ++ [c]) _ (ginv_add h (p := c.1) (s := c.2) (hb c (by simp))) fun d hd => hb d (by simp [hd])
    rw [List.append_assoc] at this
    exact this

theorem graph_ok {b : Build} (h : b.Ok) : GInv b.n b.calls (graphOf b.calls) := by
  have := ginv_fold (n := b.n) b.calls [] ⟨fun _ => [], fun _ => 0⟩
    ⟨by simp, by simp, fun c => by
      unfold rem
      rw [eq_comm, List.length_eq_zero_iff, List.filter_eq_nil_iff]
      simp⟩ fun c hc => (h.bound c hc).1
  exact this

/-! ### The state -/

theorem count_begun (s : State) (c : Nat) : s.begun.count c =
    s.pool.count c + ((s.pend.map Prod.fst).count c + (s.done.count c + (s.failed.count c + s.crashed.count c))) := by
  simp [State.begun, List.count_append]

theorem notify_kept (b : Build) (st : Nat) : ∀ (l : List Nat) (s : State),
    (notify b st l s).done = s.done ∧ (notify b st l s).failed = s.failed ∧ (notify b st l s).crashed = s.crashed ∧
      (notify b st l s).ok = s.ok
  | [], s => ⟨rfl, rfl, rfl, rfl⟩
  | x :: l, s => by
    rw [notify]
    split
    · split
      · exact notify_kept b st l _
      · exact notify_kept b st l _
    · exact notify_kept b st l _

theorem notify_spec (b : Build) (st : Nat) : ∀ (l : List Nat) (s : State), l.Nodup → (∀ x ∈ l, 1 ≤ s.count x) → ∀ c,
    (notify b st l s).count c = (if c ∈ l then s.count c - 1 else s.count c) ∧
      (notify b st l s).begun.count c = s.begun.count c + if c ∈ l ∧ s.count c = 1 then 1 else 0
  | [], s, _, _, c => by simp [notify]
  | x :: l, s, hn, h1, c => by
    rw [List.nodup_cons] at hn
    have hx := h1 x (by simp)
    have key : ∀ s' : State, s'.count = update s.count x (s.count x - 1) →
        (∀ d, s'.begun.count d = s.begun.count d + if d = x ∧ s.count x = 1 then 1 else 0) →
        (notify b st l s').count c = (if c ∈ x :: l then s.count c - 1 else s.count c) ∧
        (notify b st l s').begun.count c = s.begun.count c + if c ∈ x :: l ∧ s.count c = 1 then 1 else 0 := by
      intro s' hc hb
      have ih := notify_spec b st l s' hn.2 (fun y hy => by
        have : y ≠ x := fun h => hn.1 (h ▸ hy)
        rw [hc, update_other _ _ this]
        exact h1 y (by simp [hy])) c
      rw [ih.1, ih.2, hb, hc]
      by_cases hcx : c = x
      · subst hcx
        simp [hn.1, update_same]
      · simp [hcx, update_other]
    rw [notify]
    by_cases h0 : s.count x - 1 = 0
    · rw [if_pos h0]
      have he : s.count x = 1 := by omega
      split
      · refine key _ rfl fun d => ?_
        rw [count_begun, count_begun]
        simp only [List.count_append, he, and_true]
        by_cases hd : d = x
        · subst hd
          simp
          omega
        · simp [hd, Ne.symm hd]
      · refine key _ rfl fun d => ?_
        rw [count_begun, count_begun]
        simp only [List.count_append, he, and_true, List.map_append, List.map_cons, List.map_nil]
        by_cases hd : d = x
        · subst hd
          simp
          omega
        · simp [hd, Ne.symm hd]
    · rw [if_neg h0]
      refine key _ rfl fun d => ?_
      have he : s.count x ≠ 1 := by omega
      simp [he, State.begun]

/-- What holds in all states that can be reached. -/
structure Inv (b : Build) (s : State) : Prop where
  count : ∀ c, s.count c = rem (graphOf b.calls).succ s.done (List.range b.n) c
  begun : ∀ c, s.begun.count c = if c < b.n ∧ s.count c = 0 then 1 else 0
  ok : s.ok = true ↔ b.sentinel ∈ s.done

theorem inv_init {b : Build} (h : b.Ok) : Inv b (init b) := by
  refine ⟨(graph_ok h).count, fun c => ?_, by simp [init]⟩
  rw [count_begun]
  show ((List.range b.n).filter fun c => (graphOf b.calls).count c = 0).count c + 0 =
    if c < b.n ∧ (graphOf b.calls).count c = 0 then 1 else 0
  rw [Nat.add_zero]
  by_cases hc : c < b.n ∧ (graphOf b.calls).count c = 0
  · rw [if_pos hc, List.count_filter (by simpa using hc.2)]
    have hm : c ∈ List.range b.n := List.mem_range.2 hc.1
    have h1 := List.nodup_range (n := b.n)
    have h2 := List.nodup_iff_count.1 h1 c
    have h3 := List.count_pos_iff.2 hm
    omega
  · rw [if_neg hc, List.count_eq_zero]
    intro hm
    rw [List.mem_filter, List.mem_range] at hm
    exact hc ⟨hm.1, by simpa using hm.2⟩

theorem complete_begun_fail {b : Build} {s : State} {c st : Nat} (h : st ≠ 0 ∧ b.ignore c = false) (d : Nat) :
    (complete b s c st).begun.count d = s.begun.count d + (if d = c then 1 else 0) ∧
      (complete b s c st).count = s.count ∧ (complete b s c st).done = s.done ∧ (complete b s c st).ok = s.ok := by
  unfold complete
  rw [if_pos h]
  split
  · refine ⟨?_, rfl, rfl, rfl⟩
    rw [count_begun, count_begun]
    by_cases hd : d = c
    · subst hd
      simp
      omega
    · simp [hd, Ne.symm hd]
  · refine ⟨?_, rfl, rfl, rfl⟩
    rw [count_begun, count_begun]
    by_cases hd : d = c
    · subst hd
      simp
      omega
    · simp [hd, Ne.symm hd]

theorem complete_done {b : Build} {s : State} {c st : Nat} (h : ¬ (st ≠ 0 ∧ b.ignore c = false)) :
    (complete b s c st).begun = (notify b st ((graphOf b.calls).succ c) { s with done := c :: s.done }).begun ∧
    (complete b s c st).count = (notify b st ((graphOf b.calls).succ c) { s with done := c :: s.done }).count ∧
    (complete b s c st).done = c :: s.done ∧
    ((complete b s c st).ok = true ↔ c = b.sentinel ∨ s.ok = true) := by
  unfold complete
  rw [if_neg h]
  have hk := notify_kept b st ((graphOf b.calls).succ c) { s with done := c :: s.done }
  by_cases hc : c = b.sentinel
  · dsimp only
    rw [if_pos hc]
    exact ⟨rfl, rfl, hk.1, iff_of_true rfl (.inl hc)⟩
  · dsimp only
    rw [if_neg hc]
    refine ⟨rfl, rfl, hk.1, ?_⟩
    rw [hk.2.2.2]
    exact ⟨.inr, fun h => h.resolve_left hc⟩

/-- The state with one command taken out of the lists: it is completed. -/
theorem inv_complete {b : Build} (hb : b.Ok) {s s₁ : State} (h : Inv b s) (c st : Nat) (hc : s₁.count = s.count)
    (hd : s₁.done = s.done) (ho : s₁.ok = s.ok) (hbg : ∀ d, s.begun.count d = s₁.begun.count d + if d = c then 1 else 0)
    (hnd : c ∉ s.done) : Inv b (complete b s₁ c st) := by
  have hg := graph_ok hb
  have hcb := h.begun c
  have hcb2 := hbg c
  rw [if_pos rfl] at hcb2
  have hcn : c < b.n ∧ s.count c = 0 := by
    by_cases hx : c < b.n ∧ s.count c = 0
    · exact hx
    · rw [if_neg hx] at hcb
      omega
  by_cases hf : st ≠ 0 ∧ b.ignore c = false
  · have hk := complete_begun_fail (s := s₁) hf
    refine ⟨fun d => ?_, fun d => ?_, ?_⟩
    · rw [(hk d).2.1, (hk d).2.2.1, hc, hd]
      exact h.count d
    · rw [(hk d).1, (hk d).2.1, hc, ← h.begun d, hbg d]
    · rw [(hk 0).2.2.1, (hk 0).2.2.2, hd, ho]
      exact h.ok
  · obtain ⟨k1, k2, k3, k4⟩ := complete_done (s := s₁) hf
    have hrem : ∀ d, rem (graphOf b.calls).succ s.done (List.range b.n) d =
        rem (graphOf b.calls).succ (c :: s.done) (List.range b.n) d + if d ∈ (graphOf b.calls).succ c then 1 else 0 := by
      intro d
      have := filter_out (fun p => decide (d ∈ (graphOf b.calls).succ p) && decide (p ∉ s.done))
        (fun p => decide (d ∈ (graphOf b.calls).succ p) && decide (p ∉ c :: s.done)) c
        (fun q hq => by simp [hq]) (by simp) (List.range b.n) List.nodup_range
      unfold rem
      rw [this]
      simp [hcn.1, hnd]
    have hone : ∀ x ∈ (graphOf b.calls).succ c, 1 ≤ s₁.count x := by
      intro x hx
      rw [hc, h.count, hrem x, if_pos hx]
      omega
    have hn := notify_spec b st ((graphOf b.calls).succ c) { s₁ with done := c :: s₁.done } (hg.nodup c) hone
    refine ⟨fun d => ?_, fun d => ?_, ?_⟩
    · rw [k2, k3, (hn d).1, hd]
      have h1 := hrem d
      have h2 := h.count d
      show (if d ∈ (graphOf b.calls).succ c then s₁.count d - 1 else s₁.count d) = _
      rw [hc]
      by_cases hm : d ∈ (graphOf b.calls).succ c
      · rw [if_pos hm] at h1 ⊢
        omega
      · rw [if_neg hm] at h1 ⊢
        omega
    · rw [k1, k2, (hn d).1, (hn d).2]
      show _ + (if d ∈ (graphOf b.calls).succ c ∧ s₁.count d = 1 then 1 else 0) =
        if d < b.n ∧ (if d ∈ (graphOf b.calls).succ c then s₁.count d - 1 else s₁.count d) = 0 then 1 else 0
      have e : ({ s₁ with done := c :: s₁.done } : State).begun.count d = s.begun.count d := by
        rw [hbg d, count_begun, count_begun]
        by_cases hdc : d = c
        · subst hdc
          simp
          omega
        · simp [hdc, Ne.symm hdc]
      rw [e, h.begun d, hc]
      by_cases hm : d ∈ (graphOf b.calls).succ c
      · have hdn : d < b.n := (hb.bound _ ((hg.succ c d).1 hm)).2
        have h1 := hone d hm
        rw [hc] at h1
        simp only [hm, true_and, hdn, if_true]
        by_cases h2 : s.count d = 1
        · simp [h2]
        · have h3 : s.count d ≠ 0 := by omega
          have h4 : s.count d - 1 ≠ 0 := by omega
          simp [h2, h3, h4]
      · simp [hm]
    · rw [k4, k3, ho, h.ok, hd, List.mem_cons]
      constructor
      · rintro (h | h)
        · exact .inl h.symm
        · exact .inr h
      · rintro (h | h)
        · exact .inl h.symm
        · exact .inr h

theorem begun_le {b : Build} {s : State} (h : Inv b s) (c : Nat) : s.begun.count c ≤ 1 := by
  rw [h.begun c]
  split <;> omega

/-- A step takes one command out and completes it. -/
theorem step_view {b : Build} {s s' : State} (h : Inv b s) (hs : Step b s s') : ∃ (s₁ : State) (c st : Nat),
    s' = complete b s₁ c st ∧ s₁.count = s.count ∧ s₁.done = s.done ∧ s₁.failed = s.failed ∧ s₁.crashed = s.crashed ∧
      s₁.ok = s.ok ∧ (∀ d, s.begun.count d = s₁.begun.count d + if d = c then 1 else 0) ∧
      c ∉ s.done ∧ c ∉ s.failed ∧ c ∉ s.crashed := by
  have out : ∀ c, 1 ≤ s.pool.count c + (s.pend.map Prod.fst).count c → c ∉ s.done ∧ c ∉ s.failed ∧ c ∉ s.crashed := by
    intro c hc
    have h1 := begun_le h c
    rw [count_begun] at h1
    refine ⟨?_, ?_, ?_⟩ <;> (rw [← List.count_eq_zero]; omega)
  cases hs with
  | run l₁ l₂ c hp =>
    refine ⟨_, c, _, rfl, rfl, rfl, rfl, rfl, rfl, fun d => ?_, out c ?_⟩
    · rw [count_begun, count_begun, hp]
      simp only [List.count_append, List.count_cons]
      by_cases hd : d = c
      · subst hd
        simp
        omega
      · simp [hd, Ne.symm hd]
    · rw [hp]
      simp [List.count_append]
      omega
  | place l₁ l₂ c st hp =>
    refine ⟨_, c, st, rfl, rfl, rfl, rfl, rfl, rfl, fun d => ?_, out c ?_⟩
    · rw [count_begun, count_begun, hp]
      simp only [List.count_append, List.map_append, List.map_cons, List.count_cons]
      by_cases hd : d = c
      · subst hd
        simp
        omega
      · simp [hd, Ne.symm hd]
    · rw [hp]
      simp [List.count_append]
      omega

theorem inv_step {b : Build} (hb : b.Ok) {s s' : State} (h : Inv b s) (hs : Step b s s') : Inv b s' := by
  obtain ⟨s₁, c, st, rfl, h1, h2, _, _, h3, h4, h5, _⟩ := step_view h hs
  exact inv_complete hb h c st h1 h2 h3 h4 h5

theorem inv_reach {b : Build} (hb : b.Ok) {k : Nat} {s : State} (h : Reach b k s) : Inv b s := by
  induction h with
  | init => exact inv_init hb
  | step _ hs ih => exact inv_step hb ih hs

/-! ### Consequences -/

theorem mem_begun {b : Build} {s : State} (h : Inv b s) (c : Nat) : c ∈ s.begun ↔ c < b.n ∧ s.count c = 0 := by
  rw [← List.count_pos_iff, h.begun c]
  split
  · rename_i hc
    simp [hc]
  · rename_i hc
    simp [hc]

theorem pred_done {b : Build} (hb : b.Ok) {s : State} (h : Inv b s) {p c : Nat} (hc : c ∈ s.begun) (hp : (p, c) ∈ b.calls) :
    p ∈ s.done := by
  have h0 := ((mem_begun h c).1 hc).2
  rw [h.count c, rem, List.length_eq_zero_iff, List.filter_eq_nil_iff] at h0
  have := h0 p (List.mem_range.2 (hb.bound _ hp).1)
  simp only [(graph_ok hb).succ, hp, decide_true, Bool.true_and, decide_eq_true_eq, Decidable.not_not] at this
  exact this

theorem done_begun {s : State} {c : Nat} (h : c ∈ s.done) : c ∈ s.begun := by
  simp [State.begun, h]

theorem before_done {b : Build} (hb : b.Ok) {s : State} (h : Inv b s) {p c : Nat} (hp : Before b p c) : c ∈ s.begun → p ∈ s.done := by
  induction hp with
  | call hc => exact fun hm => pred_done hb h hm hc
  | trans hc _ ih => exact fun hm => pred_done hb h (done_begun (ih hm)) hc

/-- The commands that are not over. -/
def left (b : Build) (s : State) : Nat :=
  ((List.range b.n).filter fun c => decide (c ∉ s.done) && (decide (c ∉ s.failed) && decide (c ∉ s.crashed))).length

theorem step_left {b : Build} {s s' : State} (h : Inv b s) (hs : Step b s s') : left b s = left b s' + 1 := by
  obtain ⟨s₁, c, st, rfl, h1, h2, h2f, h2c, h3, h4, h5, h6, h7⟩ := step_view h hs
  have hcn : c < b.n := by
    have := h4 c
    rw [if_pos rfl] at this
    exact ((mem_begun h c).1 (List.count_pos_iff.1 (by omega))).1
  have hx : ∀ q, (q ∈ (complete b s₁ c st).done ∨ q ∈ (complete b s₁ c st).failed ∨ q ∈ (complete b s₁ c st).crashed) ↔
      q = c ∨ (q ∈ s.done ∨ q ∈ s.failed ∨ q ∈ s.crashed) := by
    intro q
    by_cases hf : st ≠ 0 ∧ b.ignore c = false
    · have hk := (complete_begun_fail (s := s₁) hf 0).2.2.1
      rw [hk, h2]
      unfold complete
      rw [if_pos hf]
      cases b.real c <;> simp only [Bool.false_eq_true, if_false, if_true, List.mem_cons, h2f, h2c]
      · constructor
        · rintro (h | h | h | h)
          · exact .inr (.inl h)
          · exact .inr (.inr (.inl h))
          · exact .inl h
          · exact .inr (.inr (.inr h))
        · rintro (h | h | h | h)
          · exact .inr (.inr (.inl h))
          · exact .inl h
          · exact .inr (.inl h)
          · exact .inr (.inr (.inr h))
      · constructor
        · rintro (h | (h | h) | h)
          · exact .inr (.inl h)
          · exact .inl h
          · exact .inr (.inr (.inl h))
          · exact .inr (.inr (.inr h))
        · rintro (h | h | h | h)
          · exact .inr (.inl (.inl h))
          · exact .inl h
          · exact .inr (.inl (.inr h))
          · exact .inr (.inr h)
    · have k3 := (complete_done (s := s₁) hf).2.2.1
      have hk := notify_kept b st ((graphOf b.calls).succ c) { s₁ with done := c :: s₁.done }
      have e1 : (complete b s₁ c st).failed = s.failed := by
        unfold complete
        rw [if_neg hf]
        simp only
        split
        · exact hk.2.1.trans h2f
        · exact hk.2.1.trans h2f
      have e2 : (complete b s₁ c st).crashed = s.crashed := by
        unfold complete
        rw [if_neg hf]
        simp only
        split
        · exact hk.2.2.1.trans h2c
        · exact hk.2.2.1.trans h2c
      rw [k3, e1, e2, h2, List.mem_cons, or_assoc]
  have hx2 : ∀ q, (decide (q ∉ (complete b s₁ c st).done) && (decide (q ∉ (complete b s₁ c st).failed) &&
      decide (q ∉ (complete b s₁ c st).crashed))) = true ↔ ¬ (q = c ∨ (q ∈ s.done ∨ q ∈ s.failed ∨ q ∈ s.crashed)) := by
    intro q
    rw [← hx q]
    simp
  unfold left
  rw [filter_out (fun q => decide (q ∉ s.done) && (decide (q ∉ s.failed) && decide (q ∉ s.crashed)))
    (fun q => decide (q ∉ (complete b s₁ c st).done) && (decide (q ∉ (complete b s₁ c st).failed) &&
      decide (q ∉ (complete b s₁ c st).crashed))) c ?_ ?_ (List.range b.n) List.nodup_range]
  · simp [hcn, h5, h6, h7]
  · intro q hq
    rw [Bool.eq_iff_iff, hx2 q]
    simp [hq]
  · rw [Bool.eq_false_iff]
    intro hc
    exact (hx2 c).1 hc (.inl rfl)

theorem reach_left {b : Build} (hb : b.Ok) {k : Nat} {s : State} (h : Reach b k s) : k + left b s = b.n := by
  induction h with
  | init =>
    have : left b (init b) = b.n := by
      unfold left
      rw [List.filter_eq_self.2 (by simp [init]), List.length_range]
    omega
  | step hr hs ih =>
    have := step_left (inv_reach hb hr) hs
    omega

/-! ### Statuses -/

/-- Failures are ignored, and then the commands that wait for them have strings. -/
def Tame (b : Build) : Prop := ∀ c, b.real c = true → b.status c ≠ 0 → b.ignore c = true ∧ ∀ s, (c, s) ∈ b.calls → b.real s = true

theorem notify_pend (b : Build) (st : Nat) : ∀ (l : List Nat) (s : State), (∀ x ∈ l, st = 0 ∨ b.real x = true) →
    (∀ x ∈ s.pend, x.2 = 0) → ∀ x ∈ (notify b st l s).pend, x.2 = 0
  | [], s, _, h => h
  | x :: l, s, hr, h => by
    have ih := fun s h => notify_pend b st l s (fun y hy => hr y (by simp [hy])) h
    rw [notify]
    split
    · split
      · exact ih _ h
      · rename_i hx
        refine ih _ fun y hy => ?_
        rcases List.mem_append.1 hy with hy | hy
        · exact h y hy
        · rw [List.mem_singleton.1 hy]
          rcases hr x (by simp) with h0 | h0
          · exact h0
          · exact absurd h0 hx
    · exact ih _ h

theorem tame_complete {b : Build} (hb : b.Ok) (ht : Tame b) {s : State} {c st : Nat}
    (hst : st = 0 ∨ (b.real c = true ∧ st = b.status c)) (hp : ∀ x ∈ s.pend, x.2 = 0) (hf : s.failed = []) (hc : s.crashed = []) :
    (∀ x ∈ (complete b s c st).pend, x.2 = 0) ∧ (complete b s c st).failed = [] ∧ (complete b s c st).crashed = [] := by
  have hno : ¬ (st ≠ 0 ∧ b.ignore c = false) := by
    rintro ⟨h0, hi⟩
    rcases hst with h | ⟨h1, h2⟩
    · exact h0 h
    · have := (ht c h1 (h2 ▸ h0)).1
      rw [this] at hi
      cases hi
  have hk := notify_kept b st ((graphOf b.calls).succ c) { s with done := c :: s.done }
  have hpd := notify_pend b st ((graphOf b.calls).succ c) { s with done := c :: s.done } (fun x hx => by
    rcases hst with h | ⟨h1, h2⟩
    · exact .inl h
    · by_cases h0 : st = 0
      · exact .inl h0
      · exact .inr ((ht c h1 (h2 ▸ h0)).2 x (((graph_ok hb).succ c x).1 hx))) hp
  unfold complete
  rw [if_neg hno]
  simp only
  split
  · exact ⟨hpd, hk.2.1.trans hf, hk.2.2.1.trans hc⟩
  · exact ⟨hpd, hk.2.1.trans hf, hk.2.2.1.trans hc⟩

theorem tame_reach {b : Build} (hb : b.Ok) (ht : Tame b) {k : Nat} {s : State} (h : Reach b k s) :
    (∀ x ∈ s.pend, x.2 = 0) ∧ s.failed = [] ∧ s.crashed = [] := by
  induction h with
  | init => exact ⟨by simp [init], rfl, rfl⟩
  | step _ hs ih =>
    obtain ⟨h1, h2, h3⟩ := ih
    cases hs with
    | run l₁ l₂ c hp =>
      refine tame_complete hb ht ?_ h1 h2 h3
      cases hr : b.real c
      · exact .inl rfl
      · exact .inr ⟨rfl, rfl⟩
    | place l₁ l₂ c st hp =>
      refine tame_complete hb ht (.inl (h1 (c, st) (by rw [hp]; simp))) ?_ h2 h3
      intro x hx
      refine h1 x ?_
      rw [hp]
      rcases List.mem_append.1 hx with hx | hx
      · exact List.mem_append_left _ hx
      · exact List.mem_append_right _ (List.mem_cons_of_mem _ hx)

end Verif.JamBuild
