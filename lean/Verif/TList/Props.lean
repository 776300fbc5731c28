import Verif.TList.Lemmas

/-!
# Lists with a pointer to the last pair: the properties
-/

namespace Verif.TList

variable {α : Type}

theorem exec_spec {w : World α} {m : Elems α} {o : Op α} (h : Rep w m) (hl : Legal m o) :
    (exec w o).2 = (spec m o).2 ∧ Rep (exec w o).1 (spec m o).1 := by
  obtain ⟨A, hA, hd⟩ := h
  have same : ∀ i xs, m i = some xs → Rep w (update m i (some xs)) := by
    intro i xs hi
    rw [← hi, update_same]
    exact ⟨A, hA, hd⟩
  cases o with
  | push i x =>
    obtain ⟨xs, hi⟩ := Option.ne_none_iff_exists'.1 hl
    have hi' : m i = some xs := hi
    simp only [exec, spec, Op.list, specOn, hi', Option.getD_some]
    have hg := push_good (x := x) (hA i xs hi')
    exact ⟨trivial, rep_update hA hd hl hg.1 hg.2⟩
  | pushLast i x =>
    obtain ⟨xs, hi⟩ := Option.ne_none_iff_exists'.1 hl
    have hi' : m i = some xs := hi
    simp only [exec, spec, Op.list, specOn, hi', Option.getD_some]
    have hg := pushLast_good (x := x) (hA i xs hi')
    exact ⟨trivial, rep_update hA hd hl hg.1 hg.2⟩
  | pop i =>
    obtain ⟨xs, hi⟩ := Option.ne_none_iff_exists'.1 hl
    have hi' : m i = some xs := hi
    simp only [exec, spec, Op.list, specOn, hi', Option.getD_some]
    have hg := pop_good (hA i xs hi')
    exact ⟨hg.2.2, rep_update hA hd hl hg.1 hg.2.1⟩
  | popLast i =>
    obtain ⟨xs, hi⟩ := Option.ne_none_iff_exists'.1 hl
    have hi' : m i = some xs := hi
    simp only [exec, spec, Op.list, specOn, hi', Option.getD_some]
    have hg := popLast_good (hA i xs hi')
    exact ⟨hg.2.2, rep_update hA hd hl hg.1 hg.2.1⟩
  | size i =>
    obtain ⟨xs, hi⟩ := Option.ne_none_iff_exists'.1 hl
    have hi' : m i = some xs := hi
    simp only [exec, spec, Op.list, specOn, hi', Option.getD_some]
    have hg := hA i xs hi'
    have := nodup_length hg.nodup (seg_valid hg.seg)
    exact ⟨by rw [count_eq hg.seg (by omega)], same i xs hi'⟩
  | get i n =>
    obtain ⟨xs, hi', hn⟩ := hl
    simp only [exec, spec, Op.list, specOn, hi', Option.getD_some]
    exact ⟨get_good (hA i xs hi') hn, same i xs hi'⟩
  | set i n x =>
    obtain ⟨xs, hi', hn⟩ := hl
    simp only [exec, spec, Op.list, specOn, hi', Option.getD_some]
    have hg := set_good (x := x) (hA i xs hi') hn
    have := rep_update hA hd (by rw [hi']; simp) hg.1 hg.2.1
    rw [update_same] at this
    exact ⟨hg.2.2, this⟩
  | getLast i =>
    obtain ⟨xs, hi⟩ := Option.ne_none_iff_exists'.1 hl
    have hi' : m i = some xs := hi
    simp only [exec, spec, Op.list, specOn, hi', Option.getD_some]
    exact ⟨getLast_good (hA i xs hi'), same i xs hi'⟩
  | setLast i x =>
    obtain ⟨xs, hi⟩ := Option.ne_none_iff_exists'.1 hl
    have hi' : m i = some xs := hi
    simp only [exec, spec, Op.list, specOn, hi', Option.getD_some]
    have hg := setLast_good (x := x) (hA i xs hi')
    have := rep_update (i := i) hA hd (by rw [hi']; simp) hg.1 hg.2.1
    rw [update_same] at this
    exact ⟨hg.2.2, this⟩
  | append i j =>
    obtain ⟨hij, hi, hj⟩ := hl
    obtain ⟨xs, hi'⟩ := Option.ne_none_iff_exists'.1 hi
    obtain ⟨ys, hj'⟩ := Option.ne_none_iff_exists'.1 hj
    simp only [exec, spec, hi', hj', Option.getD_some]
    refine ⟨trivial, update A i (A i ++ A j), fun k zs hk => ?_, fun k l hkl hk hl a ha hal => ?_⟩
    · obtain ⟨g1, g2⟩ := append_good (hA i xs hi') (hA j ys hj') (hd i j hij hi hj)
      by_cases hkj : k = j
      · simp [update, hkj] at hk
      · by_cases hki : k = i
        · subst hki
          simp only [update, if_neg hkj, if_true, Option.some.injEq] at hk ⊢
          subst hk
          exact g1
        · simp only [update, if_neg hkj, if_neg hki] at hk ⊢
          have := hA k zs hk
          exact ⟨seg_frame (fun a ha => g2 a (hd k i hki (by rw [hk]; simp) hi a ha)) this.seg, this.nodup, this.last⟩
    · have hkj : k ≠ j := fun he => hk (by simp [update, he])
      have hlj : l ≠ j := fun he => hl (by simp [update, he])
      by_cases hki : k = i
      · subst hki
        have hlk : l ≠ k := fun he => hkl he.symm
        simp only [update, if_neg hlj, if_neg hlk, if_true] at ha hal hl
        rcases List.mem_append.1 ha with ha | ha
        · exact hd k l hkl hi hl a ha hal
        · exact hd j l (fun he => hlj he.symm) hj hl a ha hal
      · by_cases hli : l = i
        · subst hli
          simp only [update, if_neg hkj, if_neg hki, if_true] at ha hal hk
          rcases List.mem_append.1 hal with hal | hal
          · exact hd k l hki hk hi a ha hal
          · exact hd k j hkj hk hj a ha hal
        · simp only [update, if_neg hkj, if_neg hki, if_neg hlj, if_neg hli] at ha hal hk hl
          exact hd k l hkl hk hl a ha hal

theorem run_spec : ∀ (l : List (Op α)) {w : World α} {m : Elems α}, Rep w m → AllLegal m l →
    (run w l).2 = (specRun m l).2 ∧ Rep (run w l).1 (specRun m l).1
  | [], _, _, h, _ => ⟨rfl, h⟩
  | o :: l, w, m, h, ⟨h1, h2⟩ => by
    obtain ⟨g1, g2⟩ := exec_spec h h1
    obtain ⟨g3, g4⟩ := run_spec l g2 h2
    exact ⟨by simp only [run, specRun, g1, g3], g4⟩

theorem rep_start : Rep (start : World α) fun _ => some [] :=
  ⟨fun _ => [], fun _ xs h => by
    simp only [Option.some.injEq] at h
    subst h
    exact ⟨⟨rfl, rfl⟩, by simp, rfl⟩, fun _ _ _ _ _ _ h => by cases h⟩

/-- **C155.**  The full claim is that in every sequence of operations on any number of lists every operation returns what it should.
This is so for sequences in which a list that was appended to another one is not used again, no list is appended to itself, and the
element just behind the end of a list of three or more is not used; these are what is missing (`appended_violated`,
`append_self_violated`, `behind_end_violated`). -/
theorem deque_partial (l : List (Op α)) (h : AllLegal (fun _ => some []) l) :
    (run start l).2 = (specRun (fun _ => some []) l).2 :=
  (run_spec l rep_start h).1

/-- Two lists are filled at both ends and joined, and the result is emptied from both ends. -/
def sampleOps : List (Op Nat) :=
  [.pushLast 0 2, .push 0 1, .pushLast 1 3, .pushLast 1 4, .set 1 0 5, .append 0 1, .pushLast 0 6, .size 0, .get 0 3, .get 0 7,
    .setLast 0 8, .popLast 0, .pop 0, .popLast 0, .popLast 0, .getLast 0, .pop 0, .pop 0]

example : AllLegal (fun _ => some []) sampleOps := by
  simp [sampleOps, AllLegal, Legal, spec, specOn, Op.list, update]

example : (run start sampleOps).2 = [.val 2, .val 1, .val 3, .val 4, .val 5, .done, .val 6, .num 5, .val 4, .err, .val 8, .val 8,
    .val 1, .val 4, .val 5, .val 2, .val 2, .err] := by
  decide +kernel

/-- **C155, not so.**  A list that was appended to another one changes when an element is pushed to the end of the other one, and what
is then pushed to its own end is put before that element. -/
theorem appended_violated : (run start
    [.pushLast 0 1, .pushLast 1 2, .append 0 1, .pushLast 0 3, .size 1, .pushLast 1 4, .get 1 0, .get 1 1, .get 1 2, .getLast 1]).2 =
      [.val 1, .val 2, .done, .val 3, .num 2, .val 4, .val 2, .val 4, .val 3, .val (4 : Nat)] := by
  decide +kernel

/-- **C155, not so.**  A list that is appended to itself has no end: it has an element at every index. -/
theorem append_self_violated (x : α) (n : Nat) :
    (exec (run start [.push 0 x, .append 0 0]).1 (.get 0 n)).2 = .val x := by
  have hw : ∀ n, walk [(x, some 0)] (some 0) n = some (some 0) := by
    intro n
    induction n with
    | zero => rfl
    | succ n ih => exact ih
  show get [(x, some 0)] ⟨some 0, some 0⟩ n = .val x
  unfold get
  rw [hw n]
  rfl

/-- **C155, not so.**  The element just behind the end of a list of three or more elements is the head of `#()`, and storing an element
there is no error, though the list does not change. -/
theorem behind_end_violated {w : World α} {m : Elems α} {i : Nat} {xs : List α} (h : Rep w m) (hi : m i = some xs)
    (hx : 3 ≤ xs.length) (x : α) : (exec w (.get i xs.length)).2 = .emptyHead ∧
      (exec w (.set i xs.length x)).2 = .val x ∧ Rep (exec w (.set i xs.length x)).1 m := by
  have hr := h
  obtain ⟨A, hA, _⟩ := h
  have hw := (walk_eq xs.length (hA i xs hi).seg).2.1 rfl
  simp only [exec, get, set, hw]
  rw [if_neg (by omega), if_neg (by omega)]
  exact ⟨rfl, rfl, hr⟩

example : (run start [.push 0 1, .push 0 2, .push 0 3, .get 0 3, .set 0 3 7, .size 0]).2 =
    [.val 1, .val 2, .val 3, .emptyHead, .val 7, .num (3 : Nat)] := by
  decide +kernel

end Verif.TList
