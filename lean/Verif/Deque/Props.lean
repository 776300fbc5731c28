import Verif.Deque.Lemmas
/-!
# Properties of deques (C04, C05, C06)
-/
namespace Verif.Deque

variable {α : Type}

/-- A deque a program can hold: made by `make`, or by `as` from a collection or an array, and then
taken through any history of operations.  `l` is the content the same history gives on a
mathematical sequence. -/
inductive Reachable (no : α) : Rep α → List α → Prop
  | make (n : Nat) (fill : Option α) (r : Rep α) (h : make no n fill = .ok r)
      (ops : List (Op α)) (outs : List (Out α)) (r' : Rep α) (hr : run no r ops = .ok (outs, r')) :
      Reachable no r' (seqRun no (List.replicate n (fill.getD no)) ops).2
  | ofCollection (l : List α) (r : Rep α) (h : asDeque no l = .ok r)
      (ops : List (Op α)) (outs : List (Out α)) (r' : Rep α) (hr : run no r ops = .ok (outs, r')) :
      Reachable no r' (seqRun no l ops).2
  | ofArray (l : List α) (r : Rep α) (h : asDequeFromArray no l = .ok r)
      (ops : List (Op α)) (outs : List (Out α)) (r' : Rep α) (hr : run no r ops = .ok (outs, r')) :
      Reachable no r' (seqRun no l ops).2

theorem reachable_holds (no : α) (r : Rep α) (l : List α) (h : Reachable no r l) : Holds r l := by
  have key : ∀ (r : Rep α) (l : List α) (ops : List (Op α)) (outs : List (Out α)) (r' : Rep α),
      Holds r l → run no r ops = .ok (outs, r') → Holds r' (seqRun no l ops).2 := by
    intro r l ops outs r' h hr
    obtain ⟨r2, h1, h2⟩ := run_holds no ops r l h
    rw [h1] at hr; injection hr with hr; injection hr with _ hr; exact hr ▸ h2
  cases h with
  | make n fill r h ops outs _ hr =>
    obtain ⟨r2, h1, h2⟩ := make_holds no n fill
    rw [h1] at h; injection h with h; exact key _ _ _ _ _ (h ▸ h2) hr
  | ofCollection l r h ops outs _ hr =>
    obtain ⟨r2, h1, h2⟩ := asDeque_holds no l
    rw [h1] at h; injection h with h; exact key _ _ _ _ _ (h ▸ h2) hr
  | ofArray l r h ops outs _ hr =>
    obtain ⟨r2, h1, h2⟩ := asDequeFromArray_holds no l
    rw [h1] at h; injection h with h; exact key _ _ _ _ _ (h ▸ h2) hr

/-- **C04, C05.**  Every history of operations on a new deque finishes without touching a slot
outside the store and without looping, and gives exactly the results the same history gives on a
mathematical sequence; converting the final deque to a list shows exactly the final sequence. -/
theorem deque_is_sequence (no : α) (n : Nat) (fill : Option α) (ops : List (Op α)) :
    ∃ r r', make no n fill = .ok r ∧
      run no r ops = .ok ((seqRun no (List.replicate n (fill.getD no)) ops).1, r') ∧
      asList r' = .ok (seqRun no (List.replicate n (fill.getD no)) ops).2 := by
  obtain ⟨r, h1, h2⟩ := make_holds no n fill
  obtain ⟨r', h3, h4⟩ := run_holds no ops r _ h2
  exact ⟨r, r', h1, h3, asList_holds r' _ h4⟩

/-- **C04.**  The same for the deques made by `as(<deque>, ...)`, for collections and for arrays. -/
theorem as_deque_is_sequence (no : α) (l : List α) (ops : List (Op α)) :
    (∃ r r', asDeque no l = .ok r ∧ run no r ops = .ok ((seqRun no l ops).1, r') ∧
      asList r' = .ok (seqRun no l ops).2) ∧
    (∃ r r', asDequeFromArray no l = .ok r ∧ run no r ops = .ok ((seqRun no l ops).1, r') ∧
      asList r' = .ok (seqRun no l ops).2) := by
  constructor
  · obtain ⟨r, h1, h2⟩ := asDeque_holds no l
    obtain ⟨r', h3, h4⟩ := run_holds no ops r _ h2
    exact ⟨r, r', h1, h3, asList_holds r' _ h4⟩
  · obtain ⟨r, h1, h2⟩ := asDequeFromArray_holds no l
    obtain ⟨r', h3, h4⟩ := run_holds no ops r _ h2
    exact ⟨r, r', h1, h3, asList_holds r' _ h4⟩

/-- A concrete history with growth at both ends and errors. -/
example : ∃ r r', make 0 0 none = .ok r ∧
    run 0 r [.pop, .push 1, .push 2, .push 3, .push 4, .pushLast 5, .popLast, .element 9 none,
      .setElement 7 5, .remove (· == 0) (some 1), .reverse] =
      .ok ([.emptyError, .unit, .unit, .unit, .unit, .unit, .val 5, .rangeError, .unit, .unit,
        .unit], r') ∧ asList r' = .ok [7, 1, 2, 3, 4] :=
  deque_is_sequence (α := Nat) 0 0 none _

/-- **C06, forward.**  In every reachable state the forward iteration protocol visits exactly the
elements of the sequence with the keys `0 .. size-1`, in order, and then is finished. -/
theorem forward_iteration_correct_partial (no : α) (r : Rep α) (l : List α) (h : Reachable no r l)
    (fuel : Nat) (hf : l.length ≤ fuel) : forward r fuel = .ok (keyed l) :=
  forward_holds r l (reachable_holds no r l h) fuel hf

/-- A reachable state with a non-zero offset. -/
example : ∃ r, Reachable 0 r [8, 9] ∧ forward r 2 = .ok [(0, 8), (1, 9)] :=
  ⟨⟨[0, 0, 8, 9], 2, 3⟩, .ofArray [8, 9] ⟨[0, 0, 8, 9], 2, 3⟩ rfl [] [] _ rfl, rfl⟩

/-- **C06, backward: violated.**  The backward protocol starts one slot after the last element: a
reachable deque `8 9` iterates backward out of the store. -/
theorem backward_iteration_violated :
    ∃ r, Reachable 0 r [8, 9] ∧ ∀ fuel, backward r (fuel + 1) = .oob :=
  ⟨⟨[0, 0, 8, 9], 2, 3⟩, .ofArray [8, 9] ⟨[0, 0, 8, 9], 2, 3⟩ rfl [] [] _ rfl, fun _ => rfl⟩

/-- **C06, backward: violated.**  Where the store has slack at its end the iteration visits a slot
that is not an element, skips element 0, and gives keys that are not the elements' keys: a new deque
after `push 8` and `push 7`. -/
theorem backward_iteration_wrong_elements :
    ∃ r, Reachable 0 r [7, 8] ∧
      backward r 2 = .ok [(2, 0), (1, 8)] ∧
      backward r 2 ≠ .ok (keyed [7, 8]).reverse :=
  ⟨⟨[7, 8, 0, 0], 0, 1⟩,
    .make 0 none ⟨[0, 0, 0, 0], 2, 1⟩ rfl [.push 8, .push 7] [.unit, .unit] _ rfl, rfl, by decide⟩

/-- **C06, backward: always violated.**  No non-empty reachable deque is iterated correctly
backward. -/
theorem backward_iteration_never_correct (no : α) (r : Rep α) (l : List α) (h : Reachable no r l)
    (hl : l ≠ []) (fuel : Nat) : backward r fuel ≠ .ok (keyed l).reverse := by
  obtain ⟨A, B, hd, hfi, hla, h4⟩ := reachable_holds no r l h
  have hpos : 0 < l.length := List.length_pos_iff.mpr hl
  intro hb
  have hne : (keyed l).reverse ≠ [] := by simp [keyed, hl]
  simp only [backward] at hb
  cases fuel with
  | zero =>
    simp only [iterate] at hb
    rw [if_neg (by omega)] at hb; exact absurd hb (by simp)
  | succ fuel =>
    simp only [iterate] at hb
    rw [if_neg (by omega)] at hb
    cases hx : rd r.data (r.last + 1) with
    | oob => rw [hx] at hb; exact absurd hb (by simp [bind, Res.bind])
    | diverge => rw [hx] at hb; exact absurd hb (by simp [bind, Res.bind])
    | ok x =>
      rw [hx, bind_ok] at hb
      cases hrest : iterate (· - 1) id r.data fuel (r.last + 1 - 1) r.first with
      | oob => rw [hrest] at hb; exact absurd hb (by simp [bind, Res.bind])
      | diverge => rw [hrest] at hb; exact absurd hb (by simp [bind, Res.bind])
      | ok rest =>
        rw [hrest, bind_ok] at hb
        injection hb with hb
        have hmem : (r.last + 1, x) ∈ (keyed l).reverse := by rw [← hb]; simp
        simp only [keyed, List.mem_reverse, List.mem_map] at hmem
        obtain ⟨⟨y, j⟩, hj, he⟩ := hmem
        have := List.mem_zipIdx hj
        simp at he this
        omega

end Verif.Deque
