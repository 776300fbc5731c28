import Verif.Print.CircleSpec

/-
Lemmas about `print` with `circle?: #t`.
-/

namespace Verif.Print

/-! ### The states of the second pass -/

/-- In the second pass the object printed has the count 1, and all the others 0. -/
def Second (root : Nat) (s : PS) : Prop := s.first = false ∧ ∀ x, s.count x = if x = root then 1 else 0

theorem write_first (s : PS) (t : Tok) : (s.write t).first = s.first := by unfold PS.write; split <;> rfl
theorem write_count (s : PS) (t : Tok) : (s.write t).count = s.count := by unfold PS.write; split <;> rfl
theorem write_id (s : PS) (t : Tok) : (s.write t).id = s.id := by unfold PS.write; split <;> rfl
theorem write_next (s : PS) (t : Tok) : (s.write t).next = s.next := by unfold PS.write; split <;> rfl
theorem write_out (s : PS) (t : Tok) (h : s.first = false) : (s.write t).out = s.out ++ [t] := by simp [PS.write, h]

theorem text_id (s : PS) (t : String) : (s.text t).id = s.id := write_id _ _

theorem Second.write {root : Nat} {s : PS} (h : Second root s) (t : Tok) : Second root (s.write t) := by
  refine ⟨(write_first s t).trans h.1, fun x => ?_⟩
  rw [write_count]
  exact h.2 x

theorem Second.text {root : Nat} {s : PS} (h : Second root s) (t : String) : Second root (s.text t) := h.write _

theorem Second.tagged {root : Nat} {s : PS} (h : Second root s) (x : Nat) : Second root (s.tagged x) := by
  unfold PS.tagged
  exact Second.write (s := { s with id := fun y => if y = x then some s.next else s.id y, next := s.next + 1 })
    ⟨h.1, h.2⟩ _

theorem tagged_id (s : PS) (x y : Nat) : (s.tagged x).id y = if y = x then some s.next else s.id y := by
  unfold PS.tagged
  rw [write_id]

/-! ### The equations of the second pass -/

theorem go_maybe {H : Heap} {l : Limits} {root : Nat} {s : PS} (hs : Second root s) (fuel x : Nat) (depth : Int) :
    go H l (fuel + 1) (.maybe x) depth s =
      if l.tooDeep (depth + 1) then some (s.text "#")
      else if x = root then go H l fuel (.object x) (depth + 1) s
      else
        match s.id x with
        | none => go H l fuel (.object x) (depth + 1) (s.tagged x)
        | some n => some (s.write (.ref n x)) := by
  rw [go, hs.1, hs.2 x]
  by_cases hx : x = root <;> simp [hx] <;> rfl

theorem go_rest_pair {H : Heap} {l : Limits} {root : Nat} {s : PS} (hs : Second root s) (fuel count x : Nat)
    (depth : Int) {h t : Nat} (hx : H x = .pair h t) :
    go H l (fuel + 1) (.rest count x) depth s =
      if l.reached count then some ((s.text ", ").text "...")
      else if x = root then
        match go H l fuel (.maybe h) depth (s.text ", ") with
        | none => none
        | some s => go H l fuel (.rest (count + 1) t) depth s
      else
        match s.id x with
        | none =>
          match go H l fuel (.maybe x) depth (((s.text ", ").text ". ").tagged x) with
          | none => none
          | some s => go H l fuel (.rest (count + 1) t) depth s
        | some n => some (((s.text ", ").text ". ").write (.ref n x)) := by
  rw [go, hx]
  simp only [hs.1, hs.2 x]
  by_cases hr : x = root <;> simp [hr] <;> rfl

theorem go_object_pair {H : Heap} {l : Limits} {root : Nat} {s : PS} (hs : Second root s) (fuel x : Nat)
    (depth : Int) {h t : Nat} (hx : H x = .pair h t) :
    go H l (fuel + 1) (.object x) depth s =
      if l.reached 0 then some (((s.text "#(").text "...").text ")")
      else
        match go H l fuel (.maybe h) depth (s.text "#(") with
        | none => none
        | some s =>
          match go H l fuel (.rest 1 t) depth s with
          | none => none
          | some s => some (s.text ")") := by
  rw [go, hx]
  simp only [hs.1]
  rfl

theorem go_object_vector {H : Heap} {l : Limits} {root : Nat} {s : PS} (hs : Second root s) (fuel x : Nat)
    (depth : Int) {xs : List Nat} (hx : H x = .vector xs) :
    go H l (fuel + 1) (.object x) depth s =
      match go H l fuel (.items 0 xs) depth (s.text "#[") with
      | none => none
      | some s => some (s.text "]") := by
  rw [go, hx]
  simp only [hs.1]
  rfl

/-- The second pass stays the second pass. -/
theorem go_second {H : Heap} {l : Limits} {root : Nat} : ∀ (fuel : Nat) (task : Task) (depth : Int) (s s' : PS),
    Second root s → go H l fuel task depth s = some s' → Second root s' := by
  intro fuel
  induction fuel with
  | zero => intro task depth s s' _ h; simp [go] at h
  | succ fuel ih =>
    intro task depth s s' hs h
    cases task with
    | maybe x =>
      rw [go_maybe hs] at h
      split at h
      · cases h; exact hs.text _
      · split at h
        · exact ih _ _ _ _ hs h
        · split at h
          · exact ih _ _ _ _ (hs.tagged _) h
          · cases h; exact hs.write _
    | object x =>
      cases hx : H x with
      | leaf t => simp only [go, hx] at h; cases h; exact hs.write _
      | empty =>
        simp only [go, hx, hs.1] at h
        cases h; exact (hs.text _).text _
      | pair a b =>
        rw [go_object_pair hs _ _ _ hx] at h
        split at h
        · cases h; exact ((hs.text _).text _).text _
        · split at h
          · cases h
          · rename_i s1 h1
            have hs1 := ih _ _ _ _ (hs.text _) h1
            split at h
            · cases h
            · rename_i s2 h2
              cases h
              exact (ih _ _ _ _ hs1 h2).text _
      | vector xs =>
        rw [go_object_vector hs _ _ _ hx] at h
        split at h
        · cases h
        · rename_i s1 h1
          cases h
          exact (ih _ _ _ _ (hs.text _) h1).text _
    | rest count x =>
      cases hx : H x with
      | empty => simp only [go, hx] at h; cases h; exact hs
      | leaf t => simp only [go, hx] at h; exact ih _ _ _ _ (hs.text _) h
      | vector xs => simp only [go, hx] at h; exact ih _ _ _ _ (hs.text _) h
      | pair a b =>
        rw [go_rest_pair hs _ _ _ _ hx] at h
        split at h
        · cases h; exact (hs.text _).text _
        · split at h
          · split at h
            · cases h
            · rename_i s1 h1
              exact ih _ _ _ _ (ih _ _ _ _ (hs.text _) h1) h
          · split at h
            · split at h
              · cases h
              · rename_i s1 h1
                exact ih _ _ _ _ (ih _ _ _ _ (((hs.text _).text _).tagged _) h1) h
            · cases h; exact ((hs.text _).text _).write _
    | items count xs =>
      cases xs with
      | nil => simp only [go] at h; cases h; exact hs
      | cons x xs =>
        have hs0 : Second root (if count = 0 then s else s.text ", ") := by
          split
          · exact hs
          · exact hs.text _
        simp only [go] at h
        split at h
        · cases h; exact hs0.text _
        · split at h
          · cases h
          · rename_i s1 h1
            exact ih _ _ _ _ (ih _ _ _ _ hs0 h1) h

/-! ### More rounds do no harm -/

theorem go_mono {H : Heap} {l : Limits} : ∀ (fuel : Nat) (task : Task) (depth : Int) (s s' : PS),
    go H l fuel task depth s = some s' → go H l (fuel + 1) task depth s = some s' := by
  intro fuel
  induction fuel with
  | zero => intro task depth s s' h; simp [go] at h
  | succ fuel ih =>
    intro task depth s s' h
    cases task with
    | maybe x =>
      rw [go] at h ⊢
      split at h
      · rename_i c; rw [if_pos c]; exact h
      · rename_i c; rw [if_neg c]
        split at h
        · rename_i c; rw [if_pos c]
          split at h
          · rename_i c; rw [if_pos c]; exact ih _ _ _ _ h
          · rename_i c; rw [if_neg c]; exact h
        · rename_i c; rw [if_neg c]
          split at h
          · rename_i c; rw [if_pos c]; exact ih _ _ _ _ h
          · rename_i c; rw [if_neg c]
            cases hid : s.id x with
            | none => rw [hid] at h; exact ih _ _ _ _ h
            | some n => rw [hid] at h; exact h
    | object x =>
      rw [go] at h ⊢
      cases hx : H x with
      | leaf t => simp only [hx] at h ⊢; exact h
      | empty => simp only [hx] at h ⊢; exact h
      | pair a b =>
        simp only [hx] at h ⊢
        split at h
        · rename_i c; rw [if_pos c]; exact h
        · rename_i c; rw [if_neg c]
          split at h
          · rename_i c; rw [if_pos c]; exact h
          · rename_i c; rw [if_neg c]
            split at h
            · cases h
            · rename_i s1 h1
              rw [ih _ _ _ _ h1]
              dsimp only
              split at h
              · cases h
              · rename_i s2 h2
                rw [ih _ _ _ _ h2]
                exact h
      | vector xs =>
        simp only [hx] at h ⊢
        split at h
        · rename_i c; rw [if_pos c]; exact h
        · rename_i c; rw [if_neg c]
          split at h
          · cases h
          · rename_i s1 h1
            rw [ih _ _ _ _ h1]
            exact h
    | rest count x =>
      rw [go] at h ⊢
      cases hx : H x with
      | empty => simp only [hx] at h ⊢; exact h
      | leaf t => simp only [hx] at h ⊢; exact ih _ _ _ _ h
      | vector xs => simp only [hx] at h ⊢; exact ih _ _ _ _ h
      | pair a b =>
        simp only [hx] at h ⊢
        split at h
        · rename_i c; rw [if_pos c]; exact h
        · rename_i c; rw [if_neg c]
          split at h
          · rename_i c; rw [if_pos c]
            split at h
            · rename_i c; rw [if_pos c]
              split at h
              · cases h
              · rename_i s1 h1
                rw [ih _ _ _ _ h1]
                exact ih _ _ _ _ h
            · rename_i c; rw [if_neg c]; exact h
          · rename_i c; rw [if_neg c]
            split at h
            · rename_i c; rw [if_pos c]
              split at h
              · cases h
              · rename_i s1 h1
                rw [ih _ _ _ _ h1]
                exact ih _ _ _ _ h
            · rename_i c; rw [if_neg c]
              cases hid : s.id x with
              | none =>
                rw [hid] at h
                dsimp only at h ⊢
                split at h
                · cases h
                · rename_i s1 h1
                  rw [ih _ _ _ _ h1]
                  exact ih _ _ _ _ h
              | some n => rw [hid] at h; exact h
    | items count xs =>
      cases xs with
      | nil => rw [go] at h ⊢; exact h
      | cons x xs =>
        rw [go] at h ⊢
        split at h
        · rename_i c; rw [if_pos c]; exact h
        · rename_i c; rw [if_neg c]
          split at h
          · cases h
          · rename_i s1 h1
            rw [ih _ _ _ _ h1]
            exact ih _ _ _ _ h

theorem go_le {H : Heap} {l : Limits} {fuel fuel' : Nat} {task : Task} {depth : Int} {s s' : PS} (hle : fuel ≤ fuel')
    (h : go H l fuel task depth s = some s') : go H l fuel' task depth s = some s' := by
  induction hle with
  | refl => exact h
  | step _ ih => exact go_mono _ _ _ _ _ ih

/-- The first pass counts the object and finds no other: `pprint-logical-block` does not run its body. -/
theorem first_pass (H : Heap) (l : Limits) (fuel x : Nat) :
    go H l (fuel + 1) (.object x) (-1) (PS.new.counted x 1) = some (PS.new.counted x 1) := by
  rw [go]
  cases H x <;> simp [PS.new, PS.counted, PS.write]

/-- The state at the start of the second pass. -/
def secondStart (x : Nat) : PS := { PS.new.counted x 1 with first := false }

theorem printCircle_second (H : Heap) (l : Limits) (fuel x : Nat) :
    printCircle H l (fuel + 1) x = go H l (fuel + 1) (.maybe x) (-1) (secondStart x) := by
  unfold printCircle
  rw [first_pass]
  rfl

theorem secondStart_ok (x : Nat) : Second x (secondStart x) := ⟨rfl, fun _ => rfl⟩

/-! ### Ids are kept -/

theorem go_ids {H : Heap} {l : Limits} {root : Nat} : ∀ (fuel : Nat) (task : Task) (depth : Int) (s s' : PS),
    Second root s → go H l fuel task depth s = some s' → ∀ x n, s.id x = some n → s'.id x = some n := by
  intro fuel
  induction fuel with
  | zero => intro task depth s s' _ h; simp [go] at h
  | succ fuel ih =>
    intro task depth s s' hs h y n hy
    have htag : ∀ (s : PS) (x : Nat), s.id x = none → s.id y = some n → (s.tagged x).id y = some n := by
      intro s x hx hy
      rw [tagged_id]
      split
      · rename_i e; subst e; rw [hx] at hy; cases hy
      · exact hy
    cases task with
    | maybe x =>
      rw [go_maybe hs] at h
      split at h
      · cases h; rw [text_id]; exact hy
      · split at h
        · exact ih _ _ _ _ hs h _ _ hy
        · cases hid : s.id x with
          | none =>
            rw [hid] at h
            exact ih _ _ _ _ (hs.tagged _) h _ _ (htag _ _ hid hy)
          | some m => rw [hid] at h; cases h; rw [write_id]; exact hy
    | object x =>
      cases hx : H x with
      | leaf t => simp only [go, hx] at h; cases h; rw [write_id]; exact hy
      | empty =>
        simp only [go, hx, hs.1] at h
        cases h; rw [text_id, text_id]; exact hy
      | pair a b =>
        rw [go_object_pair hs _ _ _ hx] at h
        split at h
        · cases h; rw [text_id, text_id, text_id]; exact hy
        · split at h
          · cases h
          · rename_i s1 h1
            have hs1 := go_second _ _ _ _ _ (hs.text _) h1
            have hy1 := ih _ _ _ _ (hs.text _) h1 y n (by rw [text_id]; exact hy)
            split at h
            · cases h
            · rename_i s2 h2
              cases h
              rw [text_id]
              exact ih _ _ _ _ hs1 h2 _ _ hy1
      | vector xs =>
        rw [go_object_vector hs _ _ _ hx] at h
        split at h
        · cases h
        · rename_i s1 h1
          cases h
          rw [text_id]
          exact ih _ _ _ _ (hs.text _) h1 _ _ (by rw [text_id]; exact hy)
    | rest count x =>
      cases hx : H x with
      | empty => simp only [go, hx] at h; cases h; exact hy
      | leaf t => simp only [go, hx] at h; exact ih _ _ _ _ (hs.text _) h _ _ (by rw [text_id]; exact hy)
      | vector xs => simp only [go, hx] at h; exact ih _ _ _ _ (hs.text _) h _ _ (by rw [text_id]; exact hy)
      | pair a b =>
        rw [go_rest_pair hs _ _ _ _ hx] at h
        split at h
        · cases h; rw [text_id, text_id]; exact hy
        · split at h
          · split at h
            · cases h
            · rename_i s1 h1
              exact ih _ _ _ _ (go_second _ _ _ _ _ (hs.text _) h1) h _ _
                (ih _ _ _ _ (hs.text _) h1 _ _ (by rw [text_id]; exact hy))
          · cases hid : s.id x with
            | none =>
              rw [hid] at h
              dsimp only at h
              split at h
              · cases h
              · rename_i s1 h1
                refine ih _ _ _ _ (go_second _ _ _ _ _ (((hs.text _).text _).tagged _) h1) h _ _
                  (ih _ _ _ _ (((hs.text _).text _).tagged _) h1 _ _ (htag _ _ ?_ ?_))
                · rw [text_id, text_id]; exact hid
                · rw [text_id, text_id]; exact hy
            | some m => rw [hid] at h; cases h; rw [write_id, text_id, text_id]; exact hy
    | items count xs =>
      cases xs with
      | nil => simp only [go] at h; cases h; exact hy
      | cons x xs =>
        have hs0 : Second root (if count = 0 then s else s.text ", ") := by
          split
          · exact hs
          · exact hs.text _
        have hy0 : (if count = 0 then s else s.text ", ").id y = some n := by
          split
          · exact hy
          · rw [text_id]; exact hy
        simp only [go] at h
        split at h
        · cases h; rw [text_id]; exact hy0
        · split at h
          · cases h
          · rename_i s1 h1
            exact ih _ _ _ _ (go_second _ _ _ _ _ hs0 h1) h _ _ (ih _ _ _ _ hs0 h1 _ _ hy0)

/-! ### Coming to an end -/

/-- The task comes to an end. -/
def Stops (H : Heap) (l : Limits) (task : Task) (depth : Int) (s : PS) : Prop := ∃ f s', go H l f task depth s = some s'

theorem ends_object_pair {H : Heap} {l : Limits} {root : Nat} {s : PS} (hs : Second root s) {x h t : Nat} {depth : Int}
    (hx : H x = .pair h t) (h1 : Stops H l (.maybe h) depth (s.text "#("))
    (h2 : ∀ f s1, go H l f (.maybe h) depth (s.text "#(") = some s1 → Stops H l (.rest 1 t) depth s1) :
    Stops H l (.object x) depth s := by
  obtain ⟨f1, s1, e1⟩ := h1
  obtain ⟨f2, s2, e2⟩ := h2 f1 s1 e1
  by_cases hr : l.reached 0
  · refine ⟨1, ((s.text "#(").text "...").text ")", ?_⟩
    rw [go_object_pair hs _ _ _ hx, if_pos hr]
  · refine ⟨max f1 f2 + 1, s2.text ")", ?_⟩
    rw [go_object_pair hs _ _ _ hx, if_neg hr, go_le (Nat.le_max_left _ _) e1]
    dsimp only
    rw [go_le (Nat.le_max_right _ _) e2]

theorem ends_object_vector {H : Heap} {l : Limits} {root : Nat} {s : PS} (hs : Second root s) {x : Nat} {xs : List Nat}
    {depth : Int} (hx : H x = .vector xs) (h1 : Stops H l (.items 0 xs) depth (s.text "#[")) :
    Stops H l (.object x) depth s := by
  obtain ⟨f1, s1, e1⟩ := h1
  refine ⟨f1 + 1, s1.text "]", ?_⟩
  rw [go_object_vector hs _ _ _ hx, e1]

theorem ends_items_nil {H : Heap} {l : Limits} {count : Nat} {depth : Int} {s : PS} :
    Stops H l (.items count []) depth s := ⟨1, s, by rw [go]⟩

theorem ends_items_cons {H : Heap} {l : Limits} {count x : Nat} {xs : List Nat} {depth : Int} {s : PS}
    (h1 : Stops H l (.maybe x) depth (if count = 0 then s else s.text ", "))
    (h2 : ∀ f s1, go H l f (.maybe x) depth (if count = 0 then s else s.text ", ") = some s1 →
      Stops H l (.items (count + 1) xs) depth s1) :
    Stops H l (.items count (x :: xs)) depth s := by
  obtain ⟨f1, s1, e1⟩ := h1
  obtain ⟨f2, s2, e2⟩ := h2 f1 s1 e1
  by_cases hr : l.equal count
  · refine ⟨1, (if count = 0 then s else s.text ", ").text "...", ?_⟩
    rw [go, if_pos hr]
  · refine ⟨max f1 f2 + 1, s2, ?_⟩
    rw [go, if_neg hr, go_le (Nat.le_max_left _ _) e1]
    dsimp only
    exact go_le (Nat.le_max_right _ _) e2

theorem ends_rest_root {H : Heap} {l : Limits} {root : Nat} {s : PS} (hs : Second root s) {count h t : Nat} {depth : Int}
    (hx : H root = .pair h t) (h1 : Stops H l (.maybe h) depth (s.text ", "))
    (h2 : ∀ f s1, go H l f (.maybe h) depth (s.text ", ") = some s1 → Stops H l (.rest (count + 1) t) depth s1) :
    Stops H l (.rest count root) depth s := by
  obtain ⟨f1, s1, e1⟩ := h1
  obtain ⟨f2, s2, e2⟩ := h2 f1 s1 e1
  by_cases hr : l.reached count
  · refine ⟨1, (s.text ", ").text "...", ?_⟩
    rw [go_rest_pair hs _ _ _ _ hx, if_pos hr]
  · refine ⟨max f1 f2 + 1, s2, ?_⟩
    rw [go_rest_pair hs _ _ _ _ hx, if_neg hr, if_pos rfl, go_le (Nat.le_max_left _ _) e1]
    dsimp only
    exact go_le (Nat.le_max_right _ _) e2

theorem ends_rest_other {H : Heap} {l : Limits} {root : Nat} {s : PS} (hs : Second root s) {count x h t : Nat}
    {depth : Int} (hx : H x = .pair h t) (hne : x ≠ root)
    (h1 : s.id x = none → Stops H l (.maybe x) depth (((s.text ", ").text ". ").tagged x))
    (h2 : s.id x = none → ∀ f s1, go H l f (.maybe x) depth (((s.text ", ").text ". ").tagged x) = some s1 →
      Stops H l (.rest (count + 1) t) depth s1) :
    Stops H l (.rest count x) depth s := by
  by_cases hr : l.reached count
  · refine ⟨1, (s.text ", ").text "...", ?_⟩
    rw [go_rest_pair hs _ _ _ _ hx, if_pos hr]
  · cases hid : s.id x with
    | some n =>
      refine ⟨1, ((s.text ", ").text ". ").write (.ref n x), ?_⟩
      rw [go_rest_pair hs _ _ _ _ hx, if_neg hr, if_neg hne, hid]
    | none =>
      obtain ⟨f1, s1, e1⟩ := h1 hid
      obtain ⟨f2, s2, e2⟩ := h2 hid f1 s1 e1
      refine ⟨max f1 f2 + 1, s2, ?_⟩
      rw [go_rest_pair hs _ _ _ _ hx, if_neg hr, if_neg hne, hid]
      dsimp only
      rw [go_le (Nat.le_max_left _ _) e1]
      dsimp only
      exact go_le (Nat.le_max_right _ _) e2

theorem ends_maybe_root {H : Heap} {l : Limits} {root : Nat} {s : PS} (hs : Second root s) {depth : Int}
    (h : Stops H l (.object root) (depth + 1) s) : Stops H l (.maybe root) depth s := by
  obtain ⟨f, s1, e⟩ := h
  by_cases hr : l.tooDeep (depth + 1)
  · refine ⟨1, s.text "#", ?_⟩
    rw [go_maybe hs, if_pos hr]
  · refine ⟨f + 1, s1, ?_⟩
    rw [go_maybe hs, if_neg hr, if_pos rfl]
    exact e

theorem ends_maybe_other {H : Heap} {l : Limits} {root : Nat} {s : PS} (hs : Second root s) {x : Nat} {depth : Int}
    (hne : x ≠ root) (h : s.id x = none → Stops H l (.object x) (depth + 1) (s.tagged x)) :
    Stops H l (.maybe x) depth s := by
  by_cases hr : l.tooDeep (depth + 1)
  · refine ⟨1, s.text "#", ?_⟩
    rw [go_maybe hs, if_pos hr]
  · cases hid : s.id x with
    | some n =>
      refine ⟨1, s.write (.ref n x), ?_⟩
      rw [go_maybe hs, if_neg hr, if_neg hne, hid]
    | none =>
      obtain ⟨f, s1, e⟩ := h hid
      refine ⟨f + 1, s1, ?_⟩
      rw [go_maybe hs, if_neg hr, if_neg hne, hid]
      exact e

theorem ends_rest_end {H : Heap} {l : Limits} {count x : Nat} {depth : Int} {s : PS}
    (hx : ∀ h t, H x ≠ .pair h t) (h : Stops H l (.maybe x) depth (s.text " . ")) :
    Stops H l (.rest count x) depth s := by
  obtain ⟨f, s1, e⟩ := h
  cases hn : H x with
  | pair a b => exact absurd hn (hx a b)
  | empty => exact ⟨1, s, by rw [go, hn]⟩
  | leaf t => exact ⟨f + 1, s1, by rw [go, hn]; exact e⟩
  | vector xs => exact ⟨f + 1, s1, by rw [go, hn]; exact e⟩

/-- How many of the objects have no id. -/
def untagged (all : List Nat) (s : PS) : Nat := all.countP (fun x => (s.id x).isNone)

theorem untagged_le (all : List Nat) (s s' : PS) (h : ∀ x n, s.id x = some n → s'.id x = some n) :
    untagged all s' ≤ untagged all s := by
  unfold untagged
  apply List.countP_mono_left
  intro x _ hx
  cases hid : s.id x with
  | none => rfl
  | some n => rw [h x n hid] at hx; cases hx

theorem countP_lt {p q : Nat → Bool} (h : ∀ x, q x = true → p x = true) {x : Nat} (hp : p x = true) (hq : q x = false) :
    ∀ l : List Nat, x ∈ l → l.countP q < l.countP p := by
  intro l
  induction l with
  | nil => intro hx; cases hx
  | cons a l ih =>
    intro hx
    have hle : l.countP q ≤ l.countP p := List.countP_mono_left (fun y _ hy => h y hy)
    rw [List.countP_cons, List.countP_cons]
    rcases List.mem_cons.1 hx with rfl | hx
    · rw [hp, hq]
      simp
      omega
    · have := ih hx
      cases ha : q a with
      | true => rw [h a ha]; simp; omega
      | false => cases p a <;> simp <;> omega

theorem untagged_tagged {all : List Nat} {s : PS} {x : Nat} (hx : x ∈ all) (hid : s.id x = none) :
    untagged all (s.tagged x) < untagged all s := by
  unfold untagged
  refine countP_lt ?_ (x := x) ?_ ?_ all hx
  · intro y hy
    rw [tagged_id] at hy
    split at hy
    · cases hy
    · exact hy
  · rw [hid]; rfl
  · rw [tagged_id, if_pos rfl]; rfl

theorem untagged_text (all : List Nat) (s : PS) (t : String) : untagged all (s.text t) = untagged all s := by
  unfold untagged
  rw [text_id]

/-- Everything comes to an end if the object printed is no part of itself. -/
theorem ends_all {H : Heap} {l : Limits} {root : Nat} {all : List Nat} (hall : ∀ y, Reach H root y → y ∈ all)
    (hself : ¬ Part H root root) : ∀ (U : Nat) (s : PS), Second root s → untagged all s ≤ U → ∀ depth x, Reach H root x →
      Stops H l (.maybe x) depth s ∧ Stops H l (.object x) depth s ∧ ∀ count, Stops H l (.rest count x) depth s := by
  intro U
  induction U using Nat.strongRecOn with
  | ind U ih =>
    -- an object other than the one printed
    have hA : ∀ s, Second root s → untagged all s ≤ U → ∀ depth x, Reach H root x → x ≠ root →
        Stops H l (.maybe x) depth s := by
      intro s hs hu depth x hx hne
      refine ends_maybe_other hs hne (fun hid => ?_)
      have hlt := untagged_tagged (hall x hx) hid
      exact (ih (untagged all (s.tagged x)) (by omega) _ (hs.tagged x) (Nat.le_refl _) _ x hx).2.1
    have hkeep : ∀ {f task depth s s'}, Second root s → untagged all s ≤ U → go H l f task depth s = some s' →
        Second root s' ∧ untagged all s' ≤ U := fun hs hu e =>
      ⟨go_second _ _ _ _ _ hs e, Nat.le_trans (untagged_le all _ _ (go_ids _ _ _ _ _ hs e)) hu⟩
    have hC : ∀ s, Second root s → untagged all s ≤ U → ∀ depth x, Reach H root x → x ≠ root → ∀ count,
        Stops H l (.rest count x) depth s := by
      intro s hs hu depth x hx hne count
      cases hn : H x with
      | pair a b =>
        have key : s.id x = none → untagged all (((s.text ", ").text ". ").tagged x) < untagged all s := by
          intro hid
          have := untagged_tagged (s := (s.text ", ").text ". ") (hall x hx) (by rw [text_id, text_id]; exact hid)
          rwa [untagged_text, untagged_text] at this
        have hs' := ((hs.text ", ").text ". ").tagged x
        refine ends_rest_other hs hn hne (fun hid => ?_) (fun hid f s1 e => ?_)
        · have := key hid
          exact (ih _ (by omega) _ hs' (Nat.le_refl _) depth x hx).1
        · have := key hid
          have hs1 := go_second _ _ _ _ _ hs' e
          have hu1 := untagged_le all _ _ (go_ids _ _ _ _ _ hs' e)
          exact (ih (untagged all s1) (by omega) s1 hs1 (Nat.le_refl _) depth b
            (Reach.part hx (by unfold Part; rw [hn]; exact .inr rfl))).2.2 _
      | empty => exact ends_rest_end (by rw [hn]; intros; simp) (hA _ (hs.text _) (by rwa [untagged_text]) _ _ hx hne)
      | leaf t => exact ends_rest_end (by rw [hn]; intros; simp) (hA _ (hs.text _) (by rwa [untagged_text]) _ _ hx hne)
      | vector xs =>
        exact ends_rest_end (by rw [hn]; intros; simp) (hA _ (hs.text _) (by rwa [untagged_text]) _ _ hx hne)
    have hitems : ∀ (P : Nat → Prop), (∀ s, Second root s → untagged all s ≤ U → ∀ depth x, P x →
          Stops H l (.maybe x) depth s) → ∀ xs : List Nat, (∀ x ∈ xs, P x) → ∀ s, Second root s → untagged all s ≤ U →
          ∀ depth count, Stops H l (.items count xs) depth s := by
      intro P hP xs
      induction xs with
      | nil => intro _ s _ _ depth count; exact ends_items_nil
      | cons x xs ihx =>
        intro hxs s hs hu depth count
        have hs0 : Second root (if count = 0 then s else s.text ", ") := by
          split
          · exact hs
          · exact hs.text _
        have hu0 : untagged all (if count = 0 then s else s.text ", ") ≤ U := by
          split
          · exact hu
          · rwa [untagged_text]
        refine ends_items_cons (hP _ hs0 hu0 _ _ (hxs x List.mem_cons_self)) (fun f s1 e => ?_)
        obtain ⟨k1, k2⟩ := hkeep hs0 hu0 e
        exact ihx (fun y hy => hxs y (List.mem_cons_of_mem _ hy)) s1 k1 k2 _ _
    have hother : ∀ y, Part H root y → Reach H root y ∧ y ≠ root := by
      intro y hy
      refine ⟨Reach.part Reach.self hy, ?_⟩
      rintro rfl
      exact hself hy
    have hD : ∀ s, Second root s → untagged all s ≤ U → ∀ depth, Stops H l (.object root) depth s := by
      intro s hs hu depth
      cases hn : H root with
      | leaf t => exact ⟨1, _, by rw [go, hn]⟩
      | empty =>
        refine ⟨1, (s.text "#(").text ")", ?_⟩
        rw [go, hn]
        simp only [hs.1]
        rfl
      | pair a b =>
        obtain ⟨a1, a2⟩ := hother a (by unfold Part; rw [hn]; exact .inl rfl)
        obtain ⟨b1, b2⟩ := hother b (by unfold Part; rw [hn]; exact .inr rfl)
        have hu' : untagged all (s.text "#(") ≤ U := by rwa [untagged_text]
        refine ends_object_pair hs hn (hA _ (hs.text _) hu' _ _ a1 a2) (fun f s1 e => ?_)
        obtain ⟨k1, k2⟩ := hkeep (hs.text _) hu' e
        exact hC s1 k1 k2 _ _ b1 b2 _
      | vector xs =>
        refine ends_object_vector hs hn (hitems (fun y => Reach H root y ∧ y ≠ root)
          (fun s hs hu depth x hx => hA s hs hu depth x hx.1 hx.2) xs (fun x hx => hother x ?_) _ (hs.text _)
          (by rwa [untagged_text]) _ _)
        unfold Part; rw [hn]; exact hx
    have hE : ∀ s, Second root s → untagged all s ≤ U → ∀ depth x, Reach H root x → Stops H l (.maybe x) depth s := by
      intro s hs hu depth x hx
      by_cases hr : x = root
      · subst hr; exact ends_maybe_root hs (hD s hs hu _)
      · exact hA s hs hu depth x hx hr
    have hG : ∀ s, Second root s → untagged all s ≤ U → ∀ depth x, Reach H root x → ∀ count,
        Stops H l (.rest count x) depth s := by
      intro s hs hu depth x hx count
      by_cases hr : x = root
      · subst hr
        have hu' : ∀ t, untagged all (s.text t) ≤ U := fun t => by rwa [untagged_text]
        cases hn : H x with
        | pair a b =>
          obtain ⟨b1, b2⟩ := hother b (by unfold Part; rw [hn]; exact .inr rfl)
          refine ends_rest_root hs hn (hE _ (hs.text _) (hu' _) _ _
            (Reach.part hx (by unfold Part; rw [hn]; exact .inl rfl))) (fun f s1 e => ?_)
          obtain ⟨k1, k2⟩ := hkeep (hs.text _) (hu' _) e
          exact hC s1 k1 k2 _ _ b1 b2 _
        | empty => exact ends_rest_end (by rw [hn]; intros; simp) (hE _ (hs.text _) (hu' _) _ _ hx)
        | leaf t => exact ends_rest_end (by rw [hn]; intros; simp) (hE _ (hs.text _) (hu' _) _ _ hx)
        | vector xs => exact ends_rest_end (by rw [hn]; intros; simp) (hE _ (hs.text _) (hu' _) _ _ hx)
      · exact hC s hs hu depth x hx hr count
    intro s hs hu depth x hx
    refine ⟨hE s hs hu depth x hx, ?_, hG s hs hu depth x hx⟩
    cases hn : H x with
    | leaf t => exact ⟨1, _, by rw [go, hn]⟩
    | empty =>
      refine ⟨1, (s.text "#(").text ")", ?_⟩
      rw [go, hn]
      simp only [hs.1]
      rfl
    | pair a b =>
      have hu' : untagged all (s.text "#(") ≤ U := by rwa [untagged_text]
      refine ends_object_pair hs hn (hE _ (hs.text _) hu' _ _
        (Reach.part hx (by unfold Part; rw [hn]; exact .inl rfl))) (fun f s1 e => ?_)
      obtain ⟨k1, k2⟩ := hkeep (hs.text _) hu' e
      exact hG s1 k1 k2 _ _ (Reach.part hx (by unfold Part; rw [hn]; exact .inr rfl)) _
    | vector xs =>
      refine ends_object_vector hs hn (hitems (fun y => Reach H root y) hE xs
        (fun y hy => Reach.part hx (by unfold Part; rw [hn]; exact hy)) _ (hs.text _) (by rwa [untagged_text]) _ _)

/-! ### Not coming to an end -/

theorem items_endless {H : Heap} {root : Nat} : ∀ (xs : List Nat) (f count : Nat) (depth : Int) (s : PS),
    (∀ f' < f, ∀ depth s, Second root s → go H ⟨none, none⟩ f' (.maybe root) depth s = none) → root ∈ xs →
    Second root s → go H ⟨none, none⟩ f (.items count xs) depth s = none := by
  intro xs
  induction xs with
  | nil => intro f count depth s _ h; cases h
  | cons x xs ih =>
    intro f count depth s hf hx hs
    cases f with
    | zero => simp [go]
    | succ f =>
      have hs0 : Second root (if count = 0 then s else s.text ", ") := by
        split
        · exact hs
        · exact hs.text _
      have hq : ¬ (Limits.equal ⟨none, none⟩ count = true) := by simp [Limits.equal]
      rw [go, if_neg hq]
      split
      · rfl
      · rename_i s1 h1
        rcases List.mem_cons.1 hx with rfl | hx
        · rw [hf f (Nat.lt_succ_self f) depth _ hs0] at h1; cases h1
        · exact ih f _ _ _ (fun f' hf' => hf f' (by omega)) hx (go_second _ _ _ _ _ hs0 h1)

theorem endless {H : Heap} {root : Nat} (hself : Part H root root) : ∀ (f : Nat) (depth : Int) (s : PS), Second root s →
    go H ⟨none, none⟩ f (.maybe root) depth s = none ∧ go H ⟨none, none⟩ f (.object root) depth s = none ∧
    ∀ count h, H root = .pair h root → go H ⟨none, none⟩ f (.rest count root) depth s = none := by
  intro f
  induction f using Nat.strongRecOn with
  | ind f ih =>
    intro depth s hs
    cases f with
    | zero => simp [go]
    | succ f =>
      have ihf := ih f (Nat.lt_succ_self f)
      refine ⟨?_, ?_, ?_⟩
      · have hq : ¬ (Limits.tooDeep ⟨none, none⟩ (depth + 1) = true) := by simp [Limits.tooDeep]
        rw [go_maybe hs, if_neg hq, if_pos rfl]
        exact (ihf _ _ hs).2.1
      · unfold Part at hself
        cases hn : H root with
        | leaf t => rw [hn] at hself; exact hself.elim
        | empty => rw [hn] at hself; exact hself.elim
        | pair a b =>
          rw [hn] at hself
          have hq : ¬ (Limits.reached ⟨none, none⟩ 0 = true) := by simp [Limits.reached]
          rw [go_object_pair hs _ _ _ hn, if_neg hq]
          rcases hself with e | e
          · subst e
            rw [(ihf _ _ (hs.text _)).1]
          · subst e
            split
            · rfl
            · rename_i s1 h1
              rw [(ihf _ _ (go_second _ _ _ _ _ (hs.text _) h1)).2.2 1 a hn]
        | vector xs =>
          rw [hn] at hself
          rw [go_object_vector hs _ _ _ hn,
            items_endless xs f 0 depth _ (fun f' hf' d s hs => (ih f' (by omega) d s hs).1) hself (hs.text _)]
      · intro count h hn
        have hq : ¬ (Limits.reached ⟨none, none⟩ count = true) := by simp [Limits.reached]
        rw [go_rest_pair hs _ _ _ _ hn, if_neg hq, if_pos rfl]
        split
        · rfl
        · rename_i s1 h1
          exact (ihf _ _ (go_second _ _ _ _ _ (hs.text _) h1)).2.2 _ h hn

/-! ### Tags -/

/-- What holds of the tags written so far. -/
structure Tags (s : PS) : Prop where
  /-- An object with an id has been tagged with it. -/
  ids : ∀ x n, s.id x = some n → Tok.tag n x ∈ s.out
  /-- The tags of the objects are their ids. -/
  tags : ∀ x n, Tok.tag n x ∈ s.out → s.id x = some n
  below : ∀ x n, s.id x = some n → n < s.next
  one : ∀ x y n, s.id x = some n → s.id y = some n → x = y
  order : s.out.filterMap Tok.tagNumber = List.range s.next
  refs : ∀ a b n x, s.out = a ++ Tok.ref n x :: b → Tok.tag n x ∈ a

/-- The end of a list that ends in one more. -/
theorem snoc_split {l a b : List Tok} {t u : Tok} (h : l ++ [t] = a ++ u :: b) :
    (b = [] ∧ a = l ∧ u = t) ∨ ∃ b', b = b' ++ [t] ∧ l = a ++ u :: b' := by
  rcases List.eq_nil_or_concat b with rfl | ⟨b', z, rfl⟩
  · left
    have := List.append_inj' h rfl
    simp at this
    exact ⟨rfl, this.1.symm, this.2.symm⟩
  · right
    rw [List.concat_eq_append] at h ⊢
    have h' : l ++ [t] = (a ++ u :: b') ++ [z] := by simpa using h
    have := List.append_inj' h' rfl
    simp at this
    exact ⟨b', by rw [this.2], this.1⟩

theorem Tags.text {s : PS} (h : Tags s) (hf : s.first = false) (t : List Char) : Tags (s.write (.text t)) := by
  have ho := write_out s (.text t) hf
  refine ⟨?_, ?_, ?_, ?_, ?_, ?_⟩
  · intro x n hx
    rw [write_id] at hx
    rw [ho]
    exact List.mem_append_left _ (h.ids x n hx)
  · intro x n hx
    rw [ho] at hx
    rw [write_id]
    rcases List.mem_append.1 hx with hx | hx
    · exact h.tags x n hx
    · simp at hx
  · intro x n hx
    rw [write_id] at hx
    rw [write_next]
    exact h.below x n hx
  · intro x y n hx hy
    rw [write_id] at hx hy
    exact h.one x y n hx hy
  · rw [ho, write_next, List.filterMap_append, h.order]
    simp [Tok.tagNumber]
  · intro a b n x hx
    rw [ho] at hx
    rcases snoc_split hx with ⟨_, _, e⟩ | ⟨b', _, e⟩
    · cases e
    · exact h.refs a b' n x e

theorem Tags.ref {s : PS} (h : Tags s) (hf : s.first = false) {x n : Nat} (hid : s.id x = some n) :
    Tags (s.write (.ref n x)) := by
  have ho := write_out s (.ref n x) hf
  refine ⟨?_, ?_, ?_, ?_, ?_, ?_⟩
  · intro x n hx
    rw [write_id] at hx
    rw [ho]
    exact List.mem_append_left _ (h.ids x n hx)
  · intro x n hx
    rw [ho] at hx
    rw [write_id]
    rcases List.mem_append.1 hx with hx | hx
    · exact h.tags x n hx
    · simp at hx
  · intro x n hx
    rw [write_id] at hx
    rw [write_next]
    exact h.below x n hx
  · intro x y n hx hy
    rw [write_id] at hx hy
    exact h.one x y n hx hy
  · rw [ho, write_next, List.filterMap_append, h.order]
    simp [Tok.tagNumber]
  · intro a b m y hx
    rw [ho] at hx
    rcases snoc_split hx with ⟨_, ha, e⟩ | ⟨b', _, e⟩
    · cases e
      rw [ha]
      exact h.ids _ _ hid
    · exact h.refs a b' m y e

theorem tagged_out {s : PS} (hf : s.first = false) (x : Nat) : (s.tagged x).out = s.out ++ [.tag s.next x] := by
  unfold PS.tagged
  rw [write_out]
  exact hf

theorem tagged_next (s : PS) (x : Nat) : (s.tagged x).next = s.next + 1 := by
  unfold PS.tagged
  rw [write_next]

theorem Tags.tagged {s : PS} (h : Tags s) (hf : s.first = false) {x : Nat} (hid : s.id x = none) :
    Tags (s.tagged x) := by
  have ho := tagged_out hf x
  refine ⟨?_, ?_, ?_, ?_, ?_, ?_⟩
  · intro y n hy
    rw [tagged_id] at hy
    rw [ho]
    split at hy
    · rename_i e
      cases hy
      subst e
      exact List.mem_append_right _ (by simp)
    · exact List.mem_append_left _ (h.ids y n hy)
  · intro y n hy
    rw [ho] at hy
    rw [tagged_id]
    rcases List.mem_append.1 hy with hy | hy
    · have := h.tags y n hy
      split
      · rename_i e
        subst e
        rw [hid] at this
        cases this
      · exact this
    · simp only [List.mem_singleton, Tok.tag.injEq] at hy
      rw [if_pos hy.2, hy.1]
  · intro y n hy
    rw [tagged_id] at hy
    rw [tagged_next]
    split at hy
    · cases hy; exact Nat.lt_succ_self _
    · exact Nat.lt_succ_of_lt (h.below y n hy)
  · intro y z n hy hz
    rw [tagged_id] at hy hz
    split at hy
    · split at hz
      · rename_i e1 e2; rw [e1, e2]
      · cases hy
        exact absurd (h.below z _ hz) (Nat.lt_irrefl _)
    · split at hz
      · cases hz
        exact absurd (h.below y _ hy) (Nat.lt_irrefl _)
      · exact h.one y z n hy hz
  · rw [ho, tagged_next, List.filterMap_append, h.order, List.range_succ]
    simp [Tok.tagNumber]
  · intro a b m y hx
    rw [ho] at hx
    rcases snoc_split hx with ⟨_, _, e⟩ | ⟨b', _, e⟩
    · cases e
    · exact h.refs a b' m y e

theorem go_tags {H : Heap} {l : Limits} {root : Nat} : ∀ (fuel : Nat) (task : Task) (depth : Int) (s s' : PS),
    Second root s → Tags s → go H l fuel task depth s = some s' → Tags s' := by
  intro fuel
  induction fuel with
  | zero => intro task depth s s' _ _ h; simp [go] at h
  | succ fuel ih =>
    intro task depth s s' hs ht h
    have htext : ∀ {s : PS}, Second root s → Tags s → ∀ t, Tags (s.text t) := fun hs ht t => ht.text hs.1 _
    cases task with
    | maybe x =>
      rw [go_maybe hs] at h
      split at h
      · cases h; exact htext hs ht _
      · split at h
        · exact ih _ _ _ _ hs ht h
        · cases hid : s.id x with
          | none =>
            rw [hid] at h
            exact ih _ _ _ _ (hs.tagged _) (ht.tagged hs.1 hid) h
          | some m => rw [hid] at h; cases h; exact ht.ref hs.1 hid
    | object x =>
      cases hx : H x with
      | leaf t => simp only [go, hx] at h; cases h; exact ht.text hs.1 _
      | empty =>
        simp only [go, hx, hs.1] at h
        cases h; exact htext (hs.text _) (htext hs ht _) _
      | pair a b =>
        rw [go_object_pair hs _ _ _ hx] at h
        split at h
        · cases h; exact htext ((hs.text _).text _) (htext (hs.text _) (htext hs ht _) _) _
        · split at h
          · cases h
          · rename_i s1 h1
            have hs1 := go_second _ _ _ _ _ (hs.text _) h1
            have ht1 := ih _ _ _ _ (hs.text _) (htext hs ht _) h1
            split at h
            · cases h
            · rename_i s2 h2
              cases h
              exact htext (go_second _ _ _ _ _ hs1 h2) (ih _ _ _ _ hs1 ht1 h2) _
      | vector xs =>
        rw [go_object_vector hs _ _ _ hx] at h
        split at h
        · cases h
        · rename_i s1 h1
          cases h
          exact htext (go_second _ _ _ _ _ (hs.text _) h1) (ih _ _ _ _ (hs.text _) (htext hs ht _) h1) _
    | rest count x =>
      cases hx : H x with
      | empty => simp only [go, hx] at h; cases h; exact ht
      | leaf t => simp only [go, hx] at h; exact ih _ _ _ _ (hs.text _) (htext hs ht _) h
      | vector xs => simp only [go, hx] at h; exact ih _ _ _ _ (hs.text _) (htext hs ht _) h
      | pair a b =>
        rw [go_rest_pair hs _ _ _ _ hx] at h
        have hs2 := (hs.text ", ").text ". "
        have ht2 := htext (hs.text ", ") (htext hs ht ", ") ". "
        split at h
        · cases h; exact htext (hs.text _) (htext hs ht _) _
        · split at h
          · split at h
            · cases h
            · rename_i s1 h1
              exact ih _ _ _ _ (go_second _ _ _ _ _ (hs.text _) h1) (ih _ _ _ _ (hs.text _) (htext hs ht _) h1) h
          · cases hid : s.id x with
            | none =>
              rw [hid] at h
              dsimp only at h
              split at h
              · cases h
              · rename_i s1 h1
                have ht3 := ht2.tagged hs2.1 (x := x) (by rw [text_id, text_id]; exact hid)
                exact ih _ _ _ _ (go_second _ _ _ _ _ (hs2.tagged _) h1) (ih _ _ _ _ (hs2.tagged _) ht3 h1) h
            | some m =>
              rw [hid] at h
              cases h
              exact ht2.ref hs2.1 (by rw [text_id, text_id]; exact hid)
    | items count xs =>
      cases xs with
      | nil => simp only [go] at h; cases h; exact ht
      | cons x xs =>
        have hs0 : Second root (if count = 0 then s else s.text ", ") := by
          split
          · exact hs
          · exact hs.text _
        have ht0 : Tags (if count = 0 then s else s.text ", ") := by
          split
          · exact ht
          · exact htext hs ht _
        simp only [go] at h
        split at h
        · cases h; exact htext hs0 ht0 _
        · split at h
          · cases h
          · rename_i s1 h1
            exact ih _ _ _ _ (go_second _ _ _ _ _ hs0 h1) (ih _ _ _ _ hs0 ht0 h1) h

end Verif.Print
