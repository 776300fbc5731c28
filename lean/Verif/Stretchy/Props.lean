import Verif.Stretchy.Lemmas
/-!
# Properties of stretchy vectors (C60)
-/
namespace Verif.Stretchy
open Spec

variable {α : Type}

/-- **C60.** `make` refuses a negative size or capacity, a capacity less than the size, and a fill of
the wrong type; else it gives a vector of `size` elements, all equal to `fill`. -/
theorem make_spec (ok : α → Bool) (size : Int) (capacity : Option Int) (fill : α) :
    ((size = 0 ∨ ok fill) ∧ 0 ≤ size ∧ size ≤ capacity.getD size ↔
      ∃ v, make ok size capacity fill = .ok v) ∧
    ∀ v, make ok size capacity fill = .ok v → elements v = .ok (List.replicate size.toNat fill) := by
  have key : ∀ v, make ok size capacity fill = .ok v →
      elements v = .ok (List.replicate size.toNat fill) := by
    intro v h
    unfold make at h
    dsimp only at h
    split at h
    · cases h
    split at h
    · cases h
    split at h
    · cases h
    split at h
    · injection h with h
      subst h
      unfold elements
      rw [elementsFrom_spec _ _ _ (by simp; omega)]
      congr 1
      simp; omega
    · injection h with h
      subst h
      have : size.toNat = 0 := by omega
      rw [this]
      rfl
  refine ⟨⟨fun ⟨h1, h2, h3⟩ => ?_, fun ⟨v, h⟩ => ?_⟩, key⟩
  · unfold make
    dsimp only
    rw [if_neg (by rintro ⟨a, b⟩; rcases h1 with h1 | h1; exact a h1; rw [h1] at b; cases b),
      if_neg (by omega), if_neg (by omega)]
    split
    · exact ⟨_, rfl⟩
    · exact ⟨_, rfl⟩
  · unfold make at h
    dsimp only at h
    split at h
    · cases h
    · rename_i c
      split at h
      · cases h
      split at h
      · cases h
      refine ⟨?_, by omega, by omega⟩
      by_cases c1 : size = 0
      · exact Or.inl c1
      · refine Or.inr ?_
        cases c2 : ok fill with
        | true => rfl
        | false => exact absurd ⟨c1, c2⟩ c

theorem make_holds (ok : α → Bool) (dflt : α) (size : Int) (capacity : Option Int) (fill : α)
    (v : Rep α) (h : make ok size capacity fill = .ok v) :
    Holds (fun x => x = dflt ∨ (capacity ≠ none ∧ x = fill)) v (List.replicate size.toNat fill) := by
  unfold make at h
  dsimp only at h
  split at h
  · cases h
  split at h
  · cases h
  split at h
  · cases h
  split at h
  · injection h with h
    subst h
    refine ⟨List.replicate ((capacity.getD size).toNat - size.toNat) fill, ?_, by simp, ?_⟩
    · simp; omega
    · intro x hx
      obtain ⟨h1, h2⟩ := List.mem_replicate.1 hx
      refine Or.inr ⟨fun e => ?_, h2⟩
      subst e
      simp at h1
  · injection h with h
    subst h
    have : size.toNat = 0 := by omega
    rw [this]
    exact ⟨[], rfl, rfl, by simp⟩

/-- **C60.** Every history of calls on a new stretchy vector gives the results it has on a sequence, and
shows the sequence at the end; no call goes out of the store or loops. An element that the program has
not stored is the default of the element type, or, if `capacity:` was given, the `fill:` of `make`. -/
theorem stretchy_vector_is_sequence (ok : α → Bool) (dflt : α) (size : Int) (capacity : Option Int)
    (fill : α) (v : Rep α) (h : make ok size capacity fill = .ok v) (ops : List (Op α)) :
    ∃ os v' l, run ok dflt v ops = (os, v') ∧ elements v' = .ok l ∧
      Steps (fun x => x = dflt ∨ (capacity ≠ none ∧ x = fill)) ok (List.replicate size.toNat fill)
        ops os l := by
  obtain ⟨os, v', l, h1, h2, h3⟩ := run_spec _ ok dflt (Or.inl rfl) ops v _
    (make_holds ok dflt size capacity fill v h)
  exact ⟨os, v', l, h1, elements_spec _ _ _ h2, h3⟩

theorem steps_safe {P : α → Prop} {ok : α → Bool} {l ops os l'} (h : Steps P ok l ops os l') :
    ∀ o ∈ os, o ≠ .fail .memory ∧ o ≠ .fail .loop := by
  induction h with
  | nil => simp
  | cons h _ ih =>
    intro o ho
    rcases List.mem_cons.1 ho with rfl | ho
    · cases h <;> simp
    · exact ih o ho

/-- **C60.** No history of calls corrupts memory or loops. -/
theorem stretchy_vector_safe (ok : α → Bool) (dflt : α) (size : Int) (capacity : Option Int)
    (fill : α) (v : Rep α) (h : make ok size capacity fill = .ok v) (ops : List (Op α)) :
    ∀ o ∈ (run ok dflt v ops).1, o ≠ .fail .memory ∧ o ≠ .fail .loop := by
  obtain ⟨os, v', l, h1, _, h3⟩ := stretchy_vector_is_sequence ok dflt size capacity fill v h ops
  rw [h1]
  exact steps_safe h3

/-- **C60.** `as(<stretchy-vector>, c)` has the elements of the collection, in order. -/
theorem as_stretchy_vector_spec (ok : α → Bool) (dflt : α) (l : List α) (h : ∀ x ∈ l, ok x) :
    ∃ v, asLoop ok dflt l ⟨0, []⟩ = (v, .ok ()) ∧ elements v = .ok l := by
  have key : ∀ (l pre : List α) (v : Rep α), (∀ x ∈ l, ok x) → Holds (fun x => x = dflt) v pre →
      ∃ v', asLoop ok dflt l v = (v', .ok ()) ∧ Holds (fun x => x = dflt) v' (pre ++ l) := by
    intro l
    induction l with
    | nil => intro pre v _ hv; exact ⟨v, rfl, by simpa using hv⟩
    | cons x l ih =>
      intro pre v hok hv
      obtain ⟨o, v', l', h1, h2, h3⟩ := step_spec (fun x => x = dflt) ok dflt rfl v pre hv (.add x)
      have hx : ok x = true := hok x (by simp)
      unfold step at h1
      dsimp only at h1
      unfold asLoop
      generalize add ok dflt v x = r at h1 ⊢
      obtain ⟨rv, re⟩ := r
      injection h1 with e1 e2
      dsimp only at e1 e2
      subst e2
      cases h3 with
      | add _ =>
        cases re with
        | ok u =>
          obtain ⟨v'', k1, k2⟩ := ih (pre ++ [x]) rv (fun y hy => hok y (by simp [hy])) h2
          exact ⟨v'', k1, by simpa using k2⟩
        | error f => simp [outUnit] at e1
      | addFail h _ => rw [hx] at h; cases h
  obtain ⟨v, h1, h2⟩ := key l [] ⟨0, []⟩ h ⟨[], rfl, rfl, by simp⟩
  exact ⟨v, h1, elements_spec _ _ _ h2⟩

example : asLoop (fun _ => true) 0 [5, 6, 7] ⟨0, []⟩ = (⟨3, [5, 6, 7, 0]⟩, .ok ()) := rfl

/-- A history that grows, removes, shrinks and grows again. -/
example : (run (fun _ => true) 0 ⟨0, []⟩ [.add 1, .add 2, .add 1, .add 4, .remove (· == 1) none,
      .all, .set 6 9, .all, .setSize 3, .setSize 5, .all, .get 7 none, .get 1 none]).1 =
    [.unit, .unit, .unit, .unit, .unit, .list [2, 4], .unit, .list [2, 4, 0, 0, 0, 0, 9], .unit,
      .unit, .list [2, 4, 0, 0, 0], .fail .invalidIndex, .val 4] := by decide

example : make (fun _ => true) 2 none 7 = .ok ⟨2, [7, 7]⟩ := rfl

/-- **C60, partial.** A call that fails leaves the vector as it was. Missing: `add!` of an element of the
wrong type, see `add_type_violated`. -/
theorem failed_call_partial (ok : α → Bool) (dflt : α) (size : Int) (capacity : Option Int)
    (fill : α) (v : Rep α) (h : make ok size capacity fill = .ok v) (ops : List (Op α)) (op : Op α)
    (hop : ∀ x, op = .add x → ok x) (f : Fail)
    (hf : (step ok dflt (run ok dflt v ops).2 op).1 = .fail f) :
    elements (step ok dflt (run ok dflt v ops).2 op).2 = elements (run ok dflt v ops).2 := by
  obtain ⟨os, v', l, h1, h2, h3⟩ := run_spec _ ok dflt (Or.inl rfl) ops v _
    (make_holds ok dflt size capacity fill v h)
  rw [h1] at hf ⊢
  dsimp only at hf ⊢
  obtain ⟨o, v'', l'', k1, k2, k3⟩ := step_spec _ ok dflt (Or.inl rfl) v' l h2 op
  rw [k1] at hf ⊢
  dsimp only at hf ⊢
  subst hf
  rw [elements_spec _ _ _ k2, elements_spec _ _ _ h2]
  cases k3 with
  | addFail hx _ => have := hop _ rfl; rw [this] at hx; cases hx
  | _ => rfl

theorem step_typed {P : α → Prop} {ok : α → Bool} (hP : ∀ x, P x → ok x = true) {l op o l'}
    (h : Step P ok l op o l') (hl : ∀ x ∈ l, ok x = true) : ∀ x ∈ l', ok x = true := by
  have hres : ∀ {n : Nat} {l' : List α}, Resized P l n l' → ∀ x ∈ l', ok x = true := by
    rintro n l' ⟨new, rfl, _, h⟩ x hx
    rcases List.mem_append.1 hx with hx | hx
    · exact hl x (List.mem_of_mem_take hx)
    · exact hP x (h x hx)
  have hrem : ∀ (t : α → Bool) (c : Nat) (l : List α), ∀ x ∈ removeFirst t c l, x ∈ l := by
    intro t c l
    induction l generalizing c with
    | nil => cases c <;> simp [removeFirst]
    | cons y l ih =>
      intro x hx
      cases c with
      | zero => simpa [removeFirst] using hx
      | succ c =>
        unfold removeFirst at hx
        split at hx
        · exact List.mem_cons_of_mem _ (ih _ x hx)
        · rcases List.mem_cons.1 hx with rfl | hx
          · simp
          · exact List.mem_cons_of_mem _ (ih _ x hx)
  cases h with
  | add h =>
    intro y hy
    rcases List.mem_append.1 hy with hy | hy
    · exact hl y hy
    · rw [List.mem_singleton.1 hy]; exact h
  | addFail _ h =>
    intro y hy
    rcases List.mem_append.1 hy with hy | hy
    · exact hl y hy
    · rw [List.mem_singleton.1 hy]; exact hP _ h
  | setSize h => exact hres h
  | set h _ =>
    intro y hy
    rcases List.mem_or_eq_of_mem_set hy with hy | rfl
    · exact hl y hy
    · exact h
  | setGrow h _ hr =>
    intro y hy
    rcases List.mem_append.1 hy with hy | hy
    · exact hres hr y hy
    · rw [List.mem_singleton.1 hy]; exact h
  | remove => exact fun x hx => hl x (List.mem_filter.1 hx).1
  | removeCount => exact fun x hx => hl x (hrem _ _ _ x hx)
  | _ => exact hl

/-- **C60, partial.** All elements of a limited stretchy vector are of its element type. Missing: element
types without a default of their own; these are filled with `#f`, see `element_type_violated`. -/
theorem element_type_partial (ok : α → Bool) (dflt : α) (hd : ok dflt) (size : Int)
    (capacity : Option Int) (fill : α) (hfill : ok fill) (v : Rep α)
    (h : make ok size capacity fill = .ok v) (ops : List (Op α)) :
    ∃ l, elements (run ok dflt v ops).2 = .ok l ∧ ∀ x ∈ l, ok x := by
  obtain ⟨os, v', l, h1, h2, h3⟩ := stretchy_vector_is_sequence ok dflt size capacity fill v h ops
  rw [h1]
  refine ⟨l, h2, ?_⟩
  have hP : ∀ x, x = dflt ∨ (capacity ≠ none ∧ x = fill) → ok x = true := by
    rintro x (rfl | ⟨_, rfl⟩) <;> assumption
  have h0 : ∀ x ∈ List.replicate size.toNat fill, ok x = true := by
    intro x hx
    rw [(List.mem_replicate.1 hx).2]; exact hfill
  clear h h1 h2
  generalize List.replicate size.toNat fill = l0 at h0 h3
  induction h3 with
  | nil => exact h0
  | cons hs _ ih => exact ih (step_typed hP hs h0)

example : ∃ v, make (fun x : Int => decide (0 ≤ x ∧ x < 256)) 2 (some 5) 7 = .ok v ∧
    elements (run (fun x : Int => decide (0 ≤ x ∧ x < 256)) 0 v [.add 8, .setSize 5, .add 256]).2 =
      .ok [7, 7, 8, 7, 7, 0] := ⟨_, rfl, rfl⟩

/-- **C60 does not hold** of new elements in general: a vector made with a `capacity:` fills the first
elements it grows by with its `fill:` and the following ones with the default. Here `0` stands for the
default `#f`. -/
theorem growth_fill_violated :
    ∃ v, make (fun _ => true) 1 (some 4) 7 = .ok v ∧
      elements (run (fun _ => true) 0 v [.setSize 4, .setSize 6]).2 = .ok [7, 7, 7, 7, 0, 0] :=
  ⟨_, rfl, rfl⟩

/-- **C60 does not hold** of a failing `add!`: a limited stretchy vector of an element type without a
representation of its own is one element longer after `add!` has signalled a type error. Here numbers
less than 100 stand for the element type and `100` for `#f`. -/
theorem add_type_violated :
    ∃ v, make (fun x => decide (x < 100)) 0 none 0 = .ok v ∧
      run (fun x => decide (x < 100)) 100 v [.add 5, .add 200, .all] =
        ([.unit, .fail .typeError, .list [5, 100]], ⟨2, [5, 100]⟩) :=
  ⟨_, rfl, by decide⟩

/-- **C60 does not hold** of the element type: growing fills a limited stretchy vector with `#f`, which is
not of the element type. Here numbers less than 100 stand for the element type and `100` for `#f`. -/
theorem element_type_violated :
    ∃ v, make (fun x => decide (x < 100)) 0 none 0 = .ok v ∧
      run (fun x => decide (x < 100)) 100 v [.set 1 5, .get 0 none] =
        ([.unit, .val 100], ⟨2, [100, 5]⟩) :=
  ⟨_, rfl, by decide⟩

end Verif.Stretchy
