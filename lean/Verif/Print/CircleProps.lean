import Verif.Print.CircleLemmas

/-
`print` with `circle?: #t`: when it comes to an end, and what its tags mean.
-/

namespace Verif.Print

/-- C131: whatever the limits are, printing an object that is not a part of itself comes to an end, although the
objects it holds may hold themselves, one another and the object. -/
theorem circle_ends_partial (H : Heap) (l : Limits) (x : Nat) (hf : FiniteFrom H x) (hx : ¬ Part H x x) :
    ∃ out, CirclePrints H l x out := by
  obtain ⟨all, hall⟩ := hf
  obtain ⟨f, s, e⟩ := (ends_all (l := l) hall hx _ (secondStart x) (secondStart_ok x) (Nat.le_refl _) (-1) x Reach.self).1
  exact ⟨s.out, f + 1, s, by rw [printCircle_second]; exact go_mono _ _ _ _ _ e, rfl⟩

/-- C131: without limits, these are the only objects that are printed. -/
theorem circle_ends_iff (H : Heap) (x : Nat) (hf : FiniteFrom H x) :
    (∃ out, CirclePrints H ⟨none, none⟩ x out) ↔ ¬ Part H x x := by
  refine ⟨?_, circle_ends_partial H _ x hf⟩
  rintro ⟨out, f, s, e, _⟩ hx
  cases f with
  | zero => simp [printCircle, go] at e
  | succ f =>
    rw [printCircle_second, (endless hx (f + 1) (-1) _ (secondStart_ok x)).1] at e
    cases e

/-- C131: the tags are numbered 0, 1, 2, ... in the order in which they are written; a reference follows the tag of the
same object with the same number; and no object has two tags. -/
theorem circle_tags (H : Heap) (l : Limits) (x : Nat) (out : List Tok) (h : CirclePrints H l x out) :
    (∃ k, out.filterMap Tok.tagNumber = List.range k) ∧
    (∀ a b n y, out = a ++ Tok.ref n y :: b → Tok.tag n y ∈ a) ∧
    (∀ m n y, Tok.tag m y ∈ out → Tok.tag n y ∈ out → m = n) := by
  obtain ⟨f, s, e, rfl⟩ := h
  cases f with
  | zero => simp [printCircle, go] at e
  | succ f =>
    rw [printCircle_second] at e
    have ht : Tags (secondStart x) := by
      refine ⟨?_, ?_, ?_, ?_, ?_, ?_⟩
      · intro y n hy; simp [secondStart, PS.new, PS.counted] at hy
      · intro y n hy; simp [secondStart, PS.new, PS.counted] at hy
      · intro y n hy; simp [secondStart, PS.new, PS.counted] at hy
      · intro y z n hy; simp [secondStart, PS.new, PS.counted] at hy
      · rfl
      · intro a b n y hy; simp [secondStart, PS.new, PS.counted] at hy
    have hs := go_tags _ _ _ _ _ (secondStart_ok x) ht e
    refine ⟨⟨s.next, hs.order⟩, hs.refs, ?_⟩
    intro m n y hm hn
    have h1 := hs.tags y m hm
    rw [hs.tags y n hn] at h1
    cases h1
    rfl

/-- C131: wherever `#n#` is written, it signifies the same object, and an object is signified by one number only. -/
theorem circle_references (H : Heap) (l : Limits) (x : Nat) (out : List Tok) (h : CirclePrints H l x out)
    (m n y z : Nat) (hm : Tok.ref m y ∈ out) (hn : Tok.ref n z ∈ out) : m = n ↔ y = z := by
  obtain ⟨⟨k, h1⟩, h2, h3⟩ := circle_tags H l x out h
  obtain ⟨a, b, e⟩ := List.append_of_mem hm
  obtain ⟨a', b', e'⟩ := List.append_of_mem hn
  have ty : Tok.tag m y ∈ out := by rw [e]; exact List.mem_append_left _ (h2 a b m y e)
  have tz : Tok.tag n z ∈ out := by rw [e']; exact List.mem_append_left _ (h2 a' b' n z e')
  constructor
  · rintro rfl
    -- the same number twice would be twice in the list of numbers
    obtain ⟨p, q, hp⟩ := List.append_of_mem ty
    have hz : Tok.tag m z ∈ p ∨ Tok.tag m z = Tok.tag m y ∨ Tok.tag m z ∈ q := by
      rw [hp] at tz
      simpa using tz
    have hnd := List.nodup_range (n := k)
    rw [← h1, hp, List.filterMap_append] at hnd
    simp only [List.filterMap_cons, Tok.tagNumber] at hnd
    rw [List.nodup_append] at hnd
    rcases hz with hz | hz | hz
    · exact absurd rfl (hnd.2.2 m (List.mem_filterMap.2 ⟨_, hz, rfl⟩) m List.mem_cons_self)
    · cases hz; rfl
    · exact absurd (List.mem_filterMap.2 ⟨Tok.tag m z, hz, rfl⟩ : m ∈ q.filterMap Tok.tagNumber)
        (List.nodup_cons.1 hnd.2.1).1
  · rintro rfl
    exact h3 m n y ty tz

/-- A vector whose only element is the vector itself. -/
def selfVector : Heap := fun x => if x = 0 then .vector [0] else .empty

/-- C131 violated: a vector that is an element of itself is printed without end. -/
theorem self_vector_violated : ∃ (H : Heap) (x : Nat), FiniteFrom H x ∧ ¬ ∃ out, CirclePrints H ⟨none, none⟩ x out := by
  have hfin : FiniteFrom selfVector 0 := by
    refine ⟨[0], fun y hy => ?_⟩
    induction hy with
    | self => simp
    | part _ hz ih =>
      have ih := List.mem_singleton.1 ih
      subst ih
      simpa [Part, selfVector] using hz
  refine ⟨selfVector, 0, hfin, ?_⟩
  rw [circle_ends_iff _ _ hfin]
  simp [Part, selfVector]

/-- `list(1, 2)` and `list(1, 3)`. -/
def lists : Heap
  | 0 => .pair 2 1
  | 1 => .pair 3 4
  | 2 => .leaf ['1']
  | 3 => .leaf ['2']
  | 5 => .pair 2 6
  | 6 => .pair 7 4
  | 7 => .leaf ['3']
  | _ => .empty

/-- C131 violated: lists with different elements are printed alike, and elements that occur once are tagged. -/
theorem lists_alike_violated : ∃ out out', CirclePrints lists ⟨none, none⟩ 0 out ∧
    CirclePrints lists ⟨none, none⟩ 5 out' ∧ written out = written out' ∧
    written out = "#(#0#=1, . #1#=#1#)".toList := by
  refine ⟨_, _, ⟨10, _, rfl, rfl⟩, ⟨10, _, rfl, rfl⟩, ?_, ?_⟩ <;> decide +kernel

/-- A vector with a vector that holds it: printing ends, and the text shows the outer vector twice. -/
def ring : Heap := fun x => if x = 0 then .vector [1] else if x = 1 then .vector [0, 1, 2] else .leaf ['a']

example : FiniteFrom ring 0 ∧ ¬ Part ring 0 0 := by
  refine ⟨⟨[0, 1, 2], fun y hy => ?_⟩, by simp [Part, ring]⟩
  induction hy with
  | self => simp
  | @part y z _ hz ih =>
    simp only [List.mem_cons, List.not_mem_nil, or_false] at ih
    rcases ih with rfl | rfl | rfl <;> simp [Part, ring] at hz
    · subst hz; simp
    · rcases hz with rfl | rfl | rfl <;> simp

example : ∃ out, CirclePrints ring ⟨none, none⟩ 0 out ∧ written out = "#[#0#=#[#[#0#], #0#, #1#=a]]".toList ∧
    Tok.ref 0 1 ∈ out := by
  refine ⟨_, ⟨12, _, rfl, rfl⟩, ?_, ?_⟩ <;> decide +kernel

end Verif.Print
