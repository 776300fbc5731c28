import Verif.JamSelect.Lemmas
/-
C159: a selection in brackets gives the members with the numbers written there.
-/
namespace Verif.JamSelect
open Verif.IntString (characterToInteger)

variable {α : Type}

theorem nondigit_bracket : characterToInteger ']' = none := by decide
theorem nondigit_dash : characterToInteger '-' = none := by decide

/-- A number that no member has selects nothing, whatever follows it. -/
theorem select_none (colon : List α → Int → Option (List α)) (contents : List α) (pre ds tail : List Char) (n : Nat)
    (h : Writes ds n) (ht : ∀ c ∈ tail.head?, characterToInteger c = none) (hn : n < 1 ∨ contents.length < n) :
    bracket colon contents (pre ++ (ds ++ tail)) (pre.length : Nat) = some [] := by
  have hl : 0 < ds.length := List.length_pos_iff.2 h.1
  unfold bracket
  rw [if_pos (by rw [List.length_append, List.length_append]; omega), read_number pre ds tail n h ht]
  simp only
  rw [if_pos (by omega)]

/-- A number selects the member with it; modifiers after the bracket get that member. -/
theorem select_one (colon : List α → Int → Option (List α)) (contents : List α) (pre ds tail : List Char) (n : Nat)
    (h : Writes ds n) (h1 : 1 ≤ n) (h2 : n ≤ contents.length) :
    bracket colon contents (pre ++ (ds ++ ']' :: tail)) (pre.length : Nat) =
      if tail.head? = some ':' then colon (members contents n n) ((pre ++ ds ++ "]:".toList).length : Nat)
      else some (members contents n n) := by
  have hl : 0 < ds.length := List.length_pos_iff.2 h.1
  have hlen : (pre ++ (ds ++ ']' :: tail)).length = pre.length + (ds.length + (tail.length + 1)) := by simp
  have hget : (pre ++ (ds ++ ']' :: tail))[pre.length + ds.length]? = some ']' := by
    rw [List.getElem?_append_right (by omega), List.getElem?_append_right (by omega)]
    simp
  have hcol := thenColon_at colon (pre ++ ds ++ [']']) tail (members contents n n) (pre.length + ds.length + 1) (by simp; omega)
  simp only [List.append_assoc, List.cons_append, List.nil_append] at hcol
  unfold bracket
  rw [if_pos (by rw [hlen]; omega), read_number pre ds _ n h (by simp [nondigit_bracket])]
  simp only [Int.toNat_natCast, hget, if_true]
  rw [if_neg (by omega), if_neg (by rw [hlen]; omega), one_members contents n h1 h2, Option.bind_some]
  have e : ((pre.length + ds.length : Nat) : Int) + 1 = ((pre.length + ds.length + 1 : Nat) : Int) := by omega
  have e2 : ((pre.length + ds.length + 1 : Nat) : Int) + 1 = ((pre ++ ds ++ "]:".toList).length : Nat) := by simp; omega
  rw [e, hcol, e2]

/-- A number and a dash select the member with the number and all after it. -/
theorem select_tail (colon : List α → Int → Option (List α)) (contents : List α) (pre ds tail : List Char) (n : Nat)
    (h : Writes ds n) (h1 : 1 ≤ n) (h2 : n ≤ contents.length) :
    bracket colon contents (pre ++ (ds ++ '-' :: ']' :: tail)) (pre.length : Nat) =
      if tail.head? = some ':' then colon (members contents n contents.length) ((pre ++ ds ++ "-]:".toList).length : Nat)
      else some (members contents n contents.length) := by
  have hl : 0 < ds.length := List.length_pos_iff.2 h.1
  have hlen : (pre ++ (ds ++ '-' :: ']' :: tail)).length = pre.length + (ds.length + (tail.length + 2)) := by simp
  have hget : (pre ++ (ds ++ '-' :: ']' :: tail))[pre.length + ds.length]? = some '-' := by
    rw [List.getElem?_append_right (by omega), List.getElem?_append_right (by omega)]
    simp
  have hget2 : (pre ++ (ds ++ '-' :: ']' :: tail))[pre.length + ds.length + 1]? = some ']' := by
    rw [List.getElem?_append_right (by omega), List.getElem?_append_right (by omega)]
    rw [show pre.length + ds.length + 1 - pre.length - ds.length = 1 by omega]
    simp
  have hcol := thenColon_at colon (pre ++ ds ++ ['-', ']']) tail (members contents n contents.length) (pre.length + ds.length + 2) (by simp; omega)
  simp only [List.append_assoc, List.cons_append, List.nil_append] at hcol
  have e : ((pre.length + ds.length : Nat) : Int) + 1 = ((pre.length + ds.length + 1 : Nat) : Int) := by omega
  have e' : ((pre.length + ds.length : Nat) : Int) + 2 = ((pre.length + ds.length + 2 : Nat) : Int) := by omega
  have e2 : ((pre.length + ds.length + 2 : Nat) : Int) + 1 = ((pre ++ ds ++ "-]:".toList).length : Nat) := by simp; omega
  unfold bracket
  rw [if_pos (by rw [hlen]; omega), read_number pre ds _ n h (by simp [nondigit_dash])]
  simp only [Int.toNat_natCast, hget]
  rw [if_neg (by omega), if_neg (by rw [hlen]; omega), if_neg (by simp), if_pos trivial, e, Int.toNat_natCast,
    if_pos ⟨by rw [hlen]; omega, hget2⟩, copy_members contents n contents.length h1 (by omega) (by omega), Option.bind_some,
    e', hcol, e2]

/-- What a range of two numbers does, in terms of the copy it makes. -/
theorem range_copies (colon : List α → Int → Option (List α)) (contents : List α) (pre ds es tail : List Char) (n m : Nat)
    (h : Writes ds n) (h' : Writes es m) (h1 : 1 ≤ n) (h2 : n ≤ contents.length) :
    bracket colon contents (pre ++ (ds ++ '-' :: (es ++ ']' :: tail))) (pre.length : Nat) =
      (if m < 1 ∨ contents.length < m then Verif.Common.copySeq contents ((n : Int) - 1) (contents.length : Nat)
        else Verif.Common.copySeq contents ((n : Int) - 1) (m : Nat)).bind fun r =>
      if tail.head? = some ':' then colon r ((pre ++ ds ++ ['-'] ++ es ++ "]:".toList).length : Nat) else some r := by
  have hl : 0 < ds.length := List.length_pos_iff.2 h.1
  have hl' : 0 < es.length := List.length_pos_iff.2 h'.1
  have hread := read_number (pre ++ ds ++ ['-']) es (']' :: tail) m h' (by simp [nondigit_bracket])
  simp only [List.append_assoc, List.cons_append, List.nil_append] at hread
  have hget : (pre ++ (ds ++ '-' :: (es ++ ']' :: tail)))[pre.length + ds.length]? = some '-' := by
    rw [List.getElem?_append_right (by omega), List.getElem?_append_right (by omega)]
    simp
  have hget2 : (pre ++ (ds ++ '-' :: (es ++ ']' :: tail)))[pre.length + ds.length + 1]? ≠ some ']' := by
    rw [List.getElem?_append_right (by omega), List.getElem?_append_right (by omega)]
    rw [show pre.length + ds.length + 1 - pre.length - ds.length = 1 by omega]
    cases es with
    | nil => exact absurd rfl h'.1
    | cons c es =>
      have hc := h'.2.1 c (by simp)
      intro e
      simp at e
      subst e
      revert hc; decide
  have hget3 : ∀ k, (pre ++ (ds ++ '-' :: (es ++ ']' :: tail)))[pre.length + ds.length + 1 + es.length + k]? = (']' :: tail)[k]? := by
    intro k
    have := List.getElem?_append_right (l₁ := pre ++ ds ++ ['-'] ++ es) (l₂ := ']' :: tail)
      (i := pre.length + ds.length + 1 + es.length + k) (by simp; omega)
    simp only [List.append_assoc, List.cons_append, List.nil_append] at this
    rw [this]
    congr 1
    simp; omega
  have hlen : (pre ++ (ds ++ '-' :: (es ++ ']' :: tail))).length = pre.length + (ds.length + (es.length + (tail.length + 1) + 1)) := by simp
  have hpl : (pre ++ (ds ++ ['-'])).length = pre.length + ds.length + 1 := by simp; omega
  have e : ((pre.length + ds.length : Nat) : Int) + 1 = ((pre.length + ds.length + 1 : Nat) : Int) := by omega
  rw [hpl] at hread
  have hres : (if ((m : Nat) : Int) < 1 ∨ ((m : Nat) : Int) > (contents.length : Nat) then Verif.Common.copySeq contents ((n : Int) - 1) (contents.length : Nat)
      else Verif.Common.copySeq contents ((n : Int) - 1) ((m : Nat) : Int)) =
      (if m < 1 ∨ contents.length < m then Verif.Common.copySeq contents ((n : Int) - 1) (contents.length : Nat)
        else Verif.Common.copySeq contents ((n : Int) - 1) (m : Nat)) := by
    by_cases hm : m < 1 ∨ contents.length < m
    · rw [if_pos hm, if_pos (by omega)]
    · rw [if_neg hm, if_neg (by omega)]
  unfold bracket
  rw [if_pos (by rw [hlen]; omega), read_number pre ds _ n h (by simp [nondigit_dash])]
  simp only [Int.toNat_natCast, hget]
  rw [if_neg (by omega), if_neg (by rw [hlen]; omega), if_neg (by simp), if_pos trivial, e, Int.toNat_natCast,
    if_neg (fun c => hget2 c.2), hread]
  simp only [hres]
  generalize (if m < 1 ∨ contents.length < m then Verif.Common.copySeq contents ((n : Int) - 1) (contents.length : Nat)
        else Verif.Common.copySeq contents ((n : Int) - 1) (m : Nat)) = res
  have e1 : ((pre.length + ds.length + 1 + es.length : Nat) : Int) + 1 = ((pre.length + ds.length + 1 + es.length + 1 : Nat) : Int) := by omega
  have e2 : ((pre.length + ds.length + 1 + es.length : Nat) : Int) + 2 = ((pre ++ ds ++ ['-'] ++ es ++ "]:".toList).length : Nat) := by simp; omega
  have g0 := hget3 0
  have g1 := hget3 1
  rw [Nat.add_zero] at g0
  rw [e1, e2, Int.toNat_natCast, Int.toNat_natCast, g0, g1]
  cases tail with
  | nil => cases res <;> simp
  | cons c t =>
    have hlt : ((pre.length + ds.length + 1 + es.length + 1 : Nat) : Int) < ((pre ++ (ds ++ '-' :: (es ++ ']' :: c :: t))).length : Nat) := by
      rw [hlen]; simp only [List.length_cons]; omega
    simp only [hlt, true_and]
    by_cases hc : c = ':' <;> cases res <;> simp [hc]

/-- Two numbers with a dash between them select the members from the first to the second, or to the last
    one if there is none with the second number. The second number must not be less than the first by
    more than one: see `select_backwards`. -/
theorem select_range_partial (colon : List α → Int → Option (List α)) (contents : List α) (pre ds es tail : List Char) (n m : Nat)
    (h : Writes ds n) (h' : Writes es m) (h1 : 1 ≤ n) (h2 : n ≤ contents.length) (h3 : n ≤ m + 1) (h4 : 1 ≤ m) :
    bracket colon contents (pre ++ (ds ++ '-' :: (es ++ ']' :: tail))) (pre.length : Nat) =
      if tail.head? = some ':' then colon (members contents n (min m contents.length)) ((pre ++ ds ++ ['-'] ++ es ++ "]:".toList).length : Nat)
      else some (members contents n (min m contents.length)) := by
  rw [range_copies colon contents pre ds es tail n m h h' h1 h2]
  by_cases hm : m ≤ contents.length
  · rw [if_neg (by omega), copy_members contents n m h1 h3 hm, Nat.min_eq_left hm, Option.bind_some]
  · rw [if_pos (by omega), copy_members contents n contents.length h1 (by omega) (by omega), Nat.min_eq_right (by omega), Option.bind_some]

/-- A range to zero goes to the last member. -/
theorem select_range_zero (colon : List α → Int → Option (List α)) (contents : List α) (pre ds es tail : List Char) (n : Nat)
    (h : Writes ds n) (h' : Writes es 0) (h1 : 1 ≤ n) (h2 : n ≤ contents.length) :
    bracket colon contents (pre ++ (ds ++ '-' :: (es ++ ']' :: tail))) (pre.length : Nat) =
      if tail.head? = some ':' then colon (members contents n contents.length) ((pre ++ ds ++ ['-'] ++ es ++ "]:".toList).length : Nat)
      else some (members contents n contents.length) := by
  rw [range_copies colon contents pre ds es tail n 0 h h' h1 h2, if_pos (by omega),
    copy_members contents n contents.length h1 (by omega) (by omega), Option.bind_some]

/-- Every range that runs backwards by more than one is an error. -/
theorem select_backwards (colon : List α → Int → Option (List α)) (contents : List α) (pre ds es tail : List Char) (n m : Nat)
    (h : Writes ds n) (h' : Writes es m) (h2 : n ≤ contents.length) (h3 : m + 1 < n) (h4 : 1 ≤ m) :
    bracket colon contents (pre ++ (ds ++ '-' :: (es ++ ']' :: tail))) (pre.length : Nat) = none := by
  rw [range_copies colon contents pre ds es tail n m h h' (by omega) h2, if_neg (by omega)]
  unfold Verif.Common.copySeq
  rw [if_pos (by omega)]
  rfl

/-- The hypotheses hold for `x[2-3]:U`, and the members are those expected. -/
example : Writes "2".toList 2 ∧ Writes "03".toList 3 ∧ members ["a", "b", "c", "d"] 2 3 = ["b", "c"] ∧
    bracket (fun r i => some (r ++ [toString i])) ["a", "b", "c", "d"] "x[2-03]:U".toList 2 = some ["b", "c", "8"] ∧
    bracket (fun _ _ => none) ["a", "b", "c", "d"] "x[2-]".toList 2 = some ["b", "c", "d"] ∧
    bracket (fun _ _ => none) ["a", "b", "c", "d"] "x[2]".toList 2 = some ["b"] := by
  refine ⟨⟨by decide, by decide, by decide, by decide⟩, ⟨by decide, by decide, by decide, by decide⟩, by decide +kernel, by decide +kernel, by decide +kernel, by decide +kernel⟩

/-- A range that runs backwards signals an error, while it should select nothing: `x[3-1]`. -/
theorem select_backwards_violated (colon : List Nat → Int → Option (List Nat)) :
    bracket colon [1, 2, 3] "x[3-1]".toList 2 = none ∧ bracket colon [1, 2, 3] "x[2-1]".toList 2 = some [] := by
  constructor <;> rfl

/-- A selection without number takes the first member, and signals an error if the variable has no
    value; a range that is not closed signals an error too: `x[` and `x[1-`. -/
theorem select_open_violated (colon : List Nat → Int → Option (List Nat)) :
    bracket colon [1, 2] "x[".toList 2 = some [1] ∧ bracket colon [] "x[".toList 2 = none ∧
      bracket colon [1, 2] "x[1-".toList 2 = none ∧ bracket colon [1, 2] "x[2".toList 2 = some [2] := by
  refine ⟨rfl, rfl, rfl, rfl⟩

end Verif.JamSelect
