import Verif.JamMods.Model
import Verif.JamMods.Spec
import Verif.JamNames.Props
/-
C160: modifiers of a variable apply from left to right.
-/
namespace Verif.JamMods
open Verif.JamNames (stripGrist extractGrist Marked)

theorem take_all (r : List MC) (h : (':', true) ∉ r) : takeReplacement r = (r, []) := by
  induction r with
  | nil => rfl
  | cons c r ih =>
    have hc : c ≠ (':', true) := fun e => h (by simp [e])
    have := ih (fun e => h (by simp [e]))
    simp [takeReplacement, hc, this]

theorem take_colon (r s : List MC) (h : (':', true) ∉ r) : takeReplacement (r ++ (':', true) :: s) = (r, s) := by
  induction r with
  | nil => simp [takeReplacement]
  | cons c r ih =>
    have hc : c ≠ (':', true) := fun e => h (by simp [e])
    have := ih (fun e => h (by simp [e]))
    simp [takeReplacement, hc, this]

theorem joinLoop_rest (joiner : Name) (cs : List Name) (r : Name) :
    joinLoop joiner cs false r = r ++ (cs.map (joiner ++ ·)).flatten := by
  induction cs generalizing r with
  | nil => simp [joinLoop]
  | cons c cs ih => simp [joinLoop, ih]

theorem intercalate_cons (joiner c : Name) (cs : List Name) :
    List.intercalate joiner (c :: cs) = c ++ (cs.map (joiner ++ ·)).flatten := by
  induction cs generalizing c with
  | nil => simp [List.intercalate]
  | cons d cs ih =>
    have := ih d
    simp [List.intercalate, List.intersperse] at this ⊢
    rw [this]

/-- What follows the letter of a modifier is read as its replacement and the other modifiers. -/
theorem written_cons (m : Modifier) (ms : List Modifier) (hm : m.Plain) (hms : ∀ n ∈ ms, n.Plain) :
    ∃ s, written (m :: ms) = (m.letter, true) :: s ∧ replacement s = (m.value, written ms) ∧ (written ms).length ≤ s.length := by
  obtain ⟨l, repl⟩ := m
  cases repl with
  | none =>
    cases ms with
    | nil => exact ⟨[], rfl, rfl, by simp [written]⟩
    | cons n ms =>
      refine ⟨written (n :: ms), by simp [written, Modifier.text], ?_, by simp⟩
      have hn := (hms n (by simp)).1
      have : ∃ t, written (n :: ms) = (n.letter, true) :: t := by
        cases ms with
        | nil => exact ⟨_, rfl⟩
        | cons _ _ => exact ⟨_, rfl⟩
      obtain ⟨t, ht⟩ := this
      rw [ht]
      simp [replacement, hn, Modifier.value]
  | some r =>
    have hr := hm.2 r rfl
    cases ms with
    | nil => exact ⟨('=', true) :: r, rfl, by simp [replacement, take_all r hr, Modifier.value, written], by simp [written]⟩
    | cons n ms =>
      refine ⟨('=', true) :: (r ++ (':', true) :: written (n :: ms)), by simp [written, Modifier.text], ?_, by simp; omega⟩
      simp [replacement, take_colon r _ hr, Modifier.value]

theorem colon_means_fuel (f : Char → Option Name → Option (Name → Name)) (file : List Name → Name) (ms : List Modifier) :
    ∀ (k : Nat) (contents : Option (List Name)), (∀ m ∈ ms, m.Plain) → (written ms).length < k →
    colon f file k contents (written ms) = meaning f file ms (contents.getD []) := by
  induction ms with
  | nil =>
    intro k contents _ hk
    obtain ⟨k, rfl⟩ : ∃ k', k = k' + 1 := ⟨k - 1, by omega⟩
    simp [written, colon, meaning]
  | cons m ms ih =>
    intro k contents hp hk
    obtain ⟨k, rfl⟩ : ∃ k', k = k' + 1 := ⟨k - 1, by omega⟩
    obtain ⟨s, h1, h2, h3⟩ := written_cons m ms (hp m (by simp)) (fun n hn => hp n (by simp [hn]))
    rw [h1] at hk ⊢
    unfold colon meaning
    simp only [h2]
    generalize contents.getD [] = names
    by_cases hE : m.letter = 'E'
    · simp only [hE, if_true]
      by_cases hn : names = []
      · simp only [hn, ne_eq, not_true_eq_false, if_false, if_true]
        cases m.value <;> rfl
      · simp [hn]
    · rw [if_neg hE, if_neg hE]
      by_cases hJ : m.letter = 'J'
      · simp only [hJ, if_true]
        cases names with
        | nil => rfl
        | cons c cs => simp [joinLoop, joinLoop_rest, intercalate_cons]
      · rw [if_neg hJ, if_neg hJ]
        by_cases hA : m.letter = '@'
        · simp only [hA, if_true]
          by_cases hn : names = [] <;> simp [hn]
        · rw [if_neg hA, if_neg hA]
          cases hf : f m.letter m.value with
          | none => rfl
          | some g =>
            simp only [Option.bind_some]
            rw [ih k (some (names.map g)) (fun n hn => hp n (by simp [hn])) (by simp at hk; omega)]
            rfl

/-- Modifiers apply from left to right to every member, with their replacements as they are written: a
    colon that comes from the value of another variable does not end one. A variable that is not set has
    no members. -/
theorem colon_means (f : Char → Option Name → Option (Name → Name)) (file : List Name → Name) (ms : List Modifier)
    (contents : Option (List Name)) (h : ∀ m ∈ ms, m.Plain) :
    colon f file ((written ms).length + 1) contents (written ms) = meaning f file ms (contents.getD []) :=
  colon_means_fuel f file ms _ contents h (by omega)

/-- A case with a colon from a value in a replacement, then a join. -/
example : let f : Char → Option Name → Option (Name → Name) := fun c r => if c = 'D' then some (fun n => r.getD [] ++ n) else none
    let ms : List Modifier := [⟨'D', some [('c', false), (':', false), ('/', true)]⟩, ⟨'D', none⟩, ⟨'J', some [('+', true)]⟩]
    (∀ m ∈ ms, m.Plain) ∧
    colon f (fun _ => []) ((written ms).length + 1) (some ["a".toList, "b".toList, "e".toList]) (written ms) =
      some ["c:/a+c:/b+c:/e".toList] := by
  refine ⟨?_, by decide +kernel⟩
  intro m hm
  simp at hm
  rcases hm with rfl | rfl | rfl
  · refine ⟨by simp, ?_⟩; intro r hr; simp at hr; subst hr; simp
  · refine ⟨by simp, ?_⟩; intro r hr; simp at hr
  · refine ⟨by simp, ?_⟩; intro r hr; simp at hr; subst hr; simp

/-- A modifier without a replacement cannot be followed by a colon and another one: the colon is taken for
    the letter of a modifier, unknown unless `f` knows it. -/
theorem colon_between_violated (f : Char → Option Name → Option (Name → Name)) (file : List Name → Name)
    (hf : f ':' none = none) (g : Name → Name) (hg : f 'U' none = some g) (names : List Name) (k : Nat) :
    colon f file (k + 2) (some names) [('U', true), (':', true), ('L', true)] = none := by
  simp [colon, replacement, hf, hg]

/-- After `E` other modifiers are not applied, and not even checked. -/
theorem colon_default_stops (f : Char → Option Name → Option (Name → Name)) (file : List Name → Name) (ms : List Modifier)
    (m : Modifier) (hm : m.letter = 'E') (h : ∀ n ∈ m :: ms, n.Plain) (names : List Name) :
    colon f file ((written (m :: ms)).length + 1) (some names) (written (m :: ms)) =
      some (if names = [] then [m.value.getD []] else names) := by
  rw [colon_means f file _ _ h]
  simp [meaning, hm]

/-- The modifier of marks gives names the mark asked for, with or without its brackets, in place of the
    one they had. -/
theorem grist_modifier (g name : Name) (hg : g ≠ []) (h1 : g.head? ≠ some '<') (h2 : '>' ∉ g) (r : Name)
    (hr : r = g ∨ r = ['<'] ++ g ++ ['>']) :
    Marked (gristModifier (some r) name) (['<'] ++ g ++ ['>']) (stripGrist name) := by
  refine ⟨g, h2, by simp, ?_⟩
  have key : gristModifier (some r) name = ['<'] ++ g ++ ['>'] ++ stripGrist name := by
    unfold gristModifier
    rcases hr with hr | hr
    · subst hr
      have hlast : r[r.length - 1]? ≠ some '>' := by
        intro e
        exact h2 (List.mem_of_getElem? e)
      simp only [if_neg hg, if_neg h1, if_neg hlast, List.take_length, List.drop_zero]
    · subst hr
      have hlast : (['<'] ++ g ++ ['>'])[(['<'] ++ g ++ ['>']).length - 1]? = some '>' := by
        rw [← List.getLast?_eq_getElem?, List.getLast?_concat]
      have hlen : (['<'] ++ g ++ ['>']).length - 1 = (['<'] ++ g).length := by simp
      dsimp only
      rw [if_neg (by simp)]
      simp only [hlast, if_true]
      rw [hlen, List.take_left]
      simp
  rw [key]

/-- Without a replacement it gives the mark, and with an empty one the name without it. -/
theorem grist_modifier_parts (name : Name) : gristModifier none name ++ gristModifier (some []) name = name :=
  Verif.JamNames.grist_parts name

example : gristModifier (some "<new>".toList) "<old>a.c".toList = "<new>a.c".toList ∧
    gristModifier (some "new".toList) "<old>a.c".toList = "<new>a.c".toList := by decide +kernel

end Verif.JamMods
