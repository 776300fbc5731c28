import Verif.Macro.Unique

namespace Verif.Macro

/-! ### Templates -/

theorem flats_append (a b : List Item) : flats (a ++ b) = flats a ++ flats b := by
  induction a with
  | nil => rfl
  | cons x a ih => simp [flats, ih]

theorem flats_frags (fs : List Frag) : flats (fs.map .frag) = fs := by
  induction fs with
  | nil => rfl
  | cons f fs ih => simp [flats, flat, ih]

theorem flats_map (l : List Item) : flats l = (l.map flat).flatten := by
  induction l with
  | nil => rfl
  | cons x l ih => simp [flats, ih]

theorem separatedRest_flat (s : Frag) : ∀ (l : List Item) (it : Item),
    flats (it :: separatedRest s l) = (((it :: l).map flat).intersperse [s]).flatten
  | [], it => by simp [separatedRest, flats]
  | x :: l, it => by
    have ih := separatedRest_flat s l x
    simp only [separatedRest, flats, flat, List.map_cons] at ih ⊢
    simp [List.intersperse, ih]

theorem separated_flat (sep : Option Frag) (l : List Item) : flats (separated sep l) = joined sep (l.map flat) := by
  cases sep with
  | none => simp [separated, joined, flats_map]
  | some s =>
    cases l with
    | nil => simp [separated, joined, flats]
    | cons x l => simp only [separated, joined]; exact separatedRest_flat s l x

theorem looksEmpty_flat {it : Item} (h : it.looksEmpty = true) : flat it = [] := by
  cases it with
  | frag f => simp [Item.looksEmpty] at h
  | nested d l => simp [Item.looksEmpty] at h
  | sequence fs => simpa [Item.looksEmpty, flat] using h
  | template l => simp [Item.looksEmpty] at h; subst h; rfl
  | list l => simp [Item.looksEmpty] at h; subst h; rfl

theorem maybeSep_empty (s : Frag) {it : Item} (h : it.looksEmpty = true) : flat (maybeSep s it) = [] := by
  cases it with
  | frag f => simp [Item.looksEmpty] at h
  | nested d l => simp [Item.looksEmpty] at h
  | sequence fs => simp [Item.looksEmpty] at h; subst h; rfl
  | template l => simp [Item.looksEmpty] at h; subst h; rfl
  | list l => simp [Item.looksEmpty] at h; subst h; rfl

theorem maybeSep_full (s : Frag) {it : Item} (h : it.looksEmpty = false) : flat (maybeSep s it) = s :: flat it := by
  cases it with
  | frag f => simp [maybeSep, flat, flats]
  | nested d l => simp [maybeSep, flat, flats]
  | sequence fs =>
    simp only [Item.looksEmpty] at h
    simp [maybeSep, h, flat, flats, flats_frags]
  | template l =>
    simp only [Item.looksEmpty] at h
    simp [maybeSep, h, flat, flats]
  | list l =>
    simp only [Item.looksEmpty] at h
    simp [maybeSep, h, flat, flats]

theorem maybeSep_tidy (s : Frag) (it : Item) : (maybeSep s it).Tidy := by
  intro h
  cases he : it.looksEmpty with
  | false => rw [maybeSep_full s he] at h; cases h
  | true =>
    cases it with
    | frag f => simp [Item.looksEmpty] at he
    | nested d l => simp [Item.looksEmpty] at he
    | sequence fs => simp [Item.looksEmpty] at he; subst he; rfl
    | template l => simp [Item.looksEmpty] at he; subst he; rfl
    | list l => simp [Item.looksEmpty] at he; subst he; rfl

theorem makeTemplate_flat (l : List Item) : flat (makeTemplate l) = flats l := by
  unfold makeTemplate
  split
  · rename_i h
    simp only [flat, flats]
    have : ∀ l : List Item, l.all Item.looksEmpty = true → flats l = [] := by
      intro l
      induction l with
      | nil => intro _; rfl
      | cons x l ih =>
        intro h
        simp only [List.all_cons, Bool.and_eq_true] at h
        simp [flats, looksEmpty_flat h.1, ih h.2]
    exact (this l h).symm
  · simp [flat]

theorem makeTemplate_tidy {l : List Item} (h : ∀ it ∈ l, it.Tidy) : (makeTemplate l).Tidy := by
  intro he
  rw [makeTemplate_flat] at he
  have : ∀ l : List Item, (∀ it ∈ l, it.Tidy) → flats l = [] → l.all Item.looksEmpty = true := by
    intro l
    induction l with
    | nil => intro _ _; rfl
    | cons x l ih =>
      intro ht h
      simp only [flats, List.append_eq_nil_iff] at h
      simp only [List.all_cons, Bool.and_eq_true]
      exact ⟨ht x (by simp) h.1, ih (fun it hi => ht it (by simp [hi])) h.2⟩
  simp [makeTemplate, this l h he, Item.looksEmpty]

theorem makeTemplate_normal (l : List Item) : (makeTemplate l).Normal := by
  unfold makeTemplate; split <;> trivial

theorem name_iff {it : Item} (hn : it.Normal) (n : Name) : it.name = some n ↔ ∃ f, flat it = [f] ∧ NameLike f n := by
  cases it with
  | frag f => simp [Item.name, flat, nameOf_iff]
  | nested d l => simp [Item.name, flat, NameLike]
  | list l => exact absurd hn (by simp [Item.Normal])
  | sequence fs =>
    simp only [Item.name, flat]
    constructor
    · intro h; cases h
    · rintro ⟨f, rfl, _⟩; simp [Item.Normal] at hn
  | template l =>
    simp only [Item.name, flat]
    split
    · rename_i f h
      rw [h, nameOf_iff]
      constructor
      · intro h; exact ⟨f, rfl, h⟩
      · rintro ⟨g, e, h⟩; cases e; exact h
    · rename_i h
      constructor
      · intro h; cases h
      · rintro ⟨f, e, _⟩; exact absurd e (h f)

theorem stringify_eq {shown : List Frag → Name} (hs : ShowsNames shown) (it : Item) :
    stringify shown it = shown (flat it) := by
  cases it with
  | frag f =>
    simp only [stringify, flat]
    cases h : nameOf f with
    | none => rfl
    | some n => simp [hs f n ((nameOf_iff f n).1 h)]
  | _ => rfl

theorem separated_nil (sep : Option Frag) {l : List Item} (hl : ∀ it ∈ l, flat it ≠ []) :
    joined sep (l.map flat) = [] ↔ l = [] := by
  constructor
  · intro h
    cases l with
    | nil => rfl
    | cons x l =>
      exfalso
      apply hl x (by simp)
      cases sep with
      | none => simp [joined] at h; exact h.1
      | some s =>
        cases l with
        | nil => simpa [joined] using h
        | cons y l => simp [joined] at h
  · rintro rfl; cases sep <;> simp [joined]

set_option linter.unusedSectionVars false

section
variable {shown : List Frag → Name} (hs : ShowsNames shown) {env : BEnv} (ht : env.Tidy)
include hs ht

mutual

/-- An element of a template makes what it should, and tidily. -/
theorem fillOne_good : ∀ (x : TElem),
    (∀ it, fillOne shown env x = some it → Makes shown (texts env) x (flat it) ∧ it.Tidy) ∧
    (fillOne shown env x = none → ∀ fs, ¬ Makes shown (texts env) x fs)
  | .frag f => by
    constructor
    · intro it h; simp only [fillOne, Option.some.injEq] at h; subst h
      exact ⟨.frag f, by intro h; simp [flat] at h⟩
    · intro h; simp [fillOne] at h
  | .sep f => by
    constructor
    · intro it h; simp only [fillOne, Option.some.injEq] at h; subst h
      exact ⟨.sep f, by intro h; simp [flat] at h⟩
    · intro h; simp [fillOne] at h
  | .subst i => by
    cases he : env i with
    | none =>
      simp only [fillOne, he, reduceCtorEq, false_implies, implies_true, true_and]
      intro _ fs h; cases h; rename_i h; simp [texts, he] at h
    | some b =>
      cases b with
      | one it =>
        simp only [fillOne, he, Option.some.injEq, forall_eq', reduceCtorEq, false_implies, and_true]
        exact ⟨.subst i _ (by simp [texts, he, Bound.text]), (ht.1 i it he).1⟩
      | seq l =>
        simp only [fillOne, he, reduceCtorEq, false_implies, implies_true, true_and]
        intro _ fs h; cases h; rename_i h; simp [texts, he, Bound.text] at h
  | .asString i => by
    cases he : env i with
    | none =>
      simp only [fillOne, he, reduceCtorEq, false_implies, implies_true, true_and]
      intro _ fs h; cases h; rename_i h; simp [texts, he] at h
    | some b =>
      cases b with
      | one it =>
        simp only [fillOne, he, Option.some.injEq, forall_eq', reduceCtorEq, false_implies, and_true]
        rw [stringify_eq hs]
        exact ⟨.asString i _ (by simp [texts, he, Bound.text]), by intro h; simp [flat] at h⟩
      | seq l =>
        simp only [fillOne, he, reduceCtorEq, false_implies, implies_true, true_and]
        intro _ fs h; cases h; rename_i h; simp [texts, he, Bound.text] at h
  | .asSymbol i => by
    cases he : env i with
    | none =>
      simp only [fillOne, he, reduceCtorEq, false_implies, implies_true, true_and]
      intro _ fs h; cases h; rename_i h; simp [texts, he] at h
    | some b =>
      cases b with
      | one it =>
        simp only [fillOne, he, Option.some.injEq, forall_eq', reduceCtorEq, false_implies, and_true]
        rw [stringify_eq hs]
        exact ⟨.asSymbol i _ (by simp [texts, he, Bound.text]), by intro h; simp [flat] at h⟩
      | seq l =>
        simp only [fillOne, he, reduceCtorEq, false_implies, implies_true, true_and]
        intro _ fs h; cases h; rename_i h; simp [texts, he, Bound.text] at h
  | .spliced pre i suf => by
    cases he : env i with
    | none =>
      simp only [fillOne, he, reduceCtorEq, false_implies, implies_true, true_and]
      intro _ fs h; cases h; rename_i h; simp [texts, he] at h
    | some b =>
      cases b with
      | one it =>
        simp only [fillOne, he, Option.map_eq_some_iff, Option.map_eq_none_iff]
        constructor
        · rintro it' ⟨n, hn, rfl⟩
          obtain ⟨f, hf, hl⟩ := (name_iff (ht.1 i it he).2 n).1 hn
          exact ⟨.spliced pre i suf f n (by simp [texts, he, Bound.text, hf]) hl, by intro h; simp [flat] at h⟩
        · intro hn fs h
          cases h
          rename_i f n hnl h
          have hf : flat it = [f] := by simpa [texts, he, Bound.text] using h
          rw [(name_iff (ht.1 i it he).2 n).2 ⟨f, hf, hnl⟩] at hn
          cases hn
      | seq l =>
        simp only [fillOne, he, reduceCtorEq, false_implies, implies_true, true_and]
        intro _ fs h; cases h; rename_i h; simp [texts, he, Bound.text] at h
  | .sequence i sep => by
    cases he : env i with
    | none =>
      simp only [fillOne, he, reduceCtorEq, false_implies, implies_true, true_and]
      intro _ fs h; cases h; rename_i h; simp [texts, he] at h
    | some b =>
      cases b with
      | one it =>
        simp only [fillOne, he, reduceCtorEq, false_implies, implies_true, true_and]
        intro _ fs h; cases h; rename_i h; simp [texts, he, Bound.text] at h
      | seq l =>
        simp only [fillOne, he, Option.some.injEq, forall_eq', reduceCtorEq, false_implies, and_true]
        constructor
        · simp only [flat]
          rw [separated_flat]
          exact .sequence i sep _ (by simp [texts, he, Bound.text])
        · intro h
          simp only [flat] at h
          rw [separated_flat, separated_nil sep (ht.2 i l he)] at h
          subst h
          cases sep <;> rfl
  | .nested d body => by
    obtain ⟨h1, h2⟩ := fillAll_good body
    simp only [fillOne, Option.map_eq_some_iff, Option.map_eq_none_iff]
    constructor
    · rintro it ⟨l, hl, rfl⟩
      exact ⟨.nested d body _ (h1 l hl).1, by intro h; simp [flat] at h⟩
    · intro hn fs h
      cases h
      rename_i h
      exact h2 hn _ h

/-- So do all elements. -/
theorem fillAll_good : ∀ (t : List TElem),
    (∀ l, fillAll shown env t = some l → Fills shown (texts env) t (flats l) ∧ ∀ it ∈ l, it.Tidy) ∧
    (fillAll shown env t = none → ∀ fs, ¬ Fills shown (texts env) t fs)
  | [] => by
    constructor
    · intro l h; simp only [fillAll, Option.some.injEq] at h; subst h
      exact ⟨.nil, by simp⟩
    · intro h; simp [fillAll] at h
  | x :: rest => by
    have hx := fillOne_good x
    have hr := fillAll_good rest
    have hplain : ¬ LeavesOut (texts env) (x :: rest) → (∀ s y r, x = .sep s → rest = y :: r → y.maybeEmpty = false) →
        (∀ l, fillAll shown env (x :: rest) = some l →
          Fills shown (texts env) (x :: rest) (flats l) ∧ ∀ it ∈ l, it.Tidy) ∧
        (fillAll shown env (x :: rest) = none → ∀ fs, ¬ Fills shown (texts env) (x :: rest) fs) := by
      intro hno hm
      have e : fillAll shown env (x :: rest) = match fillOne shown env x, fillAll shown env rest with
          | some it, some l => some (it :: l)
          | _, _ => none := by
        cases x with
        | sep s =>
          cases rest with
          | nil => simp [fillAll, fillOne]
          | cons y r =>
            rw [fillAll, hm s y r rfl rfl]
            simp only [Bool.false_eq_true, if_false, fillOne]
            cases fillAll shown env (y :: r) <;> rfl
        | _ => rfl
      rw [e]
      cases h1 : fillOne shown env x with
      | none =>
        simp only [reduceCtorEq, false_implies, implies_true, true_and]
        intro _ fs hf
        cases hf with
        | leftOut s y r fs h _ => exact hno ⟨s, y, r, rfl, h⟩
        | cons _ _ a fs _ hm' _ => exact hx.2 h1 _ hm'
      | some it =>
        cases h2 : fillAll shown env rest with
        | none =>
          simp only [reduceCtorEq, false_implies, implies_true, true_and]
          intro _ fs hf
          cases hf with
          | leftOut s y r fs h _ => exact hno ⟨s, y, r, rfl, h⟩
          | cons _ _ a fs _ _ hf => exact hr.2 h2 _ hf
        | some l =>
          simp only [Option.some.injEq, forall_eq', reduceCtorEq, false_implies, and_true]
          refine ⟨?_, ?_⟩
          · rw [flats]; exact .cons x rest _ _ hno (hx.1 it h1).1 (hr.1 l h2).1
          · intro i hi
            rcases List.mem_cons.1 hi with rfl | hi
            · exact (hx.1 _ h1).2
            · exact (hr.1 l h2).2 i hi
    by_cases hcase : ∃ s y r, x = .sep s ∧ rest = y :: r ∧ y.maybeEmpty = true
    · obtain ⟨s, y, r, rfl, rfl, hm⟩ := hcase
      have hy := fillOne_good y
      have hr := fillAll_good r
      rw [fillAll, if_pos hm]
      have hempty : ∀ it, fillOne shown env y = some it → (it.looksEmpty = true ↔ StandsForNothing (texts env) y) := by
        intro it h1
        obtain ⟨hm1, htidy⟩ := hy.1 it h1
        have hiff : it.looksEmpty = true ↔ flat it = [] := ⟨looksEmpty_flat, htidy⟩
        rw [hiff]
        cases y with
        | subst i =>
          cases hm1 with
          | subst _ _ h =>
            simp only [StandsForNothing, h, Option.some.injEq, Text.single.injEq]
        | sequence i sep =>
          generalize hfl : flat it = fl at hm1
          cases hm1 with
          | sequence _ _ l h =>
            simp only [StandsForNothing, h, Option.some.injEq, Text.several.injEq, exists_eq_left']
        | _ => simp [TElem.maybeEmpty] at hm
      cases h1 : fillOne shown env y with
      | none =>
        simp only [reduceCtorEq, false_implies, implies_true, true_and]
        intro _ fs hf
        cases hf with
        | leftOut _ _ _ fs h _ =>
          cases y with
          | subst i =>
            exact hy.2 h1 _ (.subst i [] h)
          | sequence i sep =>
            obtain ⟨l, h, _⟩ := h
            exact hy.2 h1 _ (.sequence i sep l h)
          | _ => exact h
        | cons _ _ a fs _ _ hf =>
          cases hf with
          | leftOut s' z r' _ h _ => simp [TElem.maybeEmpty] at hm
          | cons _ _ a fs _ hm' _ => exact hy.2 h1 _ hm'
      | some it =>
        cases h2 : fillAll shown env r with
        | none =>
          simp only [reduceCtorEq, false_implies, implies_true, true_and]
          intro _ fs hf
          cases hf with
          | leftOut _ _ _ fs _ h => exact hr.2 h2 _ h
          | cons _ _ a fs _ _ hf =>
            cases hf with
            | leftOut s' z r' _ h _ => simp [TElem.maybeEmpty] at hm
            | cons _ _ a fs _ _ hf => exact hr.2 h2 _ hf
        | some l =>
          simp only [Option.some.injEq, forall_eq', reduceCtorEq, false_implies, and_true]
          refine ⟨?_, ?_⟩
          · rw [flats]
            cases hle : it.looksEmpty with
            | true =>
              rw [maybeSep_empty s hle]
              exact .leftOut s y r _ ((hempty it h1).1 hle) (hr.1 l h2).1
            | false =>
              rw [maybeSep_full s hle]
              have hn : ¬ StandsForNothing (texts env) y := by
                intro h; rw [(hempty it h1).2 h] at hle; cases hle
              have hn2 : ¬ LeavesOut (texts env) (.sep s :: y :: r) := by
                rintro ⟨s', x', r', e, h⟩; cases e; exact hn h
              have hn3 : ¬ LeavesOut (texts env) (y :: r) := by
                rintro ⟨s', x', r', e, h⟩; cases e; simp [TElem.maybeEmpty] at hm
              exact .cons (.sep s) (y :: r) [s] _ hn2 (.sep s) (.cons y r _ _ hn3 (hy.1 it h1).1 (hr.1 l h2).1)
          · intro i hi
            rcases List.mem_cons.1 hi with rfl | hi
            · exact maybeSep_tidy s it
            · exact (hr.1 l h2).2 i hi
    · refine hplain ?_ ?_
      · rintro ⟨s, y, r, e, h⟩
        cases e
        apply hcase
        refine ⟨s, y, r, rfl, rfl, ?_⟩
        cases y <;> simp [StandsForNothing] at h <;> rfl
      · intro s y r e1 e2
        cases hm : y.maybeEmpty with
        | false => rfl
        | true => exact absurd ⟨s, y, r, e1, e2, hm⟩ hcase

end

end

mutual
theorem makes_unique {shown : List Frag → Name} {σ : Nat → Option Text} : ∀ (x : TElem) {a b : List Frag},
    Makes shown σ x a → Makes shown σ x b → a = b
  | .frag f, a, b, h, h' => by cases h; cases h'; rfl
  | .sep f, a, b, h, h' => by cases h; cases h'; rfl
  | .subst i, a, b, h, h' => by
    cases h with | subst _ _ h => cases h' with | subst _ _ h' => rw [h] at h'; cases h'; rfl
  | .asString i, a, b, h, h' => by
    cases h with | asString _ _ h => cases h' with | asString _ _ h' => rw [h] at h'; cases h'; rfl
  | .asSymbol i, a, b, h, h' => by
    cases h with | asSymbol _ _ h => cases h' with | asSymbol _ _ h' => rw [h] at h'; cases h'; rfl
  | .spliced pre i suf, a, b, h, h' => by
    cases h with
    | spliced _ _ _ f n h hn =>
      cases h' with
      | spliced _ _ _ f' n' h' hn' =>
        rw [h] at h'; cases h'
        rw [nameLike_unique hn hn']
  | .sequence i sep, a, b, h, h' => by
    cases h with | sequence _ _ l h => cases h' with | sequence _ _ l h' => rw [h] at h'; cases h'; rfl
  | .nested d body, a, b, h, h' => by
    cases h with
    | nested _ _ fs h => cases h' with | nested _ _ fs' h' => rw [fills_unique body h h']
theorem fills_unique {shown : List Frag → Name} {σ : Nat → Option Text} : ∀ (t : List TElem) {a b : List Frag},
    Fills shown σ t a → Fills shown σ t b → a = b
  | [], a, b, h, h' => by cases h; cases h'; rfl
  | [x], a, b, h, h' => by
    cases h with
    | cons _ _ a fs _ hx hr =>
      cases h' with
      | cons _ _ a' fs' _ hx' hr' =>
        cases hr; cases hr'
        rw [makes_unique x hx hx']
  | x :: y :: r, a, b, h, h' => by
    cases h with
    | leftOut s _ _ fs h hr =>
      cases h' with
      | leftOut _ _ _ fs' _ hr' => exact fills_unique r hr hr'
      | cons _ _ _ _ hn _ _ => exact absurd ⟨s, y, r, rfl, h⟩ hn
    | cons _ _ a fs hn hx hr =>
      cases h' with
      | leftOut s _ _ fs' h' _ => exact absurd ⟨s, y, r, rfl, h'⟩ hn
      | cons _ _ a' fs' _ hx' hr' => rw [makes_unique x hx hx', fills_unique (y :: r) hr hr']
end

end Verif.Macro
