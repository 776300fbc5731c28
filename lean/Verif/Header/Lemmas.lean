import Verif.Header.Spec

/-!
# Lemmas on headers
-/

namespace Verif.Header

theorem textOf_cons (l : Line) (ls : List Line) : textOf (l :: ls) = l.content ++ (l.ending ++ textOf ls) := by
  simp [textOf]

/-! ### A line -/

theorem readLine_other {c : Char} (h1 : c ≠ '\n') (h2 : c ≠ '\r') (r : List Char) :
    readLine (c :: r) = ⟨c :: (readLine r).line, (readLine r).newline, (readLine r).rest⟩ := by
  rw [readLine]
  · exact h1
  · intro r' h3
    exact absurd h3 (by simp [h2])
  · exact h2

theorem readLine_end {ending rest : List Char} (he : ending ∈ [['\n'], ['\r'], ['\r', '\n'], []]) (h1 : ending = [] → rest = [])
    (h2 : ending = ['\r'] → rest.head? ≠ some '\n') : readLine (ending ++ rest) = ⟨[], decide (ending ≠ []), rest⟩ := by
  simp only [List.mem_cons, List.not_mem_nil, or_false] at he
  rcases he with rfl | rfl | rfl | rfl
  · simp [readLine]
  · cases rest with
    | nil => simp [readLine]
    | cons c r =>
      have : c ≠ '\n' := fun e => h2 rfl (by rw [e]; rfl)
      show readLine ('\r' :: c :: r) = _
      rw [readLine]
      · simp
      · intro r' h3
        exact this (List.cons.inj h3).1
  · simp [readLine]
  · rw [h1 rfl]
    simp [readLine]

theorem readLine_line {ending rest : List Char} (he : ending ∈ [['\n'], ['\r'], ['\r', '\n'], []]) (h1 : ending = [] → rest = [])
    (h2 : ending = ['\r'] → rest.head? ≠ some '\n') : ∀ content : List Char, '\n' ∉ content → '\r' ∉ content →
    readLine (content ++ (ending ++ rest)) = ⟨content, decide (ending ≠ []), rest⟩
  | [], _, _ => readLine_end he h1 h2
  | c :: content, h3, h4 => by
    rw [List.mem_cons, not_or] at h3 h4
    rw [List.cons_append, readLine_other (Ne.symm h3.1) (Ne.symm h4.1), readLine_line he h1 h2 content h3.2 h4.2]

theorem ending_rest {l : Line} {ls : List Line} (h : LinesOk (l :: ls)) : l.ending = [] → textOf ls = [] := by
  intro he
  rw [(h.2.2.2.1 he).2]
  rfl

theorem readLine_text {l : Line} {ls : List Line} (h : LinesOk (l :: ls)) :
    readLine (textOf (l :: ls)) = ⟨l.content, decide (l.ending ≠ []), textOf ls⟩ := by
  rw [textOf_cons]
  exact readLine_line h.2.2.1 (ending_rest h) h.2.2.2.2.1 l.content h.1 h.2.1

theorem text_pos {l : Line} {ls : List Line} (h : LinesOk (l :: ls)) : (textOf ls).length < (textOf (l :: ls)).length := by
  rw [textOf_cons]
  simp only [List.length_append]
  by_cases he : l.ending = []
  · have := List.length_pos_iff.2 (h.2.2.2.1 he).1
    omega
  · have := List.length_pos_iff.2 he
    omega

theorem white_eq (c : Char) : white c = (decide (c = ' ') || decide (c = '\t')) := by
  simp only [white]
  by_cases h1 : c = ' ' <;> by_cases h2 : c = '\t' <;> simp [h1, h2]

theorem endMarker_eq (l : Line) : endMarker l.content = l.blank :=
  congrArg (fun p => l.content.all p) (funext white_eq)

/-- The number of lines that have an end. -/
def ended (ls : List Line) : Nat := (ls.filter fun l => l.ending ≠ []).length

theorem ended_cons (l : Line) (ls : List Line) : ended (l :: ls) = (if l.ending ≠ [] then 1 else 0) + ended ls := by
  simp only [ended, List.filter_cons]
  by_cases h : l.ending ≠ []
  · simp [h]
    omega
  · simp [h]

/-! ### The lines of a component -/

/-- A line that continues. -/
def Line.more (l : Line) : Bool := l.indented && !l.blank

theorem take_more : ∀ ls : List Line, (headerOf ls).takeWhile Line.indented = ls.takeWhile Line.more
  | [] => rfl
  | l :: ls => by
    have ih := take_more ls
    unfold headerOf at ih ⊢
    cases hb : l.blank <;> cases hi : l.indented <;> simp [hb, hi, Line.more, ih]

theorem drop_more : ∀ ls : List Line, (headerOf ls).dropWhile Line.indented = headerOf (ls.dropWhile Line.more)
  | [] => rfl
  | l :: ls => by
    have ih := drop_more ls
    unfold headerOf at ih ⊢
    cases hb : l.blank <;> cases hi : l.indented <;> simp [hb, hi, Line.more, ih]

theorem body_more : ∀ ls : List Line, bodyOf ls = bodyOf (ls.dropWhile Line.more)
  | [] => rfl
  | l :: ls => by
    have ih := body_more ls
    unfold bodyOf at ih ⊢
    cases hb : l.blank <;> cases hi : l.indented <;> simp [hb, hi, Line.more, ih]

theorem consumed_more : ∀ ls : List Line, consumed ls = ls.takeWhile Line.more ++ consumed (ls.dropWhile Line.more)
  | [] => rfl
  | l :: ls => by
    have ih := consumed_more ls
    unfold consumed headerOf at ih ⊢
    cases hb : l.blank <;> cases hi : l.indented <;> simp [hb, hi, Line.more, ih]

theorem linesOk_drop (p : Line → Bool) : ∀ {ls : List Line}, LinesOk ls → LinesOk (ls.dropWhile p)
  | [], h => h
  | l :: ls, h => by
    rw [List.dropWhile_cons]
    split
    · exact linesOk_drop p h.2.2.2.2.2
    · exact h

theorem groups_cons {l : Line} (ls : List Line) (hb : l.blank = false) :
    groups (headerOf (l :: ls)) = (l, ls.takeWhile Line.more) :: groups (headerOf (ls.dropWhile Line.more)) := by
  have : headerOf (l :: ls) = l :: headerOf ls := by simp [headerOf, hb]
  rw [this, groups, take_more, drop_more]

theorem blank_rest {l : Line} {c : Char} {r : List Char} (hc : l.content = c :: r) (hw : white c = true) :
    endMarker r = l.blank := by
  rw [← endMarker_eq, hc]
  simp [endMarker, hw]

theorem strip_white {c : Char} (r : List Char) (hw : white c = true) : strip (c :: r) = strip r := by
  simp [strip, hw]

theorem contLoop_text : ∀ (ls : List Line) (fuel : Nat) (texts : List (List Char)) (n : Nat), LinesOk ls →
    (textOf ls).length < fuel →
    contLoop fuel texts n (textOf ls) =
      match ls.dropWhile Line.more with
      | [] => ⟨texts.reverse ++ (ls.takeWhile Line.more).map fun l => strip l.content, n + ended (ls.takeWhile Line.more), false, []⟩
      | l :: rest =>
        if l.indented then ⟨texts.reverse ++ (ls.takeWhile Line.more).map fun l => strip l.content,
          n + ended (ls.takeWhile Line.more) + (if l.ending ≠ [] then 1 else 0), true, textOf rest⟩
        else ⟨texts.reverse ++ (ls.takeWhile Line.more).map fun l => strip l.content, n + ended (ls.takeWhile Line.more), false,
          textOf (l :: rest)⟩
  | [], fuel, texts, n, _, hf => by
    obtain ⟨fuel, rfl⟩ : ∃ m, fuel = m + 1 := ⟨fuel - 1, by omega⟩
    simp [textOf, contLoop, ended]
  | l :: ls, fuel, texts, n, hok, hf => by
    obtain ⟨fuel, rfl⟩ : ∃ m, fuel = m + 1 := ⟨fuel - 1, by omega⟩
    have hpos := text_pos hok
    have hstop : l.indented = false → contLoop (fuel + 1) texts n (textOf (l :: ls)) =
        ⟨texts.reverse, n, false, textOf (l :: ls)⟩ := by
      intro hi
      cases ht : textOf (l :: ls) with
      | nil => rw [contLoop]
      | cons c r =>
        rw [contLoop]
        have hw : white c = false := by
          rw [textOf_cons] at ht
          cases hc : l.content with
          | cons d t =>
            rw [hc] at ht
            rw [← (List.cons.inj ht).1, white_eq]
            simpa [Line.indented, hc] using hi
          | nil =>
            rw [hc, List.nil_append] at ht
            have he := hok.2.2.1
            simp only [List.mem_cons, List.not_mem_nil, or_false] at he
            rcases he with he | he | he | he
            · rw [he] at ht
              rw [← (List.cons.inj ht).1]
              decide
            · rw [he] at ht
              rw [← (List.cons.inj ht).1]
              decide
            · rw [he] at ht
              rw [← (List.cons.inj ht).1]
              decide
            · exact absurd hc (hok.2.2.2.1 he).1
        simp [hw]
    cases hi : l.indented with
    | false =>
      rw [hstop hi]
      simp [Line.more, hi, ended]
    | true =>
      obtain ⟨c, r, hc, hw⟩ : ∃ c r, l.content = c :: r ∧ white c = true := by
        unfold Line.indented at hi
        cases hc : l.content with
        | nil => simp [hc] at hi
        | cons c r =>
          refine ⟨c, r, rfl, ?_⟩
          rw [white_eq]
          simpa [hc] using hi
      have hread : readLine (r ++ (l.ending ++ textOf ls)) = ⟨r, decide (l.ending ≠ []), textOf ls⟩ := by
        have h1 := hok.1
        have h2 := hok.2.1
        rw [hc, List.mem_cons, not_or] at h1 h2
        exact readLine_line hok.2.2.1 (ending_rest hok) hok.2.2.2.2.1 r h1.2 h2.2
      rw [textOf_cons] at hpos hf ⊢
      rw [hc, List.cons_append, contLoop, if_pos hw]
      simp only [hread, blank_rest hc hw]
      cases hb : l.blank with
      | true => by_cases he : l.ending = [] <;> simp [Line.more, hb, hi, ended, he]
      | false =>
        have ih := contLoop_text ls fuel (parseContinuation r :: texts)
          (if l.ending ≠ [] then n + 1 else n) hok.2.2.2.2.2 (by omega)
        have hm : l.more = true := by simp [Line.more, hi, hb]
        have hs : strip l.content = strip r := by rw [hc, strip_white r hw]
        simp only [Bool.false_eq_true, if_false, decide_eq_true_eq]
        rw [ih]
        simp only [List.dropWhile_cons, List.takeWhile_cons, hm, if_true, List.map_cons, hs, ended_cons, List.reverse_cons,
          List.append_assoc, List.singleton_append, parseContinuation]
        have e1 : ∀ k, (if l.ending ≠ [] then n + 1 else n) + k = n + ((if l.ending ≠ [] then 1 else 0) + k) := by
          intro k
          split <;> omega
        simp only [e1]

/-! ### The whole header -/

/-- The components are entered one after the other. -/
def enterAll (keys : Keys) : List (Line × List Line) → Option Keys
  | [] => some keys
  | g :: gs => if ':' ∈ g.1.content then (enter keys (some (keyOf g)) (stringsOf g)).bind fun k => enterAll k gs else none

theorem component_nil : component [] = some (none, ⟨[], 0, true, []⟩) := rfl

theorem component_text {l : Line} {ls : List Line} (h : LinesOk (l :: ls)) :
    component (textOf (l :: ls)) = if l.blank then some (none, ⟨[], if l.ending ≠ [] then 1 else 0, true, textOf ls⟩)
      else if ':' ∈ l.content then some (some (keyOf (l, ls.takeWhile Line.more)),
        contLoop ((textOf (l :: ls)).length + 1) [strip ((l.content.dropWhile (· ≠ ':')).drop 1)]
          (if l.ending ≠ [] then 1 else 0) (textOf ls))
      else none := by
  unfold component
  rw [readLine_text h]
  simp only [endMarker_eq, decide_eq_true_eq]
  cases l.blank with
  | true => simp
  | false =>
    simp only [Bool.false_eq_true, if_false, parseKeyword]
    by_cases hc : ':' ∈ l.content
    · simp only [hc, if_true, Option.map_some, keyOf]
    · simp only [hc, if_false, Option.map_none]

theorem readLoop_text : ∀ (m : Nat) (ls : List Line) (fuel : Nat) (keys : Keys) (n : Nat), ls.length ≤ m → LinesOk ls →
    (textOf ls).length < fuel →
    readLoop fuel keys n (textOf ls) =
      (enterAll keys (groups (headerOf ls))).map fun k => (k, n + ended (consumed ls), textOf (bodyOf ls))
  | _, [], fuel, keys, n, _, _, hf => by
    obtain ⟨fuel, rfl⟩ : ∃ m, fuel = m + 1 := ⟨fuel - 1, by omega⟩
    have : groups (headerOf []) = [] := by
      show groups [] = []
      rw [groups]
    rw [this]
    show readLoop (fuel + 1) keys n [] = _
    rw [readLoop, component_nil]
    simp [enter, enterAll, consumed, headerOf, bodyOf, ended, textOf]
  | 0, l :: ls, fuel, keys, n, hm, _, hf => absurd hm (by simp)
  | m + 1, l :: ls, fuel, keys, n, hm, hok, hf => by
    obtain ⟨fuel, rfl⟩ : ∃ m, fuel = m + 1 := ⟨fuel - 1, by omega⟩
    have hpos := text_pos hok
    rw [readLoop, component_text hok]
    cases hb : l.blank with
    | true =>
      have h1 : headerOf (l :: ls) = [] := by simp [headerOf, hb]
      have h2 : groups [] = [] := by rw [groups]
      have h3 : consumed (l :: ls) = [l] := by simp [consumed, headerOf, hb]
      have h4 : bodyOf (l :: ls) = ls := by simp [bodyOf, hb]
      rw [h1, h2, h3, h4, ended_cons]
      simp [enter, enterAll, ended]
    | false =>
      have h3 : consumed (l :: ls) = l :: consumed ls := by simp [consumed, headerOf, hb]
      have h4 : bodyOf (l :: ls) = bodyOf ls := by simp [bodyOf, hb]
      rw [groups_cons ls hb, h3, h4, enterAll, consumed_more, body_more]
      by_cases hc : ':' ∈ l.content
      · simp only [Bool.false_eq_true, if_false, hc, if_true]
        rw [contLoop_text ls _ _ _ hok.2.2.2.2.2 (by omega)]
        have hd := linesOk_drop Line.more hok.2.2.2.2.2
        have hlen : (ls.dropWhile Line.more).length ≤ m := by
          have := (List.dropWhile_sublist Line.more (l := ls)).length_le
          simp only [List.length_cons] at hm
          omega
        have htext : (textOf (ls.dropWhile Line.more)).length ≤ (textOf ls).length := by
          have h5 : textOf ls = textOf (ls.takeWhile Line.more) ++ textOf (ls.dropWhile Line.more) := by
            unfold textOf
            rw [← List.flatMap_append, List.takeWhile_append_dropWhile]
          rw [h5, List.length_append]
          omega
        have ih := fun keys n => readLoop_text m (ls.dropWhile Line.more) fuel keys n hlen hd (by omega)
        have happ : ended (l :: (ls.takeWhile Line.more ++ consumed (ls.dropWhile Line.more))) =
            (if l.ending ≠ [] then 1 else 0) + ended (ls.takeWhile Line.more) + ended (consumed (ls.dropWhile Line.more)) := by
          rw [ended_cons]
          simp only [ended, List.filter_append, List.length_append]
          omega
        have hstr : ∀ t : List Char, [t].reverse ++ (ls.takeWhile Line.more).map (fun l => strip l.content) =
            t :: (ls.takeWhile Line.more).map fun l => strip l.content := fun t => rfl
        rw [happ]
        generalize hen : enter keys (some (keyOf (l, ls.takeWhile Line.more))) (stringsOf (l, ls.takeWhile Line.more)) = o
        unfold stringsOf at hen
        cases hr : ls.dropWhile Line.more with
        | nil =>
          rw [hr] at ih
          simp only [hstr, hen]
          cases o with
          | none => rfl
          | some k =>
            simp only [Bool.false_eq_true, if_false, Option.bind_some]
            have := ih k (n + ((if l.ending ≠ [] then 1 else 0) + ended (ls.takeWhile Line.more)))
            rw [show textOf [] = [] from rfl] at this
            rw [this]
            simp only [Nat.add_assoc]
        | cons x rest =>
          rw [hr] at ih hd
          by_cases hx : x.indented = true
          · have hbx : x.blank = true := by
              have hnm : x.more = false := by
                have := List.head?_dropWhile_not (p := Line.more) ls
                rw [hr] at this
                simpa using this
              simpa [Line.more, hx] using hnm
            have g1 : headerOf (x :: rest) = [] := by simp [headerOf, hbx]
            have g2 : groups [] = [] := by rw [groups]
            have g3 : consumed (x :: rest) = [x] := by simp [consumed, headerOf, hbx]
            have g4 : bodyOf (x :: rest) = rest := by simp [bodyOf, hbx]
            rw [g1, g2, g3, g4, ended_cons]
            simp only [hx, if_true, hstr, hen]
            cases o with
            | none => rfl
            | some k =>
              simp only [Option.bind_some, enterAll, Option.map_some, Option.some.injEq, Prod.mk.injEq, and_true, true_and, ended,
                List.filter_nil, List.length_nil]
              omega
          · rw [Bool.not_eq_true] at hx
            simp only [hx, Bool.false_eq_true, if_false, hstr, hen]
            cases o with
            | none => rfl
            | some k =>
              simp only [Bool.false_eq_true, if_false, Option.bind_some]
              rw [ih]
              simp only [Nat.add_assoc]
      · simp only [Bool.false_eq_true, if_false, hc]
        rfl

/-! ### What is in the table -/

theorem enterAll_some : ∀ (gs : List (Line × List Line)) (keys : Keys), (∀ g ∈ gs, ':' ∈ g.1.content) →
    (∀ g ∈ gs, keyOf g ∈ unique → keys (keyOf g) = []) → (gs.Pairwise fun a b => keyOf a = keyOf b → keyOf a ∉ unique) →
    enterAll keys gs = some fun k => keys k ++ (gs.filter fun g => keyOf g = k).flatMap stringsOf
  | [], keys, _, _, _ => by simp [enterAll]
  | g :: gs, keys, h1, h2, h3 => by
    rw [List.pairwise_cons] at h3
    have hno : ¬ (keys (keyOf g) ≠ [] ∧ keyOf g ∈ unique) := fun h => h.1 (h2 g (by simp) h.2)
    rw [enterAll, if_pos (h1 g (by simp)), enter, if_neg hno, Option.bind_some,
      enterAll_some gs _ (fun x hx => h1 x (by simp [hx])) ?_ h3.2]
    · congr 1
      funext k
      simp only [put, List.filter_cons]
      by_cases hk : k = keyOf g
      · subst hk
        simp
      · have : ¬ keyOf g = k := fun h => hk h.symm
        simp [hk, this]
    · intro x hx hu
      have hne : keyOf x ≠ keyOf g := fun h => h3.1 x hx h.symm (h ▸ hu)
      simp only [put, hne, if_false]
      exact h2 x (by simp [hx]) hu

theorem enterAll_none : ∀ (gs : List (Line × List Line)) (keys : Keys) (k : Keys), enterAll keys gs = some k →
    (∀ g ∈ gs, ':' ∈ g.1.content) ∧ (∀ g ∈ gs, keyOf g ∈ unique → keys (keyOf g) = []) ∧
      gs.Pairwise fun a b => keyOf a = keyOf b → keyOf a ∉ unique
  | [], keys, k, _ => by simp
  | g :: gs, keys, k, h => by
    rw [enterAll] at h
    by_cases hc : ':' ∈ g.1.content
    · rw [if_pos hc, enter] at h
      by_cases hd : keys (keyOf g) ≠ [] ∧ keyOf g ∈ unique
      · rw [if_pos hd] at h
        exact absurd h (by simp)
      · rw [if_neg hd, Option.bind_some] at h
        obtain ⟨i1, i2, i3⟩ := enterAll_none gs _ k h
        refine ⟨?_, ?_, List.pairwise_cons.2 ⟨?_, i3⟩⟩
        · intro x hx
          rcases List.mem_cons.1 hx with rfl | hx
          · exact hc
          · exact i1 x hx
        · intro x hx hu
          rcases List.mem_cons.1 hx with rfl | hx
          · by_cases he : keys (keyOf x) = []
            · exact he
            · exact absurd ⟨he, hu⟩ hd
          · have := i2 x hx hu
            simp only [put] at this
            split at this
            · exact absurd this (by simp [stringsOf])
            · exact this
        · intro x hx he hu
          have := i2 x hx (he ▸ hu)
          simp only [put, he, if_true] at this
          exact absurd this (by simp [stringsOf])
    · rw [if_neg hc] at h
      exact absurd h (by simp)

theorem mem_unique (k : List Char) : k ∉ unique ↔ k ≠ "module".toList ∧ k ≠ "language".toList := by
  simp [unique]

theorem language_iff (langs : List (List Char)) (l : List Char) : (languageName langs).map symbol = some l ↔
    (langs = [] ∧ l = "infix-dylan".toList) ∨ ∃ t, langs = [t] ∧ t ≠ [] ∧ l = symbol t := by
  have hsym : symbol "infix-dylan".toList = "infix-dylan".toList := by decide
  match langs with
  | [] =>
    rw [languageName, Option.map_some, hsym, Option.some.injEq]
    constructor
    · exact fun e => .inl ⟨rfl, e.symm⟩
    · rintro (⟨_, e⟩ | ⟨t, e, _⟩)
      · exact e.symm
      · exact absurd e (by simp)
  | [t] =>
    by_cases ht : t = []
    · simp [languageName, ht]
    · simp [languageName, ht, eq_comm]
  | t :: u :: r => by_cases ht : t = [] <;> simp [languageName, ht]

theorem dataOf_iff (n line : Nat) (mods langs : List (List Char)) (m l : List Char) :
    dataOf n mods langs = some (line, m, l) ↔ line = n ∧ (∃ s more, mods = s :: more ∧ s ≠ [] ∧ m = symbol s) ∧
      (languageName langs).map symbol = some l := by
  match mods with
  | [] => simp [dataOf]
  | s :: more =>
    by_cases hs : s = []
    · simp only [dataOf, hs, if_true]
      constructor
      · intro e
        exact absurd e (by simp)
      · rintro ⟨_, ⟨s', more', e, hne, _⟩, _⟩
        exact absurd (List.cons.inj e).1.symm hne
    · simp only [dataOf, hs, if_false]
      cases languageName langs with
      | none => simp
      | some t =>
        simp only [Option.map_some, Option.some.injEq, Prod.mk.injEq]
        constructor
        · rintro ⟨e1, e2, e3⟩
          exact ⟨e1.symm, ⟨s, more, rfl, hs, e2.symm⟩, e3⟩
        · rintro ⟨e1, ⟨s', more', e, _, e2⟩, e3⟩
          refine ⟨e1.symm, ?_, e3⟩
          rw [e2, (List.cons.inj e).1]

/-! ### Every file has lines -/

theorem lines_exist : ∀ (m : Nat) (file : List Char), file.length ≤ m → ∃ ls, LinesOk ls ∧ textOf ls = file
  | _, [], _ => ⟨[], trivial, rfl⟩
  | 0, c :: r, h => absurd h (by simp)
  | m + 1, c :: r, h => by
    simp only [List.length_cons] at h
    by_cases h1 : c = '\n'
    · obtain ⟨ls, i1, i2⟩ := lines_exist m r (by omega)
      refine ⟨⟨[], ['\n']⟩ :: ls, ⟨by simp, by simp, by simp, by simp, by simp, i1⟩, ?_⟩
      rw [textOf_cons, i2, h1]
      rfl
    · by_cases h2 : c = '\r'
      · by_cases h3 : r.head? = some '\n'
        · obtain ⟨r', rfl⟩ : ∃ r', r = '\n' :: r' := by
            cases r with
            | nil => simp at h3
            | cons d r' => exact ⟨r', by simp at h3; rw [h3]⟩
          simp only [List.length_cons] at h
          obtain ⟨ls, i1, i2⟩ := lines_exist m r' (by omega)
          refine ⟨⟨[], ['\r', '\n']⟩ :: ls, ⟨by simp, by simp, by simp, by simp, by simp, i1⟩, ?_⟩
          rw [textOf_cons, i2, h2]
          rfl
        · obtain ⟨ls, i1, i2⟩ := lines_exist m r (by omega)
          refine ⟨⟨[], ['\r']⟩ :: ls, ⟨by simp, by simp, by simp, by simp, fun _ => by rw [i2]; exact h3, i1⟩, ?_⟩
          rw [textOf_cons, i2, h2]
          rfl
      · obtain ⟨ls, i1, i2⟩ := lines_exist m r (by omega)
        cases ls with
        | nil =>
          refine ⟨[⟨[c], []⟩], ⟨by simp [Ne.symm h1], by simp [Ne.symm h2], by simp, by simp, by simp, trivial⟩, ?_⟩
          rw [← i2]
          rfl
        | cons l ls =>
          refine ⟨⟨c :: l.content, l.ending⟩ :: ls, ⟨?_, ?_, i1.2.2.1, fun he => ⟨by simp, (i1.2.2.2.1 he).2⟩, i1.2.2.2.2.1,
            i1.2.2.2.2.2⟩, ?_⟩
          · simp only [List.mem_cons, not_or]
            exact ⟨Ne.symm h1, i1.1⟩
          · simp only [List.mem_cons, not_or]
            exact ⟨Ne.symm h2, i1.2.1⟩
          · rw [← i2, textOf_cons, textOf_cons]
            rfl

end Verif.Header
