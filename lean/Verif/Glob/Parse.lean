import Verif.Glob.Dfa

/-!
# What the parser makes
-/

namespace Verif.Glob

/-- The set of a part between brackets. -/
def Item.set : Item → List Nat
  | .single c => [c]
  | .range a b => codes a b

theorem mem_codes (a b x : Nat) : x ∈ codes a b ↔ a ≤ x ∧ x ≤ b := by
  simp only [codes, List.mem_filter, List.mem_range, decide_eq_true_eq]
  omega

theorem mem_itemSet (i : Item) (x : Nat) : x ∈ i.set ↔ i.has x := by
  cases i with
  | single c => simp [Item.set, Item.has]
  | range a b => exact mem_codes a b x

theorem text_head (i : Item) : ∃ t, i.text = i.head :: t := by
  cases i with
  | single c => exact ⟨[], rfl⟩
  | range a b => exact ⟨_, rfl⟩

/-! ### Between brackets -/

theorem classLoop_one (n : Nat) (first : Bool) (c : Nat) (set : List Nat) : classLoop (n + 1) first [c] set =
    if c ≠ code ']' ∨ first = true then classLoop n false [] (set ++ [c]) else (set, [c]) := by
  rw [classLoop.eq_def]

theorem classLoop_two (n : Nat) (first : Bool) (c d : Nat) (set : List Nat) : classLoop (n + 1) first [c, d] set =
    if c ≠ code ']' ∨ first = true then classLoop n false [d] (set ++ [c]) else (set, [c, d]) := by
  rw [classLoop.eq_def]

theorem classLoop_more (n : Nat) (first : Bool) (c d e : Nat) (r set : List Nat) :
    classLoop (n + 1) first (c :: d :: e :: r) set =
    if c ≠ code ']' ∨ first = true then
      if d = code '-' then classLoop n false r (set ++ codes c e) else classLoop n false (d :: e :: r) (set ++ [c])
    else (set, c :: d :: e :: r) := by
  rw [classLoop.eq_def]

theorem classLoop_stop (n : Nat) (set : List Nat) (r : List Nat) : classLoop (n + 1) false (code ']' :: r) set =
    (set, code ']' :: r) := by
  rw [classLoop.eq_def]
  simp

theorem classLoop_text (rest : List Nat) : ∀ (items : List Item) (first : Bool) (set : List Nat) (n : Nat),
    itemsOk first items → (first = true → items ≠ []) → (items.flatMap Item.text).length < n →
    classLoop n first (items.flatMap Item.text ++ code ']' :: rest) set =
      (set ++ items.flatMap Item.set, code ']' :: rest)
  | [], first, set, n, _, hne, hn => by
    obtain ⟨n, rfl⟩ : ∃ m, n = m + 1 := ⟨n - 1, by simp at hn; omega⟩
    have hf : first = false := by
      cases first with
      | false => rfl
      | true => exact absurd rfl (hne rfl)
    subst hf
    rw [List.flatMap_nil, List.nil_append, classLoop_stop, List.flatMap_nil, List.append_nil]
  | .single c :: l, first, set, n, hok, _, hn => by
    obtain ⟨n, rfl⟩ : ∃ m, n = m + 1 := ⟨n - 1, by simp at hn; omega⟩
    obtain ⟨h1, h2, h3⟩ := hok
    have ih := classLoop_text rest l false (set ++ [c]) n h3 (by simp) (by
      simp only [List.flatMap_cons, Item.text, List.length_append, List.length_cons, List.length_nil] at hn; omega)
    have hc : c ≠ code ']' ∨ first = true := by
      rcases h1 with h1 | h1
      · exact .inr h1
      · exact .inl h1
    have hd : ∀ d t, l.flatMap Item.text ++ code ']' :: rest = d :: t → d ≠ code '-' := by
      intro d t he
      cases l with
      | nil =>
        simp only [List.flatMap_nil, List.nil_append, List.cons.injEq] at he
        rw [← he.1]
        decide
      | cons j l =>
        obtain ⟨u, hu⟩ := text_head j
        rw [List.flatMap_cons, hu] at he
        simp only [List.cons_append, List.cons.injEq] at he
        rw [← he.1]
        exact h2 ⟨c, rfl⟩ j rfl
    rw [List.flatMap_cons, List.flatMap_cons]
    show classLoop (n + 1) first (c :: (l.flatMap Item.text ++ code ']' :: rest)) set = _
    rw [← List.append_assoc set]
    show _ = ((set ++ [c]) ++ l.flatMap Item.set, _)
    rw [← ih]
    generalize l.flatMap Item.text ++ code ']' :: rest = r at hd
    match r with
    | [] => rw [classLoop_one, if_pos hc]
    | [_] => rw [classLoop_two, if_pos hc]
    | d :: e :: r' => rw [classLoop_more, if_pos hc, if_neg (hd d _ rfl)]
  | .range a b :: l, first, set, n, hok, _, hn => by
    obtain ⟨n, rfl⟩ : ∃ m, n = m + 1 := ⟨n - 1, by simp at hn; omega⟩
    obtain ⟨h1, h2, h3⟩ := hok
    have ih := classLoop_text rest l false (set ++ codes a b) n h3 (by simp) (by
      simp only [List.flatMap_cons, Item.text, List.length_append, List.length_cons, List.length_nil] at hn; omega)
    have hc : a ≠ code ']' ∨ first = true := by
      rcases h1 with h1 | h1
      · exact .inr h1
      · exact .inl h1
    rw [List.flatMap_cons, List.flatMap_cons]
    show classLoop (n + 1) first (a :: code '-' :: b :: (l.flatMap Item.text ++ code ']' :: rest)) set = _
    rw [← List.append_assoc set]
    show _ = ((set ++ codes a b) ++ l.flatMap Item.set, _)
    rw [← ih, classLoop_more, if_pos hc, if_pos rfl]

theorem classLoop_inv : ∀ (n : Nat) (first : Bool) (rest set : List Nat) (x : Nat) (rest' : List Nat), rest.length < n →
    (classLoop n first rest set).2 = x :: rest' →
    ∃ items : List Item, rest = items.flatMap Item.text ++ code ']' :: rest' ∧ x = code ']' ∧ itemsOk first items ∧
      (first = true → items ≠ [])
  | 0, _, rest, _, _, _, hn, _ => absurd hn (by omega)
  | n + 1, first, [], set, x, rest', _, h => by
    rw [classLoop] at h
    exact absurd h (by simp)
  | n + 1, first, c :: r, set, x, rest', hn, h => by
    rw [List.length_cons] at hn
    by_cases hc : c ≠ code ']' ∨ first = true
    · have hhead : ∀ i : Item, i.head = c → (first = true ∨ i.head ≠ code ']') := by
        intro i hi
        rw [hi]
        exact hc.symm
      have single : (classLoop n false r (set ++ [c])).2 = x :: rest' → (∀ d e r', r = d :: e :: r' → d ≠ code '-') →
          ∃ items : List Item, c :: r = items.flatMap Item.text ++ code ']' :: rest' ∧ x = code ']' ∧ itemsOk first items ∧
            (first = true → items ≠ []) := by
        intro h hd
        obtain ⟨items, h1, h2, h3, _⟩ := classLoop_inv n false r _ x rest' (by omega) h
        refine ⟨.single c :: items, by rw [h1]; simp [Item.text], h2, ⟨hhead _ rfl, ?_, h3⟩, by simp⟩
        intro _ j hj
        cases items with
        | nil => simp at hj
        | cons k l =>
          simp only [List.head?_cons, Option.some.injEq] at hj
          subst hj
          obtain ⟨t, ht⟩ := text_head k
          rw [List.flatMap_cons, ht] at h1
          simp only [List.cons_append, List.append_assoc] at h1
          cases hz : t ++ (l.flatMap Item.text ++ code ']' :: rest') with
          | nil => simp at hz
          | cons e r' =>
            rw [hz] at h1
            exact hd _ _ _ h1
      match r, hn, h, single with
      | [], hn, h, single =>
        rw [classLoop_one, if_pos hc] at h
        exact single h (by simp)
      | [d], hn, h, single =>
        rw [classLoop_two, if_pos hc] at h
        exact single h (by simp)
      | d :: e :: r', hn, h, single =>
        rw [classLoop_more, if_pos hc] at h
        by_cases e1 : d = code '-'
        · rw [if_pos e1] at h
          simp only [List.length_cons] at hn
          obtain ⟨items, h1, h2, h3, _⟩ := classLoop_inv n false r' _ x rest' (by omega) h
          refine ⟨.range c e :: items, by rw [h1, e1]; simp [Item.text], h2, ⟨hhead _ rfl, ?_, h3⟩, by simp⟩
          rintro ⟨y, hy⟩
          cases hy
        · rw [if_neg e1] at h
          refine single h ?_
          intro d' e' r'' he
          simp only [List.cons.injEq] at he
          rw [← he.1]
          exact e1
    · simp only [not_or, not_not, Bool.not_eq_true] at hc
      obtain ⟨hc1, hc2⟩ := hc
      subst hc1 hc2
      rw [classLoop_stop] at h
      simp only [List.cons.injEq] at h
      refine ⟨[], ?_, h.1.symm, trivial, by simp⟩
      rw [h.2]
      rfl

/-! ### The pattern -/

/-- The node of a part. -/
def Tok.re (k : Nat) : Tok → Re
  | .any => .leaf ⟨k, .set (List.range 256)⟩
  | .many => .star (.leaf ⟨k, .set (List.range 256)⟩)
  | .lit c => .leaf ⟨k, .sym c⟩
  | .quoted c => .leaf ⟨k, .sym c⟩
  | .cls complement items => .leaf ⟨k, .set (members complement (items.flatMap Item.set))⟩

/-- The node of a pattern. -/
def tokens : Re → Nat → List Tok → Re
  | node, _, [] => node
  | node, k, t :: ts => tokens (.cat node (t.re k)) (k + 1) ts

theorem parseClass_text {complement : Bool} {items : List Item} (h : (Tok.cls complement items).ok) (rest : List Nat) :
    parseClass ((if complement then [code '^'] else []) ++ (items.flatMap Item.text ++ code ']' :: rest)) =
      some (members complement (items.flatMap Item.set), rest) := by
  obtain ⟨h1, h2, h3⟩ := h
  unfold parseClass
  cases complement with
  | true =>
    simp only [if_true, List.cons_append, List.nil_append, List.head?_cons, decide_true, List.tail_cons]
    rw [classLoop_text rest items true [] _ h2 (fun _ => h1) (by simp; omega)]
    rfl
  | false =>
    have hh : (items.flatMap Item.text ++ code ']' :: rest).head? ≠ some (code '^') := by
      cases items with
      | nil => exact absurd rfl h1
      | cons i l =>
        obtain ⟨t, ht⟩ := text_head i
        rw [List.flatMap_cons, ht]
        simp only [List.cons_append, List.head?_cons, ne_eq, Option.some.injEq]
        exact h3 rfl i rfl
    simp only [Bool.false_eq_true, if_false, List.nil_append, hh, decide_false]
    rw [classLoop_text rest items true [] _ h2 (fun _ => h1) (by simp; omega)]
    rfl

theorem parseLoop_cons (n : Nat) (node : Re) (k c : Nat) (rest : List Nat) : parseLoop (n + 1) node k (c :: rest) =
    if c = code '?' then parseLoop n (.cat node (.leaf ⟨k, .set (List.range 256)⟩)) (k + 1) rest
    else if c = code '*' then parseLoop n (.cat node (.star (.leaf ⟨k, .set (List.range 256)⟩))) (k + 1) rest
    else if c = code '[' then
      match parseClass rest with
      | none => none
      | some (set, rest') => parseLoop n (.cat node (.leaf ⟨k, .set set⟩)) (k + 1) rest'
    else if c = code '\\' then
      match rest with
      | [] => none
      | x :: rest' => parseLoop n (.cat node (.leaf ⟨k, .sym x⟩)) (k + 1) rest'
    else parseLoop n (.cat node (.leaf ⟨k, .sym c⟩)) (k + 1) rest := by
  rw [parseLoop.eq_def]
  cases rest <;> rfl

theorem parseLoop_text : ∀ (ts : List Tok) (n : Nat) (node : Re) (k : Nat), (∀ t ∈ ts, t.ok) → (textOf ts).length ≤ n →
    parseLoop n node k (textOf ts) = some (tokens node k ts, k + ts.length)
  | [], n, node, k, _, _ => by
    cases n <;> rfl
  | t :: ts, n, node, k, hok, hn => by
    have ht := hok t (by simp)
    have hlen : textOf (t :: ts) = t.text ++ textOf ts := by simp [textOf]
    have hpos : 0 < t.text.length := by cases t <;> simp [Tok.text]
    rw [hlen, List.length_append] at hn
    obtain ⟨n, rfl⟩ : ∃ m, n = m + 1 := ⟨n - 1, by omega⟩
    have ih := parseLoop_text ts n (.cat node (t.re k)) (k + 1) (fun t ht => hok t (by simp [ht])) (by omega)
    rw [hlen, List.length_cons, show k + (ts.length + 1) = k + 1 + ts.length by omega]
    show _ = some (tokens (.cat node (t.re k)) (k + 1) ts, _)
    rw [← ih]
    generalize textOf ts = rest
    cases t with
    | any => rfl
    | many => rfl
    | lit c =>
      obtain ⟨h1, h2, h3, h4⟩ := ht
      show parseLoop (n + 1) node k (c :: rest) = _
      rw [parseLoop_cons, if_neg h1, if_neg h2, if_neg h3, if_neg h4]
      rfl
    | quoted c => rfl
    | cls complement items =>
      have he : (Tok.cls complement items).text ++ rest =
          code '[' :: ((if complement then [code '^'] else []) ++ (items.flatMap Item.text ++ code ']' :: rest)) := by
        simp [Tok.text]
      rw [he, parseLoop_cons, if_neg (by decide), if_neg (by decide), if_pos rfl, parseClass_text ht]
      rfl

theorem parseLoop_inv : ∀ (n : Nat) (node : Re) (k : Nat) (rest : List Nat) (x : Re × Nat),
    parseLoop n node k rest = some x → ∃ ts : List Tok, (∀ t ∈ ts, t.ok) ∧ textOf ts = rest
  | n, node, k, [], x, _ => ⟨[], by simp, rfl⟩
  | 0, node, k, c :: rest, x, h => by
    rw [parseLoop] at h
    exact absurd h (by simp)
  | n + 1, node, k, c :: rest, x, h => by
    have add : ∀ (t : Tok) (rest' : List Nat) (node' : Re), t.ok → c :: rest = t.text ++ rest' →
        parseLoop n node' (k + 1) rest' = some x → ∃ ts : List Tok, (∀ t ∈ ts, t.ok) ∧ textOf ts = c :: rest := by
      intro t rest' node' hok he hp
      obtain ⟨ts, h1, h2⟩ := parseLoop_inv n node' (k + 1) rest' x hp
      refine ⟨t :: ts, ?_, ?_⟩
      · intro y hy
        rcases List.mem_cons.1 hy with rfl | hy
        · exact hok
        · exact h1 y hy
      · rw [he, ← h2]
        simp [textOf]
    rw [parseLoop_cons] at h
    by_cases e1 : c = code '?'
    · rw [if_pos e1] at h
      exact add .any rest _ trivial (by rw [e1]; rfl) h
    rw [if_neg e1] at h
    by_cases e2 : c = code '*'
    · rw [if_pos e2] at h
      exact add .many rest _ trivial (by rw [e2]; rfl) h
    rw [if_neg e2] at h
    by_cases e3 : c = code '['
    · rw [if_pos e3] at h
      cases hc : parseClass rest with
      | none =>
        rw [hc] at h
        exact absurd h (by simp)
      | some y =>
        obtain ⟨set, rest'⟩ := y
        rw [hc] at h
        simp only at h
        unfold parseClass at hc
        simp only at hc
        by_cases hh : rest.head? = some (code '^')
        · simp only [hh, decide_true, if_true] at hc
          cases hr : (classLoop (rest.length + 1) true rest.tail []).2 with
          | nil =>
            rw [hr] at hc
            exact absurd hc (by simp)
          | cons z rest'' =>
            rw [hr] at hc
            simp only [Option.some.injEq, Prod.mk.injEq] at hc
            obtain ⟨items, g1, g2, g3, g4⟩ := classLoop_inv _ true _ _ z rest'' (by
              have := List.length_tail (l := rest); omega) hr
            refine add (.cls true items) rest' _ ⟨g4 rfl, g3, by simp⟩ ?_ h
            have hrest : rest = code '^' :: rest.tail := by
              cases rest with
              | nil => simp at hh
              | cons y r =>
                simp only [List.head?_cons, Option.some.injEq] at hh
                rw [hh]
                rfl
            rw [hrest, g1, e3, hc.2]
            simp [Tok.text]
        · simp only [hh, decide_false, Bool.false_eq_true, if_false] at hc
          cases hr : (classLoop (rest.length + 1) true rest []).2 with
          | nil =>
            rw [hr] at hc
            exact absurd hc (by simp)
          | cons z rest'' =>
            rw [hr] at hc
            simp only [Option.some.injEq, Prod.mk.injEq] at hc
            obtain ⟨items, g1, g2, g3, g4⟩ := classLoop_inv _ true _ _ z rest'' (by omega) hr
            refine add (.cls false items) rest' _ ⟨g4 rfl, g3, ?_⟩ ?_ h
            · intro _ i hi
              cases items with
              | nil => simp at hi
              | cons j l =>
                simp only [List.head?_cons, Option.some.injEq] at hi
                subst hi
                obtain ⟨t, ht⟩ := text_head j
                rw [g1, List.flatMap_cons, ht] at hh
                simpa using hh
            · rw [g1, e3, hc.2]
              simp [Tok.text]
    rw [if_neg e3] at h
    by_cases e4 : c = code '\\'
    · rw [if_pos e4] at h
      cases rest with
      | nil => exact absurd h (by simp)
      | cons y rest' => exact add (.quoted y) rest' _ trivial (by rw [e4]; rfl) h
    rw [if_neg e4] at h
    exact add (.lit c) rest _ ⟨e1, e2, e3, e4⟩ rfl h

/-! ### The strings of the node -/

theorem map_single {w : List Nat} {x : Option Nat} (h : w.map some = [x]) : ∃ c, w = [c] ∧ x = some c := by
  cases w with
  | nil => simp at h
  | cons c w =>
    cases w with
    | nil => exact ⟨c, rfl, by simpa using h.symm⟩
    | cons d w => simp at h

theorem mem_members (complement : Bool) (items : List Item) {x : Nat} (hx : x < 256) :
    x ∈ members complement (items.flatMap Item.set) ↔
      (if complement then ∀ i ∈ items, ¬ i.has x else ∃ i ∈ items, i.has x) := by
  simp only [members, List.mem_filter, List.mem_range, hx, true_and]
  cases complement <;> simp [mem_itemSet]

theorem tok_lang (t : Tok) (k : Nat) {w : List Nat} (hw : ∀ c ∈ w, c < 256) : Lang (t.re k) (w.map some) ↔ t.is w := by
  have leafSet : ∀ cs : List Nat, Lang (.leaf ⟨k, .set cs⟩) (w.map some) ↔ ∃ x, w = [x] ∧ x ∈ cs := by
    intro cs
    constructor
    · rintro ⟨x, h1, c, h2, h3⟩
      obtain ⟨d, h4, h5⟩ := map_single h1
      rw [h5, Option.some.injEq] at h3
      exact ⟨d, h4, h3 ▸ h2⟩
    · rintro ⟨x, rfl, h⟩
      exact ⟨some x, rfl, x, h, rfl⟩
  have leafSym : ∀ c : Nat, Lang (.leaf ⟨k, .sym c⟩) (w.map some) ↔ w = [c] := by
    intro c
    constructor
    · rintro ⟨x, h1, h2⟩
      obtain ⟨d, h4, h5⟩ := map_single h1
      have h2 : x = some c := h2
      rw [h5, Option.some.injEq] at h2
      rw [h4, h2]
    · rintro rfl
      exact ⟨some c, rfl, rfl⟩
  cases t with
  | any =>
    refine (leafSet _).trans ⟨fun ⟨x, h, _⟩ => ⟨x, h⟩, ?_⟩
    rintro ⟨x, rfl⟩
    exact ⟨x, rfl, List.mem_range.2 (hw x (by simp))⟩
  | many =>
    refine ⟨fun _ => trivial, ?_⟩
    rintro -
    refine ⟨w.map fun c => [some c], ?_, ?_⟩
    · intro u hu
      obtain ⟨c, hc, rfl⟩ := List.mem_map.1 hu
      exact ⟨some c, rfl, c, List.mem_range.2 (hw c hc), rfl⟩
    · clear hw leafSet leafSym
      induction w with
      | nil => rfl
      | cons c w ih => simpa using ih
  | lit c => exact leafSym c
  | quoted c => exact leafSym c
  | cls complement items =>
    refine (leafSet _).trans ?_
    cases complement with
    | false =>
      constructor
      · rintro ⟨x, rfl, h⟩
        exact ⟨x, rfl, by simpa using (mem_members false items (hw x (by simp))).1 h⟩
      · rintro ⟨x, rfl, h⟩
        exact ⟨x, rfl, (mem_members false items (hw x (by simp))).2 (by simpa using h)⟩
    | true =>
      constructor
      · rintro ⟨x, rfl, h⟩
        exact ⟨x, rfl, by simpa using (mem_members true items (hw x (by simp))).1 h⟩
      · rintro ⟨x, rfl, h⟩
        exact ⟨x, rfl, (mem_members true items (hw x (by simp))).2 (by simpa using h)⟩

theorem cat_lang (a b : Re) (w : List Nat) : Lang (.cat a b) (w.map some) ↔
    ∃ u v, w = u ++ v ∧ Lang a (u.map some) ∧ Lang b (v.map some) := by
  constructor
  · rintro ⟨u, v, he, h1, h2⟩
    obtain ⟨u', v', rfl, rfl, rfl⟩ := List.map_eq_append_iff.1 he
    exact ⟨u', v', rfl, h1, h2⟩
  · rintro ⟨u, v, rfl, h1, h2⟩
    exact ⟨_, _, List.map_append, h1, h2⟩

theorem tokens_lang : ∀ (ts : List Tok) (node : Re) (k : Nat) (w : List Nat), (∀ c ∈ w, c < 256) →
    (Lang (tokens node k ts) (w.map some) ↔ ∃ u v, w = u ++ v ∧ Lang node (u.map some) ∧ matchesAll ts v)
  | [], node, k, w, _ => by
    constructor
    · intro h
      exact ⟨w, [], by simp, h, rfl⟩
    · rintro ⟨u, v, rfl, h, rfl⟩
      rw [List.append_nil]
      exact h
  | t :: ts, node, k, w, hw => by
    rw [tokens, tokens_lang ts _ _ w hw]
    constructor
    · rintro ⟨u, v, rfl, h1, h2⟩
      obtain ⟨u1, u2, rfl, h3, h4⟩ := (cat_lang _ _ u).1 h1
      exact ⟨u1, u2 ++ v, by simp, h3, u2, v, rfl, (tok_lang t k fun c hc => hw c (by simp [hc])).1 h4, h2⟩
    · rintro ⟨u1, x, rfl, h3, u2, v, rfl, h4, h2⟩
      exact ⟨u1 ++ u2, v, by simp, (cat_lang _ _ _).2 ⟨u1, u2, rfl, h3, (tok_lang t k fun c hc => hw c (by simp [hc])).2 h4⟩, h2⟩

/-! ### The objects made -/

theorem tok_positions (t : Tok) (k : Nat) : ∃ p : Pos, (t.re k).positions = [p] ∧ p.id = k ∧ p.kind ≠ .accept := by
  cases t <;> exact ⟨_, rfl, rfl, by simp⟩

/-- The numbers of the objects of a node made from a number on. -/
def Made (r : Re) (k n : Nat) : Prop :=
  r.positions.Nodup ∧ ∀ p ∈ r.positions, k ≤ p.id ∧ p.id < n ∧ p.kind ≠ .accept

theorem tokens_made : ∀ (ts : List Tok) (node : Re) (k k0 : Nat), k0 ≤ k → Made node k0 k →
    Made (tokens node k ts) k0 (k + ts.length)
  | [], node, k, k0, _, h => h
  | t :: ts, node, k, k0, hk, h => by
    rw [tokens, List.length_cons, show k + (ts.length + 1) = k + 1 + ts.length by omega]
    refine tokens_made ts _ (k + 1) k0 (by omega) ?_
    obtain ⟨p, h1, h2, h3⟩ := tok_positions t k
    constructor
    · rw [Re.positions, h1, List.nodup_append]
      refine ⟨h.1, by simp, ?_⟩
      intro a ha b hb e
      rw [List.mem_singleton] at hb
      have := (h.2 a ha).2.1
      rw [e, hb, h2] at this
      omega
    · intro q hq
      rw [Re.positions, h1, List.mem_append, List.mem_singleton] at hq
      rcases hq with hq | rfl
      · obtain ⟨g1, g2, g3⟩ := h.2 q hq
        exact ⟨g1, by omega, g3⟩
      · exact ⟨by omega, by omega, h3⟩

theorem tokens_ids : ∀ (ts : List Tok) (node : Re) (k : Nat),
    (tokens node k ts).positions.map Pos.id = node.positions.map Pos.id ++ List.range' k ts.length
  | [], node, k => by simp [tokens]
  | t :: ts, node, k => by
    obtain ⟨p, h1, h2, _⟩ := tok_positions t k
    rw [tokens, tokens_ids ts, Re.positions, h1, List.length_cons, List.range'_succ]
    simp [h2]

theorem made_union {a b : Re} {k n : Nat} (h1 : Made a 0 k) (h2 : Made b k n) (hkn : k ≤ n) : Made (.union a b) 0 n := by
  constructor
  · rw [Re.positions, List.nodup_append]
    refine ⟨h1.1, h2.1, ?_⟩
    intro p hp q hq e
    have g1 := (h1.2 p hp).2.1
    have g2 := (h2.2 q hq).1
    rw [e] at g1
    omega
  · intro p hp
    rw [Re.positions, List.mem_append] at hp
    rcases hp with hp | hp
    · obtain ⟨g1, g2, g3⟩ := h1.2 p hp
      exact ⟨g1, by omega, g3⟩
    · obtain ⟨g1, g2, g3⟩ := h2.2 p hp
      exact ⟨by omega, g2, g3⟩

theorem parseGlob_text {ts : List Tok} (hok : ∀ t ∈ ts, t.ok) (k : Nat) :
    ∃ r, parseGlob k (textOf ts) = some (r, k + ts.length) ∧ Made r k (k + ts.length) ∧
      ∀ w : List Nat, (∀ c ∈ w, c < 256) → (Lang r (w.map some) ↔ matchesAll ts w) := by
  refine ⟨tokens .eps k ts, parseLoop_text ts _ _ k hok (Nat.le_refl _), ?_, ?_⟩
  · exact tokens_made ts .eps k k (Nat.le_refl _) ⟨List.nodup_nil, by simp [Re.positions]⟩
  · intro w hw
    rw [tokens_lang ts .eps k w hw]
    constructor
    · rintro ⟨u, v, rfl, h1, h2⟩
      have h1 : u.map some = [] := h1
      rw [List.map_eq_nil_iff] at h1
      rw [h1]
      exact h2
    · intro h
      exact ⟨[], w, rfl, rfl, h⟩

theorem parseMore_text : ∀ (ps : List (List Tok)) (r : Re) (k : Nat), (∀ ts ∈ ps, ∀ t ∈ ts, t.ok) → Made r 0 k →
    ∃ r' k', parseMore r k (ps.map textOf) = some (r', k') ∧ Made r' 0 k' ∧
      ∀ w : List Nat, (∀ c ∈ w, c < 256) → (Lang r' (w.map some) ↔ Lang r (w.map some) ∨ ∃ ts ∈ ps, matchesAll ts w)
  | [], r, k, _, h => ⟨r, k, rfl, h, fun w _ => by simp⟩
  | ts :: ps, r, k, hok, h => by
    obtain ⟨r1, h1, h2, h3⟩ := parseGlob_text (hok ts (by simp)) k
    obtain ⟨r', k', g1, g2, g3⟩ := parseMore_text ps (.union r r1) (k + ts.length) (fun x hx => hok x (by simp [hx]))
      (made_union h h2 (by omega))
    refine ⟨r', k', ?_, g2, fun w hw => ?_⟩
    · rw [List.map_cons, parseMore, h1]
      exact g1
    · rw [g3 w hw]
      simp only [List.mem_cons, exists_eq_or_imp, ← h3 w hw]
      exact or_assoc

theorem parseMore_none : ∀ (ps : List (List Nat)) (r : Re) (k : Nat), (∃ p ∈ ps, ∀ k, parseGlob k p = none) →
    parseMore r k ps = none
  | [], _, _, h => absurd h (by simp)
  | p :: ps, r, k, h => by
    rw [parseMore]
    cases hp : parseGlob k p with
    | none => rfl
    | some x =>
      obtain ⟨q, hq, hn⟩ := h
      rcases List.mem_cons.1 hq with rfl | hq
      · rw [hn k] at hp
        exact absurd hp (by simp)
      · exact parseMore_none ps _ _ ⟨q, hq, hn⟩

end Verif.Glob
