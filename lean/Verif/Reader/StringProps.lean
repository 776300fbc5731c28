/-
C117, C118: characters and strings on one line.
-/
import Verif.Reader.LiteralsProps

namespace Verif.Reader
open LexerSpec

/-! ### Items -/

theorem run_digits {first digits : St} (h1 : ∀ b d, IsDigit b d → d < 16 → next first b = some digits)
    (h2 : ∀ b d, IsDigit b d → d < 16 → next digits b = some digits) (q : quiet digits = true)
    {w : List Byte} {ds : List Nat} (h : Digits w ds) (hne : w ≠ []) : Run first w digits := by
  suffices H : ∀ first, (∀ b d, IsDigit b d → d < 16 → next first b = some digits) → w ≠ [] → Run first w digits from
    H first h1 hne
  clear h1 hne first
  induction h with
  | nil => exact fun _ _ h => absurd rfl h
  | @cons b d w ds hb hw ih =>
    intro first h1 _
    refine .cons (h1 b d hb (digit_lt hb)) q ?_
    cases w with
    | nil => exact .nil
    | cons x w => exact ih digits h2 (by simp)

/-- The escapes as the states read them: `esc` is the state after the backslash, `less` after `\<`. -/
structure Escapes (esc less digits body : St) : Prop where
  letter : ∀ c n, (c, n) ∈ escapes → next esc (code c) = some body
  open_ : next esc (code '<') = some less
  first : ∀ b d, IsDigit b d → d < 16 → next less b = some digits
  digit : ∀ b d, IsDigit b d → d < 16 → next digits b = some digits
  greater : next digits (code '>') = some body
  quietLess : quiet less = true
  quietDigits : quiet digits = true
  quietBody : quiet body = true

/-- What comes after the backslash of an item. -/
theorem run_escape {esc less digits body : St} (h : Escapes esc less digits body) {i : Item} {b : Byte}
    (hm : Means i b) (hi : ∀ c, i ≠ .plain c) : ∃ w, i.text = code '\\' :: w ∧ Run esc w body := by
  cases hm with
  | plain b => exact absurd rfl (hi b)
  | @escape c n hc => exact ⟨[code c], rfl, .one (h.letter c n hc) h.quietBody⟩
  | @hex w ds hw hne hn =>
    exact ⟨code '<' :: w ++ [code '>'], rfl,
      .cons h.open_ h.quietLess ((run_digits h.first h.digit h.quietDigits hw hne).append
        (.one h.greater h.quietBody))⟩

theorem run_item {esc less digits body : St} (h : Escapes esc less digits body) (qe : quiet esc = true)
    {first : St} (hb : next first (code '\\') = some esc) {i : Item} {b : Byte} (hm : Means i b)
    (hp : ∀ c, i = .plain c → next first c = some body) : Run first i.text body := by
  cases i with
  | plain c => exact .one (hp c rfl) h.quietBody
  | escape c =>
    obtain ⟨w, e, hr⟩ := run_escape h hm (by simp)
    rw [e]; exact .cons hb qe hr
  | hex w =>
    obtain ⟨w, e, hr⟩ := run_escape h hm (by simp)
    rw [e]; exact .cons hb qe hr

theorem escapes_next (st st' : St) (h : (escapes.all fun x => next st (code x.1) == some st') = true) (c : Char)
    (n : Nat) (hc : (c, n) ∈ escapes) : next st (code c) = some st' := by
  have := List.all_eq_true.1 h _ hc
  simpa using this

theorem quote_escapes : Escapes .quoteEscape .quoteEscapeLess .quoteHexCharDigits .quoteChar :=
  ⟨escapes_next _ _ (by decide +kernel), by decide +kernel, next_digit 16 _ _ (by decide +kernel),
    next_digit 16 _ _ (by decide +kernel), by decide +kernel, by decide, by decide, by decide⟩

theorem drm_escapes : Escapes .drmStringEscape .drmStringEscapeLess .drmStringHexCharDigits .drmStringBody :=
  ⟨escapes_next _ _ (by decide +kernel), by decide +kernel, next_digit 16 _ _ (by decide +kernel),
    next_digit 16 _ _ (by decide +kernel), by decide +kernel, by decide, by decide, by decide⟩

/-! ### Characters -/

/-- Characters that stand for themselves in a character literal: printing characters and white space. -/
def InQuotes (b : Byte) : Prop :=
  (b.val = 9 ∨ b.val = 10 ∨ b.val = 12 ∨ b.val = 13 ∨ (32 ≤ b.val ∧ b.val < 127) ∨ 128 ≤ b.val) ∧
    b ≠ code '\'' ∧ b ≠ code '\\'

instance (b : Byte) : Decidable (InQuotes b) := inferInstanceAs (Decidable (_ ∧ _))

theorem next_quote (b : Byte) : InQuotes b → next .quote b = some .quoteChar := by revert b; decide +kernel

/-- **C117** A character literal is one token, and its value is the character written in it. -/
theorem character_literals (pre rest : List Byte) (lx : Lexer) (hp : lx.pos = pre.length) (i : Item) (b : Byte)
    (h : Means i b) (hi : ∀ c, i = .plain c → InQuotes c) :
    let w := code '\'' :: i.text ++ [code '\'']
    Reads (pre ++ w ++ rest) lx w .character lx.quoteStart ∧ characterLiteral w = .value b := by
  intro w
  refine ⟨reads_run hp (by simp [w]) (Run.append (.cons (show next .start (code '\'') = some .quote by decide +kernel)
    (by decide) (run_item quote_escapes (by decide) (by decide +kernel) h fun c hc => next_quote c (hi c hc)))
    (.one (show next .quoteChar (code '\'') = some .character by decide +kernel) (by decide))) rfl ?_, ?_⟩
  · intro c _; rfl
  · show characterLiteral (code '\'' :: i.text ++ [code '\'']) = _
    cases h with
    | plain b =>
      simp only [Item.text, List.cons_append, List.nil_append, characterLiteral, (hi b rfl).2.2, if_false]
    | @escape c n h =>
      obtain ⟨h1, h2⟩ := escapeCharacter_escapes h
      simp only [Item.text, List.cons_append, List.nil_append, characterLiteral, h2, if_true, if_false, h1]
    | @hex ds' ds h hne hn =>
      have e := hexCode_digits h hne hn (code '>') (by decide) [code '\'']
      simp only [Item.text, List.cons_append, List.append_assoc, List.nil_append, characterLiteral, if_true, e]

example : Means (.hex (bytes "4a")) (code 'J') ∧ Means (.escape (code 'n')) 10 ∧ InQuotes (code '"') :=
  ⟨Means.hex (w := bytes "4a") (ds := [4, 10]) (.cons (.inl (by decide)) (.cons (.inl (by decide)) .nil)) (by decide)
    (by decide), Means.escape (c := 'n') (n := 10) (by decide), by decide⟩

/-! ### Strings on one line -/

instance (b : Byte) : Decidable (OneLine b) := inferInstanceAs (Decidable (_ ∧ _))

theorem next_drm (b : Byte) : OneLine b → next .stringStart b = some .drmStringBody ∧
    next .drmStringBody b = some .drmStringBody := by revert b; decide +kernel

theorem run_items_drm {is : List Item} {bs : List Byte} (h : Spells OneLine is bs) :
    Run .drmStringBody (textOf is) .drmStringBody := by
  induction h with
  | nil => exact .nil
  | @cons i b is bs h hp hs ih =>
    exact (run_item drm_escapes (by decide) (by decide +kernel) h fun c hc => (next_drm c (hp c hc)).2).append ih

/-- The first quote of a string. -/
theorem enter_quote {st : St} (ha : action st = some .quoteStart) (hb : builder st = none) (pos : Nat) (g : Regs) :
    enter st pos g = (.advance, { g with quoteStart := g.quoteStart + 1 }) := by
  unfold enter stateAction
  rw [ha]
  dsimp only [act]
  rw [hb]
  by_cases h : g.quoteStart + 1 = 2
  · simp only [h, if_true]; rfl
  · simp only [h, if_false]

theorem newline_quote (pos : Nat) (g : Regs) : newline (code '"') pos g = g := by
  unfold newline; rw [if_neg (by decide)]

theorem advance_quote {st st' : St} (h : next st (code '"') = some st') (ha : action st' = some .quoteStart)
    (hb : builder st' = none) (rest : List Byte) (pos : Nat) (g : Regs) :
    advance st (code '"' :: rest) pos g = advance st' rest (pos + 1) { g with quoteStart := g.quoteStart + 1 } := by
  rw [advance_cons h, newline_quote, enter_quote ha hb]; rfl

/-- A token that starts with a prefix, a quote, and goes on with a word. -/
theorem reads_quoted {pre w v rest : List Byte} {lx : Lexer} {b : Builder} {st0 st1 st : St} (hp : lx.pos = pre.length)
    (hq : lx.quoteStart = 0) (h0 : Run .start v st0) (h1 : next st0 (code '"') = some st1)
    (ha : action st1 = some .quoteStart) (hn : builder st1 = none) (h : Run st1 w st) (hw : w ≠ [])
    (hb : builder st = some b) (hs : Stops st rest) :
    Reads (pre ++ (v ++ code '"' :: w) ++ rest) lx (v ++ code '"' :: w) b 1 := by
  obtain ⟨g0, e0, k0, -, -⟩ := advance_run h0 (code '"' :: (w ++ rest)) lx.pos lx.regs
  rw [advance_quote h1 ha hn] at e0
  obtain ⟨g, e, k, r, -⟩ := advance_run h rest (lx.pos + v.length + 1) { g0 with quoteStart := g0.quoteStart + 1 }
  obtain ⟨g', e', k', r1, r2⟩ := advance_stops hs (lx.pos + v.length + 1 + w.length) g
  have := r hw b hb
  refine reads_of_advance (g := g') (epos := lx.pos + v.length + 1 + w.length) hp ?_ (k'.1.trans (k.1.trans k0.1))
    (r1.trans this.1) (r2.trans (this.2.trans ?_)) ?_
  · rw [List.append_assoc, List.cons_append]
    exact e0.trans (e.trans e')
  · rw [List.length_append, List.length_cons]; congr 1; omega
  · have h1 := k'.2; have h2 := k.2; have h3 : g0.quoteStart = 0 := k0.2.trans hq
    rw [h1, h2]; show g0.quoteStart + 1 = 1; omega

/-- The text between the quotes, as the model cuts it out. -/
theorem contents_cut (v c : List Byte) (n : Nat) (q : List Byte) (hq : q.length = n) :
    ((v ++ q ++ c ++ q).take ((v ++ q ++ c ++ q).length - n)).drop (n + v.length) = c := by
  rw [List.length_append, hq, Nat.add_sub_cancel, List.take_left, List.append_assoc, List.drop_append,
    List.drop_of_length_le (by omega), List.nil_append, Nat.add_sub_cancel, ← hq, List.drop_left]

theorem digits_no_break {w : List Byte} {ds : List Nat} (h : Digits w ds) :
    ∀ y ∈ w, y ≠ code '\n' ∧ y ≠ code '\r' ∧ y ≠ code '\t' := by
  induction h with
  | nil => intro y hy; cases hy
  | @cons b d w ds hb _ ih =>
    intro y hy
    rcases List.mem_cons.1 hy with rfl | hy
    · have := digit_all (fun b _ => b != code '\n' && b != code '\r' && b != code '\t') (by decide +kernel) hb
      simpa [and_assoc] using this
    · exact ih y hy

theorem not_break_item {ok : Byte → Prop} (hok : ∀ b, ok b → b ≠ code '\n' ∧ b ≠ code '\r' ∧ b ≠ code '\t')
    {is : List Item} {bs : List Byte} (h : Spells ok is bs) :
    ∀ b ∈ textOf is, b ≠ code '\n' ∧ b ≠ code '\r' ∧ b ≠ code '\t' := by
  induction h with
  | nil => intro b hb; cases hb
  | @cons i b is bs h hp hs ih =>
    intro x hx
    rcases List.mem_append.1 (show x ∈ i.text ++ textOf is from hx) with hx | hx
    · cases h with
      | plain b => rw [List.mem_singleton.1 hx]; exact hok b (hp b rfl)
      | @escape c n h =>
        have : escapes.all (fun y => code y.1 != code '\n' && code y.1 != code '\r' && code y.1 != code '\t') = true := by
          decide
        have := List.all_eq_true.1 this _ h
        simp only [Bool.and_eq_true, bne_iff_ne] at this
        rcases List.mem_cons.1 hx with rfl | hx
        · decide
        · rw [List.mem_singleton.1 hx]; exact ⟨this.1.1, this.1.2, this.2⟩
      | @hex w ds h hne hn =>
        have hd := digits_no_break h
        simp only [Item.text, List.cons_append, List.mem_cons, List.mem_append, List.not_mem_nil, or_false] at hx
        rcases hx with rfl | rfl | hx | rfl
        · decide
        · decide
        · exact hd x hx
        · decide
    · exact ih x hx

theorem splitLines_one (l : List Byte) (h : ∀ b ∈ l, b ≠ code '\n' ∧ b ≠ code '\r') : splitLines l = [l] := by
  induction l with
  | nil => rfl
  | cons b l ih =>
    obtain ⟨h1, h2⟩ := h b (List.mem_cons_self ..)
    rw [splitLines.eq_def]
    dsimp only
    rw [if_neg h1, if_neg h2, ih fun x hx => h x (List.mem_cons_of_mem _ hx)]

theorem not_contains {l : List Byte} {c : Byte} (h : ∀ b ∈ l, b ≠ c) : l.contains c = false := by
  rw [Bool.eq_false_iff]
  intro hc
  rw [List.contains_iff_mem] at hc
  exact h c hc rfl

theorem decode_one (escapes : Bool) {l : List Byte}
    (h : ∀ b ∈ l, b ≠ code '\n' ∧ b ≠ code '\r' ∧ b ≠ code '\t') :
    decodeString escapes l = if escapes then processEscapes l.length l else .value l := by
  unfold decodeString
  rw [not_contains (fun b hb => (h b hb).2.2), splitLines_one l fun b hb => ⟨(h b hb).1, (h b hb).2.1⟩]
  simp only [Bool.false_eq_true, if_false, processLine, removePrefix, List.zip_nil_right, List.all_nil, if_true,
    List.length_nil, Nat.not_lt_zero, List.drop_zero]

/-- The beginning of a string or of a symbol: nothing or `#`. -/
theorem run_sharp (v : List Byte) (hv : v = [] ∨ v = [code '#']) :
    ∃ st, Run .start v st ∧ next st (code '"') = some .stringStart := by
  rcases hv with rfl | rfl
  · exact ⟨.start, .nil, by decide +kernel⟩
  · exact ⟨.sharp, .one (by decide +kernel) (by decide), by decide +kernel⟩

theorem one_line_ok (b : Byte) : OneLine b → b ≠ code '\n' ∧ b ≠ code '\r' ∧ b ≠ code '\t' := by
  revert b; decide +kernel

/-- **C118** A string `"…"` or a symbol `#"…"` on one line is one token, and its value is the string that is
    written in it, if the lexer has no quotes left over. -/
theorem string_literals (pre rest : List Byte) (lx : Lexer) (hp : lx.pos = pre.length) (hq : lx.quoteStart = 0)
    (v : List Byte) (hv : v = [] ∨ v = [code '#']) (is : List Item) (bs : List Byte) (hne : is ≠ [])
    (h : Spells OneLine is bs) :
    let w := v ++ code '"' :: (textOf is ++ [code '"'])
    Reads (pre ++ w ++ rest) lx w .string 1 ∧ stringLiteral .string 1 w = .value bs := by
  intro w
  have hlen : 1 ≤ (textOf is).length := by
    have := textOf_length is
    cases is with
    | nil => exact absurd rfl hne
    | cons _ _ => rw [List.length_cons] at this; omega
  constructor
  · obtain ⟨st, h1, h2⟩ := run_sharp v hv
    refine reads_quoted (st := .drmStringEnd) hp hq h1 h2 rfl rfl ?_ (by simp) rfl (fun c _ => rfl)
    refine Run.append (t := .drmStringBody) ?_ (.one (by decide +kernel) (by decide))
    cases h with
    | nil => exact absurd rfl hne
    | @cons i b is bs h hp hs =>
      exact (run_item drm_escapes (by decide) (by decide +kernel) h fun c hc => (next_drm c (hp c hc)).1).append
        (run_items_drm hs)
  · have hk : (if w.head? = some (code '#') then 1 else 0) = v.length := by
      rcases hv with rfl | rfl
      · exact if_neg (by show ¬(some (code '"') = some (code '#')); decide)
      · exact if_pos rfl
    have hw : w = v ++ [code '"'] ++ textOf is ++ [code '"'] := by simp [w]
    show stringContents _ true 1 w = _
    rw [hk]
    unfold stringContents
    rw [if_neg (by simp [w]; omega)]
    rw [hw, contents_cut v (textOf is) 1 [code '"'] rfl, decode_one true (not_break_item one_line_ok h)]
    exact Spells.processEscapes (fun c hc => hc.2.2) h _ (textOf_length is)

/-- **C118** So is the empty string, if it is not followed by another quote. -/
theorem empty_string_literals (pre rest : List Byte) (lx : Lexer) (hp : lx.pos = pre.length) (hq : lx.quoteStart = 0)
    (v : List Byte) (hv : v = [] ∨ v = [code '#']) (hr : rest.head? ≠ some (code '"')) :
    let w := v ++ [code '"', code '"']
    Reads (pre ++ w ++ rest) lx w .string 2 ∧ stringLiteral .string 2 w = .value [] := by
  intro w
  constructor
  · obtain ⟨st, h1, h2⟩ := run_sharp v hv
    obtain ⟨g0, e0, k0, -, -⟩ := advance_run h1 (code '"' :: code '"' :: rest) lx.pos lx.regs
    rw [advance_quote h2 rfl rfl] at e0
    have hn : next .stringStart (code '"') = some .twoDoubleQuotes := by decide +kernel
    rw [advance_cons hn, newline_quote] at e0
    have hen : enter .twoDoubleQuotes (lx.pos + v.length + 1 + 1) { g0 with quoteStart := g0.quoteStart + 1 } =
        (.advance, save (lx.pos + v.length + 1 + 1) .string { g0 with quoteStart := 2 }) := by
      have h3 : g0.quoteStart = 0 := k0.2.trans hq
      unfold enter stateAction
      simp only [h3, action, act, builder]
      rfl
    rw [hen] at e0
    have hs : Stops .twoDoubleQuotes rest := by
      intro c hc
      have : ∀ b : Byte, b ≠ code '"' → next .twoDoubleQuotes b = none := by decide +kernel
      exact this c (fun he => hr (he ▸ hc))
    obtain ⟨g', e', k', r1, r2⟩ := advance_stops hs (lx.pos + v.length + 1 + 1)
      (save (lx.pos + v.length + 1 + 1) .string { g0 with quoteStart := 2 })
    refine reads_of_advance (g := g') (epos := lx.pos + v.length + 1 + 1) hp ?_ (k'.1.trans k0.1) r1 (r2.trans ?_) k'.2
    · have : w ++ rest = v ++ code '"' :: code '"' :: rest := by simp [w]
      rw [this]; exact e0.trans e'
    · show some _ = some _
      simp [w]; omega
  · rcases hv with rfl | rfl <;> decide

/-- Any bytes can be written with escapes. -/
theorem spells_all (bs : List Byte) (hne : bs ≠ []) :
    ∃ is, is ≠ [] ∧ Spells OneLine is bs := by
  induction bs with
  | nil => exact absurd rfl hne
  | cons b bs ih =>
    have hb : ∃ i : Item, Means i b ∧ ∀ c, i ≠ .plain c := by
      have : ∀ b : Byte, ∃ d1 : Fin 16, ∃ d2 : Fin 16, b = Fin.ofNat 256 (number 16 [d1.val, d2.val]) ∧
          number 16 [d1.val, d2.val] < 256 := by decide +kernel
      obtain ⟨d1, d2, h1, h2⟩ := this b
      have hd : ∀ d : Fin 16, ∃ x, IsDigit x d.val := by
        intro d
        refine ⟨(bytes "0123456789abcdef")[d.val]'(by simp [bytes]), Or.inl ?_⟩
        rw [List.getElem?_eq_getElem]
      obtain ⟨x, hx⟩ := hd d1
      obtain ⟨y, hy⟩ := hd d2
      refine ⟨.hex [x, y], ?_, by simp⟩
      rw [h1]
      exact Means.hex (.cons hx (.cons hy .nil)) (by simp) h2
    obtain ⟨i, hi, hp⟩ := hb
    by_cases h : bs = []
    · subst h
      exact ⟨[i], by simp, .cons hi (fun c hc => absurd hc (hp c)) .nil⟩
    · obtain ⟨is, _, h2⟩ := ih h
      exact ⟨i :: is, by simp, .cons hi (fun c hc => absurd hc (hp c)) h2⟩

/-- **C118** Any string of bytes can be written as a literal whose value it is. -/
theorem string_round_trip (bs : List Byte) (hne : bs ≠ []) :
    ∃ w, stringLiteral .string 1 w = .value bs ∧ ∀ (pre rest : List Byte) (lx : Lexer), lx.pos = pre.length →
      lx.quoteStart = 0 → Reads (pre ++ w ++ rest) lx w .string 1 := by
  obtain ⟨is, h1, h2⟩ := spells_all bs hne
  exact ⟨_, (string_literals [] [] .new rfl rfl [] (.inl rfl) is bs h1 h2).2, fun pre rest lx hp hq =>
    (string_literals pre rest lx hp hq [] (.inl rfl) is bs h1 h2).1⟩

example : Spells OneLine [.plain (code 'a'), .escape (code 'n')] [code 'a', 10] :=
  .cons (.plain _) (fun c hc => by cases hc; decide +kernel)
    (.cons (Means.escape (c := 'n') (n := 10) (by decide)) (fun c hc => by cases hc) .nil)

/-! ### Raw strings on one line -/

/-- Characters of a raw string on one line. -/
def RawLine (b : Byte) : Prop := ((32 ≤ b.val ∧ b.val < 127) ∨ 128 ≤ b.val) ∧ b ≠ code '"'

instance (b : Byte) : Decidable (RawLine b) := inferInstanceAs (Decidable (_ ∧ _))

theorem next_raw (b : Byte) : RawLine b → next .rawStringStart b = some .rawOneLineStringBody ∧
    next .rawOneLineStringBody b = some .rawOneLineStringBody ∧ b ≠ code '\n' ∧ b ≠ code '\r' ∧ b ≠ code '\t' := by
  revert b; decide +kernel

/-- **C118** A raw string `#r"…"` on one line is one token, and its value is the text between the quotes. -/
theorem raw_string_literals (pre rest : List Byte) (lx : Lexer) (hp : lx.pos = pre.length) (hq : lx.quoteStart = 0)
    (r : Byte) (hr : r = code 'r' ∨ r = code 'R') (bs : List Byte) (hne : bs ≠ []) (h : ∀ b ∈ bs, RawLine b) :
    let w := [code '#', r] ++ code '"' :: (bs ++ [code '"'])
    Reads (pre ++ w ++ rest) lx w .rawString 1 ∧ stringLiteral .rawString 1 w = .value bs := by
  intro w
  constructor
  · have h1 : Run .start [code '#', r] .sharpR := by
      rcases hr with rfl | rfl
      · exact .cons (st' := .sharp) (by decide +kernel) (by decide) (.one (by decide +kernel) (by decide))
      · exact .cons (st' := .sharp) (by decide +kernel) (by decide) (.one (by decide +kernel) (by decide))
    refine reads_quoted (st1 := .rawStringStart) (st := .rawOneLineStringEnd) hp hq h1 (by decide +kernel) rfl rfl ?_ (by simp)
      rfl (fun c _ => rfl)
    refine Run.append (t := .rawOneLineStringBody) ?_ (.one (by decide +kernel) (by decide))
    cases bs with
    | nil => exact absurd rfl hne
    | cons b bs =>
      refine .cons (next_raw b (h b (List.mem_cons_self ..))).1 (by decide) ?_
      have h' : ∀ b ∈ bs, RawLine b := fun x hx => h x (List.mem_cons_of_mem _ hx)
      clear h hne w
      induction bs with
      | nil => exact .nil
      | cons c bs ih =>
        exact .cons (next_raw c (h' c (List.mem_cons_self ..))).2.1 (by decide)
          (ih fun x hx => h' x (List.mem_cons_of_mem _ hx))
  · have hw : w = [code '#', r] ++ [code '"'] ++ bs ++ [code '"'] := by simp [w]
    have hl : 1 ≤ bs.length := by
      cases bs with
      | nil => exact absurd rfl hne
      | cons _ _ => simp
    show stringContents 2 false 1 w = _
    unfold stringContents
    rw [if_neg (by simp [w]; omega), hw]
    have := contents_cut [code '#', r] bs 1 [code '"'] rfl
    rw [show [code '#', r].length = 2 from rfl] at this
    rw [this, decode_one false fun b hb => (next_raw b (h b hb)).2.2]
    rfl

/-- **C118** After an invalid string the count of quotes is not reset, so that the next string of the same lexer loses
    a character at each end: here the lexer is at `"foo"`, and the string is `o`. -/
theorem leftover_quotes_violated :
    ∃ source lx sp lx', getToken (bytes "\"a\n") .new = .invalid sp lx ∧
      getToken source lx = .token .string ⟨0, 1, 0, 5, 1, 5⟩ lx' ∧ source = bytes "\"foo\"" ∧
      stringLiteral .string lx'.quoteStart source = .value (bytes "o") :=
  ⟨bytes "\"foo\"", ⟨0, 1, 0, 1, 0, 0, 0⟩, ⟨0, 1, 0, 2, 2, -1⟩, ⟨5, 1, 0, 2, 0, 0, 0⟩, by decide +kernel, by decide +kernel,
    rfl, by decide +kernel⟩

end Verif.Reader
