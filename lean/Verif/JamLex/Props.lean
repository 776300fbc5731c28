import Verif.JamLex.Lemmas
/-
C161: the words of a build file are read as they are written.
-/
namespace Verif.JamLex

/-- The token that a word stands for: a word of plain characters may be punctuation or, where keywords are
    expected, a keyword; any other one is an argument. -/
def expected (punctOnly : Bool) (word : List Piece) : Token :=
  let value := word.flatMap Piece.value
  if word.any Piece.special = false ∧ String.ofList value ∈
      ["!", "!=", "&", "&&", "(", ")", "+=", ":", ";", "<", "<=", "=", ">", ">=", "?=", "[", "]", "{", "|", "||", "}"] then .punct value
  else if word.any Piece.special = false ∧ punctOnly = false ∧ String.ofList value ∈
      ["actions", "bind", "break", "case", "continue", "default", "else", "existing", "for", "if", "ignore", "in",
       "include", "local", "maxline", "on", "piecemeal", "quietly", "return", "rule", "switch", "together", "updated",
       "while"] then .keyword value
  else .arg value

theorem returnToken_expected (p : Bool) (word : List Piece) :
    returnToken p (word.flatMap Piece.value) (word.any Piece.special) = expected p word := by
  unfold returnToken expected
  change _ = (let value := word.flatMap Piece.value
    if word.any Piece.special = false ∧ String.ofList value ∈ punctuation then Token.punct value
    else if word.any Piece.special = false ∧ p = false ∧ String.ofList value ∈ keywords then .keyword value else .arg value)
  cases word.any Piece.special <;> cases p <;> simp

/-- A word with a blank after it is read as the token it stands for, however its parts are written, and the
    lines in it and the line that the blank ends are counted. -/
theorem word_read (p : Bool) (q : Piece) (qs : List Piece) (e : Char) (t : List Char) (line : Nat)
    (hok : ∀ r ∈ q :: qs, r.Ok) (hf : ∀ s, q.text ≠ '#' :: s) (he : IsBlank e) :
    ∃ line', line' + lineEnds t = line + lineEnds ((q :: qs).flatMap Piece.text ++ e :: t) ∧
      next p line ((q :: qs).flatMap Piece.text ++ e :: t) = .token (expected p (q :: qs)) t line' := by
  obtain ⟨l, acc, cur, h1, h2, h3, h4, _⟩ := lex_word_gen p q qs (e :: t) line hok hf
  refine ⟨countLine e t l, by rw [countLine_ends, h1], ?_⟩
  have hb : blank e = true := (blank_iff e).2 he
  rw [h2, lex.eq_def]
  simp only [hb, if_true]
  rw [if_neg (by simp), if_neg (by simp), if_pos h4, h3, returnToken_expected]

/-- A word at the end of a file is read if its last part is not in quotes: see `quoted_end_violated`. -/
theorem word_read_end_partial (p : Bool) (q : Piece) (qs : List Piece) (line : Nat)
    (hok : ∀ r ∈ q :: qs, r.Ok) (hf : ∀ s, q.text ≠ '#' :: s)
    (hl : ∀ r, (q :: qs).getLast? = some r → ¬ ∃ w, r = .quoted w) :
    next p line ((q :: qs).flatMap Piece.text) =
      .token (expected p (q :: qs)) [] (line + lineEnds ((q :: qs).flatMap Piece.text)) := by
  obtain ⟨l, acc, cur, h1, h2, h3, _, h5⟩ := lex_word_gen p q qs [] line hok hf
  simp only [List.append_nil, lineEnds, Nat.add_zero] at h1 h2
  have hc : cur ≠ [] := by
    cases hr : (q :: qs).getLast? with
    | none => simp at hr
    | some r => exact h5 r hr (hl r hr)
  rw [h2, lex.eq_def]
  simp only [if_neg hc]
  rw [if_neg (by simp), h3, returnToken_expected, h1]

/-- The hypotheses hold for the word `a"b \"c"\ #`. -/
example : (∀ r ∈ [Piece.plain 'a', .quoted "b \"c".toList, .escaped ' ', .plain '#'], r.Ok) ∧
    [Piece.plain 'a', .quoted "b \"c".toList, .escaped ' ', .plain '#'].flatMap Piece.text = "a\"b \\\"c\"\\ #".toList ∧
    next false 1 "a\"b \\\"c\"\\ #\nx".toList = .token (.arg "ab \"c #".toList) ['x'] 2 ∧
    next false 1 "if ".toList = .token (.keyword "if".toList) [] 1 ∧
    next false 1 "\"if\" ".toList = .token (.arg "if".toList) [] 1 := by
  refine ⟨?_, by decide +kernel, by decide +kernel, by decide +kernel, by decide +kernel⟩
  intro r hr
  simp at hr
  rcases hr with rfl | rfl | rfl | rfl <;> simp [Piece.Ok, IsBlank] <;> decide

/-- Every text can be written as a word in quotes, and is read back as an argument. -/
theorem quote_round_trip (p : Bool) (w : List Char) (e : Char) (t : List Char) (line : Nat) (he : IsBlank e) :
    ∃ line', next p line ('"' :: inQuotes w ++ '"' :: e :: t) = .token (.arg w) t line' := by
  obtain ⟨l, _, h⟩ := word_read p (.quoted w) [] e t line (by simp [Piece.Ok]) (by simp [Piece.text]) he
  refine ⟨l, ?_⟩
  simpa [Piece.text, expected, Piece.special, Piece.value] using h

/-- Blanks and comments before a word are passed over, and their lines are counted. -/
theorem gap_skipped (p : Bool) {g : List Char} (hg : Gap g) (t : List Char) (line : Nat) :
    ∃ line', line' + lineEnds t = line + lineEnds (g ++ t) ∧ next p line (g ++ t) = next p line' t := by
  induction hg generalizing line with
  | nil => exact ⟨line, rfl, rfl⟩
  | @blank c s hc _ ih =>
    obtain ⟨l, h1, h2⟩ := ih (countLine c (s ++ t) line)
    refine ⟨l, by rw [h1, countLine_ends]; rfl, ?_⟩
    rw [← h2]
    have hb : blank c = true := (blank_iff c).2 hc
    unfold next
    simp only [List.cons_append]
    rw [lex.eq_def]
    simp [hb]
  | @comment w e s h1 h2 he _ ih =>
    obtain ⟨l, g1, g2⟩ := ih (countLine e (s ++ t) line)
    obtain ⟨k1, k2⟩ := lex_comment p w (s ++ t) e he line h1 h2
    have ht : '#' :: w ++ e :: s ++ t = '#' :: (w ++ e :: (s ++ t)) := by simp
    refine ⟨l, ?_, ?_⟩
    · rw [g1, countLine_ends, ht, lineEnds_other (c := '#') (by decide) (by decide), k2]
    · rw [← g2, ht]
      unfold next
      rw [lex.eq_def]
      simp [show blank '#' = false by decide, k1]

example : Gap [' ', '#', ' ', 'i', 'f', '"', '\n', '\t'] :=
  .blank (by simp [IsBlank])
    (.comment (w := [' ', 'i', 'f', '"']) (e := '\n') (s := ['\t']) (by decide) (by decide) (.inl rfl)
      (.blank (by simp [IsBlank]) .nil))

/-- The tokens that are read one after the other up to the end of the text. -/
inductive Reads (p : Bool) : Nat → List Char → List Token → Nat → Prop where
  | done {line text rest line'} : next p line text = .token .eof rest line' → Reads p line text [] line'
  | step {line text t rest line' ts last} : next p line text = .token t rest line' → t ≠ .eof →
      Reads p line' rest ts last → Reads p line text (t :: ts) last

/-- A word in a file: the blanks and comments before it, its parts, and the blank after it. -/
structure Word where
  gap : List Char
  first : Piece
  more : List Piece
  after : Char

/-- The text of a word with what is before and after it. -/
def Word.text (w : Word) : List Char := w.gap ++ ((w.first :: w.more).flatMap Piece.text ++ [w.after])

/-- The word is written as words are. -/
def Word.Ok (w : Word) : Prop :=
  Gap w.gap ∧ (∀ r ∈ w.first :: w.more, r.Ok) ∧ (∀ s, w.first.text ≠ '#' :: s) ∧ IsBlank w.after

/-- A file of words with blanks and comments between them is read as the tokens of these words, in order,
    and the line at its end is the number of its line ends after the first line. -/
theorem file_read (p : Bool) (ws : List Word) (g : List Char) (hg : Gap g) (h : ∀ w ∈ ws, w.Ok) :
    ∀ line, Reads p line (ws.flatMap Word.text ++ g) (ws.map fun w => expected p (w.first :: w.more))
      (line + lineEnds (ws.flatMap Word.text ++ g)) := by
  induction ws with
  | nil =>
    intro line
    obtain ⟨l, h1, h2⟩ := gap_skipped p hg [] line
    simp only [List.append_nil, lineEnds, Nat.add_zero] at h1 h2
    simp only [List.flatMap_nil, List.nil_append, List.map_nil]
    rw [← h1]
    refine .done (rest := []) ?_
    rw [h2]
    simp [next, lex]
  | cons w ws ih =>
    intro line
    obtain ⟨w1, w2, w3, w4⟩ := h w (by simp)
    have e : (w :: ws).flatMap Word.text ++ g =
        w.gap ++ ((w.first :: w.more).flatMap Piece.text ++ w.after :: (ws.flatMap Word.text ++ g)) := by
      simp [Word.text]
    rw [e]
    obtain ⟨l1, h1, h2⟩ := gap_skipped p w1 ((w.first :: w.more).flatMap Piece.text ++ w.after :: (ws.flatMap Word.text ++ g)) line
    obtain ⟨l2, h3, h4⟩ := word_read p w.first w.more w.after (ws.flatMap Word.text ++ g) l1 w2 w3 w4
    rw [List.map_cons]
    refine .step (h2.trans h4) ?_ ?_
    · unfold expected
      dsimp only
      split
      · simp
      · split <;> simp
    · rw [← h1, ← h3]
      exact ih (fun v hv => h v (by simp [hv])) l2

/-- The string of an action goes up to the brace that closes it: braces in it that come in pairs belong to it. -/
theorem action_read {b : List Char} (h : Balanced b) (t : List Char) (line : Nat) :
    ∃ line', line' + lineEnds t = line + lineEnds (b ++ '}' :: t) ∧
      action line (b ++ '}' :: t) = .token b ('}' :: t) line' := by
  obtain ⟨l, h1, h2⟩ := actionLoop_balanced h 1 [] line ('}' :: t) (by omega)
  refine ⟨l, ?_, ?_⟩
  · rw [← h1, lineEnds_other (c := '}') (by decide) (by decide)]
  · unfold action
    rw [h2, actionLoop]
    simp

example : Balanced "awk '{ x }'\n".toList ∧ action 1 "awk '{ x }'\n} }".toList = .token "awk '{ x }'\n".toList "} }".toList 2 := by
  refine ⟨?_, by decide +kernel⟩
  have h : "awk '{ x }'\n".toList = 'a' :: 'w' :: 'k' :: ' ' :: '\'' :: ('{' :: [' ', 'x', ' '] ++ '}' :: ['\'', '\n']) := by decide
  rw [h]
  repeat' (first | exact .nil | refine .char (by decide) (by decide) ?_ | refine .pair ?_ ?_)

/-- The string of an action that is not closed is an error. -/
theorem action_open {b : List Char} (h : Balanced b) (line : Nat) : action line b = .error := by
  obtain ⟨l, _, h2⟩ := actionLoop_balanced h 1 [] line [] (by omega)
  rw [List.append_nil] at h2
  unfold action
  rw [h2, actionLoop]

/-- A word in quotes at the very end of a file is lost: the end of the file is read in its place. -/
theorem quoted_end_violated (p : Bool) (w : List Char) (line : Nat) :
    ∃ line', next p line ('"' :: inQuotes w ++ ['"']) = .token .eof [] line' := by
  obtain ⟨l, _, h2⟩ := lex_quoted p w [] true [] [] line
  refine ⟨l, ?_⟩
  unfold next
  simp only [List.cons_append]
  rw [lex.eq_def]
  simp only [List.append_nil] at h2
  simp only [show blank '"' = false by decide]
  simp [h2, lex]

/-- So is a word before a backslash at the end of a file, and a quote that is opened there is no error, while
    one that is opened earlier is. -/
theorem open_end_violated (p : Bool) : next p 1 "abc\\".toList = .token .eof [] 1 ∧ next p 1 "abc\"".toList = .token .eof [] 1 ∧
    next p 1 "abc\"d".toList = .error := by
  cases p <;> decide +kernel

/-- The end of a line after a backslash is not counted. -/
theorem escaped_line_violated (p : Bool) : next p 1 "a\\\nb c".toList = .token (.arg "a\nb".toList) ['c'] 1 := by
  cases p <;> decide +kernel

end Verif.JamLex
