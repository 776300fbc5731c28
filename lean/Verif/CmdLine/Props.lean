import Verif.CmdLine.Lemmas

/-!
# Command lines: the properties
-/

namespace Verif.CmdLine

/-- **C148.**  The full claim is that arguments that are quoted with `quote-argument` and put on a line, with any white space
before, between and after them, are the arguments that `tokenize-command-line` gives.  On Windows this is so for all arguments,
with any quotation marks and backslashes in them and also for empty ones; what is missing are arguments with a newline and with
no space, tab or quotation mark (`win_newline_violated`). -/
theorem win_round_trip_partial (lead : List Char) (args : List (List Char × List Char))
    (hl : ∀ c ∈ lead, c = ' ' ∨ c = '\t' ∨ c = '\n') (hs : SepOk args)
    (ha : ∀ x ∈ args, '\n' ∈ x.1 → ' ' ∈ x.1 ∨ '\t' ∈ x.1 ∨ '"' ∈ x.1) :
    winTokenize (assemble winQuote lead args) = args.map Prod.fst := by
  refine tokens_assemble args lead _ (fun c hc => (white_iff c).2 (hl c hc)) hs (fun x hx => win_reads (ha x hx)) ?_
  have := length_assemble (coding := winQuote) args lead fun x hx => by
    obtain ⟨⟨c, r, h, _⟩, _⟩ := win_reads (ha x hx)
    simp [h]
  omega

/-- Three arguments: a path that ends in a backslash and has a space, the empty one, and one with a backslash before a quotation
mark. -/
example : assemble winQuote " ".toList [("C:\\My Files\\".toList, " ".toList), ([], "\t ".toList), ("a\\\"b".toList, [])] =
      " \"C:\\My Files\\\\\" \"\"\t \"a\\\\\\\"b\"".toList ∧
    winTokenize " \"C:\\My Files\\\\\" \"\"\t \"a\\\\\\\"b\"".toList = ["C:\\My Files\\".toList, [], "a\\\"b".toList] ∧
    SepOk [("C:\\My Files\\".toList, " ".toList), ([], "\t ".toList), ("a\\\"b".toList, [])] := by
  refine ⟨by decide +kernel, by decide +kernel, ?_⟩
  simp [SepOk]

/-- **C148, not so.**  A newline is white space when a line is split, but it is not quoted. -/
theorem win_newline_violated : winQuote "a\nb".toList = "a\nb".toList ∧
    winTokenize (winQuote "a\nb".toList) = ["a".toList, "b".toList] := by
  decide +kernel

/-- **C148.**  On Unix this is so for all arguments with no apostrophe, and if there is a newline, with some character that makes
`quote-argument` write quotation marks.  What is missing is an argument with an apostrophe (`unix_apostrophe_violated`) and one
with a newline that is not quoted (`unix_newline_violated`). -/
theorem unix_round_trip_partial (lead : List Char) (args : List (List Char × List Char))
    (hl : ∀ c ∈ lead, c = ' ' ∨ c = '\t' ∨ c = '\n') (hs : SepOk args) (h1 : ∀ x ∈ args, '\'' ∉ x.1)
    (h2 : ∀ x ∈ args, '\n' ∈ x.1 →
      ∃ c ∈ x.1, c ∈ ['|', '&', ';', '<', '>', '(', ')', '$', '`', '\\', '"', ' ', '\t']) :
    unixTokenize (assemble unixQuote lead args) = args.map Prod.fst := by
  have hr : ∀ x ∈ args, Reads (unixToken false none []) unixQuote x.1 := by
    intro x hx
    refine unix_reads (h1 x hx) fun hn => ?_
    obtain ⟨c, hc, h⟩ := h2 x hx hn
    refine ⟨c, hc, ?_⟩
    simp only [unixSpecial, List.mem_cons, List.not_mem_nil, or_false] at h ⊢
    rcases h with h | h | h | h | h | h | h | h | h | h | h | h | h <;> simp [h]
  refine tokens_assemble args lead _ (fun c hc => (white_iff c).2 (hl c hc)) hs hr ?_
  have := length_assemble (coding := unixQuote) args lead fun x hx => by
    obtain ⟨⟨c, r, h, _⟩, _⟩ := hr x hx
    simp [h]
  omega

/-- Three arguments: one with a space and a dollar, the empty one, and one with a backslash. -/
example : assemble unixQuote [] [("a $b".toList, " ".toList), ([], "\t ".toList), ("\\x".toList, "\n".toList)] =
      "\"a \\$b\" \"\"\t \"\\\\x\"\n".toList ∧
    unixTokenize "\"a \\$b\" \"\"\t \"\\\\x\"\n".toList = ["a $b".toList, [], "\\x".toList] ∧
    SepOk [("a $b".toList, " ".toList), ([], "\t ".toList), ("\\x".toList, "\n".toList)] := by
  refine ⟨by decide +kernel, by decide +kernel, ?_⟩
  simp [SepOk]

/-- **C148, not so.**  An apostrophe between quotation marks is dropped, and from there on the quotation mark no longer ends the
quotation: two arguments become one. -/
theorem unix_apostrophe_violated : unixQuote "it's".toList = "\"it's\"".toList ∧
    unixTokenize "\"it's\"".toList = ["its".toList] ∧
    unixTokenize "\"it's\" two".toList = ["its two".toList] := by
  decide +kernel

/-- **C148, not so.** -/
theorem unix_newline_violated : unixTokenize (unixQuote "a\nb".toList) = ["a".toList, "b".toList] := by
  decide +kernel

/-- An argument that a shell reads as it is also if there are no quotation marks: no newline or pattern character in it, and no
`#` or `~` at its beginning. -/
def Plain (a : List Char) : Prop :=
  (∀ c ∈ a, c ≠ '\n' ∧ c ≠ '*' ∧ c ≠ '?' ∧ c ≠ '[') ∧ ∀ c r, a = c :: r → c ≠ '#' ∧ c ≠ '~'

/-- **C149.**  The full claim is that a Unix shell reads arguments that are quoted with `quote-argument`, and have a space between
them, as these arguments: nothing in them is an operator, an expansion, a pattern or a comment.  This is so for arguments that have
some character for which quotation marks are written or that are `Plain`; what is missing are the others (`shell_violated`). -/
theorem shell_reads_partial : ∀ args : List (List Char),
    (∀ a ∈ args, Plain a ∨ ∃ c ∈ a, c ∈ ['|', '&', ';', '<', '>', '(', ')', '$', '`', '\\', '"', '\'', ' ', '\t']) →
    shell .plain none (spaced (args.map unixQuote)) = some args
  | [], _ => rfl
  | [a], h => by
    have hw := shell_word (a := a) (by
      rcases h a (by simp) with h | h
      · left
        refine ⟨fun c hc => ?_, ?_, ?_⟩
        · have := h.1 c hc
          simp [this]
        · cases a with
          | nil => simp
          | cons c r => simpa using (h.2 c r rfl).1
        · cases a with
          | nil => simp
          | cons c r => simpa using (h.2 c r rfl).2
      · exact .inr h) []
    rw [List.append_nil] at hw
    show shell .plain none (unixQuote a) = _
    rw [hw]
    rfl
  | a :: b :: l, h => by
    have ih := shell_reads_partial (b :: l) fun x hx => h x (List.mem_cons_of_mem _ hx)
    have hw := shell_word (a := a) (by
      rcases h a (by simp) with h | h
      · left
        refine ⟨fun c hc => ?_, ?_, ?_⟩
        · have := h.1 c hc
          simp [this]
        · cases a with
          | nil => simp
          | cons c r => simpa using (h.2 c r rfl).1
        · cases a with
          | nil => simp
          | cons c r => simpa using (h.2 c r rfl).2
      · exact .inr h) (' ' :: spaced ((b :: l).map unixQuote))
    show shell .plain none (unixQuote a ++ ' ' :: spaced ((b :: l).map unixQuote)) = _
    rw [hw, shell]
    simp only [true_or, if_true]
    rw [ih]
    rfl

example : shell .plain none (spaced (["cc".toList, "it's $5; *".toList, [], "-o=#~".toList].map unixQuote)) =
    some ["cc".toList, "it's $5; *".toList, [], "-o=#~".toList] ∧
    spaced (["cc".toList, "it's $5; *".toList, [], "-o=#~".toList].map unixQuote) =
      "cc \"it's \\$5; *\" \"\" -o=#~".toList := by
  decide +kernel

/-- **C149, not so.**  Arguments that are not quoted and that a shell does not read as they are: a pattern, the beginning of a
comment, a home directory, and the end of a command. -/
theorem shell_violated : ∀ a ∈ ["*".toList, "a?".toList, "[x]".toList, "#x".toList, "~".toList, "a\nrm".toList],
    unixQuote a = a ∧ shell .plain none a = none := by
  decide +kernel

/-- **C149.**  On Windows the full claim is that an operator of the command interpreter in an argument is between quotation marks
in what `quote-argument` gives.  This is so if the argument has no quotation mark and no operator directly after a backslash; what
is missing are those with a quotation mark, on which the command interpreter and the C library do not agree, and those with an
operator after a backslash (`win_operator_violated`). -/
theorem win_operators_partial (a : List Char) (h1 : '"' ∉ a)
    (h2 : ∀ p c s, a = p ++ '\\' :: c :: s → c ≠ '|' ∧ c ≠ '<' ∧ c ≠ '>' ∧ c ≠ '&' ∧ c ≠ '^') :
    (winQuote a = a ∧ ∀ c ∈ a, c ≠ '|' ∧ c ≠ '<' ∧ c ≠ '>' ∧ c ≠ '&' ∧ c ≠ '^') ∨
      ∃ m, winQuote a = '"' :: (m ++ ['"']) ∧ '"' ∉ m := by
  have h := winNqc_eq a [] 0 (fun s => rfl) (by simp)
  have ho := winNqc_ops a [] 0 (fun p c s e => by
    have := h2 p c s e
    simp [winOps, this]) (by simp)
  simp only [slashes, List.replicate_zero, List.nil_append] at h ho
  rcases h with h | ⟨h, _, _⟩
  · exact .inr ⟨_, h, fun hm => h1 (quote_mem_winQc a 0 hm)⟩
  · left
    refine ⟨h, fun c hc => ?_⟩
    rcases ho with ⟨s, ho⟩ | ho
    · rw [h] at ho
      exact absurd (by rw [ho]; simp) h1
    · have := ho c hc
      simpa [winOps] using this

example : winQuote "R&D\\".toList = "\"R&D\\\\\"".toList ∧ winQuote "a\\b".toList = "a\\b".toList := by
  decide +kernel

/-- **C149, not so.**  After a backslash an operator is not seen, and the argument is not quoted. -/
theorem win_operator_violated : winQuote "dir\\&del".toList = "dir\\&del".toList := by
  decide +kernel

end Verif.CmdLine
