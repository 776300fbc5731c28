/-
C112: the tokens of a source: they follow each other, only blanks are between them, and their lines and columns
are right.
-/
import Verif.Reader.LexerPath

namespace Verif.Reader
open LexerSpec

theorem located_inv {source : List Byte} {lx : Lexer} (h : Located source lx) :
    Inv source lx.pos lx.regs :=
  ⟨h.line, by have := h.column; simp only [Lexer.regs]; omega, Nat.le_refl _, h.line,
    by have := h.column; simp only [Lexer.regs]; omega, fun _ hb => by cases hb⟩

/-- **C112** The lines and columns of a token, and of the lexer after it, are right, if those of the lexer
    were: the line is one more than the newlines before the position, and the column is how many
    characters of that line come before it.  The token begins where the last one ended or later, and is not
    empty unless it is the end of the source.  (The lexer here is the one that the builder gets; the builders
    other than that of `#:name:` literals do not change its position.) -/
theorem token_location (source : List Byte) (lx lx' : Lexer) (b : Builder) (sp : Span) (h : Located source lx)
    (ht : getToken source lx = .token b sp lx') :
    sp.startLine = lineOf source sp.startPos ∧ sp.startColumn = columnOf source sp.startPos ∧
      sp.endLine = lineOf source sp.endPos ∧ sp.endColumn = columnOf source sp.endPos ∧
      lx'.pos = sp.endPos ∧ Located source lx' := by
  unfold getToken at ht
  rcases hr : advance .start (source.drop lx.pos) lx.pos lx.regs with ⟨epos, g⟩ | _
  · rw [hr] at ht
    dsimp only at ht
    obtain ⟨q, hq, hw, hi⟩ := advance_inv .start _ _ _ (located_inv h) rfl epos g hr
    have hq' : q ≤ source.length := by have := h.inside; omega
    unfold finish at ht
    cases hb : g.builder with
    | some c =>
      rw [hb] at ht
      dsimp only at ht
      obtain ⟨e, ls, h1, h2, h3, h4, h5, h6⟩ := hw.saved c hb
      rw [Token.token.injEq] at ht
      obtain ⟨rfl, hsp, hlx⟩ := ht
      subst hsp hlx
      have hst := hw.startColumn
      simp only [Regs.span, h1, h2, h3, Option.getD_some]
      refine ⟨hw.startLine, by omega, trivial, by omega, trivial, ⟨?_, rfl, ?_⟩⟩
      · dsimp only; omega
      · dsimp only; omega
    | none =>
      rw [hb] at ht
      dsimp only at ht
      split at ht
      · next hge =>
        rw [Token.token.injEq] at ht
        obtain ⟨rfl, hsp, hlx⟩ := ht
        subst hsp hlx
        have hqe : q = g.startPos := by have := hw.startLe; omega
        have hi' : Inv source q g := by
          rcases hi with hi | hi
          · omega
          · exact hi
        have h1 := hi'.line
        have h2 := hi'.column
        have h3 := hw.startColumn
        rw [hqe] at h1 h2
        simp only [Regs.span]
        refine ⟨hw.startLine, by omega, h1, by omega, trivial, ⟨?_, h1, ?_⟩⟩
        · dsimp only; omega
        · dsimp only; omega
      · cases ht
  · rw [hr] at ht; cases ht

theorem read_start (source : List Byte) (lx : Lexer) : Read source lx.pos .start lx.pos lx.regs :=
  ⟨Nat.le_refl _, Nat.le_refl _, by simp only [Lexer.regs, text_self]; exact .nil,
    by simp only [Lexer.regs, text_self]; rfl, by simp only [Lexer.regs, text_self]; rfl,
    ⟨by decide, by decide⟩, fun _ => rfl, fun h => (by cases h), fun b h => (by cases h)⟩

theorem getToken_final {source : List Byte} {lx lx' : Lexer} {b : Builder} {sp : Span}
    (h : lx.pos ≤ source.length) (ht : getToken source lx = .token b sp lx') :
    ∃ g, Final source lx.pos g ∧ sp.startPos = g.startPos ∧ lx'.pos = sp.endPos ∧
      ((g.builder = some b ∧ g.endPos = some sp.endPos) ∨
       (g.builder = none ∧ b = .eof ∧ sp.startPos = sp.endPos ∧ source.length ≤ sp.startPos)) := by
  unfold getToken at ht
  rcases hr : advance .start (source.drop lx.pos) lx.pos lx.regs with ⟨epos, g⟩ | _
  · rw [hr] at ht
    dsimp only at ht
    have hf := advance_final .start _ _ _ (read_start source lx) h rfl epos g hr
    refine ⟨g, hf, ?_⟩
    unfold finish at ht
    cases hb : g.builder with
    | some c =>
      rw [hb] at ht
      dsimp only at ht
      obtain ⟨e, h1, -⟩ := hf.kept c hb
      rw [Token.token.injEq] at ht
      obtain ⟨rfl, rfl, rfl⟩ := ht
      simp [Regs.span, h1]
    | none =>
      rw [hb] at ht
      dsimp only at ht
      split at ht
      · next hge =>
        rw [Token.token.injEq] at ht
        obtain ⟨rfl, rfl, rfl⟩ := ht
        simp [Regs.span]; omega
      · cases ht
  · rw [hr] at ht; cases ht

/-- **C112** Between the place where the last token ended and the next token there are only white space,
    comments to the end of a line and delimited comments.  The token is not empty and lies in the source, or it
    is the end of the source. -/
theorem tokens_tile (source : List Byte) (lx lx' : Lexer) (b : Builder) (sp : Span)
    (h : lx.pos ≤ source.length) (ht : getToken source lx = .token b sp lx') :
    lx.pos ≤ sp.startPos ∧ Blank (text source lx.pos sp.startPos) ∧
      ((sp.startPos < sp.endPos ∧ sp.endPos ≤ source.length) ∨
       (b = .eof ∧ sp.startPos = source.length ∧ sp.endPos = source.length)) := by
  obtain ⟨g, hf, h1, h2, h3⟩ := getToken_final h ht
  have hlen : g.startPos ≤ source.length := by
    have hb := hf.blank
    rcases h3 with ⟨h3, h4⟩ | ⟨-, -, h3, h4⟩
    · obtain ⟨e, e1, e2, e3, -⟩ := hf.kept b h3; omega
    · -- the start is not beyond the end
      unfold getToken at ht
      rcases hr : advance .start (source.drop lx.pos) lx.pos lx.regs with ⟨epos, g'⟩ | _
      · rw [hr] at ht
        dsimp only at ht
        have hi : Inv source lx.pos lx.regs → True := fun _ => trivial
        exact Nat.le_of_not_lt fun hlt => by
          have := advance_start_le .start (source.drop lx.pos) lx.pos lx.regs rfl h (by simp [Lexer.regs, h]) hr
          have hs : sp.startPos = g'.startPos := by
            unfold finish at ht
            repeat' split at ht
            all_goals first | (rw [Token.token.injEq] at ht; obtain ⟨-, rfl, -⟩ := ht; rfl) | cases ht
          omega
      · rw [hr] at ht; cases ht
  refine ⟨by rw [h1]; exact hf.le, by rw [h1]; exact hf.blank, ?_⟩
  rcases h3 with ⟨h3, h4⟩ | ⟨-, h5, h3, h4⟩
  · obtain ⟨e, e1, e2, e3, -⟩ := hf.kept b h3
    rw [h4] at e1; cases e1
    exact Or.inl ⟨by omega, e3⟩
  · exact Or.inr ⟨h5, by omega, by omega⟩

/-- **C113** A token that is not a string is the longest one that the table of states accepts at its start:
    the table accepts it, as a token of its kind, and accepts no longer text that starts there. -/
theorem longest_token (source : List Byte) (lx lx' : Lexer) (b : Builder) (sp : Span)
    (h : lx.pos ≤ source.length) (ht : getToken source lx = .token b sp lx') (he : b ≠ .eof)
    (hs : b ≠ .string ∧ b ≠ .rawString) :
    Accepts (text source sp.startPos sp.endPos) b ∧
      ∀ k, sp.endPos < k → k ≤ source.length → ∀ b', ¬ Accepts (text source sp.startPos k) b' := by
  obtain ⟨g, hf, h1, h2, h3⟩ := getToken_final h ht
  rcases h3 with ⟨h3, h4⟩ | ⟨-, h5, -⟩
  · obtain ⟨e, e1, e2, e3, e4, e5⟩ := hf.kept b h3
    rw [h4] at e1; cases e1
    rw [h1]
    refine ⟨e4, ?_⟩
    rcases e5 with e5 | e5
    · cases b <;> simp_all [stringKind]
    · exact e5
  · exact absurd h5 he

/-- **C113** The lexer never fails with the error that it has not seen the accepting state it returns to. -/
theorem no_internal_error (source : List Byte) (lx : Lexer) : getToken source lx ≠ .noPrevious := by
  unfold getToken
  rcases hr : advance .start (source.drop lx.pos) lx.pos lx.regs with ⟨epos, g⟩ | _
  · dsimp only
    unfold finish
    repeat' split
    all_goals simp
  · exact absurd hr (advance_noPrevious _ _ _ _)

/-- `foo-bar` and `=>` are taken whole, with the positions of what was skipped. -/
example : getToken (bytes " // x\n\tfoo-bar(1)") Lexer.new =
    .token .identifier ⟨7, 2, 1, 14, 2, 8⟩ ⟨14, 2, 6, 0, 0, 0, 0⟩ := by decide +kernel

example : getToken (bytes "=>(") Lexer.new = .token (.mark .equalGreater) ⟨0, 1, 0, 2, 1, 2⟩
    ⟨2, 1, 0, 0, 0, 0, 0⟩ := by decide +kernel

/-! ### All tokens of a source -/

theorem located_new (source : List Byte) : Located source .new :=
  ⟨Nat.zero_le _, by simp [Lexer.new, lineOf], by simp [Lexer.new, columnOf]⟩

/-- The builders keep the position right, other than that of `#:name:` literals. -/
theorem built_located {source : List Byte} {b : Builder} {lx lx' : Lexer} (h : Located source lx)
    (hb : b ≠ .hashLiteral) (hx : built source b lx = some lx') : Located source lx' := by
  cases b <;> simp only [built, Option.some.injEq] at hx <;>
    first | (subst hx; exact ⟨h.inside, h.line, h.column⟩) | exact absurd rfl hb

/-- **C112** In all tokens of a source, up to the first error, the lines and columns of starts and ends are
    right, if there are no `#:name:` literals. -/
theorem all_tokens_located_partial (source : List Byte) (n : Nat) (b : Builder) (sp : Span)
    (hh : ∀ t ∈ tokens source n .new, t.1 ≠ .hashLiteral) (h : (b, sp) ∈ tokens source n .new) :
    sp.startLine = lineOf source sp.startPos ∧ sp.startColumn = columnOf source sp.startPos ∧
      sp.endLine = lineOf source sp.endPos ∧ sp.endColumn = columnOf source sp.endPos := by
  suffices H : ∀ n lx, Located source lx → (∀ t ∈ tokens source n lx, t.1 ≠ .hashLiteral) →
      (b, sp) ∈ tokens source n lx →
      sp.startLine = lineOf source sp.startPos ∧ sp.startColumn = columnOf source sp.startPos ∧
        sp.endLine = lineOf source sp.endPos ∧ sp.endColumn = columnOf source sp.endPos from
    H n .new (located_new source) hh h
  clear hh h n
  intro n
  induction n with
  | zero => intro lx _ _ h; cases h
  | succ n ih =>
    intro lx hl hh h
    rcases ht : getToken source lx with ⟨c, sp', lx'⟩ | ⟨_, _⟩ | _
    · obtain ⟨t1, t2, t3, t4, -, t5⟩ := token_location source lx lx' c sp' hl ht
      simp only [tokens, ht] at h hh
      rcases List.mem_cons.1 h with h | h
      · cases h; exact ⟨t1, t2, t3, t4⟩
      · split at h
        · cases h
        · next hc =>
          rw [if_neg hc] at hh
          rcases hb : built source c lx' with _ | lx2
          · rw [hb] at h; cases h
          · rw [hb] at h hh
            exact ih lx2 (built_located t5 (hh _ (List.mem_cons_self ..)) hb)
              (fun t ht => hh t (List.mem_cons_of_mem _ ht)) h
    · simp only [tokens, ht] at h; cases h
    · simp only [tokens, ht] at h; cases h

example : tokens (bytes "let x = 1;\n") 9 .new =
    [(.identifier, ⟨0, 1, 0, 3, 1, 3⟩), (.identifier, ⟨4, 1, 4, 5, 1, 5⟩), (.equal, ⟨6, 1, 6, 7, 1, 7⟩),
     (.integer, ⟨8, 1, 8, 9, 1, 9⟩), (.mark .semicolon, ⟨9, 1, 9, 10, 1, 10⟩), (.eof, ⟨11, 2, 0, 11, 2, 0⟩)] := by
  decide +kernel

/-- **C112** A `#:name:` literal with a newline in it puts the columns of the rest of its line one too high:
    `x` is the third character of its line, and is located in column 3. -/
theorem hash_literal_columns_violated :
    ∃ source sp, (Builder.identifier, sp) ∈ tokens source 9 .new ∧ sp.startPos = 9 ∧
      columnOf source sp.startPos = 2 ∧ sp.startColumn = 3 :=
  ⟨bytes "#:a:{b\n} x", ⟨9, 2, 3, 10, 2, 4⟩, by decide +kernel, rfl, by decide +kernel, rfl⟩

/-- **C112** The end of an invalid token before a newline is located in the next line, in column -1. -/
theorem invalid_location_violated :
    ∃ source sp lx, getToken source .new = .invalid sp lx ∧ sp.endPos = 2 ∧ lineOf source sp.endPos = 1 ∧
      sp.endLine = 2 ∧ sp.endColumn = -1 :=
  ⟨bytes "\"a\n", ⟨0, 1, 0, 2, 2, -1⟩, ⟨0, 1, 0, 1, 0, 0, 0⟩, by decide +kernel, rfl, by decide +kernel, rfl, rfl⟩

/-- **C112** A comment to the end of a line is not skipped if the source ends without a newline: it is read as two
    operators and a name. -/
theorem last_line_comment_violated :
    ∃ source, source = bytes "// x" ∧ (tokens source 9 .new).map (·.1) =
      [.binaryOperator, .binaryOperator, .identifier, .eof] :=
  ⟨_, rfl, by decide +kernel⟩

end Verif.Reader
