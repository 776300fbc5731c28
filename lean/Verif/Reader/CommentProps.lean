/-
C120: white space and comments.
-/
import Verif.Reader.CommentSpec
import Verif.Reader.LiteralsProps
import Verif.Reader.MultiProps

namespace Verif.Reader
open LexerSpec

/-- The variables of `get-token` agree with a lexer at this position. -/
structure Shadow (lx : Lexer) (pos : Nat) (g : Regs) : Prop where
  pos : pos = lx.pos
  line : g.line = lx.line
  lineStart : g.lineStart = lx.lineStart
  quoteStart : g.quoteStart = lx.quoteStart
  quoteEnd : g.quoteEnd = lx.quoteEnd

theorem Shadow.newline {lx : Lexer} {pos : Nat} {g : Regs} (h : Shadow lx pos g) (b : Byte) :
    Shadow (passOne lx b) (pos + 1) (newline b pos g) := by
  obtain ⟨h1, h2, h3, h4, h5⟩ := h
  unfold passOne Verif.Reader.newline
  split
  · exact ⟨by rw [h1], by rw [← h2], by rw [h1], h4, h5⟩
  · exact ⟨by rw [h1], h2, h3, h4, h5⟩

theorem newline_counts (b : Byte) (pos : Nat) (g : Regs) :
    (newline b pos g).commentStart = g.commentStart ∧ (newline b pos g).commentEnd = g.commentEnd :=
  ⟨(newline_kept b pos g).1.4, (newline_kept b pos g).1.5⟩

theorem pass_zero (lx : Lexer) (b : Byte) (h : lx.commentStart = 0 ∧ lx.commentEnd = 0) :
    (passOne lx b).commentStart = 0 ∧ (passOne lx b).commentEnd = 0 := by
  unfold passOne; split <;> exact h

/-- The end of white space or a comment. -/
theorem startOver_regs {lx : Lexer} {pos : Nat} {g : Regs} (h : Shadow lx pos g)
    (h0 : lx.commentStart = 0 ∧ lx.commentEnd = 0) (hs : g.commentStart = 0) (he : g.commentEnd = 0) :
    startOver pos g = lx.regs := by
  obtain ⟨h1, h2, h3, h4, h5⟩ := h
  unfold startOver Lexer.regs
  rw [h1, h2, h3, h4, h5, hs, he, h0.1, h0.2]

/-! ### In a delimited comment -/

theorem enter_inner (pos : Nat) (g : Regs) :
    enter .delimitedCommentStart pos g = (.advance, { g with
      commentStart := g.commentStart + 1, builder := none, endPos := none, endLine := some g.line,
      endLineStart := some g.lineStart }) := rfl

theorem enter_outer (pos : Nat) (g : Regs) :
    enter .delimitedCommentEnd pos g = if g.commentEnd + 1 = g.commentStart then
        (.startOver, { g with commentStart := 0, commentEnd := 0 })
      else (.advance, { g with commentEnd := g.commentEnd + 1 }) := by
  unfold enter stateAction
  dsimp only [action, act]
  by_cases h : g.commentEnd + 1 = g.commentStart
  · simp only [h, if_true]; rfl
  · simp only [h, if_false]

theorem next_plain (b : Byte) : Printing b → b ≠ code '*' → b ≠ code '/' →
    next .delimitedCommentStart b = some .delimitedCommentBody ∧
    next .delimitedCommentBody b = some .delimitedCommentBody ∧
    next .delimitedCommentStar b = some .delimitedCommentBody ∧
    next .delimitedCommentSlash b = some .delimitedCommentBody ∧
    next .delimitedCommentEnd b = some .delimitedCommentBody := by revert b; decide +kernel

theorem next_line (b : Byte) : Printing b → b ≠ code '\n' → b ≠ code '\r' →
    next .delimitedCommentSlashSlash b = some .delimitedCommentSlashSlash ∧
    next .singleLineComment b = some .singleLineComment := by revert b; decide +kernel

/-- The states in a comment, and what may come next. -/
def Ready : St → List Byte → Prop
  | .delimitedCommentStart, _ => True
  | .delimitedCommentBody, _ => True
  | .delimitedCommentStar, w => w.head? ≠ some (code '/')
  | .delimitedCommentSlash, w => w.head? ≠ some (code '/') ∧ w.head? ≠ some (code '*')
  | .delimitedCommentEnd, w => w.head? ≠ some (code '/') ∧ w.head? ≠ some (code '*')
  | _, _ => False

theorem ready_plain {st : St} {b : Byte} {w : List Byte} (h : Ready st (b :: w)) (hb : Printing b) (h1 : b ≠ code '*')
    (h2 : b ≠ code '/') : next st b = some .delimitedCommentBody := by
  obtain ⟨p1, p2, p3, p4, p5⟩ := next_plain b hb h1 h2
  cases st <;> first | exact p1 | exact p2 | exact p3 | exact p4 | exact p5 | exact h.elim

theorem ready_star {st : St} {w : List Byte} (h : Ready st (code '*' :: w)) :
    next st (code '*') = some .delimitedCommentStar := by
  cases st <;> first | exact h.elim | exact absurd rfl h.2 | decide +kernel

theorem ready_slash {st : St} {w : List Byte} (h : Ready st (code '/' :: w)) :
    next st (code '/') = some .delimitedCommentSlash := by
  cases st <;> first | exact h.elim | exact absurd rfl h.1 | exact absurd rfl h | decide +kernel

theorem advance_line {rest : List Byte} {st : St} (hq : quiet st = true) (hn : builder st = none)
    (hst : ∀ b, Printing b → b ≠ code '\n' → b ≠ code '\r' → next st b = some st) {m : List Byte} (hm : LineText m)
    (pos : Nat) (g : Regs) (lx : Lexer) (h : Shadow lx pos g) :
    ∃ g', advance st (m ++ rest) pos g = advance st rest (pos + m.length) g' ∧ Shadow (pass lx m) (pos + m.length) g' ∧
      g'.commentStart = g.commentStart ∧ g'.commentEnd = g.commentEnd := by
  induction m generalizing pos g lx with
  | nil => exact ⟨g, rfl, h, rfl, rfl⟩
  | cons b m ih =>
    obtain ⟨h1, h2, h3⟩ := hm b (List.mem_cons_self ..)
    obtain ⟨g', e, s, c1, c2⟩ := ih (fun x hx => hm x (List.mem_cons_of_mem _ hx)) (pos + 1) (newline b pos g) _ (h.newline b)
    obtain ⟨n1, n2⟩ := newline_counts b pos g
    refine ⟨g', ?_, ?_, c1.trans n1, c2.trans n2⟩
    · rw [List.cons_append, advance_quiet (hst b h1 h2 h3) hq hn, e, List.length_cons]
      congr 1; omega
    · rw [List.length_cons, show pos + (m.length + 1) = pos + 1 + m.length by omega]; exact s

theorem pass_zeros (w : List Byte) (lx : Lexer) (h : lx.commentStart = 0 ∧ lx.commentEnd = 0) :
    (pass lx w).commentStart = 0 ∧ (pass lx w).commentEnd = 0 := by
  induction w generalizing lx with
  | nil => exact h
  | cons b w ih => exact ih _ (pass_zero lx b h)

theorem pass_append (lx : Lexer) (v w : List Byte) : pass lx (v ++ w) = pass (pass lx v) w := List.foldl_append ..

theorem pass_pos (w : List Byte) (lx : Lexer) : (pass lx w).pos = lx.pos + w.length := by
  induction w generalizing lx with
  | nil => rfl
  | cons b w ih =>
    have : (passOne lx b).pos = lx.pos + 1 := by unfold passOne; split <;> rfl
    show (pass (passOne lx b) w).pos = _
    rw [ih, this, List.length_cons]; omega

theorem advance_comment {d : Nat} {w : List Byte} (h : Comment true d w) (rest : List Byte) (st : St) (hst : Ready st w)
    (g : Regs) (lx : Lexer) (hs : Shadow lx lx.pos g) (h0 : lx.commentStart = 0 ∧ lx.commentEnd = 0)
    (hd : g.commentStart = g.commentEnd + d) :
    advance st (w ++ rest) lx.pos g = advance .start rest (pass lx w).pos (pass lx w).regs := by
  have hpos : ∀ (lx : Lexer) b, (passOne lx b).pos = lx.pos + 1 := by
    intro lx b; unfold passOne; split <;> rfl
  induction h generalizing st g lx with
  | last =>
    have h1 := ready_star hst
    have h2 : next .delimitedCommentStar (code '/') = some .delimitedCommentEnd := by decide +kernel
    show advance st (code '*' :: code '/' :: rest) lx.pos g = _
    rw [advance_quiet h1 (by decide) rfl, advance_cons h2, enter_outer, if_pos (by
      obtain ⟨a1, a2⟩ := newline_counts (code '*') lx.pos g
      obtain ⟨b1, b2⟩ := newline_counts (code '/') (lx.pos + 1) (newline (code '*') lx.pos g)
      omega)]
    have s := (hs.newline (code '*')).newline (code '/')
    show advance .start rest (lx.pos + 1 + 1) (startOver (lx.pos + 1 + 1) _) = _
    have s2 : Shadow (pass lx (bytes "*/")) (lx.pos + 1 + 1) { newline (code '/') (lx.pos + 1) (newline (code '*') lx.pos g)
      with commentStart := 0, commentEnd := 0 } := ⟨s.1, s.2, s.3, s.4, s.5⟩
    rw [startOver_regs s2 (pass_zeros _ _ h0) rfl rfl, s2.1]
  | @plain d b w hb h1 h2 hw ih =>
    have hn := ready_plain hst hb h1 h2
    obtain ⟨n1, n2⟩ := newline_counts b lx.pos g
    rw [List.cons_append, advance_quiet hn (by decide) rfl]
    have := ih .delimitedCommentBody trivial (newline b lx.pos g) (passOne lx b) (by rw [hpos]; exact hs.newline b)
      (pass_zero lx b h0) (by omega)
    rw [hpos] at this
    exact this
  | @star d w hw h ih =>
    have hn := ready_star hst
    obtain ⟨n1, n2⟩ := newline_counts (code '*') lx.pos g
    rw [List.cons_append, advance_quiet hn (by decide) rfl]
    have := ih .delimitedCommentStar h (newline (code '*') lx.pos g) (passOne lx (code '*'))
      (by rw [hpos]; exact hs.newline _) (pass_zero lx _ h0) (by omega)
    rw [hpos] at this
    exact this
  | @slash d w hw h h' ih =>
    have hn := ready_slash hst
    obtain ⟨n1, n2⟩ := newline_counts (code '/') lx.pos g
    rw [List.cons_append, advance_quiet hn (by decide) rfl]
    have := ih .delimitedCommentSlash ⟨h, h'⟩ (newline (code '/') lx.pos g) (passOne lx (code '/'))
      (by rw [hpos]; exact hs.newline _) (pass_zero lx _ h0) (by omega)
    rw [hpos] at this
    exact this
  | @inner d w hw ih =>
    have hn := ready_slash hst
    have h2 : next .delimitedCommentSlash (code '*') = some .delimitedCommentStart := by decide +kernel
    obtain ⟨a1, a2⟩ := newline_counts (code '/') lx.pos g
    obtain ⟨b1, b2⟩ := newline_counts (code '*') (lx.pos + 1) (newline (code '/') lx.pos g)
    show advance st (code '/' :: code '*' :: (w ++ rest)) lx.pos g = _
    rw [advance_quiet hn (by decide) rfl, advance_cons h2, enter_inner]
    have s := (hs.newline (code '/')).newline (code '*')
    have := ih .delimitedCommentStart trivial { newline (code '*') (lx.pos + 1) (newline (code '/') lx.pos g) with
      commentStart := (newline (code '*') (lx.pos + 1) (newline (code '/') lx.pos g)).commentStart + 1,
      builder := none, endPos := none,
      endLine := some (newline (code '*') (lx.pos + 1) (newline (code '/') lx.pos g)).line,
      endLineStart := some (newline (code '*') (lx.pos + 1) (newline (code '/') lx.pos g)).lineStart }
      (passOne (passOne lx (code '/')) (code '*'))
      (by rw [hpos, hpos]; exact ⟨s.1, s.2, s.3, s.4, s.5⟩) (pass_zero _ _ (pass_zero _ _ h0))
      (by dsimp only; omega)
    rw [hpos, hpos] at this
    exact this
  | @outer d w hd0 hw h ih =>
    have hn := ready_star hst
    have h2 : next .delimitedCommentStar (code '/') = some .delimitedCommentEnd := by decide +kernel
    obtain ⟨a1, a2⟩ := newline_counts (code '*') lx.pos g
    obtain ⟨b1, b2⟩ := newline_counts (code '/') (lx.pos + 1) (newline (code '*') lx.pos g)
    show advance st (code '*' :: code '/' :: (w ++ rest)) lx.pos g = _
    rw [advance_quiet hn (by decide) rfl, advance_cons h2, enter_outer, if_neg (by omega)]
    have s := (hs.newline (code '*')).newline (code '/')
    have := ih .delimitedCommentEnd (h rfl) { newline (code '/') (lx.pos + 1) (newline (code '*') lx.pos g) with
      commentEnd := (newline (code '/') (lx.pos + 1) (newline (code '*') lx.pos g)).commentEnd + 1 }
      (passOne (passOne lx (code '*')) (code '/'))
      (by rw [hpos, hpos]; exact ⟨s.1, s.2, s.3, s.4, s.5⟩) (pass_zero _ _ (pass_zero _ _ h0))
      (by dsimp only; omega)
    rw [hpos, hpos] at this
    exact this
  | @line d m w b hm hb hw ih =>
    have hn := ready_slash hst
    have h2 : next .delimitedCommentSlash (code '/') = some .delimitedCommentSlashSlash := by decide +kernel
    have h3 : next .delimitedCommentSlashSlash b = some .delimitedCommentBody := by
      rcases hb with rfl | rfl <;> decide +kernel
    obtain ⟨a1, a2⟩ := newline_counts (code '/') lx.pos g
    obtain ⟨b1, b2⟩ := newline_counts (code '/') (lx.pos + 1) (newline (code '/') lx.pos g)
    rw [show bytes "//" ++ m ++ b :: w ++ rest = code '/' :: code '/' :: (m ++ b :: (w ++ rest)) by simp [bytes, code],
      advance_quiet hn (by decide) rfl, advance_quiet h2 (by decide) rfl]
    obtain ⟨g', e, s, c1, c2⟩ := advance_line (rest := b :: (w ++ rest)) (st := .delimitedCommentSlashSlash) (by decide)
      rfl (fun b h1 h2 h3 => (next_line b h1 h2 h3).1) hm (lx.pos + 1 + 1) _ _
      ((hs.newline (code '/')).newline (code '/'))
    rw [e, advance_quiet h3 (by decide) rfl]
    obtain ⟨d1, d2⟩ := newline_counts b (lx.pos + 1 + 1 + m.length) g'
    have e2 := s.1
    have s' := s.newline b
    have := ih .delimitedCommentBody trivial (newline b (lx.pos + 1 + 1 + m.length) g')
      (passOne (pass (passOne (passOne lx (code '/')) (code '/')) m) b)
      (by rw [hpos, ← e2]; exact s')
      (pass_zero _ _ (pass_zeros _ _ (pass_zero _ _ (pass_zero _ _ h0)))) (by omega)
    rw [hpos, ← e2] at this
    rw [this]
    have ep : passOne (pass (passOne (passOne lx (code '/')) (code '/')) m) b = pass lx (bytes "//" ++ m ++ [b]) := by
      rw [pass_append, pass_append]; rfl
    rw [ep, ← pass_append]
    simp

/-! ### Between tokens -/

theorem Lexer.shadow (lx : Lexer) : Shadow lx lx.pos lx.regs := ⟨rfl, rfl, rfl, rfl, rfl⟩

theorem passOne_pos (lx : Lexer) (b : Byte) : (passOne lx b).pos = lx.pos + 1 := by
  unfold passOne; split <;> rfl

/-- Where a state is entered that ends white space or a comment to the end of a line. -/
theorem enter_over {st : St} (ha : action st = none) (hb : builder st = some .whitespace ∨ builder st = some .comment)
    (pos : Nat) (g : Regs) (h0 : g.commentStart = 0 ∧ g.commentEnd = 0) : enter st pos g = (.startOver, g) := by
  unfold enter stateAction
  rw [ha]
  rcases hb with hb | hb
  · rw [hb]; rfl
  · rw [hb]
    obtain ⟨h1, h2⟩ := h0
    cases g
    simp only at h1 h2
    subst h1; subst h2; rfl

theorem advance_over {st st' : St} {b : Byte} (h : next st b = some st') (ha : action st' = none)
    (hb : builder st' = some .whitespace ∨ builder st' = some .comment) (rest : List Byte) (g : Regs) (lx : Lexer)
    (hs : Shadow lx lx.pos g) (h0 : lx.commentStart = 0 ∧ lx.commentEnd = 0) (hg : g.commentStart = 0 ∧ g.commentEnd = 0) :
    advance st (b :: rest) lx.pos g = advance .start rest (passOne lx b).pos (passOne lx b).regs := by
  obtain ⟨n1, n2⟩ := newline_counts b lx.pos g
  rw [advance_cons h, enter_over ha hb _ _ ⟨n1.trans hg.1, n2.trans hg.2⟩]
  show advance .start rest (lx.pos + 1) (startOver (lx.pos + 1) (newline b lx.pos g)) = _
  have s := hs.newline b
  rw [startOver_regs s (pass_zero lx b h0) (n1.trans hg.1) (n2.trans hg.2), passOne_pos]

theorem next_space (b : Byte) (h : b ∈ bytes " \t\x0c\n\r") : next .start b = some .whitespace := by
  have : (bytes " \t\x0c\n\r").all (fun b => next .start b == some .whitespace) = true := by decide +kernel
  simpa using List.all_eq_true.1 this b h

theorem advance_blanks {w : List Byte} (h : Blanks true w) (rest : List Byte) (lx : Lexer)
    (h0 : lx.commentStart = 0 ∧ lx.commentEnd = 0) :
    advance .start (w ++ rest) lx.pos lx.regs = advance .start rest (pass lx w).pos (pass lx w).regs := by
  induction h generalizing lx with
  | nil => rfl
  | @space b l h hl ih =>
    rw [List.cons_append, advance_over (next_space b h) rfl (.inl rfl) _ _ lx lx.shadow h0 h0]
    exact ih _ (pass_zero lx b h0)
  | @line m l b hm hb hl ih =>
    have h1 : next .start (code '/') = some .slash := by decide +kernel
    have h2 : next .slash (code '/') = some .singleLineComment := by decide +kernel
    rw [show bytes "//" ++ m ++ b :: l ++ rest = code '/' :: code '/' :: (m ++ b :: (l ++ rest)) by simp [bytes, code],
      advance_cons h1, enter_quiet (by decide)]
    show advance .slash _ _ (save (lx.pos + 1) .binaryOperator (newline (code '/') lx.pos lx.regs)) = _
    have s1 := lx.shadow.newline (code '/')
    have s2 : Shadow (passOne lx (code '/')) (lx.pos + 1) (save (lx.pos + 1) .binaryOperator
        (newline (code '/') lx.pos lx.regs)) := ⟨s1.1, s1.2, s1.3, s1.4, s1.5⟩
    rw [advance_quiet h2 (by decide) rfl]
    obtain ⟨a1, a2⟩ := newline_counts (code '/') lx.pos lx.regs
    obtain ⟨b1, b2⟩ := newline_counts (code '/') (lx.pos + 1) (save (lx.pos + 1) .binaryOperator
        (newline (code '/') lx.pos lx.regs))
    obtain ⟨g', e, s, c1, c2⟩ := advance_line (rest := b :: (l ++ rest)) (st := .singleLineComment) (by decide) rfl
      (fun b h1 h2 h3 => (next_line b h1 h2 h3).2) hm (lx.pos + 1 + 1) _ _ (s2.newline (code '/'))
    rw [e]
    have hz : g'.commentStart = 0 ∧ g'.commentEnd = 0 :=
      ⟨c1.trans (b1.trans (a1.trans h0.1)), c2.trans (b2.trans (a2.trans h0.2))⟩
    have hp := s.1
    rw [hp] at s ⊢
    have h0' := pass_zeros m _ (pass_zero _ (code '/') (pass_zero lx (code '/') h0))
    have ep : passOne (pass (passOne (passOne lx (code '/')) (code '/')) m) b = pass lx (bytes "//" ++ m ++ [b]) := by
      rw [pass_append, pass_append]; rfl
    have el : bytes "//" ++ m ++ b :: l = bytes "//" ++ m ++ [b] ++ l := by simp
    have hfin := ih (pass lx (bytes "//" ++ m ++ [b])) (pass_zeros _ _ h0)
    rw [← pass_append] at hfin
    rw [el, ← hfin, ← ep]
    rcases hb with rfl | rfl
    · exact advance_over (st' := .singleLineCommentEnd) (by decide +kernel) rfl (.inr rfl) _ _ _ s h0' hz
    · exact advance_over (st' := .singleLineCommentCr) (by decide +kernel) rfl (.inr rfl) _ _ _ s h0' hz
  | @delimited w l hw hl ih =>
    have h1 : next .start (code '/') = some .slash := by decide +kernel
    have h2 : next .slash (code '*') = some .delimitedCommentStart := by decide +kernel
    rw [show bytes "/*" ++ w ++ l ++ rest = code '/' :: code '*' :: (w ++ (l ++ rest)) by simp [bytes, code],
      advance_cons h1, enter_quiet (by decide)]
    show advance .slash _ _ (save (lx.pos + 1) .binaryOperator (newline (code '/') lx.pos lx.regs)) = _
    have s1 := lx.shadow.newline (code '/')
    have s2 : Shadow (passOne lx (code '/')) (lx.pos + 1) (save (lx.pos + 1) .binaryOperator
        (newline (code '/') lx.pos lx.regs)) := ⟨s1.1, s1.2, s1.3, s1.4, s1.5⟩
    obtain ⟨a1, a2⟩ := newline_counts (code '/') lx.pos lx.regs
    obtain ⟨b1, b2⟩ := newline_counts (code '*') (lx.pos + 1) (save (lx.pos + 1) .binaryOperator
        (newline (code '/') lx.pos lx.regs))
    have s3 := s2.newline (code '*')
    rw [advance_cons h2, enter_inner]
    have := advance_comment hw (l ++ rest) .delimitedCommentStart trivial
      { newline (code '*') (lx.pos + 1) (save (lx.pos + 1) .binaryOperator (newline (code '/') lx.pos lx.regs)) with
        commentStart := (newline (code '*') (lx.pos + 1) (save (lx.pos + 1) .binaryOperator
          (newline (code '/') lx.pos lx.regs))).commentStart + 1, builder := none, endPos := none,
        endLine := some (newline (code '*') (lx.pos + 1) (save (lx.pos + 1) .binaryOperator
          (newline (code '/') lx.pos lx.regs))).line,
        endLineStart := some (newline (code '*') (lx.pos + 1) (save (lx.pos + 1) .binaryOperator
          (newline (code '/') lx.pos lx.regs))).lineStart }
      (passOne (passOne lx (code '/')) (code '*'))
      (by rw [passOne_pos, passOne_pos]; exact ⟨s3.1, s3.2, s3.3, s3.4, s3.5⟩)
      (pass_zero _ _ (pass_zero _ _ h0))
      (by
        have e1 : lx.regs.commentStart = 0 := h0.1
        have e2 : lx.regs.commentEnd = 0 := h0.2
        have e3 : (save (lx.pos + 1) .binaryOperator (newline (code '/') lx.pos lx.regs)).commentStart =
          (newline (code '/') lx.pos lx.regs).commentStart := rfl
        have e4 : (save (lx.pos + 1) .binaryOperator (newline (code '/') lx.pos lx.regs)).commentEnd =
          (newline (code '/') lx.pos lx.regs).commentEnd := rfl
        dsimp only; omega)
    rw [passOne_pos, passOne_pos] at this
    refine this.trans ?_
    have hfin := ih (pass lx (bytes "/*" ++ w)) (pass_zeros _ _ h0)
    rw [← pass_append] at hfin
    rw [← hfin, pass_append]
    rfl

/-- **C120** White space and comments are skipped: the next token is the one after them, with the line counted.
    Comments nest.  Partial: the end of an inner comment is not followed by `*` or `/`, and the lexer has no comments left
    over. -/
theorem blanks_skipped_partial (pre w rest : List Byte) (lx : Lexer) (hp : lx.pos = pre.length)
    (h0 : lx.commentStart = 0 ∧ lx.commentEnd = 0) (h : Blanks true w) :
    SameToken (pre ++ w ++ rest) lx (pass lx w) ∧ (pass lx w).pos = (pre ++ w).length ∧
      (Located (pre ++ w ++ rest) lx → Located (pre ++ w ++ rest) (pass lx w)) := by
  have hpos : (pass lx w).pos = (pre ++ w).length := by rw [pass_pos, hp, List.length_append]
  refine ⟨?_, hpos, ?_⟩
  · intro b sp l
    unfold getToken
    rw [show (pre ++ w ++ rest).drop lx.pos = w ++ rest by rw [hp, List.append_assoc, List.drop_left],
      show (pre ++ w ++ rest).drop (pass lx w).pos = rest by rw [hpos, List.drop_left], advance_blanks h rest lx h0]
    rcases advance .start rest (pass lx w).pos (pass lx w).regs with ⟨epos, g⟩ | _
    · unfold finish
      dsimp only
      cases g.builder with
      | some b => exact Iff.rfl
      | none =>
        dsimp only
        split
        · exact Iff.rfl
        · constructor <;> intro h <;> cases h
    · exact Iff.rfl
  · have hloc : ∀ (w rest : List Byte) (pre : List Byte) (lx : Lexer), lx.pos = pre.length →
        Located (pre ++ w ++ rest) lx → Located (pre ++ w ++ rest) (pass lx w) := by
      intro w
      induction w with
      | nil => intro rest pre lx _ h; exact h
      | cons b w ih =>
        intro rest pre lx hp h
        have hd : (pre ++ b :: w ++ rest).drop lx.pos = b :: (w ++ rest) := by
          rw [hp, List.append_assoc, List.drop_left]; rfl
        have hl := lineOf_succ hd
        have hc := columnOf_succ hd
        have hb : Located (pre ++ b :: w ++ rest) (passOne lx b) := by
          obtain ⟨i1, i2, i3⟩ := h
          unfold passOne
          by_cases hb : b = code '\n'
          · rw [if_pos hb] at hl hc ⊢
            refine ⟨?_, ?_, ?_⟩
            · show lx.pos + 1 ≤ _; rw [hp]; simp
            · show lx.line + 1 = lineOf _ (lx.pos + 1); rw [hl, i2]
            · show ((lx.pos + 1 : Nat) : Int) - ((lx.pos + 1 : Nat) : Int) = _
              rw [show (columnOf (pre ++ b :: w ++ rest) (lx.pos + 1)) = 0 from hc]; omega
          · rw [if_neg hb] at hl hc ⊢
            refine ⟨?_, ?_, ?_⟩
            · show lx.pos + 1 ≤ _; rw [hp]; simp
            · show lx.line = lineOf _ (lx.pos + 1); rw [hl, i2]
            · show ((lx.pos + 1 : Nat) : Int) - (lx.lineStart : Int) = _
              rw [show (columnOf (pre ++ b :: w ++ rest) (lx.pos + 1)) = _ from hc]; push_cast; omega
        have := ih rest (pre ++ [b]) (passOne lx b) (by rw [passOne_pos, hp]; simp) (by
          rw [show pre ++ [b] ++ w ++ rest = pre ++ b :: w ++ rest by simp]; exact hb)
        rw [show pre ++ [b] ++ w ++ rest = pre ++ b :: w ++ rest by simp] at this
        exact this
    exact hloc w rest pre lx hp

/-- **C120** An inner comment directly before the end of the outer one is not read as a comment. -/
theorem nested_comment_violated :
    Comment false 1 (bytes " /* a */*/") ∧
      getToken (bytes "/* /* a */*/ foo") .new = .invalid ⟨0, 1, 0, 16, 1, 16⟩ ⟨0, 1, 0, 0, 0, 2, 1⟩ := by
  constructor
  · exact .plain (by decide) (by decide) (by decide) (.inner (.plain (by decide) (by decide) (by decide)
      (.plain (by decide) (by decide) (by decide) (.plain (by decide) (by decide) (by decide)
        (.outer (by decide) .last (fun h => by cases h))))))
  · decide +kernel

/-- A comment in a comment, and a comment to the end of a line with `*/` in it. -/
example : Blanks true (bytes "  /* a /* b */ // */\n **/") := by
  refine .space (by decide) (.space (by decide) (.delimited (w := bytes " a /* b */ // */\n **/") (l := []) ?_ .nil))
  refine .plain (by decide) (by decide) (by decide) (.plain (by decide) (by decide) (by decide)
    (.plain (by decide) (by decide) (by decide) (.inner (.plain (by decide) (by decide) (by decide)
      (.plain (by decide) (by decide) (by decide) (.plain (by decide) (by decide) (by decide)
        (.outer (by decide) (.plain (by decide) (by decide) (by decide) ?_) (fun _ => by decide))))))))
  exact .line (m := bytes " */") (b := code '\n') (by unfold LineText; decide +kernel) (.inl rfl)
    (.plain (by decide) (by decide) (by decide) (.star .last (by decide)))

end Verif.Reader
