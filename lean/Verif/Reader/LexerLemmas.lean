/-
Lemmas about the lexer: its positions.
-/
import Verif.Reader.LexerSpec

namespace Verif.Reader
open LexerSpec

theorem start_enter (pos : Nat) (g : Regs) : enter .start pos g = (.advance, g) := rfl

/-! ### Lines and columns -/

theorem take_succ_of_drop {source : List Byte} {p : Nat} {b : Byte} {rest : List Byte}
    (h : source.drop p = b :: rest) : source.take (p + 1) = source.take p ++ [b] := by
  have h1 : source[p]? = some b := by
    have := congrArg (·[0]?) h
    simpa using this
  rw [List.take_add_one, h1]; rfl

theorem drop_succ_of_drop {source : List Byte} {p : Nat} {b : Byte} {rest : List Byte}
    (h : source.drop p = b :: rest) : source.drop (p + 1) = rest := by
  have := congrArg List.tail h
  simpa [List.tail_drop] using this

theorem lineOf_succ {source : List Byte} {p : Nat} {b : Byte} {rest : List Byte}
    (h : source.drop p = b :: rest) :
    lineOf source (p + 1) = if b = code '\n' then lineOf source p + 1 else lineOf source p := by
  unfold lineOf
  rw [take_succ_of_drop h, List.count_append]
  by_cases hb : b = code '\n'
  · simp [hb]
  · simp [hb]

theorem columnOf_succ {source : List Byte} {p : Nat} {b : Byte} {rest : List Byte}
    (h : source.drop p = b :: rest) :
    columnOf source (p + 1) = if b = code '\n' then 0 else columnOf source p + 1 := by
  unfold columnOf
  rw [take_succ_of_drop h, List.reverse_append]
  by_cases hb : b = code '\n'
  · simp [hb]
  · simp [hb]

/-- The invariant of `advance`: the current line, the line of the start and the line of the saved end are
    those of the source. -/
structure Inv (source : List Byte) (pos : Nat) (g : Regs) : Prop where
  line : g.line = lineOf source pos
  column : (g.lineStart : Int) + columnOf source pos = pos
  startLe : g.startPos ≤ pos
  startLine : g.startLine = lineOf source g.startPos
  startColumn : (g.startLineStart : Int) + columnOf source g.startPos = g.startPos
  saved : ∀ b, g.builder = some b → ∃ e ls, g.endPos = some e ∧ g.endLine = some (lineOf source e) ∧
    g.endLineStart = some ls ∧ (ls : Int) + columnOf source e = e ∧ g.startPos < e ∧ e ≤ pos

/-- The invariant without the current line. -/
structure Weak (source : List Byte) (pos : Nat) (g : Regs) : Prop where
  startLe : g.startPos ≤ pos
  startLine : g.startLine = lineOf source g.startPos
  startColumn : (g.startLineStart : Int) + columnOf source g.startPos = g.startPos
  saved : ∀ b, g.builder = some b → ∃ e ls, g.endPos = some e ∧ g.endLine = some (lineOf source e) ∧
    g.endLineStart = some ls ∧ (ls : Int) + columnOf source e = e ∧ g.startPos < e ∧ e ≤ pos

theorem Inv.weak {source : List Byte} {pos : Nat} {g : Regs} (h : Inv source pos g) : Weak source pos g :=
  ⟨h.startLe, h.startLine, h.startColumn, h.saved⟩

/-- Only the counts differ. -/
structure Same (g g' : Regs) : Prop where
  startPos : g'.startPos = g.startPos
  startLine : g'.startLine = g.startLine
  startLineStart : g'.startLineStart = g.startLineStart
  line : g'.line = g.line
  lineStart : g'.lineStart = g.lineStart
  builder : g'.builder = g.builder
  endPos : g'.endPos = g.endPos
  endLine : g'.endLine = g.endLine
  endLineStart : g'.endLineStart = g.endLineStart

theorem Same.refl (g : Regs) : Same g g := ⟨rfl, rfl, rfl, rfl, rfl, rfl, rfl, rfl, rfl⟩

theorem act_same (a : Action) (g : Regs) : Same g (act a g).2 := by
  cases a <;> exact ⟨rfl, rfl, rfl, rfl, rfl, rfl, rfl, rfl, rfl⟩

theorem stateAction_same (st : St) (g : Regs) : Same g (stateAction st g).2 := by
  unfold stateAction
  cases ha : action st with
  | none => exact Same.refl g
  | some a =>
    dsimp only
    have := act_same a g
    rcases hr : act a g with ⟨v, g'⟩
    rw [hr] at this
    cases v <;> exact this

theorem Inv.same {source : List Byte} {pos : Nat} {g g' : Regs} (h : Inv source pos g) (s : Same g g') :
    Inv source pos g' := by
  refine ⟨?_, ?_, ?_, ?_, ?_, ?_⟩
  · rw [s.line]; exact h.line
  · rw [s.lineStart]; exact h.column
  · rw [s.startPos]; exact h.startLe
  · rw [s.startLine, s.startPos]; exact h.startLine
  · rw [s.startLineStart, s.startPos]; exact h.startColumn
  · rw [s.builder, s.endPos, s.endLine, s.endLineStart, s.startPos]; exact h.saved

theorem Inv.save {source : List Byte} {pos : Nat} {g : Regs} (h : Inv source pos g) (hp : g.startPos < pos)
    (b : Builder) : Inv source pos (save pos b g) :=
  ⟨h.line, h.column, h.startLe, h.startLine, h.startColumn,
    fun _ _ => ⟨pos, g.lineStart, rfl, by simp [Verif.Reader.save, h.line], rfl, h.column, hp, Nat.le_refl _⟩⟩

theorem Inv.cleared {source : List Byte} {pos : Nat} {g : Regs} (h : Inv source pos g) :
    Inv source pos { g with builder := none, endPos := none, endLine := some g.line,
                            endLineStart := some g.lineStart } :=
  ⟨h.line, h.column, h.startLe, h.startLine, h.startColumn, fun _ hb => by cases hb⟩

theorem Inv.startOver {source : List Byte} {pos : Nat} {g : Regs} (h : Inv source pos g) :
    Inv source pos (startOver pos g) :=
  ⟨h.line, h.column, Nat.le_refl _, h.line, h.column, fun _ hb => by cases hb⟩

/-- What `enter` can do. -/
theorem enter_inv {source : List Byte} {pos : Nat} {g : Regs} (st : St) (h : Inv source pos g)
    (hp : g.startPos < pos) : Inv source pos (enter st pos g).2 ∧ (enter st pos g).2.startPos = g.startPos := by
  have hs := stateAction_same st g
  unfold enter
  rcases hr : stateAction st g with ⟨v, g'⟩
  rw [hr] at hs
  dsimp only at hs
  have hi := h.same hs
  have hp' : g'.startPos < pos := by rw [hs.startPos]; exact hp
  have hc : Inv source pos { g' with commentStart := 0, commentEnd := 0 } :=
    hi.same ⟨rfl, rfl, rfl, rfl, rfl, rfl, rfl, rfl, rfl⟩
  cases v with
  | clearPrevious => exact ⟨hi.cleared, hs.startPos⟩
  | no => exact ⟨hi, hs.startPos⟩
  | yes =>
    dsimp only
    cases builder st with
    | none => exact ⟨hi, hs.startPos⟩
    | some b =>
      cases b <;> first | exact ⟨hi, hs.startPos⟩ | exact ⟨hc, hs.startPos⟩ | exact ⟨hi.save hp' _, hs.startPos⟩
  | usePrevious =>
    dsimp only
    cases builder st with
    | none => exact ⟨hi, hs.startPos⟩
    | some b =>
      cases b <;> first | exact ⟨hi, hs.startPos⟩ | exact ⟨hc, hs.startPos⟩
  | accept =>
    dsimp only
    cases builder st with
    | none => exact ⟨hi, hs.startPos⟩
    | some b =>
      cases b <;> first | exact ⟨hi, hs.startPos⟩ | exact ⟨hc, hs.startPos⟩ | exact ⟨hi.save hp' _, hs.startPos⟩

/-- A newline keeps the invariant. -/
theorem newline_inv {source : List Byte} {pos : Nat} {g : Regs} {b : Byte} {rest : List Byte}
    (h : Inv source pos g) (hd : source.drop pos = b :: rest) : Inv source (pos + 1) (newline b pos g) := by
  have hsave : ∀ c, g.builder = some c → ∃ e ls, g.endPos = some e ∧ g.endLine = some (lineOf source e) ∧
      g.endLineStart = some ls ∧ (ls : Int) + columnOf source e = e ∧ g.startPos < e ∧ e ≤ pos + 1 := by
    intro c hc
    obtain ⟨e, ls, h1, h2, h3, h4, h5, h6⟩ := h.saved c hc
    exact ⟨e, ls, h1, h2, h3, h4, h5, Nat.le_succ_of_le h6⟩
  have hl := lineOf_succ hd
  have hc := columnOf_succ hd
  unfold newline
  by_cases hb : b = code '\n'
  · rw [if_pos hb] at hl hc ⊢
    exact ⟨by rw [hl, ← h.line], by dsimp only; rw [hc]; push_cast; omega, Nat.le_succ_of_le h.startLe, h.startLine, h.startColumn, hsave⟩
  · rw [if_neg hb] at hl hc ⊢
    refine ⟨by rw [hl, ← h.line], ?_, Nat.le_succ_of_le h.startLe, h.startLine, h.startColumn, hsave⟩
    rw [hc]; have := h.column; push_cast; omega

theorem newline_weak {source : List Byte} {pos : Nat} {g : Regs} (b : Byte) (h : Weak source pos g) :
    Weak source pos (newline b pos g) := by
  unfold newline; split
  · exact ⟨h.startLe, h.startLine, h.startColumn, h.saved⟩
  · exact h

theorem advance_inv {source : List Byte} (st : St) (rest : List Byte) (pos : Nat) (g : Regs)
    (h : Inv source pos g) (hd : source.drop pos = rest) (epos : Nat) (g' : Regs)
    (hr : advance st rest pos g = .at epos g') :
    ∃ q, q ≤ max pos source.length ∧ Weak source q g' ∧ (q < source.length ∨ Inv source q g') := by
  induction rest generalizing st pos g with
  | nil =>
    simp only [advance, Ended.at.injEq] at hr
    rw [← hr.2]
    exact ⟨pos, Nat.le_max_left _ _, h.weak, Or.inr h⟩
  | cons b rest ih =>
    have hlt : pos < source.length := by
      rcases Nat.lt_or_ge pos source.length with hl | hl
      · exact hl
      · rw [List.drop_eq_nil_of_le hl] at hd; cases hd
    simp only [advance] at hr
    split at hr
    · rw [Ended.at.injEq] at hr
      rw [← hr.2]
      exact ⟨pos, Nat.le_max_left _ _, h.weak, Or.inl hlt⟩
    · have hn := newline_inv h hd
      cases hx : next st b with
      | none =>
        rw [hx] at hr
        dsimp only at hr
        rw [Ended.at.injEq] at hr
        rw [← hr.2]
        exact ⟨pos, Nat.le_max_left _ _, newline_weak b h.weak, Or.inl hlt⟩
      | some st' =>
        rw [hx] at hr
        dsimp only at hr
        have hs : (newline b pos g).startPos = g.startPos := by unfold newline; split <;> rfl
        have he := enter_inv st' hn (by rw [hs]; exact Nat.lt_succ_of_le h.startLe)
        rcases hy : enter st' (pos + 1) (newline b pos g) with ⟨step, g1⟩
        rw [hy] at hr he
        have hd' := drop_succ_of_drop hd
        have hm : max (pos + 1) source.length ≤ max pos source.length := by omega
        cases step with
        | advance =>
          obtain ⟨q, h1, h2⟩ := ih st' (pos + 1) g1 he.1 hd' hr
          exact ⟨q, Nat.le_trans h1 hm, h2⟩
        | startOver =>
          obtain ⟨q, h1, h2⟩ := ih .start (pos + 1) _ he.1.startOver hd' hr
          exact ⟨q, Nat.le_trans h1 hm, h2⟩
        | stop =>
          dsimp only at hr
          rw [Ended.at.injEq] at hr
          rw [← hr.2]
          exact ⟨pos + 1, by omega, he.1.weak, Or.inr he.1⟩
        | noPrevious => cases hr

end Verif.Reader
