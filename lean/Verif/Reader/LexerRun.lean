/-
Lemmas about the lexer: what it does on a word that leads from the initial state to a state that accepts.
-/
import Verif.Reader.LexerPath

namespace Verif.Reader
open LexerSpec

/-- A state without an action, and neither white space nor a comment. -/
def quiet (st : St) : Bool :=
  (action st).isNone && builder st != some .whitespace && builder st != some .comment

/-- The word leads from one state to the other through quiet states. -/
inductive Run : St → List Byte → St → Prop where
  | nil {st : St} : Run st [] st
  | cons {st st' st'' : St} {b : Byte} {w : List Byte} (h : next st b = some st') (hq : quiet st' = true) :
      Run st' w st'' → Run st (b :: w) st''

theorem Run.append {s t u : St} {v w : List Byte} (h : Run s v t) (h' : Run t w u) : Run s (v ++ w) u := by
  induction h with
  | nil => exact h'
  | cons a b _ ih => exact .cons a b (ih h')

theorem Run.one {s t : St} {b : Byte} (h : next s b = some t) (hq : quiet t = true) : Run s [b] t := .cons h hq .nil

/-- What the words do not change. -/
structure Kept (g g' : Regs) : Prop where
  startPos : g'.startPos = g.startPos
  quoteStart : g'.quoteStart = g.quoteStart
  quoteEnd : g'.quoteEnd = g.quoteEnd
  commentStart : g'.commentStart = g.commentStart
  commentEnd : g'.commentEnd = g.commentEnd

theorem Kept.refl (g : Regs) : Kept g g := ⟨rfl, rfl, rfl, rfl, rfl⟩

theorem Kept.trans {a b c : Regs} (h : Kept a b) (h' : Kept b c) : Kept a c :=
  ⟨h'.1.trans h.1, h'.2.trans h.2, h'.3.trans h.3, h'.4.trans h.4, h'.5.trans h.5⟩

theorem newline_kept (b : Byte) (pos : Nat) (g : Regs) :
    Kept g (newline b pos g) ∧ (newline b pos g).builder = g.builder ∧ (newline b pos g).endPos = g.endPos := by
  unfold newline
  split <;> exact ⟨⟨rfl, rfl, rfl, rfl, rfl⟩, rfl, rfl⟩

theorem enter_quiet {st : St} (h : quiet st = true) (pos : Nat) (g : Regs) :
    enter st pos g = (.advance, match builder st with | none => g | some b => save pos b g) := by
  unfold quiet at h
  rw [Bool.and_eq_true, Bool.and_eq_true, Option.isNone_iff_eq_none, bne_iff_ne, bne_iff_ne] at h
  obtain ⟨⟨h1, h2⟩, h3⟩ := h
  unfold enter stateAction
  rw [h1]
  rcases hb : builder st with _ | b
  · rfl
  · rw [hb] at h2 h3
    cases b <;> first | rfl | exact absurd rfl h2 | exact absurd rfl h3

theorem transitions_nonempty {st st' : St} {b : Byte} (h : next st b = some st') : (transitions st).isEmpty = false := by
  unfold next at h
  cases ht : transitions st with
  | nil => rw [ht] at h; cases h
  | cons _ _ => rfl

/-- What `repeat` calls at its end. -/
def goOn (st' : St) (rest : List Byte) (pos : Nat) : Step × Regs → Ended
  | (.advance, g') => advance st' rest pos g'
  | (.startOver, g') => advance .start rest pos (startOver pos g')
  | (.stop, g') => .at (g'.endPos.getD pos) g'
  | (.noPrevious, _) => .noPrevious

theorem advance_cons {st st' : St} {b : Byte} (h : next st b = some st') (rest : List Byte) (pos : Nat) (g : Regs) :
    advance st (b :: rest) pos g =
      goOn st' rest (pos + 1) (enter st' (pos + 1) (newline b pos g)) := by
  rw [advance, transitions_nonempty h]
  simp only [h, Bool.false_eq_true, if_false]
  rcases enter st' (pos + 1) (newline b pos g) with ⟨s, g'⟩
  cases s <;> rfl

theorem advance_run {st st' : St} {w : List Byte} (h : Run st w st') (rest : List Byte) (pos : Nat) (g : Regs) :
    ∃ g', advance st (w ++ rest) pos g = advance st' rest (pos + w.length) g' ∧ Kept g g' ∧
      (w ≠ [] → ∀ b, builder st' = some b → g'.builder = some b ∧ g'.endPos = some (pos + w.length)) ∧
      (w = [] → g' = g) := by
  induction h generalizing pos g with
  | nil => exact ⟨g, rfl, Kept.refl g, fun h => absurd rfl h, fun _ => rfl⟩
  | @cons st st1 st2 b w h hq hr ih =>
    have e := advance_cons h (w ++ rest) pos g
    rw [enter_quiet hq] at e
    obtain ⟨k, n1, n2⟩ := newline_kept b pos g
    rcases hb : builder st1 with _ | c
    · rw [hb] at e
      obtain ⟨g', e', k', r', z'⟩ := ih (pos + 1) (newline b pos g)
      refine ⟨g', ?_, k.trans k', ?_, fun h => by cases h⟩
      · rw [List.cons_append, e]
        refine e'.trans ?_
        rw [List.length_cons]; congr 1; omega
      · intro _ c hc
        by_cases hw : w = []
        · subst hw; cases hr; rw [hb] at hc; cases hc
        · have := r' hw c hc
          rw [List.length_cons]
          rw [this.1, this.2]; exact ⟨rfl, by congr 1; omega⟩
    · rw [hb] at e
      obtain ⟨g', e', k', r', z'⟩ := ih (pos + 1) (save (pos + 1) c (newline b pos g))
      refine ⟨g', ?_, k.trans (Kept.trans (b := save (pos + 1) c (newline b pos g)) ⟨rfl, rfl, rfl, rfl, rfl⟩ k'), ?_, fun h => by cases h⟩
      · rw [List.cons_append, e]
        refine e'.trans ?_
        rw [List.length_cons]; congr 1; omega
      · intro _ d hd
        by_cases hw : w = []
        · subst hw; cases hr; rw [hb] at hd; cases hd
          rw [z' rfl]; exact ⟨rfl, rfl⟩
        · have := r' hw d hd
          rw [List.length_cons]
          rw [this.1, this.2]; exact ⟨rfl, by congr 1; omega⟩

/-- The machine stops before what remains. -/
def Stops (st : St) (rest : List Byte) : Prop := ∀ c, rest.head? = some c → next st c = none

theorem advance_stops {st : St} {rest : List Byte} (h : Stops st rest) (pos : Nat) (g : Regs) :
    ∃ g', advance st rest pos g = .at pos g' ∧ Kept g g' ∧ g'.builder = g.builder ∧ g'.endPos = g.endPos := by
  cases rest with
  | nil => exact ⟨g, rfl, Kept.refl g, rfl, rfl⟩
  | cons c r =>
    have hn := h c rfl
    obtain ⟨k, n1, n2⟩ := newline_kept c pos g
    rw [advance]
    split
    · exact ⟨g, rfl, Kept.refl g, rfl, rfl⟩
    · rw [hn]; exact ⟨_, rfl, k, n1, n2⟩

theorem reads_of_advance {pre w rest : List Byte} {lx : Lexer} {b : Builder} {q epos : Nat} {g : Regs}
    (hp : lx.pos = pre.length)
    (h : advance .start (w ++ rest) lx.pos lx.regs = .at epos g) (h1 : g.startPos = lx.pos)
    (h2 : g.builder = some b) (h3 : g.endPos = some (lx.pos + w.length)) (h4 : g.quoteStart = q) :
    Reads (pre ++ w ++ rest) lx w b q := by
  unfold Reads getToken
  rw [show (pre ++ w ++ rest).drop lx.pos = w ++ rest from by rw [hp, List.append_assoc, List.drop_left], h]
  dsimp only
  unfold finish
  rw [h2, h3]
  exact ⟨_, _, rfl, h1, rfl, rfl, h4⟩

/-- A word that leads to an accepting state, at which the machine stops, is a token. -/
theorem reads_run {pre w rest : List Byte} {lx : Lexer} {b : Builder} {st : St} (hp : lx.pos = pre.length)
    (hw : w ≠ []) (h : Run .start w st) (hb : builder st = some b) (hs : Stops st rest) :
    Reads (pre ++ w ++ rest) lx w b lx.quoteStart := by
  obtain ⟨g, e, k, r, -⟩ := advance_run h rest lx.pos lx.regs
  obtain ⟨g', e', k', r1, r2⟩ := advance_stops hs (lx.pos + w.length) g
  have := r hw b hb
  exact reads_of_advance hp (e.trans e') (k'.1.trans k.1) (r1.trans this.1) (r2.trans this.2)
    (k'.2.trans k.2)

end Verif.Reader
