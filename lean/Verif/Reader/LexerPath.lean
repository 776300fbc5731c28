/-
The second invariant of `advance`: which word has been read since the start of the token, what comes before it, and
that the saved token is the longest.
-/
import Verif.Reader.LexerTable

namespace Verif.Reader
open LexerSpec

theorem after_append (st : St) (w : List Byte) (v : List Byte) :
    after st (w ++ v) = (after st w).bind (fun st' => after st' v) := by
  induction w generalizing st with
  | nil => rfl
  | cons b w ih =>
    simp only [List.cons_append, after]
    cases next st b with
    | none => rfl
    | some st' => exact ih st'

theorem text_self (source : List Byte) (p : Nat) : text source p p = [] := by simp [text]

theorem text_succ {source : List Byte} {p q : Nat} {b : Byte} {rest : List Byte} (hp : p ≤ q)
    (h : source.drop q = b :: rest) : text source p (q + 1) = text source p q ++ [b] := by
  have h1 : source[q]? = some b := by
    have := congrArg (·[0]?) h
    simpa using this
  unfold text
  have : q + 1 - p = (q - p) + 1 := by omega
  rw [this, List.take_add_one, List.getElem?_drop, show p + (q - p) = q from by omega, h1]
  rfl

theorem text_append {source : List Byte} {p q r : Nat} (h1 : p ≤ q) (h2 : q ≤ r) :
    text source p q ++ text source q r = text source p r := by
  unfold text
  have : r - p = (q - p) + (r - q) := by omega
  rw [this, List.take_add, List.drop_drop, show p + (q - p) = q from by omega]

theorem text_take {source : List Byte} {p q r : Nat} (h1 : p ≤ q) (h2 : q ≤ r) :
    ∃ v, text source p r = text source p q ++ v := ⟨_, (text_append h1 h2).symm⟩

theorem blank_append {l m : List Byte} (h : Blank l) (h' : Blank m) : Blank (l ++ m) := by
  induction h with
  | nil => exact h'
  | space hb _ ih => exact .space hb ih
  | @line a l b hm hb _ ih =>
    have := Blank.line hm hb ih
    simpa [List.append_assoc] using this
  | @delimited a l _ ih =>
    have := Blank.delimited (m := a) ih
    simpa [List.append_assoc] using this

/-- The words that lead to the states of blanks. -/
def Shape : St → List Byte → Prop
  | .start, w => w = []
  | .slash, w => w = bytes "/"
  | .singleLineComment, w => ∃ m, w = bytes "//" ++ m ∧ ∀ x ∈ m, x ≠ code '\n' ∧ x ≠ code '\r'
  | .delimitedCommentStar, w => ∃ m, w = bytes "/*" ++ m ++ bytes "*"
  | .delimitedCommentStart, w | .delimitedCommentSlash, w | .delimitedCommentSlashSlash, w
  | .delimitedCommentBody, w | .delimitedCommentEnd, w => ∃ m, w = bytes "/*" ++ m
  | _, _ => True

/-- The states at which the lexer starts over. -/
def restarts : St → Bool
  | .whitespace | .singleLineCommentCr | .singleLineCommentEnd | .delimitedCommentEnd => true
  | _ => false

theorem restarts_builder (st : St) :
    (builder st = some .whitespace ∨ builder st = some .comment) ↔ restarts st = true := by
  cases st <;> decide

/-- What a transition tells about the state and the byte, for the states of blanks. -/
def source_ok (st : St) (t : On × St) : Bool :=
  match t.2 with
  | .whitespace => decide ((st = .start ∨ st = .whitespace) ∧ t.1 = .str " \t\x0c\n\r")
  | .slash => decide (st = .start ∧ t.1 = .char '/')
  | .singleLineComment =>
    decide ((st = .slash ∧ t.1 = .char '/') ∨ (st = .singleLineComment ∧ t.1 = .otherwise))
  | .singleLineCommentCr => decide (st = .singleLineComment ∧ t.1 = .str "\r")
  | .singleLineCommentEnd =>
    decide ((st = .singleLineComment ∧ t.1 = .str "\n") ∨ (st = .singleLineCommentCr ∧ t.1 = .char '\n'))
  | .delimitedCommentStart =>
    decide ((st = .slash ∧ t.1 = .char '*') ∨ (st = .delimitedCommentSlash ∧ t.1 = .char '*'))
  | .delimitedCommentSlash =>
    decide (st = .delimitedCommentStart ∨ st = .delimitedCommentBody)
  | .delimitedCommentSlashSlash =>
    decide (st = .delimitedCommentSlash ∨ st = .delimitedCommentSlashSlash)
  | .delimitedCommentStar =>
    decide (inComment st = true ∧ t.1 = .char '*')
  | .delimitedCommentBody => inComment st
  | .delimitedCommentEnd => decide (st = .delimitedCommentStar ∧ t.1 = .char '/')
  | .start => false
  | _ => true

theorem source_ok_all (st : St) : (transitions st).all (source_ok st) = true := by
  cases st <;> decide +kernel

theorem char_matches {c : Char} {b : Byte} (h : (On.char c).matches b = true) : code c = b := by
  simp only [On.matches, decide_eq_true_eq] at h
  unfold code; apply Fin.ext; simp only [Fin.ofNat]; rw [h]; exact Nat.mod_eq_of_lt b.isLt

theorem ws_matches (b : Byte) : (On.str " \t\x0c\n\r").matches b = true → b ∈ bytes " \t\x0c\n\r" := by
  revert b; decide +kernel

theorem cr_matches (b : Byte) : (On.str "\r").matches b = true → b = code '\r' := by
  revert b; decide +kernel

theorem lf_matches (b : Byte) : (On.str "\n").matches b = true → b = code '\n' := by
  revert b; decide +kernel

theorem slc_next (b : Byte) : next .singleLineComment b = some .singleLineComment →
    b ≠ code '\n' ∧ b ≠ code '\r' := by
  revert b; decide +kernel

theorem comment_shape {st : St} {w : List Byte} (hc : inComment st = true) (h : Shape st w) :
    ∃ m, w = bytes "/*" ++ m := by
  cases st <;> simp only [inComment] at hc <;> try contradiction
  all_goals first | exact h | (obtain ⟨m, rfl⟩ := h; exact ⟨m ++ bytes "*", by simp [List.append_assoc]⟩)

theorem comment_shape' {st : St} {m : List Byte} (hc : inComment st = true)
    (h : ∃ m', m = bytes "/*" ++ m') (hs : st ≠ .delimitedCommentStar) : Shape st m := by
  cases st <;> simp only [inComment] at hc <;> try contradiction
  all_goals first | exact h | exact absurd rfl hs

/-- One more byte: if the lexer goes on the word has the shape of the new state, and if it starts over the
    word is blank. -/
theorem shape_step {st st' : St} {w : List Byte} {b : Byte} (h : Shape st w) (hst : st ≠ .whitespace)
    (hst2 : st ≠ .singleLineCommentCr) (hn : next st b = some st') :
    (Shape st' (w ++ [b])) ∧ (restarts st' = true → Blank (w ++ [b])) := by
  obtain ⟨on, h1, h2⟩ := lookup_mem hn
  have ho := List.all_eq_true.1 (source_ok_all st) _ h1
  have hcomm : inComment st = true → inComment st' = true → st' ≠ .delimitedCommentStar →
      Shape st' (w ++ [b]) := by
    intro hc hc' hs
    obtain ⟨m, rfl⟩ := comment_shape hc h
    exact comment_shape' hc' ⟨m ++ [b], by simp [List.append_assoc]⟩ hs
  cases st' <;> simp only [source_ok, decide_eq_true_eq] at ho <;>
    try (refine ⟨trivial, fun hh => ?_⟩; simp [restarts] at hh; done)
  case start => cases ho
  case whitespace =>
    obtain ⟨rfl | rfl, rfl⟩ := ho
    · cases h; exact ⟨trivial, fun _ => .space (ws_matches b h2) .nil⟩
    · exact absurd rfl hst
  case slash =>
    obtain ⟨rfl, rfl⟩ := ho
    cases h; rw [← char_matches h2]; exact ⟨rfl, fun hh => by cases hh⟩
  case singleLineComment =>
    refine ⟨?_, fun hh => by cases hh⟩
    rcases ho with ⟨rfl, rfl⟩ | ⟨rfl, rfl⟩
    · cases h; rw [← char_matches h2]; exact ⟨[], rfl, fun _ hx => by cases hx⟩
    · obtain ⟨m, rfl, hm⟩ := h
      refine ⟨m ++ [b], by simp [List.append_assoc], fun x hx => ?_⟩
      rcases List.mem_append.1 hx with hx | hx
      · exact hm x hx
      · rw [List.mem_singleton.1 hx]; exact slc_next b hn
  case singleLineCommentCr =>
    obtain ⟨rfl, rfl⟩ := ho
    obtain ⟨m, rfl, hm⟩ := h
    exact ⟨trivial, fun _ => .line hm (Or.inr (cr_matches b h2)) .nil⟩
  case singleLineCommentEnd =>
    rcases ho with ⟨rfl, rfl⟩ | ⟨rfl, rfl⟩
    · obtain ⟨m, rfl, hm⟩ := h
      exact ⟨trivial, fun _ => .line hm (Or.inl (lf_matches b h2)) .nil⟩
    · exact absurd rfl hst2
  case delimitedCommentStart =>
    refine ⟨?_, fun hh => by cases hh⟩
    rcases ho with ⟨rfl, rfl⟩ | ⟨rfl, rfl⟩
    · cases h; rw [← char_matches h2]; exact ⟨[], rfl⟩
    · exact hcomm rfl rfl (by decide)
  case delimitedCommentSlash =>
    refine ⟨?_, fun hh => by cases hh⟩
    rcases ho with rfl | rfl <;> exact hcomm rfl rfl (by decide)
  case delimitedCommentSlashSlash =>
    refine ⟨?_, fun hh => by cases hh⟩
    rcases ho with rfl | rfl <;> exact hcomm rfl rfl (by decide)
  case delimitedCommentStar =>
    refine ⟨?_, fun hh => by cases hh⟩
    obtain ⟨hc, rfl⟩ := ho
    obtain ⟨m, rfl⟩ := comment_shape hc h
    rw [← char_matches h2]; exact ⟨m, rfl⟩
  case delimitedCommentBody => exact ⟨hcomm ho rfl (by decide), fun hh => by cases hh⟩
  case delimitedCommentEnd =>
    obtain ⟨rfl, rfl⟩ := ho
    obtain ⟨m, rfl⟩ := h
    rw [← char_matches h2]
    refine ⟨⟨m ++ bytes "*/", by simp [List.append_assoc, bytes]⟩, fun _ => ?_⟩
    have := Blank.delimited (m := m) .nil
    simpa [List.append_assoc, bytes] using this

/-- The kinds of strings. -/
def stringKind : Builder → Bool
  | .string | .rawString => true
  | _ => false

/-- The second invariant. -/
structure Read (source : List Byte) (p0 : Nat) (st : St) (pos : Nat) (g : Regs) : Prop where
  le : p0 ≤ g.startPos
  startLe : g.startPos ≤ pos
  blank : Blank (text source p0 g.startPos)
  state : after .start (text source g.startPos pos) = some st
  shape : Shape st (text source g.startPos pos)
  moving : st ≠ .whitespace ∧ st ≠ .singleLineCommentCr
  quiet : inComment st = true ∨ st = .start ∨ st = .sharp ∨ st = .sharpR → g.builder = none
  strings : inString st = true → ∀ b, g.builder = some b → stringKind b = true
  kept : ∀ b, g.builder = some b → ∃ e, g.endPos = some e ∧ g.startPos < e ∧ e ≤ pos ∧
    Accepts (text source g.startPos e) b ∧
    (stringKind b = true ∨ ∀ k, e < k → k ≤ pos → ∀ b', ¬ Accepts (text source g.startPos k) b')

theorem string_builder (st : St) (h : inString st = true) (b : Builder) (hb : builder st = some b) :
    stringKind b = true := by
  have : (builder st).all stringKind = true := by revert h; cases st <;> decide
  rw [hb] at this; exact this

theorem cond_builder (st : St) (h : (action st).isSome = true) (hb : (builder st).isSome = true) :
    inString st = true ∨ st = .delimitedCommentEnd := by
  revert h hb; cases st <;> decide

theorem clear_state (st : St) (g : Regs) (h : (stateAction st g).1 = .clearPrevious) :
    st = .delimitedCommentStart := by
  unfold stateAction at h
  cases ha : action st with
  | none => rw [ha] at h; dsimp only at h; split at h <;> cases h
  | some a =>
    have : a = .commentStart := by
      rw [ha] at h; dsimp only at h
      cases a <;> simp only [act] at h <;> repeat' split at h
      all_goals first | rfl | (simp_all; done) | (cases h; done)
    subst this
    revert ha; cases st <;> decide

theorem accept_state (st : St) (g : Regs) (h : (stateAction st g).1 = .accept) : inString st = true := by
  unfold stateAction at h
  cases ha : action st with
  | none => rw [ha] at h; dsimp only at h; split at h <;> cases h
  | some a =>
    have : a = .quoteEnd := by
      rw [ha] at h; dsimp only at h
      cases a <;> simp only [act] at h <;> repeat' split at h
      all_goals first | rfl | (simp_all; done) | (cases h; done)
    subst this
    revert ha; cases st <;> decide

theorem use_state (st : St) (g : Regs) (h : (stateAction st g).1 = .usePrevious) : builder st = none := by
  unfold stateAction at h
  cases ha : action st with
  | none => rw [ha] at h; dsimp only at h; split at h <;> cases h
  | some a =>
    have : a = .resetQuoteEnd := by
      rw [ha] at h; dsimp only at h
      cases a <;> simp only [act] at h <;> repeat' split at h
      all_goals first | rfl | (simp_all; done) | (cases h; done)
    subst this
    revert ha; cases st <;> decide

theorem no_state (st : St) (g : Regs) (h : (stateAction st g).1 = .no) :
    builder st = none ∨ (action st).isSome = true := by
  cases ha : action st with
  | none =>
    left
    unfold stateAction at h
    rw [ha] at h
    cases hb : builder st with
    | none => rfl
    | some b => rw [hb] at h; simp at h
  | some a => exact Or.inr rfl

/-- What `repeat` does at a state. -/
inductive Enters (st : St) (pos : Nat) (g : Regs) : Step × Regs → Prop where
  | restart {g' : Regs} (h : restarts st = true) (hs : g'.startPos = g.startPos) : Enters st pos g (.startOver, g')
  | clear {g' : Regs} (h : st = .delimitedCommentStart) (hs : g'.startPos = g.startPos) (hb : g'.builder = none) :
      Enters st pos g (.advance, g')
  | skip {g' : Regs} (h : builder st = none ∨ (action st).isSome = true) (hst : st ≠ .delimitedCommentStart)
      (hs : g'.startPos = g.startPos) (hb : g'.builder = g.builder) (he : g'.endPos = g.endPos) :
      Enters st pos g (.advance, g')
  | save {g' : Regs} (b : Builder) (h : builder st = some b) (hr : restarts st = false)
      (hs : g'.startPos = g.startPos) (hb : g'.builder = some b) (he : g'.endPos = some pos) :
      Enters st pos g (.advance, g')
  | stop {g' : Regs} (b : Builder) (h : builder st = some b) (hst : inString st = true)
      (hs : g'.startPos = g.startPos) (hb : g'.builder = some b) (he : g'.endPos = some pos) :
      Enters st pos g (.stop, g')

theorem enter_enters (st : St) (pos : Nat) (g : Regs) : Enters st pos g (enter st pos g) := by
  have hs := stateAction_same st g
  have hclear := clear_state st g
  have haccept := accept_state st g
  have huse := use_state st g
  have hno := no_state st g
  have hrb := restarts_builder st
  unfold enter
  rcases hr : stateAction st g with ⟨v, g'⟩
  rw [hr] at hs hclear haccept huse hno
  dsimp only at hs hclear haccept huse hno
  have hdc : builder .delimitedCommentStart = none := rfl
  cases v with
  | clearPrevious => exact .clear (hclear rfl) hs.startPos rfl
  | no =>
    refine .skip (hno rfl) ?_ hs.startPos hs.builder hs.endPos
    rintro rfl
    have h1 : (stateAction .delimitedCommentStart g).1 = .clearPrevious := rfl
    rw [hr] at h1; cases h1
  | usePrevious =>
    dsimp only
    rw [huse rfl]
    refine .skip (Or.inl (huse rfl)) ?_ hs.startPos hs.builder hs.endPos
    rintro rfl
    have h1 : (stateAction .delimitedCommentStart g).1 = .clearPrevious := rfl
    rw [hr] at h1; cases h1
  | yes =>
    dsimp only
    cases hb : builder st with
    | none =>
      refine .skip (Or.inl hb) ?_ hs.startPos hs.builder hs.endPos
      rintro rfl
      have h1 : (stateAction .delimitedCommentStart g).1 = .clearPrevious := rfl
      rw [hr] at h1; cases h1
    | some b =>
      have hrf : b ≠ .whitespace → b ≠ .comment → restarts st = false := by
        intro h1 h2
        rcases hx : restarts st with _ | _
        · rfl
        · rw [← hrb, hb] at hx
          rcases hx with hx | hx <;> cases hx <;> contradiction
      have hrt : b = .whitespace ∨ b = .comment → restarts st = true := by
        rintro (rfl | rfl)
        · exact hrb.1 (Or.inl hb)
        · exact hrb.1 (Or.inr hb)
      cases b
      case whitespace => exact .restart (hrt (Or.inl rfl)) hs.startPos
      case comment => exact .restart (hrt (Or.inr rfl)) hs.startPos
      all_goals exact .save _ hb (hrf (by simp) (by simp)) hs.startPos rfl rfl
  | accept =>
    have hst := haccept rfl
    dsimp only
    cases hb : builder st with
    | none =>
      refine .skip (Or.inl hb) ?_ hs.startPos hs.builder hs.endPos
      rintro rfl
      cases hst
    | some b =>
      have hk := string_builder st hst b hb
      cases b <;> first | (cases hk; done) | exact .stop _ hb hst hs.startPos rfl rfl

theorem newline_fields (b : Byte) (pos : Nat) (g : Regs) : (newline b pos g).startPos = g.startPos ∧
    (newline b pos g).builder = g.builder ∧ (newline b pos g).endPos = g.endPos := by
  unfold newline; split <;> exact ⟨rfl, rfl, rfl⟩

/-- How `advance` ends, for the longest token. -/
structure Final (source : List Byte) (p0 : Nat) (g : Regs) : Prop where
  le : p0 ≤ g.startPos
  blank : Blank (text source p0 g.startPos)
  kept : ∀ b, g.builder = some b → ∃ e, g.endPos = some e ∧ g.startPos < e ∧ e ≤ source.length ∧
    Accepts (text source g.startPos e) b ∧
    (stringKind b = true ∨ ∀ k, e < k → k ≤ source.length → ∀ b', ¬ Accepts (text source g.startPos k) b')

/-- At a place where the table goes no further. -/
theorem Read.final {source : List Byte} {p0 pos : Nat} {st : St} {g : Regs} (h : Read source p0 st pos g)
    (hle : pos ≤ source.length)
    (hend : ∀ b rest, source.drop pos = b :: rest → next st b = none) : Final source p0 g := by
  refine ⟨h.le, h.blank, fun b hb => ?_⟩
  obtain ⟨e, h1, h2, h3, h4, h5⟩ := h.kept b hb
  refine ⟨e, h1, h2, by omega, h4, ?_⟩
  rcases h5 with h5 | h5
  · exact Or.inl h5
  · refine Or.inr fun k hk hk' b' => ?_
    by_cases hkp : k ≤ pos
    · exact h5 k hk hkp b'
    · rintro ⟨st', ha, -⟩
      have hpk : pos ≤ k := by omega
      rw [← text_append h.startLe hpk, after_append, h.state] at ha
      rcases hd : source.drop pos with _ | ⟨c, rest⟩
      · have := congrArg List.length hd
        simp only [List.length_drop, List.length_nil] at this
        omega
      · have hn := hend c rest hd
        have : text source pos k = c :: (rest.take (k - pos - 1)) := by
          unfold text
          rw [hd, show k - pos = (k - pos - 1) + 1 from by omega, List.take_succ_cons]
          rfl
        rw [this] at ha
        simp only [Option.bind_some, after, hn, Option.bind_none] at ha
        cases ha

theorem advance_final {source : List Byte} {p0 : Nat} (st : St) (rest : List Byte) (pos : Nat) (g : Regs)
    (h : Read source p0 st pos g) (hle : pos ≤ source.length) (hd : source.drop pos = rest) (epos : Nat)
    (g' : Regs) (hr : advance st rest pos g = .at epos g') : Final source p0 g' := by
  induction rest generalizing st pos g with
  | nil =>
    simp only [advance, Ended.at.injEq] at hr
    rw [← hr.2]
    exact h.final hle (fun b rest hd' => by rw [hd] at hd'; cases hd')
  | cons b rest ih =>
    have hlt : pos < source.length := by
      rcases Nat.lt_or_ge pos source.length with hl | hl
      · exact hl
      · rw [List.drop_eq_nil_of_le hl] at hd; cases hd
    simp only [advance] at hr
    split at hr
    · next hem =>
      rw [Ended.at.injEq] at hr
      rw [← hr.2]
      refine h.final hle (fun c rest' _ => ?_)
      unfold next
      rw [List.isEmpty_iff.1 hem]; rfl
    · obtain ⟨n1, n2, n3⟩ := newline_fields b pos g
      cases hx : next st b with
      | none =>
        rw [hx] at hr
        dsimp only at hr
        rw [Ended.at.injEq] at hr
        rw [← hr.2]
        have := h.final hle (fun c rest' hd' => by rw [hd] at hd'; cases hd'; exact hx)
        exact ⟨by rw [n1]; exact this.le, by rw [n1]; exact this.blank,
          fun c hc => by rw [n2] at hc; rw [n1, n3]; exact this.kept c hc⟩
      | some st' =>
        rw [hx] at hr
        dsimp only at hr
        have htx := text_succ h.startLe hd
        obtain ⟨hsh, hbl⟩ := shape_step h.shape h.moving.1 h.moving.2 hx
        have hst : after .start (text source g.startPos (pos + 1)) = some st' := by
          rw [htx, after_append, h.state]
          simp [after, hx]
        rw [← htx] at hsh hbl
        have he := enter_enters st' (pos + 1) (newline b pos g)
        rcases hy : enter st' (pos + 1) (newline b pos g) with ⟨step, g1⟩
        rw [hy] at hr he
        have hd' := drop_succ_of_drop hd
        have hnext : ∀ {c : Builder}, builder st' = some c → Accepts (text source g.startPos (pos + 1)) c :=
          fun hc => ⟨st', hst, hc⟩
        have htg := next_target hx
        have hmoving : (restarts st' = true → st' = .delimitedCommentEnd) →
            st' ≠ .whitespace ∧ st' ≠ .singleLineCommentCr := by
          intro hh
          exact ⟨by rintro rfl; exact absurd (hh rfl) (by decide), by rintro rfl; exact absurd (hh rfl) (by decide)⟩
        have hcomment : inComment st' = true → st' ≠ .delimitedCommentStart → inComment st = true := by
          intro h1 h2
          exact targets_comment st (List.any_eq_true.2 ⟨st', htg, by simp [h1, h2]⟩)
        have hstart : st' ≠ .start := by
          rintro rfl
          have := targets_start st
          rw [List.contains_iff_mem.2 htg] at this; cases this
        have hsharp : st' = .sharp → g.builder = none := by
          rintro rfl
          exact h.quiet (Or.inr (Or.inl (targets_sharp st (List.contains_iff_mem.2 htg))))
        have hsharpR : st' = .sharpR → g.builder = none := by
          rintro rfl
          exact h.quiet (Or.inr (Or.inr (Or.inl (targets_sharpR st (List.contains_iff_mem.2 htg)))))
        have hstring : inString st' = true → ∀ c, g.builder = some c → stringKind c = true := by
          intro h1 c hc
          rcases targets_string st (List.any_eq_true.2 ⟨st', htg, h1⟩) with h2 | h2
          · exact h.strings h2 c hc
          · rw [h.quiet (Or.inr h2)] at hc; cases hc
        cases he with
        | restart hre hs =>
          rw [n1] at hs
          refine ih .start (pos + 1) _ ?_ hlt hd' hr
          refine ⟨by have := h.le; have := h.startLe; simp only [startOver]; omega, Nat.le_refl _, ?_, ?_, ?_,
            ⟨by decide, by decide⟩, fun _ => rfl, fun hh => (by cases hh), fun c hc => (by cases hc)⟩
          · simp only [startOver]
            rw [← text_append h.le (Nat.le_succ_of_le h.startLe)]
            exact blank_append h.blank (hbl hre)
          · simp only [startOver, text_self]; rfl
          · simp only [startOver, text_self]; rfl
        | clear hdc hs hb =>
          rw [n1] at hs
          refine ih st' (pos + 1) g1 ?_ hlt hd' hr
          subst hdc
          refine ⟨by rw [hs]; exact h.le, by rw [hs]; exact Nat.le_succ_of_le h.startLe, by rw [hs]; exact h.blank,
            by rw [hs]; exact hst, by rw [hs]; exact hsh, ⟨by decide, by decide⟩, fun _ => hb,
            fun hh => (by cases hh), fun c hc => (by rw [hb] at hc; cases hc)⟩
        | skip hsk hndc hs hb he =>
          rw [n1] at hs
          rw [n2] at hb
          rw [n3] at he
          refine ih st' (pos + 1) g1 ?_ hlt hd' hr
          have hres : restarts st' = true → st' = .delimitedCommentEnd := by
            intro hh
            rcases hsk with hsk | hsk
            · rw [← restarts_builder, hsk] at hh; rcases hh with hh | hh <;> cases hh
            · revert hh hsk; cases st' <;> decide
          have hnone : inComment st' = true ∨ st' = .start ∨ st' = .sharp ∨ st' = .sharpR → g1.builder = none := by
            rw [hb]
            rintro (hh | hh | hh | hh)
            · exact h.quiet (Or.inl (hcomment hh hndc))
            · exact absurd hh hstart
            · exact hsharp hh
            · exact hsharpR hh
          refine ⟨by rw [hs]; exact h.le, by rw [hs]; exact Nat.le_succ_of_le h.startLe, by rw [hs]; exact h.blank,
            by rw [hs]; exact hst, by rw [hs]; exact hsh, hmoving hres, hnone,
            fun hh => (by rw [hb]; exact hstring hh), fun c hc => ?_⟩
          have hc' := hc
          rw [hb] at hc'
          obtain ⟨e, e1, e2, e3, e4, e5⟩ := h.kept c hc'
          refine ⟨e, by rw [he]; exact e1, by rw [hs]; exact e2, by omega, by rw [hs]; exact e4, ?_⟩
          rcases e5 with e5 | e5
          · exact Or.inl e5
          · by_cases hbn : builder st' = none
            · refine Or.inr fun k hk hk' b' => ?_
              rw [hs]
              by_cases hkp : k ≤ pos
              · exact e5 k hk hkp b'
              · have : k = pos + 1 := by omega
                subst this
                rintro ⟨st2, ha, hb2⟩
                rw [hst] at ha
                cases ha
                rw [hbn] at hb2; cases hb2
            · have hac : (action st').isSome = true := by
                rcases hsk with hsk | hsk
                · exact absurd hsk hbn
                · exact hsk
              rcases cond_builder st' hac (by cases hq : builder st' <;> simp_all) with hq | hq
              · exact Or.inl (hstring hq c hc')
              · rw [hnone (Or.inl (by rw [hq]; rfl))] at hc; cases hc
        | save c hbc hre hs hb he =>
          rw [n1] at hs
          refine ih st' (pos + 1) g1 ?_ hlt hd' hr
          have hcom : inComment st' = false := by
            rcases hq : inComment st' with _ | _
            · rfl
            · have : (builder st').isSome = true → inComment st' = true → restarts st' = true := by
                cases st' <;> decide
              rw [this (by rw [hbc]; rfl) hq] at hre; cases hre
          have hnb : st' ≠ .sharp ∧ st' ≠ .sharpR :=
            ⟨(by rintro rfl; cases hbc), (by rintro rfl; cases hbc)⟩
          refine ⟨by rw [hs]; exact h.le, by rw [hs]; exact Nat.le_succ_of_le h.startLe, by rw [hs]; exact h.blank,
            by rw [hs]; exact hst, by rw [hs]; exact hsh, hmoving (fun hh => (by rw [hre] at hh; cases hh)), ?_, ?_, ?_⟩
          · rintro (hh | hh | hh | hh)
            · rw [hcom] at hh; cases hh
            · exact absurd hh hstart
            · exact absurd hh hnb.1
            · exact absurd hh hnb.2
          · intro hh c' hc'
            rw [hb] at hc'; cases hc'
            exact string_builder st' hh c hbc
          · intro c' hc'
            rw [hb] at hc'; cases hc'
            refine ⟨pos + 1, he, by rw [hs]; have := h.startLe; omega, Nat.le_refl _, by rw [hs]; exact hnext hbc,
              Or.inr fun k hk hk' => by omega⟩
        | stop c hbc hstr hs hb he =>
          rw [n1] at hs
          dsimp only at hr
          rw [Ended.at.injEq] at hr
          rw [← hr.2]
          refine ⟨by rw [hs]; exact h.le, by rw [hs]; exact h.blank, fun c' hc' => ?_⟩
          rw [hb] at hc'; cases hc'
          exact ⟨pos + 1, he, by rw [hs]; have := h.startLe; omega, hlt, by rw [hs]; exact hnext hbc,
            Or.inl (string_builder st' hstr c hbc)⟩

/-- The start stays in the source. -/
theorem advance_start_le {source : List Byte} (st : St) (rest : List Byte) (pos : Nat) (g : Regs)
    (hd : source.drop pos = rest) (hle : pos ≤ source.length) (hs : g.startPos ≤ source.length) {epos : Nat}
    {g' : Regs} (hr : advance st rest pos g = .at epos g') : g'.startPos ≤ source.length := by
  induction rest generalizing st pos g with
  | nil =>
    simp only [advance, Ended.at.injEq] at hr
    rw [← hr.2]; exact hs
  | cons b rest ih =>
    have hlt : pos < source.length := by
      rcases Nat.lt_or_ge pos source.length with hl | hl
      · exact hl
      · rw [List.drop_eq_nil_of_le hl] at hd; cases hd
    have hd' := drop_succ_of_drop hd
    have n1 := (newline_fields b pos g).1
    simp only [advance] at hr
    split at hr
    · rw [Ended.at.injEq] at hr; rw [← hr.2]; exact hs
    · cases hx : next st b with
      | none =>
        rw [hx] at hr
        dsimp only at hr
        rw [Ended.at.injEq] at hr
        rw [← hr.2, n1]; exact hs
      | some st' =>
        rw [hx] at hr
        dsimp only at hr
        have he := enter_enters st' (pos + 1) (newline b pos g)
        rcases hy : enter st' (pos + 1) (newline b pos g) with ⟨step, g1⟩
        rw [hy] at hr he
        cases he with
        | restart _ hs' => exact ih .start (pos + 1) (startOver (pos + 1) g1) hd' hlt hlt hr
        | clear _ hs' _ => exact ih st' (pos + 1) g1 hd' hlt (by rw [hs', n1]; exact hs) hr
        | skip _ _ hs' _ _ => exact ih st' (pos + 1) g1 hd' hlt (by rw [hs', n1]; exact hs) hr
        | save _ _ _ hs' _ _ => exact ih st' (pos + 1) g1 hd' hlt (by rw [hs', n1]; exact hs) hr
        | stop _ _ _ hs' _ _ =>
          dsimp only at hr
          rw [Ended.at.injEq] at hr
          rw [← hr.2, hs', n1]; exact hs

/-- The error about a missing accepting state is never signalled. -/
theorem advance_noPrevious (st : St) (rest : List Byte) (pos : Nat) (g : Regs) :
    advance st rest pos g ≠ .noPrevious := by
  induction rest generalizing st pos g with
  | nil => simp [advance]
  | cons b rest ih =>
    simp only [advance]
    split
    · simp
    · cases hx : next st b with
      | none => simp
      | some st' =>
        dsimp only
        have he := enter_enters st' (pos + 1) (newline b pos g)
        rcases hy : enter st' (pos + 1) (newline b pos g) with ⟨step, g1⟩
        rw [hy] at he
        cases he with
        | restart => exact ih .start (pos + 1) (startOver (pos + 1) g1)
        | clear => exact ih st' (pos + 1) g1
        | skip => exact ih st' (pos + 1) g1
        | save => exact ih st' (pos + 1) g1
        | stop => simp

end Verif.Reader
