/-
Model of the lexer: `get-token` of /repo/sources/dfmc/reader/lexer.dylan with the table of states in
`Table.lean`, and the functions that make the values of integers, characters, strings and floats.

A source is the list of its bytes.  Simplifications: positions are natural numbers of any size; the classes
of names (`syntax-for-name`), modules and the token before a `name:constraint` are left out; floating point
arithmetic is exact.
-/
import Verif.Reader.Table

namespace Verif.Reader

/-- Codes of characters: `$max-lexer-code` is 255 (`lexer.dylan:15`). -/
abbrev Byte := Fin 256

/-- The code of a character. -/
def code (c : Char) : Byte := Fin.ofNat 256 c.toNat

/-- The bytes of a string of characters below 256. -/
def bytes (s : String) : List Byte := s.toList.map code

/-! ### The transition tables -/

/-- `add-transition` for a string (`lexer.dylan:110-145`): the codes that are added.  `last` and `range` are
    its variables; a hyphen at the end adds nothing, and a range with its ends in the wrong order only its
    first end. -/
def expand : Option Nat → Bool → List Char → List Nat
  | _, _, [] => []
  | some l, true, c :: cs => List.range' (l + 1) (c.toNat - l) ++ expand none false cs
  | none, true, c :: cs => '-'.toNat :: c.toNat :: expand (some c.toNat) false cs
  | last, false, c :: cs =>
    if c = '-' then expand last true cs else c.toNat :: expand (some c.toNat) false cs

/-- `$full-character-set` (`lexer.dylan:17-25`). -/
def fullCharacterSet (b : Byte) : Bool :=
  (expand none false "\t\n\x0c\r -~".toList).contains b.val || decide (128 ≤ b.val)

/-- `add-transition` (`lexer.dylan:95-151`): the bytes on which the transition is made. -/
def On.matches : On → Byte → Bool
  | .char c, b => decide (c.toNat = b.val)
  | .str s, b => (expand none false s.toList).contains b.val
  | .extensions, b => decide (128 ≤ b.val)
  | .otherwise, b => fullCharacterSet b

/-- `make-transition-table` (`lexer.dylan:153-174`) and the lookup in it: `#"otherwise"` comes last, and does
    not replace an entry. -/
def lookup : List (On × St) → Byte → Option St
  | [], _ => none
  | (on, st) :: l, b => if on.matches b then some st else lookup l b

/-- The entry of a state's table. -/
def next (st : St) (b : Byte) : Option St := lookup (transitions st) b

/-! ### `get-token` -/

/-- A lexer (`lexer.dylan:258-299`). -/
structure Lexer where
  pos : Nat
  line : Nat
  lineStart : Nat
  quoteStart : Nat
  quoteEnd : Nat
  commentStart : Nat
  commentEnd : Nat
  deriving DecidableEq, Repr

/-- A new lexer. -/
def Lexer.new : Lexer := ⟨0, 1, 0, 0, 0, 0, 0⟩

/-- The variables of `get-token` (`lexer.dylan:365-380`) and the counts of the lexer that the actions
    change. -/
structure Regs where
  startPos : Nat
  startLine : Nat
  startLineStart : Nat
  line : Nat
  lineStart : Nat
  builder : Option Builder
  endPos : Option Nat
  endLine : Option Nat
  endLineStart : Option Nat
  quoteStart : Nat
  quoteEnd : Nat
  commentStart : Nat
  commentEnd : Nat
  deriving DecidableEq, Repr

/-- What `do-state-action` returns (`lexer.dylan:76-86`). -/
inductive Verdict where
  | no | yes | usePrevious | clearPrevious | accept
  deriving DecidableEq, Repr

/-- The actions (`lexer.dylan:1062-1110`). -/
def act : Action → Regs → Verdict × Regs
  | .commentStart, g => (.clearPrevious, { g with commentStart := g.commentStart + 1 })
  | .commentEnd, g =>
    (if g.commentEnd + 1 = g.commentStart then .yes else .no, { g with commentEnd := g.commentEnd + 1 })
  | .quoteStart, g =>
    (if g.quoteStart + 1 = 2 then .yes else .no, { g with quoteStart := g.quoteStart + 1 })
  | .quoteEnd, g =>
    (if g.quoteEnd + 1 = g.quoteStart ∧ g.quoteEnd + 1 ≠ 2 then .accept else .no,
      { g with quoteEnd := g.quoteEnd + 1 })
  | .resetQuoteEnd, g =>
    (if g.quoteStart = g.quoteEnd ∨ g.quoteStart = 2 then .usePrevious else .no, { g with quoteEnd := 0 })

/-- `do-state-action` (`lexer.dylan:76-86`). -/
def stateAction (st : St) (g : Regs) : Verdict × Regs :=
  match action st with
  | none => (if (builder st).isSome then .yes else .no, g)
  | some a =>
    match act a g with
    | (.yes, g') => (if (builder st).isSome then .yes else .no, g')
    | r => r

/-- `save-accepting-state` (`lexer.dylan:395-400`). -/
def save (pos : Nat) (b : Builder) (g : Regs) : Regs :=
  { g with builder := some b, endPos := some pos, endLine := some g.line, endLineStart := some g.lineStart }

/-- The assignments of `start-over` (`lexer.dylan:420-428`). -/
def startOver (pos : Nat) (g : Regs) : Regs :=
  { g with startPos := pos, startLine := g.line, startLineStart := g.lineStart, builder := none,
           endPos := none, endLine := none, endLineStart := none }

/-- What `repeat` does next. -/
inductive Step where
  | advance | startOver | stop | noPrevious
  deriving DecidableEq, Repr

/-- `repeat` (`lexer.dylan:430-467`) up to the call that it ends with. -/
def enter (st : St) (pos : Nat) (g : Regs) : Step × Regs :=
  match stateAction st g with
  | (.clearPrevious, g') =>
    (.advance, { g' with builder := none, endPos := none, endLine := some g'.line,
                         endLineStart := some g'.lineStart })
  | (.no, g') => (.advance, g')
  | (v, g') =>
    match builder st with
    | none => (.advance, g')
    | some .whitespace => (.startOver, g')
    | some .comment => (.startOver, { g' with commentStart := 0, commentEnd := 0 })
    | some b =>
      match v with
      | .usePrevious => (if g'.builder.isSome then .stop else .noPrevious, g')
      | .accept => (.stop, save pos b g')
      | _ => (.advance, save pos b g')

/-- How the state machine ends: with the last position and the variables, or with the error that there is no
    accepting state before (`lexer.dylan:456`). -/
inductive Ended where
  | at (pos : Nat) (g : Regs)
  | noPrevious
  deriving DecidableEq, Repr

/-- The line is counted when a newline is looked up (`lexer.dylan:405-408`). -/
def newline (b : Byte) (pos : Nat) (g : Regs) : Regs :=
  if b = code '\n' then { g with line := g.line + 1, lineStart := pos + 1 } else g

/-- `advance` and `next-state` (`lexer.dylan:401-419`) on what remains of the source, with the calls of
    `repeat` in it.  The initial state has neither a builder nor an action, so that `start-over` goes on with
    `advance` from it (`start_enter` in `LexerLemmas.lean`). -/
def advance (st : St) : List Byte → Nat → Regs → Ended
  | [], pos, g => .at pos g
  | b :: rest, pos, g =>
    if (transitions st).isEmpty then .at pos g
    else
      match next st b with
      | none => .at pos (newline b pos g)
      | some st' =>
        match enter st' (pos + 1) (newline b pos g) with
        | (.advance, g') => advance st' rest (pos + 1) g'
        | (.startOver, g') => advance .start rest (pos + 1) (startOver (pos + 1) g')
        | (.stop, g') => .at (g'.endPos.getD (pos + 1)) g'
        | (.noPrevious, _) => .noPrevious

/-- A source location (`make-source-location`, `lexer.dylan:383-394`): positions, lines and columns of the
    start and the end. -/
structure Span where
  startPos : Nat
  startLine : Nat
  startColumn : Int
  endPos : Nat
  endLine : Nat
  endColumn : Int
  deriving DecidableEq, Repr

/-- What `get-token` does: it returns a token with the lexer as it is before the builder runs, it signals
    `<invalid-token>` (a caller that handles it with a non-local exit sees the lexer given), or the error of
    `noPrevious`. -/
inductive Token where
  | token (b : Builder) (span : Span) (lexer : Lexer)
  | invalid (span : Span) (lexer : Lexer)
  | noPrevious
  deriving DecidableEq, Repr

/-- The variables at the beginning of `get-token` (`lexer.dylan:365-380`). -/
def Lexer.regs (lx : Lexer) : Regs :=
  ⟨lx.pos, lx.line, lx.lineStart, lx.line, lx.lineStart, none, none, none, none, lx.quoteStart, lx.quoteEnd,
    lx.commentStart, lx.commentEnd⟩

/-- `make-source-location` (`lexer.dylan:383-394`). -/
def Regs.span (g : Regs) (endPos endLine endLineStart : Nat) : Span :=
  ⟨g.startPos, g.startLine, (g.startPos : Int) - g.startLineStart, endPos, endLine,
    (endPos : Int) - endLineStart⟩

/-- The end of `get-token` (`lexer.dylan:468-487`). -/
def finish (length : Nat) (lx : Lexer) (epos : Nat) (g : Regs) : Token :=
  match g.builder with
  | some b =>
    let e := g.endPos.getD (g.startPos + 1)
    let l := g.endLine.getD g.line
    let ls := g.endLineStart.getD g.lineStart
    .token b (g.span e l ls) ⟨e, l, ls, g.quoteStart, g.quoteEnd, g.commentStart, g.commentEnd⟩
  | none =>
    if g.startPos ≥ length then
      .token .eof (g.span g.startPos g.line g.lineStart)
        ⟨g.startPos, g.line, g.lineStart, g.quoteStart, g.quoteEnd, g.commentStart, g.commentEnd⟩
    else
      .invalid (g.span epos (g.endLine.getD g.line) g.lineStart)
        { lx with quoteStart := g.quoteStart, quoteEnd := g.quoteEnd, commentStart := g.commentStart,
                  commentEnd := g.commentEnd }

/-- `get-token` (`lexer.dylan:356-488`) up to the call of the builder. -/
def getToken (source : List Byte) (lx : Lexer) : Token :=
  match advance .start (source.drop lx.pos) lx.pos lx.regs with
  | .at epos g => finish source.length lx epos g
  | .noPrevious => .noPrevious

/-! ### What the builders do to the lexer -/

/-- `$hash-data-start-delimiters` and `$hash-data-end-delimiters` (`lexer.dylan:1344-1345`). -/
def hashDelimiters : List (Byte × Byte) :=
  (bytes "\"{[(|`'").zip (bytes "\"}])|`'")

/-- `delimiter-code?` (`lexer.dylan:1440-1450`). -/
def delimiterCode (b : Byte) : Bool := (bytes " \n\t,;()[]{}").contains b

/-- The loop of `make-hash-literal` (`lexer.dylan:1379-1400`) on what remains from position `i`: the end of the
    data and the lexer; nothing if the literal is not terminated. -/
def hashLoop (close : Byte) : List Byte → Nat → Byte → Lexer → Option (Nat × Lexer)
  | [], _, _, _ => none
  | c :: rest, i, prev, lx =>
    if c = close ∧ prev ≠ code '\\' then some (i, { lx with pos := i + 1 })
    else hashLoop close rest (i + 1) c
      (if c = code '\n' then { lx with line := lx.line + 1, lineStart := i } else lx)

/-- The position after the data of a literal without delimiters (`lexer.dylan:1403-1409`). -/
def hashWord : List Byte → Nat → Nat
  | [], i => i
  | c :: rest, i => if delimiterCode c then i else hashWord rest (i + 1)

/-- `make-hash-literal` (`lexer.dylan:1357-1437`): the lexer after it; nothing if it signals an error (the source
    ends after the second colon, or the literal is not terminated). -/
def hashLiteral (source : List Byte) (lx : Lexer) : Option Lexer :=
  match source.drop lx.pos with
  | [] => none
  | d :: rest =>
    match hashDelimiters.lookup d with
    | some close => (hashLoop close rest (lx.pos + 1) 0 lx).map (·.2)
    | none => some { lx with pos := hashWord (d :: rest) lx.pos }

/-- The lexer after the builder: strings reset the counts of quotes (`extract-string-contents`,
    `lexer.dylan:1143-1164`), and `#:name:` literals read on. -/
def built (source : List Byte) (b : Builder) (lx : Lexer) : Option Lexer :=
  match b with
  | .string | .rawString => some { lx with quoteStart := 0, quoteEnd := 0 }
  | .hashLiteral => hashLiteral source lx
  | _ => some lx

/-- The tokens of a source up to the end, or up to the first error, by recursion over a number of tokens. -/
def tokens (source : List Byte) : Nat → Lexer → List (Builder × Span)
  | 0, _ => []
  | n + 1, lx =>
    match getToken source lx with
    | .token b sp lx' =>
      (b, sp) ::
        (if b = .eof then []
         else
          match built source b lx' with
          | some lx2 => tokens source n lx2
          | none => [])
    | _ => []

end Verif.Reader
