/-
Model of the packed source locations: /repo/sources/dfmc/reader/range-source-locations.dylan and
`compute-position-between` in fragments.dylan.  A packed integer is a word of 64 bits (`ash` and the logical
functions of negative integers sign-extend, as here).  The character number is ignored by the code, too.
-/

namespace Verif.Reader

/-- A `<range-source-offset>` (`range-source-locations.dylan:18`, `:50-55`, `:107-108`). -/
inductive Offset where
  | small (word : BitVec 64)
  | big (line column : Int)
  deriving DecidableEq, Repr

/-- `make-small-source-offset` (`range-source-locations.dylan:33-36`). -/
def smallOffset (line column : Int) : BitVec 64 := (BitVec.ofInt 64 line <<< 12) ||| BitVec.ofInt 64 column

/-- `source-offset-line` (`range-source-locations.dylan:40-43`, `:51`). -/
def Offset.line : Offset → Int
  | .small w => ((w &&& (65535#64 <<< 12)).sshiftRight 12).toInt
  | .big l _ => l

/-- `source-offset-column` (`range-source-locations.dylan:45-48`, `:53`). -/
def Offset.column : Offset → Int
  | .small w => (w &&& 4095#64).toInt
  | .big _ c => c

/-- `small-source-offset?` and `make-source-offset` (`range-source-locations.dylan:28-31`, `:129-137`). -/
def makeOffset (line column : Int) : Offset :=
  if column ≤ 4095 ∧ line ≤ 65535 then .small (smallOffset line column) else .big line column

/-- `<` (`range-source-locations.dylan:60-97`, on integers for two small offsets, `:104`). -/
def Offset.less : Offset → Offset → Bool
  | .small x, .small y => decide (x.toInt < y.toInt)
  | .big xl _, y@(.small _) => decide (xl < y.line)
  | x@(.small _), .big yl _ => decide (x.line ≤ yl)
  | .big xl xc, .big yl yc => decide (xl < yl) || (decide (xl = yl) && decide (xc < yc))

/-- `=` (`range-source-locations.dylan:69-102`). -/
def Offset.equal : Offset → Offset → Bool
  | .small x, .small y => decide (x = y)
  | .big _ _, .small _ => false
  | .small _, .big _ _ => false
  | .big xl xc, .big yl yc => decide (xl = yl) && decide (xc = yc)

/-- `range-source-offset-greater-than?` (`range-source-locations.dylan:110-117`, `:188-192`). -/
def Offset.greater : Offset → Offset → Bool
  | .small x, .small y => decide (x.toInt > y.toInt)
  | x, y => decide (x.line > y.line) || (decide (x.line = y.line) && decide (x.column > y.column))

/-- A `<range-position>` (`range-source-locations.dylan:142-149`, `:201`). -/
inductive Position where
  | small (word : BitVec 64)
  | big (start finish : Offset)
  deriving DecidableEq, Repr

/-- The field of `mask + 1` values at a bit of a packed position: `logand(ash(pos, - bit), mask)`. -/
def field (w : BitVec 64) (bit : Nat) (mask : BitVec 64) : BitVec 64 := w.sshiftRight bit &&& mask

/-- `source-position-start-offset` (`range-source-locations.dylan:143`, `:166-171`). -/
def Position.start : Position → Offset
  | .small w => .small (smallOffset (field w 7 2047#64).toInt (field w 0 127#64).toInt)
  | .big s _ => s

/-- `source-position-end-offset` (`range-source-locations.dylan:145`, `:173-184`). -/
def Position.finish : Position → Offset
  | .small w =>
    let sline := (field w 7 2047#64).toInt
    let dline := (field w 25 7#64).toInt
    let dcol := (field w 18 127#64).toInt
    let ecol := if dline = 0 then dcol + (field w 0 127#64).toInt else dcol
    .small (smallOffset (sline + dline) ecol)
  | .big _ e => e

/-- The packed integer of `make-range-position` (`range-source-locations.dylan:228-231`). -/
def packPosition (sline dline scol dcol : Int) : BitVec 64 :=
  (BitVec.ofInt 64 sline <<< 7) ||| (BitVec.ofInt 64 dline <<< 25) ||| BitVec.ofInt 64 scol |||
    (BitVec.ofInt 64 dcol <<< 18)

/-- `make-range-position` (`range-source-locations.dylan:204-239`). -/
def makePosition (s e : Offset) : Position :=
  match s, e with
  | .small _, .small _ =>
    let sline := s.line
    let dline := e.line - sline
    let scol := s.column
    let dcol := if dline = 0 then e.column - scol else e.column
    if sline ≤ 2047 ∧ dline ≤ 7 ∧ scol ≤ 127 ∧ (0 ≤ dcol ∧ dcol ≤ 127) then
      .small (packPosition sline dline scol dcol)
    else .big s e
  | _, _ => .big s e

/-- `compute-position-between*` (`fragments.dylan:47-56`). -/
def between (p q : Position) : Position :=
  if p.start.greater q.finish then makePosition q.start p.finish else makePosition p.start q.finish

/-- `compute-position-between` (`fragments.dylan:58-64`): `#f` is `none`. -/
def positionBetween : Option Position → Option Position → Option Position
  | none, q => q
  | p, none => p
  | some p, some q => some (between p q)

end Verif.Reader
