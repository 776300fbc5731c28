/-
Specification of the text forms of dates.
-/
import Verif.Date.Spec
import Verif.Date.Text

namespace Verif.Date

/-- A number with one more decimal digit (`'0'` has the code 48). -/
def addDigit (n : Int) (c : Char) : Int := 10 * n + ((c.toNat : Int) - 48)

/-- The number a text of decimal digits stands for. -/
def digitsValue (s : List Char) : Int := s.foldl addDigit 0

/-- A text of exactly `n` decimal digits that stands for `k`. -/
def Digits (n : Nat) (k : Int) (s : List Char) : Prop :=
  s.length = n ∧ (∀ c ∈ s, '0' ≤ c ∧ c ≤ '9') ∧ digitsValue s = k

instance (n : Nat) (k : Int) (s : List Char) : Decidable (Digits n k s) := by
  unfold Digits; infer_instance

/-- A separator, which may be left out if the parser is not strict. -/
def Sep (strict : Bool) (c : Char) (s : List Char) : Prop := s = [c] ∨ (strict = false ∧ s = [])

/-- Nothing, or a space if the parser is not strict. -/
def Gap (strict : Bool) (s : List Char) : Prop := s = [] ∨ (strict = false ∧ s = [' '])

/-- A time zone designator: `Z`, `+hh:mm` or `-hh:mm`; its offset in minutes. -/
inductive ZoneText (strict : Bool) : List Char → Int → Prop
  | utc {g : List Char} {c : Char} : Gap strict g → (c = 'Z' ∨ c = 'z') →
      ZoneText strict (g ++ [c]) 0
  | east {g hs sp ms : List Char} {h m : Int} : Gap strict g → Digits 2 h hs → Sep strict ':' sp →
      Digits 2 m ms → ZoneText strict (g ++ '+' :: (hs ++ (sp ++ ms))) (60 * h + m)
  | west {g hs sp ms : List Char} {h m : Int} : Gap strict g → Digits 2 h hs → Sep strict ':' sp →
      Digits 2 m ms → ZoneText strict (g ++ '-' :: (hs ++ (sp ++ ms))) (-(60 * h + m))

/-- What may follow the minutes: `TZD`, `:ssTZD` or `:ss.sTZD`; the seconds, the microseconds and
    the offset. The fraction has at most six digits. -/
inductive SecondsText (strict : Bool) : List Char → Int → Int → Int → Prop
  | none {zs : List Char} {z : Int} : ZoneText strict zs z → SecondsText strict zs 0 0 z
  | seconds {sp ss zs : List Char} {s z : Int} : Sep strict ':' sp → Digits 2 s ss →
      ZoneText strict zs z → SecondsText strict (sp ++ (ss ++ zs)) s 0 z
  | fraction {sp ss fs zs : List Char} {s f z : Int} {n : Nat} : Sep strict ':' sp →
      Digits 2 s ss → Digits n f fs → n ≤ 6 → ZoneText strict zs z →
      SecondsText strict (sp ++ (ss ++ '.' :: (fs ++ zs))) s (f * 10 ^ (6 - n)) z

/-- The texts `YYYY`, `YYYY-MM`, `YYYY-MM-DD` and `YYYY-MM-DDThh:mm…`, and what they say. -/
inductive IsoText (strict : Bool) : List Char → Fields → Prop
  | year {ys : List Char} {y : Int} : Digits 4 y ys → IsoText strict ys ⟨y, 1, 1, 0, 0, 0, 0, 0⟩
  | month {ys sp ms : List Char} {y m : Int} : Digits 4 y ys → Sep strict '-' sp → Digits 2 m ms →
      IsoText strict (ys ++ (sp ++ ms)) ⟨y, m, 1, 0, 0, 0, 0, 0⟩
  | day {ys sp ms sp' ds : List Char} {y m d : Int} : Digits 4 y ys → Sep strict '-' sp →
      Digits 2 m ms → Sep strict '-' sp' → Digits 2 d ds →
      IsoText strict (ys ++ (sp ++ (ms ++ (sp' ++ ds)))) ⟨y, m, d, 0, 0, 0, 0, 0⟩
  | time {ys sp ms sp' ds hs sp'' mis ss : List Char} {t : Char} {y m d h mi s us z : Int} :
      Digits 4 y ys → Sep strict '-' sp → Digits 2 m ms → Sep strict '-' sp' → Digits 2 d ds →
      (t = 'T' ∨ t = 't' ∨ (strict = false ∧ t = ' ')) → Digits 2 h hs → Sep strict ':' sp'' →
      Digits 2 mi mis → SecondsText strict ss s us z →
      IsoText strict (ys ++ (sp ++ (ms ++ (sp' ++ (ds ++ t :: (hs ++ (sp'' ++ (mis ++ ss))))))))
        ⟨y, m, d, h, mi, s, us, z⟩

/-- A piece of a control string: a character that stands for itself, or a directive. -/
inductive Piece
  | literal (c : Char)
  | directive (c : Char)
deriving DecidableEq, Repr

/-- The control string made of pieces. -/
def control : List Piece → List Char
  | [] => []
  | .literal c :: ps => c :: control ps
  | .directive c :: ps => '%' :: c :: control ps

/-- A piece that both `format-date` and `parse-date-string` understand in the same way: characters
    that stand for themselves, `%%`, `%n`, and year, month, day, hours, minutes and seconds, apart
    from the full name of the month and the short year. -/
def Piece.Plain : Piece → Prop
  | .literal c => c ≠ '%'
  | .directive c => c ∈ ['Y', 'm', 'b', 'd', 'e', 'H', 'k', 'M', 'S', 'n', '%']

instance (p : Piece) : Decidable p.Plain := by
  cases p <;> unfold Piece.Plain <;> infer_instance

/-- The control string has a directive for each field. -/
def Complete (ps : List Piece) : Prop :=
  .directive 'Y' ∈ ps ∧ (.directive 'm' ∈ ps ∨ .directive 'b' ∈ ps) ∧
    (.directive 'd' ∈ ps ∨ .directive 'e' ∈ ps) ∧ (.directive 'H' ∈ ps ∨ .directive 'k' ∈ ps) ∧
    .directive 'M' ∈ ps ∧ .directive 'S' ∈ ps

instance (ps : List Piece) : Decidable (Complete ps) := by unfold Complete; infer_instance

end Verif.Date
