/-
Facts about the table of the lexer: which states lead where.
-/
import Verif.Reader.LexerLemmas

namespace Verif.Reader
open LexerSpec

theorem lookup_mem {l : List (On × St)} {b : Byte} {st : St} (h : lookup l b = some st) :
    ∃ on, (on, st) ∈ l ∧ on.matches b = true := by
  induction l with
  | nil => cases h
  | cons x l ih =>
    obtain ⟨on, s⟩ := x
    simp only [lookup] at h
    split at h
    · next hm => cases h; exact ⟨on, List.mem_cons_self .., hm⟩
    · obtain ⟨on', h1, h2⟩ := ih h; exact ⟨on', List.mem_cons_of_mem _ h1, h2⟩

/-- The states that a state leads to. -/
def targets (st : St) : List St := (transitions st).map (·.2)

theorem next_target {st st' : St} {b : Byte} (h : next st b = some st') : st' ∈ targets st := by
  obtain ⟨on, h1, -⟩ := lookup_mem h
  exact List.mem_map.2 ⟨_, h1, rfl⟩

/-- The states in delimited comments. -/
def inComment : St → Bool
  | .delimitedCommentStart | .delimitedCommentSlash | .delimitedCommentSlashSlash | .delimitedCommentStar
  | .delimitedCommentBody | .delimitedCommentEnd => true
  | _ => false

/-- The states in strings. -/
def inString : St → Bool
  | .stringStart | .twoDoubleQuotes | .drmStringBody | .drmStringEnd | .drmStringEscape | .drmStringEscapeLess
  | .drmStringHexCharDigits | .multiStringStart | .multiStringBody | .multiStringBodyContinue
  | .multiStringEnd | .multiStringEscape | .multiStringEscapeLess | .multiStringHexCharDigits | .rawStringStart
  | .rawTwoDoubleQuotes | .rawOneLineStringBody | .rawOneLineStringEnd | .rawMultiStringStart
  | .rawMultiStringBody | .rawMultiStringBodyContinue | .rawMultiStringEnd => true
  | _ => false

theorem targets_comment (st : St) :
    (targets st).any (fun t => inComment t && t != .delimitedCommentStart) = true → inComment st = true := by
  cases st <;> decide

theorem targets_string (st : St) :
    (targets st).any inString = true → inString st = true ∨ st = .start ∨ st = .sharp ∨ st = .sharpR := by
  cases st <;> decide

theorem targets_sharp (st : St) : (targets st).contains .sharp = true → st = .start := by
  cases st <;> decide

theorem targets_sharpR (st : St) : (targets st).contains .sharpR = true → st = .sharp := by
  cases st <;> decide

theorem targets_start (st : St) : (targets st).contains .start = false := by
  cases st <;> decide

end Verif.Reader
