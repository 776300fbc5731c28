/-
Model of the reader of build files (/repo/sources/lib/jam/jam-reader.dylan): how the text of a file
is divided into words, punctuation and strings of actions.

Simplifications: positions in the text are replaced by what is left of it from there on (`start = _end` is
"nothing between `start` and `pos`, and nothing left"); a token of punctuation or a keyword is its text.
-/
namespace Verif.JamLex

/-- The tokens of punctuation (`jam-reader.dylan:292-308`, `333-336`). -/
def punctuation : List String :=
  ["!", "!=", "&", "&&", "(", ")", "+=", ":", ";", "<", "<=", "=", ">", ">=", "?=", "[", "]", "{", "|", "||", "}"]

/-- The keywords (`jam-reader.dylan:309-332`). -/
def keywords : List String :=
  ["actions", "bind", "break", "case", "continue", "default", "else", "existing", "for", "if", "ignore", "in",
   "include", "local", "maxline", "on", "piecemeal", "quietly", "return", "rule", "switch", "together", "updated",
   "while"]

/-- Tokens. -/
inductive Token where
  | eof
  | arg (s : List Char)
  | punct (s : List Char)
  | keyword (s : List Char)
  deriving DecidableEq

/-- What a call of the lexer does: a token, the text left, and the line number; or an error. -/
inductive Out (τ : Type) where
  | token (t : τ) (rest : List Char) (line : Nat)
  | error
  deriving DecidableEq

/-- `return-token` (`jam-reader.dylan:248-267`); `punctOnly` is the mode in which keywords are words. -/
def returnToken (punctOnly : Bool) (s : List Char) (metachars : Bool) : Token :=
  if metachars then .arg s
  else if String.ofList s ∈ punctuation then .punct s
  else if String.ofList s ∈ keywords then
    if !punctOnly then .keyword s else .arg s
  else .arg s

/-- The count of lines at a character, given what is left after it (`jam-reader.dylan:76-85`, `138-148`,
    `173-192`). -/
def countLine (c : Char) (s : List Char) (line : Nat) : Nat :=
  if c = '\n' then line + 1
  else if c = '\r' then
    if s.head? = some '\n' then line else line + 1
  else line

/-- Space, tab, form feed and the characters that end lines (`jam-reader.dylan:160`, `173`, `188`). -/
def blank (c : Char) : Bool := c = ' ' || c = '\t' || c = Char.ofNat 12 || c = '\n' || c = '\r'

/-- The loop of `lexer` outside of strings (`jam-reader.dylan:94-244`), on the text from `pos` on: `cur` is the
    text from `start` to `pos`. The inner loop over a comment (`209-214`) is the state `comment`. -/
def lex (punctOnly : Bool) : (comment quoting metachars : Bool) → (acc cur : List Char) → (line : Nat) → List Char → Out Token
  | _, quoting, metachars, acc, cur, line, [] =>
    if cur = [] then .token .eof [] line
    else if quoting then .error
    else .token (returnToken punctOnly (acc ++ cur) metachars) [] line
  | comment, quoting, metachars, acc, cur, line, c :: s =>
    if comment ∧ c ≠ '\r' ∧ c ≠ '\n' then lex punctOnly true quoting metachars acc cur line s
    else if quoting then
      if c = '"' then lex punctOnly false false true (acc ++ cur) [] line s
      else if c = '\\' then
        match s with
        | [] => .token .eof [] line
        | d :: s => lex punctOnly false true true (acc ++ cur) [d] line s
      else lex punctOnly false quoting metachars acc (cur ++ [c]) (countLine c s line) s
    else if blank c then
      if cur ≠ [] ∨ metachars then .token (returnToken punctOnly (acc ++ cur) metachars) s (countLine c s line)
      else lex punctOnly false quoting metachars acc [] (countLine c s line) s
    else if c = '#' then
      if cur ≠ [] ∨ metachars then lex punctOnly false quoting true acc (cur ++ [c]) line s
      else lex punctOnly true quoting metachars acc [] line s
    else if c = '"' then lex punctOnly false true true (acc ++ cur) [] line s
    else if c = '\\' then
      match s with
      | [] => .token .eof [] line
      | d :: s => lex punctOnly false quoting true (acc ++ cur) [d] line s
    else lex punctOnly false quoting metachars acc (cur ++ [c]) line s

/-- The next token (`jam-reader.dylan:94-100`). -/
def next (punctOnly : Bool) (line : Nat) (text : List Char) : Out Token :=
  lex punctOnly false false false [] [] line text

/-- The loop of `lexer` for the string of an action (`jam-reader.dylan:53-92`); the closing brace is left. -/
def actionLoop : (level : Nat) → (acc : List Char) → (line : Nat) → List Char → Out (List Char)
  | _, _, _, [] => .error
  | level, acc, line, c :: s =>
    if c = '{' then actionLoop (level + 1) (acc ++ [c]) line s
    else if c = '}' then
      if level = 1 then .token acc (c :: s) line
      else actionLoop (level - 1) (acc ++ [c]) line s
    else actionLoop level (acc ++ [c]) (countLine c s line) s

/-- The string of an action (`jam-reader.dylan:52-55`). -/
def action (line : Nat) (text : List Char) : Out (List Char) := actionLoop 1 [] line text

end Verif.JamLex
