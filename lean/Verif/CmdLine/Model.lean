/-!
# Command lines

`quote-argument` of `sources/lib/jam/jam-quote-unix.dylan` (QU) and of `sources/lib/jam/jam-quote-win32.dylan` (QW), and
`tokenize-command-line` of `sources/common-dylan/unix-common-extensions.dylan` (TU) and of
`sources/common-dylan/win32-common-extensions.dylan` (TW).

Simplifications: the argument is the part of the string between `start:` and `end:`; a position in a string is given by what is
before it and what is after it.  The values that `tokenize-command-line` returns are given as a list; that the first must be a
string, so that a line without tokens is an error, is not modelled.
-/

namespace Verif.CmdLine

/-! ### Quoting for Unix -/

/-- The characters that must be quoted (QU:25-26). -/
def unixSpecial : List Char := ['|', '&', ';', '<', '>', '(', ')', '$', '`', '\\', '"', '\'', ' ', '\t']

/-- `qc` (QU:49-63). -/
def unixQc : List Char → List Char
  | [] => []
  | c :: r => if c ∈ ['$', '`', '"', '\\'] then '\\' :: c :: unixQc r else c :: unixQc r

/-- `q` (QU:39-46), at the position between the two parts. -/
def unixQ (pre rest : List Char) : List Char := '"' :: (pre ++ (unixQc rest ++ ['"']))

/-- `nqc` (QU:22-36), at the position between the two parts. -/
def unixNqc : List Char → List Char → List Char
  | pre, [] => if pre = [] then ['"', '"'] else pre
  | pre, c :: r => if c ∈ unixSpecial then unixQ pre (c :: r) else unixNqc (pre ++ [c]) r

/-- `quote-argument` (QU:15-66). -/
def unixQuote (a : List Char) : List Char := unixNqc [] a

/-! ### Quoting for Windows -/

/-- A number of backslashes. -/
def slashes (n : Nat) : List Char := List.replicate n '\\'

/-- `qc` (QW:69-85) if the number is zero, and else `qbs` (QW:88-114) with this count. -/
def winQc : Nat → List Char → List Char
  | n, [] => slashes (2 * n)
  | n, c :: r =>
    if c = '\\' then winQc (n + 1) r
    else if c = '"' then slashes (2 * n) ++ '\\' :: '"' :: winQc 0 r
    else slashes n ++ c :: winQc 0 r

/-- `q` (QW:59-66), at the position between the two parts. -/
def winQ (pre rest : List Char) : List Char := '"' :: (pre ++ (winQc 0 rest ++ ['"']))

/-- `nqc` (QW:21-36) if the number is zero, and else `bs` (QW:39-56) after this number of backslashes; the part before does not
have them. -/
def winNqc : Nat → List Char → List Char → List Char
  | 0, pre, [] => if pre = [] then ['"', '"'] else pre
  | n + 1, pre, [] => pre ++ slashes (n + 1)
  | 0, pre, c :: r =>
    if c ∈ ['|', '<', '>', '&', '^', ' ', '\t', '"'] then winQ pre (c :: r)
    else if c = '\\' then winNqc 1 pre r
    else winNqc 0 (pre ++ [c]) r
  | n + 1, pre, c :: r =>
    if c ∈ [' ', '\t'] then winQ (pre ++ slashes (n + 1)) (c :: r)
    else if c = '"' then winQ pre (slashes (n + 1) ++ c :: r)
    else if c = '\\' then winNqc (n + 2) pre r
    else winNqc 0 (pre ++ slashes (n + 1) ++ [c]) r

/-- `quote-argument` (QW:14-117). -/
def winQuote (a : List Char) : List Char := winNqc 0 [] a

/-! ### Splitting a command line -/

/-- `whitespace?` (TU:89-91, TW:174-176). -/
def white (c : Char) : Bool := c == ' ' || c == '\t' || c == '\n'

/-- The loop of `next-token` (TU:111-136): the token, and the rest of the line. -/
def unixToken : Bool → Option Char → List Char → List Char → List Char × List Char
  | _, _, token, [] => (token, [])
  | escaped, quoted, token, c :: r =>
    if escaped then unixToken false quoted (token ++ [c]) r
    else if quoted.isSome && white c then unixToken false quoted (token ++ [c]) r
    else if quoted = some c then unixToken false none token r
    else if c = '\\' then unixToken true quoted token r
    else if c = '"' ∨ c = '\'' then unixToken false (some c) token r
    else if white c then (token, r)
    else unixToken false quoted (token ++ [c]) r

/-- The loop of `next-token` (TW:209-254).  After an even number of backslashes the quotation mark is read again (TW:222), and
then changes `quoted?` (TW:241-242). -/
def winToken : Option Nat → Bool → List Char → List Char → List Char × List Char
  | none, _, token, [] => (token, [])
  | some n, _, token, [] => (token ++ slashes n, [])
  | some n, quoted, token, c :: r =>
    if c = '\\' then winToken (some (n + 1)) quoted token r
    else if c = '"' then
      if n % 2 = 0 then winToken none (!quoted) (token ++ slashes (n / 2)) r
      else winToken none quoted (token ++ slashes ((n - 1) / 2) ++ [c]) r
    else if white c && !quoted then (token ++ slashes n, r)
    else winToken none quoted (token ++ slashes n ++ [c]) r
  | none, quoted, token, c :: r =>
    if quoted && white c then winToken none quoted (token ++ [c]) r
    else if c = '\\' then winToken (some 1) quoted token r
    else if c = '"' then winToken none (!quoted) token r
    else if white c then (token, r)
    else winToken none quoted (token ++ [c]) r

/-- The loop of `tokenize-command-line` (TU:141-146, TW:259-264) with the beginning of `next-token` (TU:109-114, TW:207-212).  The
first argument bounds the rounds; the rest of the line gets shorter in each. -/
def tokens (next : List Char → List Char × List Char) : Nat → List Char → List (List Char)
  | 0, _ => []
  | n + 1, rest =>
    match rest.dropWhile white with
    | [] => []
    | c :: r => (next (c :: r)).1 :: tokens next n (next (c :: r)).2

/-- `tokenize-command-line` for Unix (TU:102-148). -/
def unixTokenize (line : List Char) : List (List Char) := tokens (unixToken false none []) (line.length + 1) line

/-- `tokenize-command-line` for Windows (TW:200-266). -/
def winTokenize (line : List Char) : List (List Char) := tokens (winToken none false []) (line.length + 1) line

end Verif.CmdLine
