import Verif.Reader.Lexer

/-
The data of `#:name:` literals: sources/dfmc/reader/lexer.dylan,
`make-hash-literal`.
-/

namespace Verif.Reader

/-- The data that `make-hash-literal` hands to the parser function and the lexer after it
    (`lexer.dylan:1383-1434`); nothing if it signals an error. -/
def hashData (source : List Byte) (lx : Lexer) : Option (List Byte × Lexer) :=
  match source.drop lx.pos with
  | [] => none
  | d :: rest =>
    match hashDelimiters.lookup d with
    | some close =>
      (hashLoop close rest (lx.pos + 1) 0 lx).map
        (fun r => ((source.drop (lx.pos + 1)).take (r.1 - (lx.pos + 1)), r.2))
    | none =>
      let e := hashWord (d :: rest) lx.pos
      some ((source.drop lx.pos).take (e - lx.pos), { lx with pos := e })

end Verif.Reader
