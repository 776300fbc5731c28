/-
Macro patterns: how the macro expander matches the fragments of a macro call against the pattern of a rewrite rule and
binds the pattern variables (sources/dfmc/macro-expander/pattern-to-function.dylan, pattern-back-end.dylan).

The compiler turns a pattern into closures (`generate-...-function`); here the closures are functions that take the
pattern as an argument.  The parser that is called for the constraints `expression`, `variable`, `body`, `case-body`
and `macro`, for `name :: type` and for property lists is a parameter (`Parsers`).
-/

namespace Verif.Macro

/-- Names are the characters of symbols. -/
abbrev Name := List Char

/-- `as-lowercase` on each character (pattern-back-end.dylan 732-735); letters A to Z only. -/
def lower (n : Name) : Name := n.map Char.toLower

/-- `==` on symbols: symbols are interned regardless of case. -/
def sameSymbol (a b : Name) : Bool := lower a == lower b

/-- The three pairs of brackets of nested fragments (sources/dfmc/reader/fragments.dylan 977-979). -/
inductive Delim where
  | paren | bracket | brace
deriving DecidableEq, Repr

/-- The punctuation that may be written in a pattern and stands for itself
(pattern-to-function.dylan 354-384; fragments.dylan 347, 367, 373, 381-399, 1031). -/
inductive Punct where
  | arrow | dot | colonColon | hashNext | hashRest | hashKey | hashAllKeys | endOfModifiers
deriving DecidableEq, Repr

/-- Literal values (fragments.dylan 206-287).  A string is an object of its own (`obj`), compared by `==` as such. -/
inductive Lit where
  | int (n : Int)
  | char (c : Char)
  | bool (b : Bool)
  | symbol (s : Name)
  | string (obj : Nat) (s : List Char)
deriving DecidableEq, Repr

/-- `==` on literal values. -/
def Lit.same : Lit → Lit → Bool
  | .int a, .int b => a == b
  | .char a, .char b => a == b
  | .bool a, .bool b => a == b
  | .symbol a, .symbol b => sameSymbol a b
  | .string a _, .string b _ => a == b
  | _, _ => false

/-- Fragments.  Operators are names too: `<operator-fragment>` is a subclass of `<name-fragment>`
(fragments.dylan 585, 614, 625, 795).  `form` stands for any form that was parsed already. -/
inductive Frag where
  | name (n : Name)
  | operator (n : Name)
  | lit (v : Lit)
  | comma
  | semicolon
  | punct (p : Punct)
  | ellipsis
  | nested (d : Delim) (fs : List Frag)
  | form (n : Nat)
deriving Repr

/-- What a pattern variable may be bound to. -/
inductive Val where
  | one (f : Frag)
  | many (fs : List Frag)
  | seq (l : List (List Frag))
deriving Repr

/-- The constraints that call the parser (pattern-to-function.dylan 430-448). -/
inductive Con where
  | expression | variable | body | caseBody | macro
deriving DecidableEq, Repr

/-- The parser, as far as the matcher calls it: `con` for the constraints (pattern-back-end.dylan 317-464, 714-722),
`vari` for `name :: type` (532-548), `plist` for property lists (638-639).  A result is what remains and what was
parsed. -/
structure Parsers where
  con : Con → List Frag → Option (List Frag × Val)
  vari : List Frag → Option (List Frag × Frag × Frag)
  plist : List Frag → Option (List Frag × List Frag)

/-- Pattern variables: `<simple-match>` by constraint and `<splicing-match>`, with the index of the variable in the
environment (pattern-elements.dylan 17-27, 67-74). -/
inductive Simple where
  | wild (i : Nat)
  | token (i : Nat)
  | nameVar (i : Nat)
  | symbolVar (i : Nat)
  | con (c : Con) (i : Nat)
  | splice (pre suf : Option Name) (i : Nat)
deriving DecidableEq, Repr

/-- `match-env-index`. -/
def Simple.index : Simple → Nat
  | .wild i | .token i | .nameVar i | .symbolVar i | .con _ i | .splice _ _ i => i

/-- `<key-match>` (`?key`) and `<key-sequence-match>` (`??key`) (pattern-elements.dylan 57-65). -/
structure Key where
  symbol : Name
  index : Nat
  sequence : Bool
  constraint : Option Simple
  default : Option Frag
deriving Repr

/-- Pattern elements, after the pattern has been split at its semicolons and commas: a nested pattern is the list of its
parts between semicolons, each the list of its parts between commas.  `otherwise` includes the `=>` that may follow it
in the pattern (pattern-to-function.dylan 233-250). -/
inductive Elem where
  | word (n : Name)
  | otherwise
  | operator (n : Name)
  | punct (p : Punct)
  | lit (v : Lit)
  | simple (s : Simple)
  | vari (name type : Simple)
  | props (rest : Option Nat) (keys : List Key)
  | nested (d : Delim) (body : List (List (List Elem)))
deriving Repr

/-- The vector of the bindings (pattern-to-function.dylan 103, 548-554). -/
abbrev Env := Nat → Option Val

/-- `lookup-match-setter` (pattern-to-function.dylan 552-554). -/
def Env.set (env : Env) (i : Nat) (v : Val) : Env := fun j => if j = i then some v else env j

/-- How matching ends: with no fragments left, with a failure - bindings made so far stay in the vector - or in a
runtime error of the compiler. -/
inductive Out where
  | ok (env : Env)
  | fail (env : Env)
  | crash

/-- How matching of a part of a sequence of elements ends. -/
inductive Step where
  | ok (rest : List Frag) (env : Env)
  | fail (env : Env)
  | crash

/-- `split-at-semicolon` and `split-at-comma` (pattern-back-end.dylan 739-753, 801-815): `sep` says which fragment is
the separator.  The second value is `none` if there is none. -/
def splitAt (sep : Frag → Bool) : List Frag → List Frag × Option (List Frag)
  | [] => ([], none)
  | f :: fs => if sep f then ([], some fs) else (f :: (splitAt sep fs).1, (splitAt sep fs).2)

/-- `l.head.object-class == <semicolon-fragment>` (pattern-back-end.dylan 745). -/
def isSemicolon : Frag → Bool
  | .semicolon => true
  | _ => false

/-- `l.head.object-class == <comma-fragment>` (pattern-back-end.dylan 807). -/
def isComma : Frag → Bool
  | .comma => true
  | _ => false

/-- The name of a `<name-fragment>`; operators are such. -/
def nameOf : Frag → Option Name
  | .name n | .operator n => some n
  | _ => none

/-- `match-name` (pattern-back-end.dylan 100-115). -/
def matchName (n : Name) : List Frag → Option (List Frag)
  | [] => none
  | f :: fs =>
    match nameOf f with
    | none => none
    | some m => if sameSymbol m n then some fs else none

/-- The word `otherwise`. -/
def otherwiseName : Name := ['o', 't', 'h', 'e', 'r', 'w', 'i', 's', 'e']

/-- The `=>` that may follow `otherwise` is skipped (pattern-back-end.dylan 123-127). -/
def skipArrow : List Frag → List Frag
  | .punct .arrow :: fs => fs
  | fs => fs

/-- `match-otherwise` (pattern-back-end.dylan 117-129). -/
def matchOtherwise (fs : List Frag) : Option (List Frag) :=
  (matchName otherwiseName fs).map skipArrow

/-- `match-operator` (pattern-back-end.dylan 131-146). -/
def matchOperator (n : Name) : List Frag → Option (List Frag)
  | .operator m :: fs => if sameSymbol m n then some fs else none
  | _ => none

/-- `match-equal-greater`, `match-dot`, `match-colon-colon`, `match-hash-...` and `match-end-of-modifiers`
(pattern-back-end.dylan 148-266). -/
def matchPunct (p : Punct) : List Frag → Option (List Frag)
  | .punct q :: fs => if q = p then some fs else none
  | _ => none

/-- `match-literal` (pattern-back-end.dylan 268-283). -/
def matchLit (v : Lit) : List Frag → Option (List Frag)
  | .lit w :: fs => if w.same v then some fs else none
  | _ => none

/-- `instance?(f, <elementary-fragment>)`: everything but nested fragments and parsed forms (fragments.dylan 121-122,
213, 345, 585, 1021). -/
def isElementary : Frag → Bool
  | .nested _ _ | .form _ => false
  | _ => true

/-- `match-token-constraint` (pattern-back-end.dylan 287-300). -/
def matchToken : List Frag → Option (List Frag × Val)
  | [] => none
  | f :: fs => if isElementary f then some (fs, .one f) else none

/-- `match-name-constraint` (pattern-back-end.dylan 302-315). -/
def matchNameVar : List Frag → Option (List Frag × Val)
  | [] => none
  | f :: fs => if (nameOf f).isSome then some (fs, .one f) else none

/-- `match-symbol-constraint` (pattern-back-end.dylan 466-479). -/
def matchSymbolVar : List Frag → Option (List Frag × Val)
  | .lit (.symbol s) :: fs => some (fs, .one (.lit (.symbol s)))
  | _ => none

/-- `any-case-equal?` on corresponding characters, as far as both go (pattern-back-end.dylan 603-609). -/
def agree (a b : Name) : Bool := (a.zip b).all fun p => p.1.toLower == p.2.toLower

/-- `matching-prefix?` (pattern-back-end.dylan 597-612). -/
def matchingPrefix (name pre : Name) : Bool :=
  if name.length < pre.length then false else agree name pre

/-- `matching-suffix?` (pattern-back-end.dylan 614-630). -/
def matchingSuffix (name suf : Name) : Bool :=
  if name.length < suf.length then false else agree name.reverse suf.reverse

/-- The start of the part of the name that is bound (pattern-back-end.dylan 561-571); `none` is a failure. -/
def startPos (name : Name) : Option Name → Option Nat
  | none => some 0
  | some pre => if matchingPrefix name pre then some pre.length else none

/-- The end of the part of the name that is bound (pattern-back-end.dylan 572-582). -/
def endPos (name : Name) : Option Name → Option Nat
  | none => some name.length
  | some suf => if matchingSuffix name suf then some (name.length - suf.length) else none

/-- What `match-spliced-name` does with the name (pattern-back-end.dylan 560-592): the part between, a failure
(`some none`), or the error that `copy-sequence` signals if the start is after the end (`none`). -/
def spliceName (pre suf : Option Name) (name : Name) : Option (Option Name) :=
  match startPos name pre with
  | none => some none
  | some s =>
    match endPos name suf with
    | none => some none
    | some e => if s ≤ e then some (some ((name.take e).drop s)) else none

/-- `generate-function` on variables (pattern-to-function.dylan 395-460): match and bind.  The constraint functions
bind the variable even if they fail; what they bind it to then is not modelled, the old binding stays. -/
def bindOne (env : Env) (i : Nat) : Option (List Frag × Val) → Step
  | none => .fail env
  | some (rest, v) => .ok rest (env.set i v)

/-- `match-spliced-name` and its binding (pattern-back-end.dylan 550-595, pattern-to-function.dylan 450-460). -/
def matchSplice (pre suf : Option Name) (i : Nat) (env : Env) : List Frag → Step
  | [] => .fail env
  | f :: fs =>
    match nameOf f with
    | none => .fail env
    | some n =>
      match spliceName pre suf n with
      | none => .crash
      | some none => .fail env
      | some (some core) => .ok fs (env.set i (.one (.name core)))

/-- `generate-function` on `<simple-match>` and `<splicing-match>` (pattern-to-function.dylan 395-460). -/
def matchSimple (P : Parsers) (s : Simple) (env : Env) (fs : List Frag) : Step :=
  match s with
  | .wild i => .ok [] (env.set i (.many fs))
  | .token i => bindOne env i (matchToken fs)
  | .nameVar i => bindOne env i (matchNameVar fs)
  | .symbolVar i => bindOne env i (matchSymbolVar fs)
  | .con c i => bindOne env i (P.con c fs)
  | .splice pre suf i => matchSplice pre suf i env fs

/-- `generate-pattern-element-function` on `<variable-match>` without its rest (pattern-to-function.dylan 289-306):
the name and the type are matched by their own patterns, and what remains of them is ignored. -/
def matchVari (P : Parsers) (n t : Simple) (env : Env) (fs : List Frag) : Step :=
  match P.vari fs with
  | none => .fail env
  | some (rest, nf, tf) =>
    match matchSimple P n env [nf] with
    | .crash => .crash
    | .fail env => .fail env
    | .ok _ env =>
      match matchSimple P t env [tf] with
      | .crash => .crash
      | .fail env => .fail env
      | .ok _ env => .ok rest env

/-- `fragment-value(cursor.head) == symbol` (pattern-back-end.dylan 689, 703). -/
def isKey (s : Name) : Frag → Bool
  | .lit (.symbol t) => sameSymbol t s
  | _ => false

/-- `property-list-element` (pattern-back-end.dylan 684-695): the fragments after the first occurrence of the symbol
where a property begins, up to the next comma.  `start` says whether a property begins here; `skip-to-comma`
(786-799) is the walk with `start` false. -/
def plistElement (s : Name) : Bool → List Frag → Option (List Frag)
  | _, [] => none
  | true, f :: fs => if isKey s f then some (splitAt isComma fs).1 else plistElement s false fs
  | false, f :: fs => plistElement s (isComma f) fs

/-- `property-list-elements` (pattern-back-end.dylan 697-712): all of them. -/
def plistElements (s : Name) : Bool → List Frag → List (List Frag)
  | _, [] => []
  | true, f :: fs =>
    if isKey s f then (splitAt isComma fs).1 :: plistElements s false fs else plistElements s false fs
  | false, f :: fs => plistElements s (isComma f) fs

/-- The value of one key (pattern-back-end.dylan 649-672); the constraint is not looked at.  `none`: a required key
is missing. -/
def keyValue (k : Key) (pl : List Frag) : Option Val :=
  if k.sequence then
    match plistElements k.symbol true pl with
    | [] =>
      match k.default with
      | some d => some (.seq [[d]])
      | none => some (.seq [])
    | l => some (.seq l)
  else
    match plistElement k.symbol true pl with
    | some v => some (.many v)
    | none => k.default.map .one

/-- All the keys (pattern-back-end.dylan 647-673), bound in their order (pattern-to-function.dylan 496-498). -/
def bindKeys (pl : List Frag) : List Key → Env → Option Env
  | [], env => some env
  | k :: ks, env =>
    match keyValue k pl with
    | none => none
    | some v => bindKeys pl ks (env.set k.index v)

/-- The `#rest` variable (pattern-to-function.dylan 493-495). -/
def bindRest (rest : Option Nat) (pl : List Frag) (env : Env) : Env :=
  match rest with
  | none => env
  | some i => env.set i (.many pl)

/-- `match-property-list` and its bindings (pattern-back-end.dylan 635-682, pattern-to-function.dylan 486-501). -/
def matchProps (P : Parsers) (rest : Option Nat) (keys : List Key) (env : Env) (fs : List Frag) : Step :=
  match P.plist fs with
  | some ([], pl) =>
    match bindKeys pl keys (bindRest rest pl env) with
    | none => .fail env
    | some env => .ok [] env
  | _ => .fail env

/-- `match-parens`, `match-brackets`, `match-braces` (pattern-back-end.dylan 483-526): what is inside, what is after. -/
def matchNested (d : Delim) : List Frag → Option (List Frag × List Frag)
  | .nested e inner :: fs => if e = d then some (inner, fs) else none
  | _ => none

/-- Go on with the rest of the elements. -/
def Step.next (s : Step) (k : Env → List Frag → Out) : Out :=
  match s with
  | .crash => .crash
  | .fail env => .fail env
  | .ok rest env => k env rest

/-- Go on if no failure. -/
def Out.next (o : Out) (k : Env → Out) : Out :=
  match o with
  | .crash => .crash
  | .fail env => .fail env
  | .ok env => k env

/-- A match of a fragment that binds nothing. -/
def plain (env : Env) : Option (List Frag) → Step
  | none => .fail env
  | some rest => .ok rest env

/-- `_wildcard-loop_` (pattern-to-function.dylan 267-284): `k` is the matcher of the elements after the wildcard. -/
def wildLoop (k : Env → List Frag → Out) (i : Nat) (collected : List Frag) (env : Env) (fs : List Frag) : Out :=
  match fs with
  | [] =>
    match k env [] with
    | .crash => .crash
    | .fail env => .fail env
    | .ok env => .ok (env.set i (.many collected))
  | f :: fs =>
    match k env (f :: fs) with
    | .crash => .crash
    | .ok env => .ok (env.set i (.many collected))
    | .fail env => wildLoop k i (collected ++ [f]) env fs

/-- `generate-structure-parts-function` with two parts or more (pattern-to-function.dylan 197-211), with `match-...-part`
if `last` - the second part is the last one - and `match-...-part-strict` if not (pattern-back-end.dylan 60-90). -/
def matchParts (sep : Frag → Bool) (last : Bool) (before after : Env → List Frag → Out) (env : Env)
    (fs : List Frag) : Out :=
  match splitAt sep fs with
  | (a, some b) => (before env a).next fun env => after env b
  | (a, none) => if last then (before env a).next fun env => after env [] else .fail env

mutual

/-- `generate-body-pattern-function` on the parts between semicolons (pattern-to-function.dylan 170-176, 192-213). -/
def matchBody (P : Parsers) : List (List (List Elem)) → Env → List Frag → Out
  | [], env, _ => .fail env
  | p :: ps, env, fs =>
    if ps.isEmpty then matchList P p env fs
    else matchParts isSemicolon (ps.length == 1) (matchList P p) (matchBody P ps) env fs

/-- `generate-list-pattern-function` on the parts between commas (pattern-to-function.dylan 184-213). -/
def matchList (P : Parsers) : List (List Elem) → Env → List Frag → Out
  | [], env, _ => .fail env
  | p :: ps, env, fs =>
    if ps.isEmpty then matchElems P p env fs
    else matchParts isComma (ps.length == 1) (matchElems P p) (matchList P ps) env fs

/-- `generate-pattern-elements-function` (pattern-to-function.dylan 215-330). -/
def matchElems (P : Parsers) : List Elem → Env → List Frag → Out
  | [], env, fs => if fs.isEmpty then .ok env else .fail env
  | e :: es, env, fs => matchElem P e es.isEmpty (matchElems P es) env fs

/-- `generate-pattern-element-function` (pattern-to-function.dylan 223-326): the first element, with the matcher of the
others (`k`), which are none if `last`. -/
def matchElem (P : Parsers) : Elem → Bool → (Env → List Frag → Out) → Env → List Frag → Out
  | .word n, _, k, env, fs => (plain env (matchName n fs)).next k
  | .otherwise, _, k, env, fs => (plain env (matchOtherwise fs)).next k
  | .operator n, _, k, env, fs => (plain env (matchOperator n fs)).next k
  | .punct p, _, k, env, fs => (plain env (matchPunct p fs)).next k
  | .lit v, _, k, env, fs => (plain env (matchLit v fs)).next k
  | .simple (.wild i), true, _, env, fs => .ok (env.set i (.many fs))
  | .simple (.wild i), false, k, env, fs => wildLoop k i [] env fs
  | .simple s, _, k, env, fs => (matchSimple P s env fs).next k
  | .vari n t, _, k, env, fs => (matchVari P n t env fs).next k
  | .props r ks, _, k, env, fs => (matchProps P r ks env fs).next k
  | .nested d body, _, k, env, fs =>
    match matchNested d fs with
    | none => .fail env
    | some (inner, rest) => (matchBody P body env inner).next fun env => k env rest

end

/-- The environment a rule starts with (pattern-to-function.dylan 103): no bindings. -/
def Env.empty : Env := fun _ => none

/-- A pattern matched against the fragments of a call (pattern-to-function.dylan 103-105). -/
def matchPattern (P : Parsers) (pattern : List (List (List Elem))) (fs : List Frag) : Out :=
  matchBody P pattern Env.empty fs

/-! ### From what is written to the parts -/

/-- Elements of a pattern as written, in a sequence with commas and semicolons between them. -/
inductive Raw where
  | comma
  | semicolon
  | elem (e : Elem)
  | nested (d : Delim) (body : List Raw)
deriving Repr

/-- An element before all others: it belongs to the first part. -/
def pushElem (e : Elem) : List (List (List Elem)) → List (List (List Elem))
  | (p :: ps) :: qs => ((e :: p) :: ps) :: qs
  | [] :: qs => [[e]] :: qs
  | [] => [[[e]]]

/-- A comma before all others. -/
def pushComma : List (List (List Elem)) → List (List (List Elem))
  | p :: qs => ([] :: p) :: qs
  | [] => [[[], []]]

/-- `otherwise =>` in a pattern is `otherwise` (pattern-to-function.dylan 238-243). -/
def dropArrow : List (List (List Elem)) → List (List (List Elem))
  | ((.punct .arrow :: p) :: ps) :: qs => (p :: ps) :: qs
  | ps => ps

mutual
/-- Split at the semicolons, and each part at the commas (`split-at-semicolons`, `split-at-commas`,
pattern-back-end.dylan 771-784, 817-830; pattern-to-function.dylan 171, 185), in nested patterns too (328-330). -/
def parts : List Raw → List (List (List Elem))
  | [] => [[[]]]
  | r :: rs => pushRaw r (parts rs)

/-- The parts with something written before them. -/
def pushRaw : Raw → List (List (List Elem)) → List (List (List Elem))
  | .semicolon, ps => [[]] :: ps
  | .comma, ps => pushComma ps
  | .elem .otherwise, ps => pushElem .otherwise (dropArrow ps)
  | .elem e, ps => pushElem e ps
  | .nested d body, ps => pushElem (.nested d (parts body)) ps
end

/-! ### The variables of a pattern -/

/-- The variables that keys bind. -/
def keyVars (ks : List Key) : List Nat := ks.map (·.index)

mutual
/-- The variables of a pattern in the order in which they get their indexes (`do-binding-matches`,
pattern-elements.dylan 120-150). -/
def bodyVars : List (List (List Elem)) → List Nat
  | [] => []
  | p :: ps => listVars p ++ bodyVars ps
def listVars : List (List Elem) → List Nat
  | [] => []
  | p :: ps => elemsVars p ++ listVars ps
def elemsVars : List Elem → List Nat
  | [] => []
  | e :: es => elemVars e ++ elemsVars es
def elemVars : Elem → List Nat
  | .simple s => [s.index]
  | .vari n t => [n.index, t.index]
  | .props r ks => r.toList ++ keyVars ks
  | .nested _ body => bodyVars body
  | .word _ | .otherwise | .operator _ | .punct _ | .lit _ => []
end

end Verif.Macro
