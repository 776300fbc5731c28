import Verif.Macro.Pattern

/-
What it means that a sequence of fragments is an instance of a macro pattern, given what the pattern variables stand
for - without saying how an instance is recognised.
-/

namespace Verif.Macro

/-- The same name, regardless of case. -/
def SameName (a b : Name) : Prop := lower a = lower b

/-- `name` is the prefix, `core` and the suffix, one after the other. -/
def Spliced (pre suf : Option Name) (core name : Name) : Prop :=
  ∃ a b, name = a ++ core ++ b ∧ SameName a (pre.getD []) ∧ SameName b (suf.getD [])

/-- A fragment that is a name for the macro system: a name or an operator. -/
def NameLike (f : Frag) (n : Name) : Prop := f = .name n ∨ f = .operator n

/-- A variable stands for `v` if `fs` is what it stands for followed by `rest`. -/
def SimpleTakes (P : Parsers) : Simple → List Frag → Val → List Frag → Prop
  | .wild _, fs, v, rest => ∃ pre, fs = pre ++ rest ∧ v = .many pre
  | .token _, fs, v, rest => ∃ f, fs = f :: rest ∧ isElementary f = true ∧ v = .one f
  | .nameVar _, fs, v, rest => ∃ f n, fs = f :: rest ∧ NameLike f n ∧ v = .one f
  | .symbolVar _, fs, v, rest => ∃ s, fs = .lit (.symbol s) :: rest ∧ v = .one (.lit (.symbol s))
  | .con c _, fs, v, rest => P.con c fs = some (rest, v)
  | .splice pre suf _, fs, v, rest =>
    ∃ f n core, fs = f :: rest ∧ NameLike f n ∧ Spliced pre suf core n ∧ v = .one (.name core)

/-- A variable of a `name :: type` pattern stands for `v` if that is the one fragment, or what the constraint makes of
it. -/
def SimpleIs (P : Parsers) (s : Simple) (f : Frag) (v : Val) : Prop :=
  match s with
  | .wild _ => v = .many [f]
  | s => ∃ rest, SimpleTakes P s [f] v rest

/-- The entries of a property list, as they are written: `key: value, key: value`. -/
def written : List (Name × List Frag) → List Frag
  | [] => []
  | [(k, v)] => .lit (.symbol k) :: v
  | (k, v) :: es => .lit (.symbol k) :: (v ++ .comma :: written es)

/-- Entries of a property list have values without commas, other than within brackets. -/
def Entries (es : List (Name × List Frag)) : Prop := ∀ e ∈ es, ∀ f ∈ e.2, f ≠ .comma

/-- What the parser makes of a property list is a property list. -/
def Parsers.Proper (P : Parsers) : Prop :=
  ∀ fs pl, P.plist fs = some ([], pl) → ∃ es, Entries es ∧ pl = written es

/-- The values given for a key. -/
def given (s : Name) (es : List (Name × List Frag)) : List (List Frag) :=
  (es.filter fun e => sameSymbol e.1 s).map (·.2)

/-- What a key variable stands for: the value of the first entry with that key, else the default; a `??key` variable:
the values of all entries with that key, else the default, else nothing. -/
def KeyIs (k : Key) (es : List (Name × List Frag)) (v : Val) : Prop :=
  if k.sequence then
    v = .seq (if given k.symbol es = [] then k.default.toList.map fun d => [d] else given k.symbol es)
  else
    match given k.symbol es with
    | first :: _ => v = .many first
    | [] => ∃ d, k.default = some d ∧ v = .one d

/-- No separator among the fragments, other than within brackets. -/
def Without (sep : Frag) (fs : List Frag) : Prop := ∀ f ∈ fs, f ≠ sep

/-- The fragments are the two parts with the separator between them, where the first has no separators in it; or, if
the second part is the last one of the pattern, there is no separator and the second part is empty. -/
def TwoParts (sep : Frag) (last : Prop) (first second : List Frag → Prop) (fs : List Frag) : Prop :=
  (∃ a b, fs = a ++ sep :: b ∧ Without sep a ∧ first a ∧ second b) ∨
  (last ∧ Without sep fs ∧ first fs ∧ second [])

mutual

/-- `fs` is an instance of the pattern, its parts between semicolons. -/
def ReadsBody (P : Parsers) (ρ : Env) : List (List (List Elem)) → List Frag → Prop
  | [], _ => False
  | p :: ps, fs =>
    (ps = [] ∧ ReadsList P ρ p fs) ∨
    (ps ≠ [] ∧ TwoParts .semicolon (ps.length = 1) (ReadsList P ρ p) (ReadsBody P ρ ps) fs)

/-- `fs` is an instance of the pattern, its parts between commas. -/
def ReadsList (P : Parsers) (ρ : Env) : List (List Elem) → List Frag → Prop
  | [], _ => False
  | p :: ps, fs =>
    (ps = [] ∧ ReadsElems P ρ p fs) ∨
    (ps ≠ [] ∧ TwoParts .comma (ps.length = 1) (ReadsElems P ρ p) (ReadsList P ρ ps) fs)

/-- `fs` is an instance of the elements one after the other. -/
def ReadsElems (P : Parsers) (ρ : Env) : List Elem → List Frag → Prop
  | [], fs => fs = []
  | e :: es, fs => ∃ rest, Takes P ρ e fs rest ∧ ReadsElems P ρ es rest

/-- `fs` is an instance of the element, followed by `rest`. -/
def Takes (P : Parsers) (ρ : Env) : Elem → List Frag → List Frag → Prop
  | .word n, fs, rest => ∃ f m, fs = f :: rest ∧ NameLike f m ∧ SameName m n
  | .otherwise, fs, rest =>
    ∃ f m, NameLike f m ∧ SameName m otherwiseName ∧
      (fs = f :: .punct .arrow :: rest ∨ fs = f :: rest ∧ ∀ r, rest ≠ .punct .arrow :: r)
  | .operator n, fs, rest => ∃ m, fs = .operator m :: rest ∧ SameName m n
  | .punct p, fs, rest => fs = .punct p :: rest
  | .lit v, fs, rest => ∃ w, fs = .lit w :: rest ∧ w.same v = true
  | .simple s, fs, rest => ∃ v, SimpleTakes P s fs v rest ∧ ρ s.index = some v
  | .vari n t, fs, rest =>
    ∃ nf tf v w, P.vari fs = some (rest, nf, tf) ∧ SimpleIs P n nf v ∧ SimpleIs P t tf w ∧
      ρ n.index = some v ∧ ρ t.index = some w
  | .props r ks, fs, rest =>
    rest = [] ∧ ∃ es, Entries es ∧ P.plist fs = some ([], written es) ∧
      (∀ i, r = some i → ρ i = some (.many (written es))) ∧
      ∀ k ∈ ks, ∃ v, KeyIs k es v ∧ ρ k.index = some v
  | .nested d body, fs, rest => ∃ inner, fs = .nested d inner :: rest ∧ ReadsBody P ρ body inner

end

/-! ### Which of several instances -/

/-- How many fragments a wildcard stands for. -/
def span (ρ : Env) (i : Nat) : Nat :=
  match ρ i with
  | some (.many fs) => fs.length
  | _ => 0

mutual
/-- The wildcards of a pattern, from left to right. -/
def bodyWilds : List (List (List Elem)) → List Nat
  | [] => []
  | p :: ps => listWilds p ++ bodyWilds ps
def listWilds : List (List Elem) → List Nat
  | [] => []
  | p :: ps => elemsWilds p ++ listWilds ps
def elemsWilds : List Elem → List Nat
  | [] => []
  | e :: es => elemWilds e ++ elemsWilds es
def elemWilds : Elem → List Nat
  | .simple (.wild i) => [i]
  | .nested _ body => bodyWilds body
  | _ => []
end

/-- The first numbers that differ, if any, are smaller on the left. -/
inductive LexLe : List Nat → List Nat → Prop
  | nil : LexLe [] []
  | less {a b as bs} (h : a < b) : LexLe (a :: as) (b :: bs)
  | same {a as bs} (h : LexLe as bs) : LexLe (a :: as) (a :: bs)

/-- Every spliced variable of the pattern has a prefix or a suffix but not both. -/
def Simple.OneSided : Simple → Prop
  | .splice pre suf _ => pre = none ∨ suf = none
  | _ => True

mutual
def BodyOneSided : List (List (List Elem)) → Prop
  | [] => True
  | p :: ps => ListOneSided p ∧ BodyOneSided ps
def ListOneSided : List (List Elem) → Prop
  | [] => True
  | p :: ps => ElemsOneSided p ∧ ListOneSided ps
def ElemsOneSided : List Elem → Prop
  | [] => True
  | e :: es => ElemOneSided e ∧ ElemsOneSided es
def ElemOneSided : Elem → Prop
  | .simple s => s.OneSided
  | .vari n t => n.OneSided ∧ t.OneSided
  | .nested _ body => BodyOneSided body
  | .word _ | .otherwise | .operator _ | .punct _ | .lit _ | .props _ _ => True
end

end Verif.Macro
