import Verif.Macro.Pattern

/-
Macro expansion: rewrite rules, auxiliary rules and templates
(sources/dfmc/macro-expander/pattern-to-function.dylan, template-function.dylan, template-to-function.dylan,
template-back-end.dylan, rewrite-rules.dylan).

Hygiene marks, source locations and the kinds of names are not modelled: a fragment of a template stands for itself.
Procedural templates, `?@{ ... }` macro calls and `?name: { ... }` rule calls in templates are not modelled.
-/

namespace Verif.Macro

/-- What the elements of an expansion are: a fragment, a `<sequence-fragment>`, a `<template>`, a list, or a nested
fragment made by the template (template-back-end.dylan 25-55, 176-220, 515-537). -/
inductive Item where
  | frag (f : Frag)
  | sequence (fs : List Frag)
  | template (l : List Item)
  | list (l : List Item)
  | nested (d : Delim) (l : List Item)
deriving Repr

mutual
/-- The fragments of an element, as the lexer of `parse-template-fragments-as` delivers them
(constraint-parsing.dylan 213-249). -/
def flat : Item → List Frag
  | .frag f => [f]
  | .sequence fs => fs
  | .template l => flats l
  | .list l => flats l
  | .nested d l => [.nested d (flats l)]
def flats : List Item → List Frag
  | [] => []
  | i :: is => flat i ++ flats is
end

/-- Template elements (template-substitutions.dylan 42-65).  `sep` is a `<separator-fragment>`: a comma, a semicolon or
a binary operator (fragments.dylan 353-361, 797). -/
inductive TElem where
  | frag (f : Frag)
  | sep (f : Frag)
  | subst (i : Nat)
  | asString (i : Nat)
  | asSymbol (i : Nat)
  | spliced (pre : Name) (i : Nat) (suf : Name)
  | sequence (i : Nat) (sep : Option Frag)
  | nested (d : Delim) (body : List TElem)
deriving Repr

/-- `<maybe-empty-substitution>` (template-substitutions.dylan 33-40). -/
def TElem.maybeEmpty : TElem → Bool
  | .subst _ | .sequence _ _ => true
  | _ => false

/-- What variables stand for when the template is filled: after rewriting. -/
inductive Bound where
  | one (it : Item)
  | seq (l : List Item)
deriving Repr

/-- The environment of a template. -/
abbrev BEnv := Nat → Option Bound

/-- `maybe-substitute-separator` (template-back-end.dylan 202-220). -/
def maybeSep (s : Frag) : Item → Item
  | .list l => if l.isEmpty then .list l else .list (.frag s :: l)
  | .sequence fs => if fs.isEmpty then .list [] else .list (.frag s :: fs.map .frag)
  | .template l => if l.isEmpty then .list l else .list (.frag s :: l)
  | it => .list [.frag s, it]

/-- `empty-template-element?` (template-back-end.dylan 227-244). -/
def Item.looksEmpty : Item → Bool
  | .list l | .template l => l.isEmpty
  | .sequence fs => fs.isEmpty
  | _ => false

/-- `generate-template-function`, of what the elements make (template-function.dylan 24-29). -/
def makeTemplate (l : List Item) : Item :=
  if l.all Item.looksEmpty then .template [] else .template l

/-- `substitute-sequence-separated` after its first element (template-back-end.dylan 184-192). -/
def separatedRest (s : Frag) : List Item → List Item
  | [] => []
  | it :: l => .frag s :: it :: separatedRest s l

/-- `substitute-sequence` and `substitute-sequence-separated` (template-back-end.dylan 176-192). -/
def separated : Option Frag → List Item → List Item
  | none, l => l
  | some _, [] => []
  | some s, it :: l => it :: separatedRest s l

/-- A `<variable-name-fragment>`, or a template that is one (`as-name`, template-back-end.dylan 78-83). -/
def Item.name : Item → Option Name
  | .frag f => nameOf f
  | .template l =>
    match flats l with
    | [f] => nameOf f
    | _ => none
  | _ => none

/-- `stringify` (template-back-end.dylan 68-76): the name, or how the fragments are printed (`shown`). -/
def stringify (shown : List Frag → Name) (it : Item) : Name :=
  match it with
  | .frag f => (nameOf f).getD (shown [f])
  | it => shown (flat it)

mutual
/-- `generate-substitution-function` and `generate-one-template-element-function` (template-to-function.dylan 35-101,
template-function.dylan 72-105).  `none`: an unbound variable, or splicing of something other than a name. -/
def fillOne (shown : List Frag → Name) (env : BEnv) : TElem → Option Item
  | .frag f => some (.frag f)
  | .sep f => some (.frag f)
  | .subst i =>
    match env i with
    | some (.one it) => some it
    | _ => none
  | .asString i =>
    match env i with
    | some (.one it) => some (.frag (.lit (.string 0 (stringify shown it))))
    | _ => none
  | .asSymbol i =>
    match env i with
    | some (.one it) => some (.frag (.lit (.symbol (stringify shown it))))
    | _ => none
  | .spliced pre i suf =>
    match env i with
    | some (.one it) => it.name.map fun n => .frag (.name (pre ++ n ++ suf))
    | _ => none
  | .sequence i sep =>
    match env i with
    | some (.seq l) => some (.list (separated sep l))
    | _ => none
  | .nested d body => (fillAll shown env body).map (.nested d)

/-- `generate-template-elements-functions` (template-function.dylan 43-70). -/
def fillAll (shown : List Frag → Name) (env : BEnv) : List TElem → Option (List Item)
  | [] => some []
  | .sep s :: x :: rest =>
    if x.maybeEmpty then
      match fillOne shown env x, fillAll shown env rest with
      | some it, some l => some (maybeSep s it :: l)
      | _, _ => none
    else (fillAll shown env (x :: rest)).map (.frag s :: ·)
  | x :: rest =>
    match fillOne shown env x, fillAll shown env rest with
    | some it, some l => some (it :: l)
    | _, _ => none
end

/-- A template filled (template-function.dylan 19-31). -/
def fillTemplate (shown : List Frag → Name) (env : BEnv) (t : List TElem) : Option Item :=
  (fillAll shown env t).map makeTemplate

/-! ### Rules -/

/-- A `<rewrite-rule>` (rewrite-rules.dylan 9-77): its pattern, the names of its variables in the order of their
indexes, and its template, where variables are their indexes. -/
structure Rule where
  pattern : List (List (List Elem))
  names : List Name
  template : List TElem

/-- A macro: the main rules and the sets of auxiliary rules (rewrite-rules.dylan 127-141). -/
structure MacroDef where
  main : List Rule
  aux : List (Name × List Rule)

/-- `element(expander-aux-rule-set-table(exp), match-symbol-name(match))` (pattern-to-function.dylan 121-123). -/
def MacroDef.auxRules (m : MacroDef) (n : Name) : Option (List Rule) :=
  (m.aux.find? fun a => sameSymbol a.1 n).map (·.2)

/-- `as-fragment-tokens` on what a match binds (template-back-end.dylan 543-601). -/
def Val.tokens : Val → List Frag
  | .one f => [f]
  | .many fs => fs
  | .seq _ => []

/-- `export-fragment-tokens` (template-back-end.dylan 665-679). -/
def exportTokens : List Frag → Item
  | [] => .sequence []
  | [f] => .frag f
  | fs => .sequence fs

/-- How an expansion ends: with an expansion; with "Invalid syntax" (pattern-to-function.dylan 72-87); with an error in
a template; with a runtime error of the compiler; or not yet (the auxiliary rules go on calling one another). -/
inductive Res where
  | ok (it : Item)
  | invalid
  | badTemplate
  | crash
  | endless
deriving Repr

/-- The elements of a sequence variable are rewritten one by one (pattern-to-function.dylan 136-138). -/
def rewriteSeq (f : List Frag → Res) : List (List Frag) → Except Res (List Item)
  | [] => .ok []
  | x :: l =>
    match f x with
    | .ok it =>
      match rewriteSeq f l with
      | .ok is => .ok (it :: is)
      | .error e => .error e
    | e => .error e

/-- One binding (pattern-to-function.dylan 121-165). -/
def rewriteOne (f : List Rule → List Frag → Res) (m : MacroDef) (n : Name) (v : Val) : Except Res Bound :=
  match m.auxRules n, v with
  | some rules, .seq l =>
    match rewriteSeq (f rules) l with
    | .ok is => .ok (.seq is)
    | .error e => .error e
  | some rules, v =>
    match f rules v.tokens with
    | .ok it => .ok (.one it)
    | e => .error e
  | none, .seq l => .ok (.seq (l.map exportTokens))
  | none, v => .ok (.one (exportTokens v.tokens))

/-- All the bindings in the order of their indexes, from `i` on (pattern-to-function.dylan 117-168). -/
def rewriteAll (f : List Rule → List Frag → Res) (m : MacroDef) (env : Env) : Nat → List Name → Except Res (List Bound)
  | _, [] => .ok []
  | i, n :: ns =>
    match env i with
    | none => .error .badTemplate
    | some v =>
      match rewriteOne f m n v with
      | .error e => .error e
      | .ok b =>
        match rewriteAll f m env (i + 1) ns with
        | .error e => .error e
        | .ok bs => .ok (b :: bs)

/-- The rules of a set are tried one after the other, each with an environment of its own
(`generate-rule-function`, `generate-rules-function`, pattern-to-function.dylan 64-115). -/
def tryRules (P : Parsers) (use : Rule → Env → Res) (fs : List Frag) : List Rule → Res
  | [] => .invalid
  | r :: rs =>
    match matchPattern P r.pattern fs with
    | .crash => .crash
    | .fail _ => tryRules P use fs rs
    | .ok env => use r env

/-- After a match the bindings are rewritten and the template is filled (pattern-to-function.dylan 110-112). -/
def useRule (shown : List Frag → Name) (f : List Rule → List Frag → Res) (m : MacroDef) (r : Rule) (env : Env) : Res :=
  match rewriteAll f m env 0 r.names with
  | .error e => e
  | .ok bs =>
    match fillTemplate shown (fun i => bs[i]?) r.template with
    | none => .badTemplate
    | some it => .ok it

/-- The rewriter of a set of rules; the number bounds the depth of the calls of auxiliary rules. -/
def expandRules (P : Parsers) (shown : List Frag → Name) (m : MacroDef) : Nat → List Rule → List Frag → Res
  | 0, _, _ => .endless
  | n + 1, rules, fs => tryRules P (useRule shown (expandRules P shown m n) m) fs rules

/-- A call of the macro (pattern-to-function.dylan 45-53). -/
def expandCall (P : Parsers) (shown : List Frag → Name) (m : MacroDef) (depth : Nat) (fs : List Frag) : Res :=
  expandRules P shown m depth m.main fs

end Verif.Macro
