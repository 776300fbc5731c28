import Verif.Macro.Expand
import Verif.Macro.PatternSpec

/-
What the expansion of a macro call should be: fragments, without the way they are represented on the way.
-/

namespace Verif.Macro

/-- What a variable stands for in a template: fragments, or a sequence of them. -/
inductive Text where
  | single (fs : List Frag)
  | several (l : List (List Frag))

/-- The parts one after the other, with the separator between them, if any. -/
def joined : Option Frag → List (List Frag) → List Frag
  | none, l => l.flatten
  | some s, l => (l.intersperse [s]).flatten

/-- A substitution that stands for nothing. -/
def StandsForNothing (σ : Nat → Option Text) : TElem → Prop
  | .subst i => σ i = some (.single [])
  | .sequence i sep => ∃ l, σ i = some (.several l) ∧ joined sep l = []
  | _ => False

/-- The template begins with a separator before a substitution that stands for nothing. -/
def LeavesOut (σ : Nat → Option Text) (t : List TElem) : Prop :=
  ∃ s x r, t = .sep s :: x :: r ∧ StandsForNothing σ x

mutual
/-- `fs` is what the template element stands for. -/
inductive Makes (shown : List Frag → Name) (σ : Nat → Option Text) : TElem → List Frag → Prop
  | frag (f) : Makes shown σ (.frag f) [f]
  | sep (f) : Makes shown σ (.sep f) [f]
  | subst (i fs) (h : σ i = some (.single fs)) : Makes shown σ (.subst i) fs
  | asString (i fs) (h : σ i = some (.single fs)) : Makes shown σ (.asString i) [.lit (.string 0 (shown fs))]
  | asSymbol (i fs) (h : σ i = some (.single fs)) : Makes shown σ (.asSymbol i) [.lit (.symbol (shown fs))]
  | spliced (pre i suf f n) (h : σ i = some (.single [f])) (hn : NameLike f n) :
    Makes shown σ (.spliced pre i suf) [.name (pre ++ n ++ suf)]
  | sequence (i sep l) (h : σ i = some (.several l)) : Makes shown σ (.sequence i sep) (joined sep l)
  | nested (d body fs) (h : Fills shown σ body fs) : Makes shown σ (.nested d body) [.nested d fs]

/-- `fs` is what the template stands for: what its elements stand for, one after the other, but separators before
substitutions that stand for nothing are left out. -/
inductive Fills (shown : List Frag → Name) (σ : Nat → Option Text) : List TElem → List Frag → Prop
  | nil : Fills shown σ [] []
  | leftOut (s x r fs) (h : StandsForNothing σ x) (hr : Fills shown σ r fs) : Fills shown σ (.sep s :: x :: r) fs
  | cons (x r a fs) (h : ¬ LeavesOut σ (x :: r)) (hx : Makes shown σ x a) (hr : Fills shown σ r fs) :
    Fills shown σ (x :: r) (a ++ fs)
end

/-- What a variable of the template stands for. -/
def Bound.text : Bound → Text
  | .one it => .single (flat it)
  | .seq l => .several (l.map flat)

/-- The environment, as fragments. -/
def texts (env : BEnv) : Nat → Option Text := fun i => (env i).map Bound.text

/-- An element that has no fragments looks empty. -/
def Item.Tidy (it : Item) : Prop := flat it = [] → it.looksEmpty = true

/-- An element that matches as a name if it is one. -/
def Item.Normal : Item → Prop
  | .list _ => False
  | .sequence fs => fs.length ≠ 1
  | _ => True

/-- What the rewriting of bindings delivers. -/
def BEnv.Tidy (env : BEnv) : Prop :=
  (∀ i it, env i = some (.one it) → it.Tidy ∧ it.Normal) ∧
  ∀ i l, env i = some (.seq l) → ∀ it ∈ l, flat it ≠ []

/-- A variable that stands for fragments, not for a sequence of them (`??x`). -/
def Val.Single : Val → Prop
  | .seq _ => False
  | _ => True

/-- The reading of the fragments by a pattern: the wildcards, from left to right, stand for as few fragments as
possible. -/
def Reading (P : Parsers) (p : List (List (List Elem))) (fs : List Frag) (ρ : Env) : Prop :=
  ReadsBody P ρ p fs ∧ ∀ ρ', ReadsBody P ρ' p fs → LexLe ((bodyWilds p).map (span ρ)) ((bodyWilds p).map (span ρ'))

mutual
/-- `out` is an expansion of `fs` by the rules: by the first one of which `fs` is an instance. -/
inductive Expands (P : Parsers) (shown : List Frag → Name) (m : MacroDef) : List Rule → List Frag → List Frag → Prop
  | intro (before r after fs) (ρ : Env) (σ : Nat → Option Text) (out)
    (hb : ∀ b ∈ before, ∀ ρ', ¬ ReadsBody P ρ' b.pattern fs)
    (hr : Reading P r.pattern fs ρ)
    (hl : ∀ i, r.names.length ≤ i → σ i = none)
    (hv : ∀ i n v, r.names[i]? = some n → ρ i = some v → Stands P shown m n v (σ i))
    (ht : Fills shown σ r.template out) : Expands P shown m (before ++ r :: after) fs out

/-- What a variable stands for in the template: what the auxiliary rules of its name make of what it was matched to, or
that itself if there are none. -/
inductive Stands (P : Parsers) (shown : List Frag → Name) (m : MacroDef) : Name → Val → Option Text → Prop
  | plain (n v) (h : m.auxRules n = none) (hv : v.Single) : Stands P shown m n v (some (.single v.tokens))
  | ruled (n v rules out) (h : m.auxRules n = some rules) (hv : v.Single) (he : Expands P shown m rules v.tokens out) :
    Stands P shown m n v (some (.single out))
end

mutual
/-- No `??x` in the pattern. -/
def BodyNoSeq : List (List (List Elem)) → Prop
  | [] => True
  | p :: ps => ListNoSeq p ∧ BodyNoSeq ps
def ListNoSeq : List (List Elem) → Prop
  | [] => True
  | p :: ps => ElemsNoSeq p ∧ ListNoSeq ps
def ElemsNoSeq : List Elem → Prop
  | [] => True
  | e :: es => ElemNoSeq e ∧ ElemsNoSeq es
def ElemNoSeq : Elem → Prop
  | .props _ ks => ∀ k ∈ ks, k.sequence = false
  | .nested _ body => BodyNoSeq body
  | .word _ | .otherwise | .operator _ | .punct _ | .lit _ | .simple _ | .vari _ _ => True
end

/-- A rule as the compiler makes it: the variables are numbered in their order (rewrite-rules.dylan 45-77); no `??x`
in it, and no spliced variable with a prefix and a suffix. -/
structure Rule.Plain (r : Rule) : Prop where
  vars : bodyVars r.pattern = List.range r.names.length
  noSeq : BodyNoSeq r.pattern
  oneSided : BodyOneSided r.pattern

/-- All the rules of a macro are such. -/
def MacroDef.Plain (m : MacroDef) : Prop :=
  (∀ r ∈ m.main, r.Plain) ∧ ∀ a ∈ m.aux, ∀ r ∈ a.2, r.Plain

/-- What the parser delivers for a constraint is not a sequence of sequences. -/
def Parsers.Flat (P : Parsers) : Prop := ∀ c fs rest v, P.con c fs = some (rest, v) → v.Single

/-- A name is printed as itself. -/
def ShowsNames (shown : List Frag → Name) : Prop := ∀ f n, NameLike f n → shown [f] = n

end Verif.Macro
