/-!
# Regular expressions and patterns of file names in the build system

`sources/lib/jam/regular-expression.dylan` (RE), `sources/lib/jam/jam-glob.dylan` (GL), the accepting node of
`sources/lib/jam/jam-regular-expression.dylan` (JR) and `union` of `sources/dylan/sequence.dylan` (SEQ): patterns are parsed to
regular expressions, these are made into a deterministic automaton by way of their positions, and the automaton reads the
string.

Simplifications: characters are given by their codes, which are less than 256; the position in a pattern is given by the rest
of the pattern; a set of characters is the list of its members; `deterministic?` is false, as in all calls; the table of the
states is searched with its test, not by hash codes.  The loop of `regular-expression-dfa` has a bound on its rounds; the
theorems show that there is one that is not reached.
-/

namespace Verif.Glob

/-- The classes of nodes that are positions (RE:34-57, RE:104-106, JR:158-160). -/
inductive Kind where
  | sym (c : Nat)
  | set (cs : List Nat)
  | accept
  deriving DecidableEq, Repr

/-- A node that is a position: an object with its identity. -/
structure Pos where
  id : Nat
  kind : Kind
  deriving DecidableEq, Repr

/-- `<regular-expression>` (RE:13-106). -/
inductive Re where
  | eps
  | leaf (p : Pos)
  | union (a b : Re)
  | cat (a b : Re)
  | star (a : Re)
  deriving Repr

/-- `regular-expression-nullable?` (RE:108-112, RE:143-145, RE:160-162, RE:188). -/
def Re.nullable : Re → Bool
  | .eps => true
  | .leaf _ => false
  | .union a b => a.nullable || b.nullable
  | .cat a b => a.nullable && b.nullable
  | .star _ => true

/-- `regular-expression-first-positions` (RE:117-119, RE:146-148, RE:163-169, RE:189-190). -/
def Re.first : Re → List Pos
  | .eps => []
  | .leaf p => [p]
  | .union a b => a.first ++ b.first
  | .cat a b => if a.nullable then a.first ++ b.first else a.first
  | .star a => a.first

/-- `regular-expression-last-positions` (RE:117-119, RE:149-151, RE:170-176, RE:191-192). -/
def Re.last : Re → List Pos
  | .eps => []
  | .leaf p => [p]
  | .union a b => a.last ++ b.last
  | .cat a b => if b.nullable then a.last ++ b.last else b.last
  | .star a => a.last

/-- `union` (SEQ:413-427). -/
def unionList (s1 s2 : List Pos) : List Pos := s1.foldl (fun new item => if item ∈ s2 then new else item :: new) s2

/-- `regular-expression-follow-positions` of all positions. -/
abbrev Follow := Pos → List Pos

/-- The loops over last positions (RE:179-182, RE:196-199). -/
def addFollow (combine : List Pos → List Pos → List Pos) (followers : List Pos) : List Pos → Follow → Follow
  | [], f => f
  | p :: l, f => addFollow combine followers l fun q => if q = p then combine (f q) followers else f q

/-- What making the nodes of a regular expression does to the follow positions (RE:138-200), from the leaves on. -/
def Re.init : Re → Follow → Follow
  | .eps, f => f
  | .leaf _, f => f
  | .union a b, f => b.init (a.init f)
  | .cat a b, f => addFollow (· ++ ·) b.first a.last (b.init (a.init f))
  | .star a, f => addFollow unionList a.first a.last (a.init f)

/-- The test of `<set-table>` (RE:277-280). -/
def sameSet (s1 s2 : List Pos) : Bool := s1.length == s2.length && s1.all fun p => decide (p ∈ s2)

/-- The states of the automaton while it is made (RE:217-219) and their slots: state `i` was made as the `i`th, with the label
`labels[i]`. -/
structure Dfa where
  labels : List (List Pos)
  work : List (Nat × List Pos)
  trans : Nat → Nat → Option Nat
  accepting : Nat → Bool

/-- `locate-state` (RE:221-241). -/
def locate (label : List Pos) (d : Dfa) : Nat × Dfa :=
  match d.labels.findIdx? (sameSet label) with
  | some i => (i, d)
  | none =>
    (d.labels.length, { d with labels := d.labels ++ [label], work := d.work ++ [(d.labels.length, label)] })

/-- A position added to the transitions of a state for one symbol (RE:316-328, RE:338-350). -/
def addTrans (follow : List Pos) (c : Nat) (t : Nat → Option (List Pos)) : Nat → Option (List Pos) := fun x =>
  if x = c then
    match t x with
    | some present => some (unionList present follow)
    | none => some follow
  else t x

/-- `do-regular-expression-dfa-state-position` (RE:309-352, JR:166-172). -/
def doPosition (f : Follow) (s : (Nat → Option (List Pos)) × Bool) (p : Pos) : (Nat → Option (List Pos)) × Bool :=
  match p.kind with
  | .sym c => (addTrans (f p) c s.1, s.2)
  | .set cs => (cs.foldl (fun t c => addTrans (f p) c t) s.1, s.2)
  | .accept => (s.1, true)

/-- The loop that replaces labels by states (RE:256-266), in a vector of 256 elements (GL:127-129). -/
def resolve (t : Nat → Option (List Pos)) (i : Nat) : List Nat → Dfa → Dfa
  | [], d => d
  | c :: cs, d =>
    match t c with
    | none => resolve t i cs d
    | some l =>
      resolve t i cs { (locate l d).2 with
        trans := fun s x => if s = i ∧ x = c then some (locate l d).1 else (locate l d).2.trans s x }

/-- The transitions of a label before they are replaced (RE:250-253). -/
def collect (f : Follow) (label : List Pos) : (Nat → Option (List Pos)) × Bool :=
  label.foldl (doPosition f) (fun _ => none, false)

/-- A state of the worklist (RE:247-266). -/
def visit (f : Follow) (i : Nat) (label : List Pos) (d : Dfa) : Dfa :=
  resolve (collect f label).1 i (List.range 256)
    { d with accepting := fun s => if s = i then (collect f label).2 else d.accepting s }

/-- The loop of `regular-expression-dfa` (RE:245-267). -/
def build (f : Follow) : Nat → Dfa → Option Dfa
  | 0, _ => none
  | n + 1, d =>
    match d.work with
    | [] => some d
    | (i, label) :: w => build f n (visit f i label { d with work := w })

/-- `regular-expression-dfa` (RE:208-269): the start state and the automaton. -/
def dfa (fuel : Nat) (r : Re) : Option (Nat × Dfa) :=
  let s := locate r.first ⟨[], [], fun _ _ => none, fun _ => false⟩
  (build (r.init fun _ => []) fuel s.2).map fun d => (s.1, d)

/-- The loop of the matcher (GL:132-142). -/
def run (d : Dfa) : Nat → List Nat → Bool
  | s, [] => d.accepting s
  | s, c :: w =>
    match d.trans s c with
    | none => false
    | some s' => run d s' w

/-! ### Patterns -/

/-- The code of a character. -/
abbrev code (c : Char) : Nat := c.toNat

/-- The codes from one to another one. -/
def codes (a b : Nat) : List Nat := (List.range (b + 1)).filter fun x => a ≤ x

/-- The loop over the characters between brackets (GL:53-64): the set, and the rest of the pattern.  The flag tells that
`pos = i + 1`.  The first argument bounds the rounds; the rest of the pattern gets shorter in each. -/
def classLoop : Nat → Bool → List Nat → List Nat → List Nat × List Nat
  | 0, _, rest, set => (set, rest)
  | _ + 1, _, [], set => (set, [])
  | n + 1, first, c :: r, set =>
    if c ≠ code ']' ∨ first = true then
      match r with
      | d :: e :: r' =>
        if d = code '-' then classLoop n false r' (set ++ codes c e) else classLoop n false (d :: e :: r') (set ++ [c])
      | r => classLoop n false r (set ++ [c])
    else (set, c :: r)

/-- `member?(symbol, complement-set)` and `member?(symbol, cclass-set)` (GL:68-86): the members in their order. -/
def members (complement : Bool) (set : List Nat) : List Nat :=
  (List.range 256).filter fun x => if complement then decide (x ∉ set) else decide (x ∈ set)

/-- The set between brackets (GL:46-86), or `none` for the error. -/
def parseClass (rest : List Nat) : Option (List Nat × List Nat) :=
  let complement : Bool := decide (rest.head? = some (code '^'))
  let r := classLoop (rest.length + 1) true (if complement then rest.tail else rest) []
  match r.2 with
  | [] => none
  | _ :: rest' => some (members complement r.1, rest')

/-- `parse-glob-pattern` (GL:17-109): the node and the number of objects made.  The first argument bounds the rounds; the rest
of the pattern gets shorter in each. -/
def parseLoop : Nat → Re → Nat → List Nat → Option (Re × Nat)
  | _, node, k, [] => some (node, k)
  | 0, _, _, _ :: _ => none
  | n + 1, node, k, c :: rest =>
    if c = code '?' then parseLoop n (.cat node (.leaf ⟨k, .set (List.range 256)⟩)) (k + 1) rest
    else if c = code '*' then parseLoop n (.cat node (.star (.leaf ⟨k, .set (List.range 256)⟩))) (k + 1) rest
    else if c = code '[' then
      match parseClass rest with
      | none => none
      | some (set, rest') => parseLoop n (.cat node (.leaf ⟨k, .set set⟩)) (k + 1) rest'
    else if c = code '\\' then
      match rest with
      | [] => none
      | x :: rest' => parseLoop n (.cat node (.leaf ⟨k, .sym x⟩)) (k + 1) rest'
    else parseLoop n (.cat node (.leaf ⟨k, .sym c⟩)) (k + 1) rest

/-- `parse-glob-pattern`. -/
def parseGlob (k : Nat) (pattern : List Nat) : Option (Re × Nat) := parseLoop pattern.length .eps k pattern

/-- The loop over the other patterns (GL:116-120). -/
def parseMore : Re → Nat → List (List Nat) → Option (Re × Nat)
  | r, k, [] => some (r, k)
  | r, k, p :: ps =>
    match parseGlob k p with
    | none => none
    | some (r', k') => parseMore (.union r r') k' ps

/-- The regular expression of `glob-match-function` (GL:114-126). -/
def globRe (pattern : List Nat) (more : List (List Nat)) : Option Re :=
  match parseGlob 0 pattern with
  | none => none
  | some (r, k) => (parseMore r k more).map fun q => .cat q.1 (.leaf ⟨q.2, .accept⟩)

/-- `glob-match-function` (GL:111-143), with a bound on the rounds: the automaton. -/
def globMatcher (fuel : Nat) (pattern : List Nat) (more : List (List Nat)) : Option (Nat × Dfa) :=
  (globRe pattern more).bind (dfa fuel)

/-- A call of the function that `glob-match-function` returns (GL:132-142). -/
def callMatcher (m : Nat × Dfa) (string : List Nat) : Bool := run m.2 m.1 string

end Verif.Glob
