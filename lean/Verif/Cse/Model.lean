/-
Sharing common subexpressions in the compiler's flow graph (sources/dfmc/optimization/cse.dylan 43-295), with the
reading of the adjectives of a primitive (sources/dfmc/definitions/define-primitive.dylan 32-50), on which it rests.

Simplifications.  The graph of one function is written as nested code: the blocks of a branch, of a loop, of a
`bind-exit` and of a cleanup end with the value that the merge after them takes, and a temporary is seen in the rest of
the block that computes it and in the blocks inside of that rest.  A loop has one merge for each variable and not one
for each variable and loop call.  Multiple values, closures and the environments of functions are left out.
-/

namespace Verif.Cse

/-- What `define &primitive` may say about a primitive (definitions/define-primitive.dylan 42-44). -/
inductive Adj where
  | sideEffecting | sideEffectFree | stateless | stateful | dynamicExtent | indefiniteExtent
  deriving DecidableEq, Repr

/-- `parse-primitive-adjectives` (definitions/define-primitive.dylan 32-50): the initargs `side-effecting?:`,
`stateless?:` and `dynamic-extent?:`, or `none` for conflicting adjectives. -/
def parseAdjectives (as : List Adj) : Option (Bool × Bool × Bool) :=
  if Adj.sideEffecting ∈ as ∧ Adj.sideEffectFree ∈ as then none
  else if Adj.stateless ∈ as ∧ Adj.stateful ∈ as then none
  else if Adj.dynamicExtent ∈ as ∧ Adj.indefiniteExtent ∈ as then none
  else some (decide (Adj.sideEffecting ∈ as), !decide (Adj.stateful ∈ as), !decide (Adj.indefiniteExtent ∈ as))

/-- A primitive: its name and its adjectives (modeling/raw-types.dylan 10-26). -/
structure Prim where
  name : Nat
  adjectives : List Adj
  deriving DecidableEq, Repr

/-- `primitive-stateless?` (modeling/raw-types.dylan 24, conversion/define-primitive.dylan 22). -/
def Prim.stateless (p : Prim) : Bool :=
  match parseAdjectives p.adjectives with
  | some (_, s, _) => s
  | none => false

/-- The object of an object reference: a raw machine word with its value, or another object. -/
inductive Obj where
  | raw (id : Nat) (word : Int)
  | other (id : Nat)
  deriving DecidableEq, Repr

/-- A value reference: a temporary or an object (flow-graph). -/
inductive Ref where
  | tmp (t : Nat)
  | obj (o : Obj)
  deriving DecidableEq, Repr

/-- A slot descriptor: whether there is a setter. -/
structure Slot where
  id : Nat
  setter : Bool
  deriving DecidableEq, Repr

/-- A module binding: whether it is constant. -/
structure Binding where
  id : Nat
  constant : Bool
  deriving DecidableEq, Repr

/-- A computation without blocks: `<primitive-call>` (some have no primitive, cse.dylan 268-270), `<slot-value>`,
`<binding-reference>`, and any other (calls, assignments, allocations, ...). -/
inductive Op where
  | prim (p : Option Prim) (args : List Ref)
  | slotValue (s : Slot) (inst : Ref)
  | binding (b : Binding)
  | other (k : Nat) (args : List Ref)
  deriving DecidableEq, Repr

/-- A block of code.

* `ret r`: the end of the block; the merge after it takes `r`;
* `again rs`: `<loop-call>`, with the new values of the merges of the loop around it;
* `exit n r`: `<exit>` from the `<bind-exit>` with the entry state `n`;
* `op t o k`: the temporary `t` is what the computation `o` gives, then `k`;
* `ifs t r a b k`: `<if>` with its `<if-merge>` `t`;
* `splice t a k`: what is left of an `<if>` that has been folded to the branch `a`;
* `loop t ms a k`: `<loop>` with its `<loop-merge>`s and their initial values;
* `bindExit t n a k`, `protect t a c k`: `<bind-exit>` and `<unwind-protect>`. -/
inductive Code where
  | ret (r : Ref)
  | again (rs : List Ref)
  | exit (n : Nat) (r : Ref)
  | op (t : Nat) (o : Op) (k : Code)
  | ifs (t : Nat) (r : Ref) (a b k : Code)
  | splice (t : Nat) (a k : Code)
  | loop (t : Nat) (ms : List (Nat × Ref)) (a k : Code)
  | bindExit (t n : Nat) (a k : Code)
  | protect (t : Nat) (a c k : Code)
  deriving DecidableEq, Repr

/-- Which reference stands for a temporary, the replacements being made (`replace-temporary-in-users!`). -/
def sub (ρ : Nat → Ref) : Ref → Ref
  | .tmp t => ρ t
  | .obj o => .obj o

/-- The replacements in a computation. -/
def Op.sub (ρ : Nat → Ref) : Op → Op
  | .prim p as => .prim p (as.map (Cse.sub ρ))
  | .slotValue s r => .slotValue s (Cse.sub ρ r)
  | .binding b => .binding b
  | .other k as => .other k (as.map (Cse.sub ρ))

/-- One more entry of a table. -/
def upd {α : Type} (f : Nat → α) (t : Nat) (x : α) : Nat → α := fun t' => if t' = t then x else f t'

/-- `reusable-computation?` of an argument: of a temporary, what is known of its generator (cse.dylan 227-230; true for
a parameter, which has none: 205-208), and true for an object (247-250). -/
def reusableRef (G : Nat → Bool) : Ref → Bool
  | .tmp t => G t
  | .obj _ => true

/-- `reusable-computation?` (cse.dylan 200-203, 234-237, 266-273, 284-287). -/
def reusable (G : Nat → Bool) : Op → Bool
  | .prim (some p) as => p.stateless && as.all (reusableRef G)
  | .prim none _ => false
  | .slotValue s _ => !s.setter
  | .binding b => b.constant
  | .other _ _ => false

/-- `equivalent-computation?` of objects (cse.dylan 210-214, 258-262). -/
def equivObj : Obj → Obj → Bool
  | .raw _ x, .raw _ y => x == y
  | x, y => x == y

/-- `equivalent-computation?` of references (cse.dylan 210-220, 252-256). -/
def equivRef : Ref → Ref → Bool
  | .tmp x, .tmp y => x == y
  | .obj x, .obj y => equivObj x y
  | _, _ => false

/-- `every?` over two sequences stops with the shorter (cse.dylan 279). -/
def equivRefs : List Ref → List Ref → Bool
  | r :: rs, q :: qs => equivRef r q && equivRefs rs qs
  | _, _ => true

/-- `equivalent-computation?` (cse.dylan 216-220, 239-243, 275-280, 289-295). -/
def equiv : Op → Op → Bool
  | .prim p as, .prim q bs => p == q && equivRefs as bs
  | .slotValue s r, .slotValue s' r' => s == s' && equivRef r r'
  | .binding b, .binding b' => b == b'
  | _, _ => false

/-- `<cse-state>` and, with a test and a direction, `<cse-if-state>` (cse.dylan 47-80). -/
structure State where
  comps : List (Nat × Op)
  test : Option (Ref × Bool)

/-- A state with the states that dominate it (cse.dylan 50-51), innermost first. -/
abbrev Chain := List State

/-- The search in one state (cse.dylan 91-95). -/
def findIn (o : Op) : List (Nat × Op) → Option Nat
  | [] => none
  | (t, c) :: cs => if equiv o c then some t else findIn o cs

/-- The search in the state and those that dominate it (cse.dylan 89-96). -/
def find (o : Op) : Chain → Option Nat
  | [] => none
  | s :: ss =>
    match findIn o s.comps with
    | some t => some t
    | none => find o ss

/-- `add!` to the innermost state (cse.dylan 97). -/
def addComp (t : Nat) (o : Op) : Chain → Chain
  | [] => [⟨[(t, o)], none⟩]
  | s :: ss => { s with comps := s.comps ++ [(t, o)] } :: ss

/-- `cse-lookup-reusable-if-test` (cse.dylan 139-152).  The loop asks the innermost state again and again.  Only
temporaries are looked at: an `if` of an object has been folded before. -/
def knownTest (G : Nat → Bool) (ch : Chain) (r : Ref) : Option Bool :=
  match r, ch with
  | .tmp t, s :: _ =>
    if G t then
      match s.test with
      | some (q, d) => if q = .tmp t then some d else none
      | none => none
    else none
  | _, _ => none

/-- The merges of a loop: reusable (cse.dylan 222-225). -/
def markAll (G : Nat → Bool) (ts : List Nat) : Nat → Bool := fun t => if t ∈ ts then true else G t

/-- `cse-walk-computations` and `cse-walk-computation` (cse.dylan 113-137, 154-192) as they are meant: the walk over a
branch ends at the merge.  `ρ` are the replacements made, `G` says which temporaries are reusable. -/
def walk : Code → (Nat → Ref) → (Nat → Bool) → Chain → Code
  | .ret r, ρ, _, _ => .ret (sub ρ r)
  | .again rs, ρ, _, _ => .again (rs.map (sub ρ))
  | .exit n r, ρ, _, _ => .exit n (sub ρ r)
  | .op t o k, ρ, G, ch =>
    if ρ t ≠ .tmp t then walk k ρ G ch
    else if reusable G (o.sub ρ) then
      match find (o.sub ρ) ch with
      | some t' => walk k (upd ρ t (.tmp t')) G ch
      | none => .op t (o.sub ρ) (walk k ρ (upd G t true) (addComp t (o.sub ρ) ch))
    else .op t (o.sub ρ) (walk k ρ (upd G t false) ch)
  | .ifs t r a b k, ρ, G, ch =>
    match knownTest G ch (sub ρ r) with
    | some true => .splice t (walk a ρ G (⟨[], some (sub ρ r, true)⟩ :: ch)) (walk k ρ (upd G t false) ch)
    | some false => .splice t (walk b ρ G (⟨[], some (sub ρ r, false)⟩ :: ch)) (walk k ρ (upd G t false) ch)
    | none =>
      .ifs t (sub ρ r) (walk a ρ G (⟨[], some (sub ρ r, true)⟩ :: ch))
        (walk b ρ G (⟨[], some (sub ρ r, false)⟩ :: ch)) (walk k ρ (upd G t false) ch)
  | .splice t a k, ρ, G, ch => .splice t (walk a ρ G (⟨[], none⟩ :: ch)) (walk k ρ (upd G t false) ch)
  | .loop t ms a k, ρ, G, ch =>
    .loop t (ms.map fun m => (m.1, sub ρ m.2)) (walk a ρ (markAll G (ms.map (·.1))) (⟨[], none⟩ :: ch))
      (walk k ρ (upd G t false) ch)
  | .bindExit t n a k, ρ, G, ch => .bindExit t n (walk a ρ G (⟨[], none⟩ :: ch)) (walk k ρ (upd G t false) ch)
  | .protect t a c k, ρ, G, ch =>
    .protect t (walk a ρ G (⟨[], none⟩ :: ch)) (walk c ρ G (⟨[], none⟩ :: ch)) (walk k ρ (upd G t false) ch)

/-- What a walk leaves behind: the replacements made, which temporaries are reusable, the states. -/
structure Left where
  made : List (Nat × Nat)
  G : Nat → Bool
  chain : Chain

/-- Replacements put into a table. -/
def extend (ρ : Nat → Ref) : List (Nat × Nat) → Nat → Ref
  | [] => ρ
  | (t, t') :: es => upd (extend ρ es) t (.tmp t')

/-- What a walk over code leaves behind.  Simplification: a second `if` to be folded is not followed out of its branch
in turn. -/
def leave : Code → (Nat → Ref) → (Nat → Bool) → Chain → Left
  | .ret _, _, G, ch | .again _, _, G, ch | .exit _ _, _, G, ch => ⟨[], G, ch⟩
  | .op t o k, ρ, G, ch =>
    if ρ t ≠ .tmp t then leave k ρ G ch
    else if reusable G (o.sub ρ) then
      match find (o.sub ρ) ch with
      | some t' =>
        let l := leave k (upd ρ t (.tmp t')) G ch
        ⟨l.made ++ [(t, t')], l.G, l.chain⟩
      | none => leave k ρ (upd G t true) (addComp t (o.sub ρ) ch)
    else leave k ρ (upd G t false) ch
  | .ifs t r a b k, ρ, G, ch =>
    let la := leave a ρ G (⟨[], some (sub ρ r, true)⟩ :: ch)
    let lb := leave b (extend ρ la.made) G (⟨[], some (sub ρ r, false)⟩ :: ch)
    let lk := leave k (extend (extend ρ la.made) lb.made) (upd G t false) ch
    ⟨lk.made ++ lb.made ++ la.made, lk.G, lk.chain⟩
  | .splice t a k, ρ, G, ch | .bindExit t _ a k, ρ, G, ch =>
    let la := leave a ρ G (⟨[], none⟩ :: ch)
    let lk := leave k (extend ρ la.made) (upd G t false) ch
    ⟨lk.made ++ la.made, lk.G, lk.chain⟩
  | .loop t ms a k, ρ, G, ch =>
    let la := leave a ρ (markAll G (ms.map (·.1))) (⟨[], none⟩ :: ch)
    let lk := leave k (extend ρ la.made) (upd G t false) ch
    ⟨lk.made ++ la.made, lk.G, lk.chain⟩
  | .protect t a c k, ρ, G, ch =>
    let la := leave a ρ G (⟨[], none⟩ :: ch)
    let lc := leave c (extend ρ la.made) G (⟨[], none⟩ :: ch)
    let lk := leave k (extend (extend ρ la.made) lc.made) (upd G t false) ch
    ⟨lk.made ++ lc.made ++ la.made, lk.G, lk.chain⟩

/-- The walk goes on over the code after the branch, in the state of the branch. -/
def leaveAll : List Code → (Nat → Ref) → (Nat → Bool) → Chain → List (Nat × Nat)
  | [], _, _, _ => []
  | c :: cs, ρ, G, ch =>
    let l := leave c ρ G ch
    leaveAll cs (extend ρ l.made) l.G l.chain ++ l.made

/-- What the walk over a block gives: the code, the replacements that it makes in code after the block, and whether an
`if` was folded. -/
structure Walked where
  code : Code
  out : List (Nat × Nat)
  folded : Bool

/-- The fold of an `if` to the branch `x` (cse.dylan 159-170).  `fold-if-merge!` makes the code after the merge follow
the branch (constant-folding.dylan 39-44), so the walk over the branch never meets the merge at which it would end
(cse.dylan 118, 166, 170): it goes on over `k` and everything after it, `outer`, in the state of the branch.  Then `k` is
walked as usual. -/
def foldOut (x k : Code) (q : Ref) (d : Bool) (t : Nat) (outer : List Code) (ρ : Nat → Ref) (G : Nat → Bool)
    (ch : Chain) : List (Nat × Nat) :=
  let l := leave x ρ G (⟨[], some (q, d)⟩ :: ch)
  leaveAll (k :: outer) (extend ρ l.made) (upd l.G t false) l.chain

/-- `cse-walk-computations` as it is (cse.dylan 113-192).  `outer` is the code after the block, up to the end of the
function. -/
def walkOut : Code → (Nat → Ref) → (Nat → Bool) → Chain → List Code → Walked
  | .ret r, ρ, _, _, _ => ⟨.ret (sub ρ r), [], false⟩
  | .again rs, ρ, _, _, _ => ⟨.again (rs.map (sub ρ)), [], false⟩
  | .exit n r, ρ, _, _, _ => ⟨.exit n (sub ρ r), [], false⟩
  | .op t o k, ρ, G, ch, outer =>
    if ρ t ≠ .tmp t then walkOut k ρ G ch outer
    else if reusable G (o.sub ρ) then
      match find (o.sub ρ) ch with
      | some t' => walkOut k (upd ρ t (.tmp t')) G ch outer
      | none =>
        let w := walkOut k ρ (upd G t true) (addComp t (o.sub ρ) ch) outer
        ⟨.op t (o.sub ρ) w.code, w.out, w.folded⟩
    else
      let w := walkOut k ρ (upd G t false) ch outer
      ⟨.op t (o.sub ρ) w.code, w.out, w.folded⟩
  | .ifs t r a b k, ρ, G, ch, outer =>
    match knownTest G ch (sub ρ r) with
    | some true =>
      let es := foldOut a k (sub ρ r) true t outer ρ G ch
      let wa := walkOut a ρ G (⟨[], some (sub ρ r, true)⟩ :: ch) (k :: outer)
      let wk := walkOut k (extend (extend ρ wa.out) es) (upd G t false) ch outer
      ⟨.splice t wa.code wk.code, wk.out ++ es ++ wa.out, true⟩
    | some false =>
      let es := foldOut b k (sub ρ r) false t outer ρ G ch
      let wb := walkOut b ρ G (⟨[], some (sub ρ r, false)⟩ :: ch) (k :: outer)
      let wk := walkOut k (extend (extend ρ wb.out) es) (upd G t false) ch outer
      ⟨.splice t wb.code wk.code, wk.out ++ es ++ wb.out, true⟩
    | none =>
      let wa := walkOut a ρ G (⟨[], some (sub ρ r, true)⟩ :: ch) (k :: outer)
      let wb := walkOut b (extend ρ wa.out) G (⟨[], some (sub ρ r, false)⟩ :: ch) (k :: outer)
      let wk := walkOut k (extend (extend ρ wa.out) wb.out) (upd G t false) ch outer
      ⟨.ifs t (sub ρ r) wa.code wb.code wk.code, wk.out ++ wb.out ++ wa.out, wa.folded || wb.folded || wk.folded⟩
  | .splice t a k, ρ, G, ch, outer =>
    let wa := walkOut a ρ G (⟨[], none⟩ :: ch) (k :: outer)
    let wk := walkOut k (extend ρ wa.out) (upd G t false) ch outer
    ⟨.splice t wa.code wk.code, wk.out ++ wa.out, wa.folded || wk.folded⟩
  | .loop t ms a k, ρ, G, ch, outer =>
    let wa := walkOut a ρ (markAll G (ms.map (·.1))) (⟨[], none⟩ :: ch) (k :: outer)
    let wk := walkOut k (extend ρ wa.out) (upd G t false) ch outer
    ⟨.loop t (ms.map fun m => (m.1, sub ρ m.2)) wa.code wk.code, wk.out ++ wa.out, wa.folded || wk.folded⟩
  | .bindExit t n a k, ρ, G, ch, outer =>
    let wa := walkOut a ρ G (⟨[], none⟩ :: ch) (k :: outer)
    let wk := walkOut k (extend ρ wa.out) (upd G t false) ch outer
    ⟨.bindExit t n wa.code wk.code, wk.out ++ wa.out, wa.folded || wk.folded⟩
  | .protect t a c k, ρ, G, ch, outer =>
    let wa := walkOut a ρ G (⟨[], none⟩ :: ch) (k :: outer)
    let wc := walkOut c (extend ρ wa.out) G (⟨[], none⟩ :: ch) (k :: outer)
    let wk := walkOut k (extend (extend ρ wa.out) wc.out) (upd G t false) ch outer
    ⟨.protect t wa.code wc.code wk.code, wk.out ++ wc.out ++ wa.out, wa.folded || wc.folded || wk.folded⟩

/-- `share-common-subexpressions` of the body of a function (cse.dylan 104-111): no replacement has been made, only
the parameters are reusable temporaries. -/
def share (params : List Nat) (body : Code) : Code :=
  (walkOut body .tmp (fun t => decide (t ∈ params)) [⟨[], none⟩] []).code

/-- Whether `share-common-subexpressions` folds an `if`. -/
def folds (params : List Nat) (body : Code) : Bool :=
  (walkOut body .tmp (fun t => decide (t ∈ params)) [⟨[], none⟩] []).folded

/-- The sharing as it is meant, the walk over a branch ending at its merge. -/
def shareMeant (params : List Nat) (body : Code) : Code :=
  walk body .tmp (fun t => decide (t ∈ params)) [⟨[], none⟩]

end Verif.Cse
