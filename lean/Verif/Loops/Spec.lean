/-
What `for` means, step by step as in the Dylan Reference Manual (chapter 7, "for"; the text is repeated in the
comments of convert-loops.dylan).  Bindings are lists of names and values, the last made first; the values of
variables bound outside and of code are as in `World` and `Exp`.

`early` is a variation: the next values are checked against the types one by one, as they are obtained, instead of
all after step 7.
-/
import Verif.Loops.Model

namespace Verif.Loops

section
variable {V S E N : Type} (W : World V S E N) [DecidableEq N]

/-- The value of an expression. -/
def value (ρ : List (N × V)) : Exp V S E N → S → Res S E V
  | .const v, s => .ok s v
  | .var x, s => .ok s ((lookup ρ x).getD (W.outer x))
  | .code f, s => f (lookup ρ) s

def valueTy (ρ : List (N × V)) : Option (Exp V S E N) → S → Res S E (Option V)
  | none, s => .ok s none
  | some e, s => (value W ρ e s).bind fun v s => .ok s (some v)

/-- The first value of a call. -/
def call1 (f : V) (args : List V) (s : S) : Res S E V :=
  (W.call f args s).bind fun vs s => .ok s (vs.headD W.no)

/-- A clause when its expressions that are executed once have been executed. -/
inductive Live (V S E N : Type) where
  | explicit (x : N) (ty : Option V) (next : Exp V S E N)
  | numeric (x : N) (ty : Option V) (bound : Option (Dir × V)) (inc : V) (down : Bool)
  | collection (x : N) (ty : Option V) (key set : Option N)
      (coll limit next finished currentKey currentElement currentElementSetter : V)

def valueBound : Option (Dir × Exp V S E N) → S → Res S E (Option (Dir × V))
  | none, s => .ok s none
  | some (d, e), s => (value W [] e s).bind fun v s => .ok s (some (d, v))

/-- Step 1: execute the expressions that are executed just once, in left to right order.  The result is the clause
with its first value, or with the first state of the iteration over a collection. -/
def once : Clause V S E N → S → Res S E (Live V S E N × V)
  | .explicit x ty init next, s =>
    (valueTy W [] ty s).bind fun ty s =>
    (value W [] init s).bind fun v s => .ok s (.explicit x ty next, v)
  | .numeric x ty start bound by', s =>
    (valueTy W [] ty s).bind fun ty s =>
    (value W [] start s).bind fun v s =>
    (valueBound W bound s).bind fun b s =>
    (value W [] by' s).bind fun k s =>
    (call1 W W.lt [k, W.zero] s).bind fun d s => .ok s (.numeric x ty b k (!W.isNo d), v)
  | .collection x ty key set coll using', s =>
    (valueTy W [] ty s).bind fun ty s =>
    (value W [] coll s).bind fun c s =>
    (value W [] using' s).bind fun u s =>
    (W.call u [c] s).bind fun p s =>
      let at' := fun k => p.getD k W.no
      .ok s (.collection x ty key set c (at' 1) (at' 2) (at' 3) (at' 4) (at' 5) (at' 6), at' 0)

def onces : List (Clause V S E N) → S → Res S E (List (Live V S E N × V))
  | [], s => .ok s []
  | c :: cs, s => (once W c s).bind fun p s => (onces cs s).bind fun ps s => .ok s (p :: ps)

/-- Is the value of the specified type? -/
def typed (ty : Option V) (v : V) (s : S) : Res S E Unit :=
  match ty with
  | none => .ok s ()
  | some t => if W.inst v t then .ok s () else .exit s (W.typeError v t)

/-- Steps 2 and 8: create the bindings of explicit step and numeric clauses: the types are checked in order. -/
def check : Live V S E N × V → S → Res S E Unit
  | (.explicit _ ty _, v), s => typed W ty v s
  | (.numeric _ ty _ _ _, v), s => typed W ty v s
  | (.collection .., _), s => .ok s ()

def checks : List (Live V S E N × V) → S → Res S E Unit
  | [], s => .ok s ()
  | p :: ps, s => (check W p s).bind fun _ s => checks ps s

/-- The bindings of explicit step and numeric clauses, in front of others. -/
def bindings : List (Live V S E N × V) → List (N × V) → List (N × V)
  | [], ρ => ρ
  | (.explicit x .., v) :: ps, ρ => bindings ps ((x, v) :: ρ)
  | (.numeric x .., v) :: ps, ρ => bindings ps ((x, v) :: ρ)
  | (.collection .., _) :: ps, ρ => bindings ps ρ

/-- Step 3: is the clause exhausted? -/
def exhausted1 : Live V S E N × V → S → Res S E Bool
  | (.explicit .., _), s => .ok s false
  | (.numeric _ _ none _ _, _), s => .ok s false
  | (.numeric _ _ (some (.below, b)) _ _, v), s =>
    (call1 W W.lt [v, b] s).bind fun r s => .ok s (W.isNo r)
  | (.numeric _ _ (some (.above, b)) _ _, v), s =>
    (call1 W W.lt [b, v] s).bind fun r s => .ok s (W.isNo r)
  | (.numeric _ _ (some (.to, b)) _ down, v), s =>
    (call1 W W.lt (if down then [v, b] else [b, v]) s).bind fun r s => .ok s (!W.isNo r)
  | (.collection _ _ _ _ c limit _ finished _ _ _, v), s =>
    (call1 W finished [c, v, limit] s).bind fun r s => .ok s (!W.isNo r)

/-- Step 3: is a clause exhausted?  The clauses after one that is are not asked. -/
def exhausted : List (Live V S E N × V) → S → Res S E Bool
  | [], s => .ok s false
  | p :: ps, s => (exhausted1 W p s).bind fun b s => if b then .ok s true else exhausted ps s

/-- The binding of the key of an element, if there is to be one. -/
def keyed (currentKey c v : V) (ρ : List (N × V)) : Option N → S → Res S E (List (N × V))
  | none, s => .ok s ρ
  | some y, s => (call1 W currentKey [c, v] s).bind fun k s => .ok s ((y, k) :: ρ)

/-- The binding of the function that sets an element, if there is to be one. -/
def settable (currentElementSetter c v : V) (ρ : List (N × V)) : Option N → S → Res S E (List (N × V))
  | none, s => .ok s ρ
  | some y, s => (call1 W W.curry [c, v, currentElementSetter] s).bind fun f s => .ok s ((y, f) :: ρ)

/-- Step 4: the bindings for the next elements of the collections, in front of others. -/
def elements : List (Live V S E N × V) → List (N × V) → S → Res S E (List (N × V))
  | [], ρ, s => .ok s ρ
  | (.collection x ty key set c _ _ _ currentKey currentElement currentElementSetter, v) :: ps, ρ, s =>
    (call1 W currentElement [c, v] s).bind fun e s =>
    (typed W ty e s).bind fun _ s =>
    (keyed W currentKey c v ((x, e) :: ρ) key s).bind fun ρ s =>
    (settable W currentElementSetter c v ρ set s).bind fun ρ s => elements ps ρ s
  | _ :: ps, ρ, s => elements ps ρ s

/-- Step 5: does the end test end the loop? -/
def ends (ρ : List (N × V)) : Option (Bool × Exp V S E N) → S → Res S E Bool
  | none, s => .ok s false
  | some (until', e), s =>
    (value W ρ e s).bind fun v s => .ok s (if until' then !W.isNo v else W.isNo v)

/-- Step 7: the next value of a clause. -/
def next1 (ρ : List (N × V)) : Live V S E N × V → S → Res S E V
  | (.explicit _ _ next, _), s => value W ρ next s
  | (.numeric _ _ _ inc _, v), s => call1 W W.add [v, inc] s
  | (.collection _ _ _ _ c _ next _ _ _ _, v), s => call1 W next [c, v] s

/-- Step 7: obtain the next values, in left to right order. -/
def nextValues (early : Bool) (ρ : List (N × V)) :
    List (Live V S E N × V) → S → Res S E (List (Live V S E N × V))
  | [], s => .ok s []
  | p :: ps, s =>
    (next1 W ρ p s).bind fun v s =>
    (if early then check W (p.1, v) s else .ok s ()).bind fun _ s =>
    (nextValues early ρ ps s).bind fun qs s => .ok s ((p.1, v) :: qs)

/-- Steps 3 to 9, at most so many times; `none` if the loop is not at its end. -/
def iterate (early : Bool) (F : For V S E N) :
    Nat → List (Live V S E N × V) → S → Option (Res S E V)
  | 0, _, _ => none
  | n + 1, ps, s =>
    -- step 9
    let finish := fun s => value W (bindings ps []) F.finally' s
    let round : Res S E (Option (List (Live V S E N × V))) :=
      -- step 3
      (exhausted W ps s).bind fun b s =>
      if b then .ok s none
      else
        -- step 4
        (elements W ps (bindings ps []) s).bind fun ρ s =>
        -- step 5
        (ends W ρ F.endTest s).bind fun b s =>
        if b then .ok s none
        else
          -- step 6
          (value W ρ F.body s).bind fun _ s =>
          -- steps 7 and 8
          (nextValues W early ρ ps s).bind fun qs s =>
          (if early then .ok s () else checks W qs s).bind fun _ s => .ok s (some qs)
    match round with
    | .ok s none => some (finish s)
    | .ok s (some qs) => iterate early F n qs s
    | .exit s e => some (.exit s e)
    | .hang => some .hang

/-- What a `for` statement does, in at most so many rounds. -/
def meaning (early : Bool) (F : For V S E N) (n : Nat) (s : S) : Option (Res S E V) :=
  match (onces W F.clauses s).bind fun ps s => (checks W ps s).bind fun _ s => .ok s ps with
  | .ok s ps => iterate W early F n ps s
  | .exit s e => some (.exit s e)
  | .hang => some .hang

/-- What the world has to be like: `#f` is the false value; `<` tells whether an integer is negative; integers are
instances of `<integer>`, and their sum is an integer if it can be had. -/
structure World.Lawful : Prop where
  no : W.isNo W.no = true
  yes : W.isNo W.yes = false
  lt : ∀ v i s, W.asInt v = some i → ∃ b, call1 W W.lt [v, W.zero] s = .ok s b ∧ W.isNo b = !decide (i < 0)
  int : ∀ v i, W.asInt v = some i → W.inst v W.integer = true
  add : ∀ u v i j s s' vs, W.asInt u = some i → W.asInt v = some j → W.call W.add [u, v] s = .ok s' vs →
    ∃ k, W.asInt (vs.headD W.no) = some k

/-- Only clauses that do not begin and go on with constant integers declare the type of a numeric variable. -/
def NoLostType (c : Clause V S E N) : Prop :=
  match c with
  | .numeric _ (some _) (.const v) _ (.const k) => W.asInt v = none ∨ W.asInt k = none
  | _ => True

end

end Verif.Loops
