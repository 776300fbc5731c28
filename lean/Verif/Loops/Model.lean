/-
Model of how the compiler converts `for` (/repo/sources/dfmc/conversion/convert-loops.dylan) into
computations on temporaries, of those computations, and of how the C back end passes the values of
the iteration variables from one round to the next
(/repo/sources/dfmc/c-back-end/c-emit-computation.dylan).

Simplifications.
* An expression is a constant, a variable, or any code: a function of the values of the variables
  in scope and of the state of the program.
* Temporaries are named by the clause and the purpose they are made for, instead of being numbered.
* Assignments to iteration variables and closures over them are not modelled.
* All iteration variables are taken to be used (`used?`, c-emit-computation.dylan 1195, 1211).
-/

namespace Verif.Loops

/-- How the execution of something ends: normally, by leaving it (an error or a non-local exit), or
not at all. -/
inductive Res (S E A : Type) where
  | ok (s : S) (a : A)
  | exit (s : S) (e : E)
  | hang

def Res.bind {S E A B : Type} : Res S E A → (A → S → Res S E B) → Res S E B
  | .ok s a, f => f a s
  | .exit s e, _ => .exit s e
  | .hang, _ => .hang

/-- What the program is made of: values, the states of the program, errors, names. -/
structure World (V S E N : Type) where
  /-- `#f` -/
  no : V
  /-- `#t` -/
  yes : V
  /-- is it `#f`? -/
  isNo : V → Bool
  /-- the values of the variables bound outside -/
  outer : N → V
  /-- `instance?` -/
  inst : V → V → Bool
  /-- the error for a value that is not of a type -/
  typeError : V → V → E
  /-- a call, with its values -/
  call : V → List V → S → Res S E (List V)
  /-- the functions `<`, `+` and `%curry-current-element-setter`, and 0 -/
  lt : V
  add : V
  curry : V
  zero : V
  /-- `<integer>`, and the integer that a value is -/
  integer : V
  asInt : V → Option Int

/-- An expression. -/
inductive Exp (V S E N : Type) where
  | const (v : V)
  | var (x : N)
  | code (f : (N → Option V) → S → Res S E V)

inductive Dir where
  | to
  | above
  | below
  deriving DecidableEq

/-- The clauses (convert-loops.dylan 31-55); the bound of a numeric clause is absent if its direction is
`#"none"`. -/
inductive Clause (V S E N : Type) where
  | explicit (x : N) (ty : Option (Exp V S E N)) (init next : Exp V S E N)
  | numeric (x : N) (ty : Option (Exp V S E N)) (start : Exp V S E N)
      (bound : Option (Dir × Exp V S E N)) (by' : Exp V S E N)
  | collection (x : N) (ty : Option (Exp V S E N)) (key set : Option N) (coll using' : Exp V S E N)

/-- A `for` statement (convert-loops.dylan 22-29, 57-61); an end test comes with whether it is `until:`.  `finally`
is `#f` if it is absent (72). -/
structure For (V S E N : Type) where
  clauses : List (Clause V S E N)
  endTest : Option (Bool × Exp V S E N)
  body : Exp V S E N
  finally' : Exp V S E N

/-- The temporaries: the purpose, and the number of the clause. -/
inductive Temp where
  -- made in step 1
  | ty (i : Nat) | init (i : Nat) | bound (i : Nat) | inc (i : Nat) | down (i : Nat)
  | coll (i : Nat) | using' (i : Nat) | part (i k : Nat)
  -- made in step 2
  | checked (i : Nat) | shadow (i : Nat) | var (i : Nat)
  -- made in step 3
  | cmp (i : Nat) | cmpElse (i : Nat) | test (i : Nat) | any (i : Nat)
  -- made in step 4
  | elem0 (i : Nat) | elem (i : Nat) | key (i : Nat) | setter (i : Nat)
  -- made in steps 5 to 9
  | endTest | body | next0 (i : Nat) | next (i : Nat) | again | loop | last
  deriving DecidableEq

/-- What a computation refers to. -/
inductive Ref (V : Type) where
  | const (v : V)
  /-- a variable bound outside of the loop -/
  | outside (v : V)
  | temp (t : Temp)

/-- Computations. -/
inductive Ins (V S E N : Type) where
  /-- any code, with the temporaries of the variables in scope -/
  | eval (t : Temp) (f : (N → Option V) → S → Res S E V) (env : List (N × Temp))
  /-- `<simple-call>`: the first value -/
  | call (t : Temp) (f : Ref V) (args : List (Ref V))
  /-- a call and the extraction of its values (`<extract-single-value>`) -/
  | calls (ts : List Temp) (f : Ref V) (args : List (Ref V))
  /-- `<check-type>` -/
  | check (t : Temp) (v : Ref V) (ty : Option (Ref V))
  /-- `primitive-id?(v, #f)` -/
  | isNo (t : Temp) (v : Ref V)
  /-- C assignment -/
  | move (t : Temp) (v : Ref V)
  /-- `<if>` and `<if-merge>` -/
  | cond (t : Temp) (test : Ref V) (c1 : List (Ins V S E N)) (r1 : Ref V)
      (c2 : List (Ins V S E N)) (r2 : Ref V)
  /-- the `goto` of `<loop-call>` -/
  | again

/-- How computations end: at their end, with a jump to the head of the loop, or otherwise. -/
inductive Out (V S E : Type) where
  | next (T : Temp → V) (s : S)
  | again (T : Temp → V) (s : S)
  | exit (s : S) (e : E)
  | hang

section exec
variable {V S E N : Type} (W : World V S E N)

def Ref.get (T : Temp → V) : Ref V → V
  | .const v => v
  | .outside v => v
  | .temp t => T t

def setT (T : Temp → V) (t : Temp) (v : V) : Temp → V := fun t' => if t' = t then v else T t'

/-- The variable that a name refers to: the binding made last. -/
def lookup {A : Type} [DecidableEq N] : List (N × A) → N → Option A
  | [], _ => none
  | (y, a) :: l, x => if x = y then some a else lookup l x

/-- The values of a call, put into temporaries; `#f` for those it does not return. -/
def setAll (T : Temp → V) : List Temp → List V → Temp → V
  | [], _ => T
  | t :: ts, [] => setAll (setT T t W.no) ts []
  | t :: ts, v :: vs => setAll (setT T t v) ts vs

variable [DecidableEq N]

mutual
/-- What a computation does. -/
def exec (T : Temp → V) (s : S) : Ins V S E N → Out V S E
  | .eval t f env =>
    match f (fun x => (lookup env x).map T) s with
    | .ok s v => .next (setT T t v) s
    | .exit s e => .exit s e
    | .hang => .hang
  | .call t f args =>
    match W.call (f.get T) (args.map (·.get T)) s with
    | .ok s vs => .next (setT T t (vs.headD W.no)) s
    | .exit s e => .exit s e
    | .hang => .hang
  | .calls ts f args =>
    match W.call (f.get T) (args.map (·.get T)) s with
    | .ok s vs => .next (setAll W T ts vs) s
    | .exit s e => .exit s e
    | .hang => .hang
  | .check t v none => .next (setT T t (v.get T)) s
  | .check t v (some ty) =>
    if W.inst (v.get T) (ty.get T) then .next (setT T t (v.get T)) s
    else .exit s (W.typeError (v.get T) (ty.get T))
  | .isNo t v => .next (setT T t (if W.isNo (v.get T) then W.yes else W.no)) s
  | .move t v => .next (setT T t (v.get T)) s
  | .cond t test c1 r1 c2 r2 =>
    if W.isNo (test.get T) then
      match execs T s c2 with
      | .next T s => .next (setT T t (r2.get T)) s
      | o => o
    else
      match execs T s c1 with
      | .next T s => .next (setT T t (r1.get T)) s
      | o => o
  | .again => .again T s
def execs (T : Temp → V) (s : S) : List (Ins V S E N) → Out V S E
  | [] => .next T s
  | c :: cs =>
    match exec T s c with
    | .next T s => execs T s cs
    | o => o
end

/-! ### conversion -/

/-- `convert` of an expression into a temporary, in an environment of variables.  Constants and variables need no
computation. -/
def conv (t : Temp) (env : List (N × Temp)) : Exp V S E N → List (Ins V S E N) × Ref V
  | .const v => ([], .const v)
  | .var x =>
    match lookup env x with
    | some t' => ([], .temp t')
    | none => ([], .outside (W.outer x))
  | .code f => ([.eval t f env], .temp t)

/-- `convert-type-expression`; a binding without a type is not restricted. -/
def convTy (t : Temp) (env : List (N × Temp)) :
    Option (Exp V S E N) → List (Ins V S E N) × Option (Ref V)
  | none => ([], none)
  | some e => ((conv W t env e).1, some (conv W t env e).2)

/-- `constant-value?` with an `<integer>` (convert-loops.dylan 339-341, 345-346). -/
def constInt : Ref V → Option Int
  | .const v => W.asInt v
  | _ => none

/-- `<for-bv-state>` and its subclasses (convert-loops.dylan 228-259). -/
structure BV (V S E N : Type) where
  clause : Clause V S E N
  ty : Option (Ref V)
  cur : Ref V
  bound : Ref V
  inc : Ref V
  down : Ref V
  coll : Ref V

/-- The truth of a constant, as `convert` of `#{ #t }` and `#{ #f }` gives it. -/
def ofBool (b : Bool) : Ref V := .const (if b then W.yes else W.no)

/-- The bound of a numeric clause (convert-loops.dylan 326-333). -/
def convBound (i : Nat) : Option (Dir × Exp V S E N) → List (Ins V S E N) × Ref V
  | none => ([], .const W.no)
  | some (_, b) => conv W (.bound i) [] b

/-- `generate-step-1`, with the type as `step-1` puts it before (convert-loops.dylan 271-401).  The type of a numeric
clause with constant start and increment is not converted: `<integer>` is taken instead (288-289, 345-361). -/
def step1 (i : Nat) (c : Clause V S E N) : List (Ins V S E N) × BV V S E N :=
  match c with
  | .explicit _ ty init _ =>
    let t := convTy W (.ty i) [] ty
    let e := conv W (.init i) [] init
    (t.1 ++ e.1, ⟨c, t.2, e.2, .const W.no, .const W.no, .const W.no, .const W.no⟩)
  | .numeric _ ty start bound by' =>
    let e := conv W (.init i) [] start
    let b := convBound W i bound
    let k := conv W (.inc i) [] by'
    match constInt W k.2 with
    | some n =>
      match constInt W e.2 with
      | some _ =>
        (e.1 ++ b.1 ++ k.1,
          ⟨c, some (.const W.integer), e.2, b.2, k.2, ofBool W (decide (n < 0)), .const W.no⟩)
      | none =>
        let t := convTy W (.ty i) [] ty
        (t.1 ++ (e.1 ++ b.1 ++ k.1),
          ⟨c, t.2, e.2, b.2, k.2, ofBool W (decide (n < 0)), .const W.no⟩)
    | none =>
      let t := convTy W (.ty i) [] ty
      (t.1 ++ (e.1 ++ b.1 ++ k.1 ++ [.call (.down i) (.const W.lt) [k.2, .const W.zero]]),
        ⟨c, t.2, e.2, b.2, k.2, .temp (.down i), .const W.no⟩)
  | .collection _ ty _ _ coll using' =>
    let t := convTy W (.ty i) [] ty
    let e := conv W (.coll i) [] coll
    let u := conv W (.using' i) [] using'
    (t.1 ++ (e.1 ++ u.1 ++ [.calls ((List.range 7).map (.part i)) u.2 [e.2]]),
      ⟨c, t.2, .temp (.part i 0), .const W.no, .const W.no, .const W.no, e.2⟩)

def steps1 : Nat → List (Clause V S E N) → List (Ins V S E N) × List (BV V S E N)
  | _, [] => ([], [])
  | i, c :: cs =>
    let a := step1 W i c
    let r := steps1 (i + 1) cs
    (a.1 ++ r.1, a.2 :: r.2)

/-- `generate-step-2` (convert-loops.dylan 462-480): the check of the first value, and the variable of the clause. -/
def step2 (i : Nat) (b : BV V S E N) : List (Ins V S E N) × Ref V :=
  match b.clause with
  | .collection .. => ([], b.cur)
  | _ => ([.check (.checked i) b.cur b.ty], .temp (.checked i))

/-- The checks of `step-2`, and the values the loop starts with (convert-loops.dylan 417-439). -/
def steps2 : Nat → List (BV V S E N) → List (Ins V S E N) × List (Ref V)
  | _, [] => ([], [])
  | i, b :: bs =>
    let a := step2 i b
    let r := steps2 (i + 1) bs
    (a.1 ++ r.1, a.2 :: r.2)

/-- The environment of `step-2`: the variables of explicit and numeric clauses, the last first. -/
def env2 : Nat → List (BV V S E N) → List (N × Temp) → List (N × Temp)
  | _, [], env => env
  | i, b :: bs, env =>
    match b.clause with
    | .explicit x .. => env2 (i + 1) bs ((x, .var i) :: env)
    | .numeric x .. => env2 (i + 1) bs ((x, .var i) :: env)
    | .collection .. => env2 (i + 1) bs env

/-- The assignments to the shadows of the iteration variables before the loop and by `<loop-call>`
(c-emit-computation.dylan 1191-1218). -/
def toShadows : Nat → List (Ref V) → List (Ins V S E N)
  | _, [] => []
  | i, r :: rs => .move (.shadow i) r :: toShadows (i + 1) rs

/-- The `<loop-merge>`s at the head of the loop (convert-loops.dylan 441-456, c-emit-computation.dylan 278-288). -/
def fromShadows : Nat → Nat → List (Ins V S E N)
  | _, 0 => []
  | i, n + 1 => .move (.var i) (.temp (.shadow i)) :: fromShadows (i + 1) n

/-- `generate-step-3` (convert-loops.dylan 537-592). -/
def step3 (i : Nat) (b : BV V S E N) : List (Ins V S E N) × Ref V :=
  match b.clause with
  | .explicit .. => ([], .const W.no)
  | .numeric _ _ _ none _ => ([], .const W.no)
  | .numeric _ _ _ (some (.below, _)) _ =>
    ([.call (.cmp i) (.const W.lt) [.temp (.var i), b.bound], .isNo (.test i) (.temp (.cmp i))],
      .temp (.test i))
  | .numeric _ _ _ (some (.above, _)) _ =>
    ([.call (.cmp i) (.const W.lt) [b.bound, .temp (.var i)], .isNo (.test i) (.temp (.cmp i))],
      .temp (.test i))
  | .numeric _ _ _ (some (.to, _)) _ =>
    ([.cond (.test i) b.down
        [.call (.cmp i) (.const W.lt) [.temp (.var i), b.bound]] (.temp (.cmp i))
        [.call (.cmpElse i) (.const W.lt) [b.bound, .temp (.var i)]] (.temp (.cmpElse i))],
      .temp (.test i))
  | .collection .. =>
    ([.call (.test i) (.temp (.part i 3)) [b.coll, .temp (.var i), .temp (.part i 1)]],
      .temp (.test i))

/-- Is it the constant `#f`? -/
def isConstNo : Ref V → Bool
  | .const v => W.isNo v
  | _ => false

/-- `step-3` (convert-loops.dylan 503-534). -/
def steps3 : Nat → List (BV V S E N) → List (Ins V S E N) × Ref V
  | _, [] => ([], .const W.no)
  | i, [b] => step3 W i b
  | i, b :: bs =>
    let a := step3 W i b
    let r := steps3 (i + 1) bs
    if isConstNo W r.2 then a
    else (a.1 ++ [.cond (.any i) a.2 [] (.const W.yes) r.1 r.2], .temp (.any i))

/-- The key of an element (convert-loops.dylan 635-649). -/
def key4 (i : Nat) (b : BV V S E N) (env : List (N × Temp)) : Option N → List (Ins V S E N) × List (N × Temp)
  | none => ([], env)
  | some y => ([.call (.key i) (.temp (.part i 4)) [b.coll, .temp (.var i)]], (y, .key i) :: env)

/-- The setter of an element (convert-loops.dylan 651-669). -/
def set4 (i : Nat) (b : BV V S E N) (env : List (N × Temp)) : Option N → List (Ins V S E N) × List (N × Temp)
  | none => ([], env)
  | some y =>
    ([.call (.setter i) (.const W.curry) [b.coll, .temp (.var i), .temp (.part i 6)]], (y, .setter i) :: env)

/-- `step-4` (convert-loops.dylan 605-674): the elements, with the environment they are bound in. -/
def steps4 : Nat → List (BV V S E N) → List (N × Temp) → List (Ins V S E N) × List (N × Temp)
  | _, [], env => ([], env)
  | i, b :: bs, env =>
    match b.clause with
    | .collection x _ key set _ _ =>
      let c1 : List (Ins V S E N) :=
        [.call (.elem0 i) (.temp (.part i 5)) [b.coll, .temp (.var i)],
         .check (.elem i) (.temp (.elem0 i)) b.ty]
      let k := key4 i b ((x, .elem i) :: env) key
      let st := set4 W i b k.2 set
      let r := steps4 (i + 1) bs st.2
      (c1 ++ k.1 ++ st.1 ++ r.1, r.2)
    | _ => steps4 (i + 1) bs env

/-- `generate-step-7` (convert-loops.dylan 741-772). -/
def step7 (i : Nat) (env : List (N × Temp)) (b : BV V S E N) : List (Ins V S E N) :=
  match b.clause with
  | .explicit _ _ _ next =>
    let e := conv W (.next0 i) env next
    e.1 ++ [.check (.next i) e.2 b.ty]
  | .numeric .. =>
    [.call (.next0 i) (.const W.add) [.temp (.var i), b.inc],
     .check (.next i) (.temp (.next0 i)) b.ty]
  | .collection .. =>
    [.call (.next i) (.temp (.part i 2)) [b.coll, .temp (.var i)]]

/-- `step-7` (convert-loops.dylan 729-738). -/
def steps7 (env : List (N × Temp)) : Nat → List (BV V S E N) → List (Ins V S E N)
  | _, [] => []
  | i, b :: bs => step7 W i env b ++ steps7 env (i + 1) bs

/-- The temporaries with the next values. -/
def nexts : Nat → Nat → List (Ref V)
  | _, 0 => []
  | i, n + 1 => .temp (.next i) :: nexts (i + 1) n

/-- `step-5` (convert-loops.dylan 683-709). -/
def step5 (env : List (N × Temp)) (endTest : Option (Bool × Exp V S E N))
    (s678 : List (Ins V S E N)) : List (Ins V S E N) × Ref V :=
  match endTest with
  | none => (s678, .temp .again)
  | some (until', e) =>
    let t := conv W .endTest env e
    if until' then (t.1 ++ [.cond .loop t.2 [] (.const W.no) s678 (.temp .again)], .temp .loop)
    else (t.1 ++ [.cond .loop t.2 s678 (.temp .again) [] (.const W.no)], .temp .loop)

/-- The converted loop: what comes before it, its body, and where its value is. -/
structure Converted (V S E N : Type) where
  pre : List (Ins V S E N)
  body : List (Ins V S E N)
  value : Ref V

/-- `convert` of a `for` statement (convert-loops.dylan 823-862). -/
def convertFor (F : For V S E N) : Converted V S E N :=
  let a := steps1 W 0 F.clauses
  let b := steps2 (S := S) (E := E) (N := N) 0 a.2
  let e2 := env2 0 a.2 []
  let c := steps3 W 0 a.2
  let d := steps4 W 0 a.2 e2
  let s6 := (conv W .body d.2 F.body).1
  let s7 := steps7 W d.2 0 a.2
  let s8 := toShadows 0 (nexts 0 a.2.length) ++ [Ins.again]
  let s5 := step5 W d.2 F.endTest (s6 ++ s7 ++ s8)
  let s9 := conv W .last e2 F.finally'
  ⟨a.1 ++ b.1 ++ toShadows 0 b.2,
   fromShadows 0 a.2.length ++ c.1 ++ [.cond .loop c.2 [] (.const W.no) (d.1 ++ s5.1) s5.2] ++ s9.1,
   s9.2⟩

/-- At most so many rounds of the loop; `none` if it is not at its end. -/
def rounds (C : Converted V S E N) : Nat → (Temp → V) → S → Option (Res S E V)
  | 0, _, _ => none
  | n + 1, T, s =>
    match execs W T s C.body with
    | .next T s => some (.ok s (C.value.get T))
    | .again T s => rounds C n T s
    | .exit s e => some (.exit s e)
    | .hang => some .hang

/-- The loop. -/
def runConverted (C : Converted V S E N) (n : Nat) (T : Temp → V) (s : S) : Option (Res S E V) :=
  match execs W T s C.pre with
  | .next T s => rounds W C n T s
  | .again _ _ => none
  | .exit s e => some (.exit s e)
  | .hang => some .hang

/-- A `for` statement, from `build-for-statement` (convert-loops.dylan 110-129): with nothing in the header, only the
`finally` part is converted. -/
def runFor (F : For V S E N) (n : Nat) (T : Temp → V) (s : S) : Option (Res S E V) :=
  if F.clauses.isEmpty && F.endTest.isNone then
    let c := conv W .last [] F.finally'
    match execs W T s c.1 with
    | .next T s => some (.ok s (c.2.get T))
    | .again _ _ => none
    | .exit s e => some (.exit s e)
    | .hang => some .hang
  else runConverted W (convertFor W F) n T s

end exec

end Verif.Loops
