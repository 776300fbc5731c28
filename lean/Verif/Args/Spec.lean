import Verif.Args.Model

/-!
# What a call should do

The rules for passing arguments, without buffers and entry points.
-/

namespace Verif.Args

variable {V : Type} [DecidableEq V]

/-- The pairs in a list of optional arguments. -/
def pairs : List V → List (V × V)
  | k :: v :: r => (k, v) :: pairs r
  | _ => []

/-- The value of a keyword parameter: the one given with the first occurrence of
the keyword, or the default. -/
def keywordValue (optionals : List V) (key : V × V) : V :=
  match (pairs optionals).find? (fun p => p.1 = key.1) with
  | some p => p.2
  | none => key.2

/-- What the body of the method gets: the required arguments, then the vector of
the optional ones if the method takes any, then the keyword parameters. -/
def parameters (fn : Fn V) (args : List V) : List (Cell V) :=
  (args.take fn.required).map .val ++
    match fn.opt with
    | .none => []
    | .rest => [.vec (args.drop fn.required)]
    | .key => .vec (args.drop fn.required) ::
        fn.keys.map (fun key => .val (keywordValue (args.drop fn.required) key))

/-- The first required argument that is no instance of its type. -/
def wrongType (fn : Fn V) (args : List V) : Option V :=
  match fn.specs with
  | none => none
  | some types => ((types.zip (args.take fn.required)).find? (fun p => ! p.1 p.2)).map Prod.snd

/-- Does the method take this number of arguments? -/
def countOk (fn : Fn V) (n : Nat) : Prop :=
  match fn.opt with
  | .none => n = fn.required
  | _ => fn.required ≤ n

instance (fn : Fn V) (n : Nat) : Decidable (countOk fn n) := by
  unfold countOk; split <;> infer_instance

/-- The first keyword among the arguments that is not one of `allowed`. -/
def firstUnknown (allowed : V → Bool) (optionals : List V) : Option V :=
  ((pairs optionals).find? (fun p => ! allowed p.1)).map Prod.fst

/-- Does the method by itself accept the keyword? -/
def Fn.accepts (fn : Fn V) (k : V) : Bool := fn.allKeys || decide (k ∈ fn.keys.map Prod.fst)

/-- The meaning of a call of a method. -/
def bind (fn : Fn V) (args : List V) : M V (List (Cell V)) :=
  if ¬ countOk fn args.length then .error (.error (.count args.length))
  else
    match wrongType fn args with
    | some v => .error (.error (.type v))
    | none =>
      if fn.opt = .key then
        if (args.length - fn.required) % 2 = 1 then .error (.error .odd)
        else
          match firstUnknown fn.accepts (args.drop fn.required) with
          | some k => .error (.error (.keyword k))
          | none => .ok (parameters fn args)
      else .ok (parameters fn args)

/-- Does a call of a generic function with these applicable methods accept the
keyword? -/
def gfAccepts (sig : GfSig) (methods : List (Fn V)) (k : V) : Bool :=
  sig.allKeys || methods.any (fun m => m.accepts k)

/-- The meaning of a call of a generic function, of whose applicable methods `m`
is the most specific. -/
def gfBind (sig : GfSig) (m : Fn V) (methods : List (Fn V)) (args : List V) : M V (List (Cell V)) :=
  if args.length < m.required then .error (.error (.count args.length))
  else if sig.key then
    if (args.length - m.required) % 2 = 1 then .error (.error .odd)
    else
      match firstUnknown (gfAccepts sig methods) (args.drop m.required) with
      | some k => .error (.error (.keyword k))
      | none => .ok (parameters m args)
  else .ok (parameters m args)

/-- Method objects as the compiler makes them: as many types as required
arguments, no keyword twice, no keywords without `#key`. -/
structure Fn.Ok (fn : Fn V) : Prop where
  types : ∀ ts, fn.specs = some ts → ts.length = fn.required
  distinct : (fn.keys.map Prod.fst).Nodup
  keys : fn.opt ≠ .key → fn.keys = []

/-- A method that was added to a generic function that takes optional arguments
takes keywords if and only if the function does (`congruent?`,
sources/dylan/signature.dylan 258-290), and `#all-keys` comes with `#key`. -/
structure Congruent (sig : GfSig) (m : Fn V) : Prop where
  opt : m.opt = if sig.key then .key else .rest
  allKeys : sig.allKeys → sig.key

/-- The number of parameters of the body. -/
def Fn.arity (fn : Fn V) : Nat :=
  match fn.opt with
  | .none => fn.required
  | .rest => fn.required + 1
  | .key => fn.required + 1 + fn.keys.length

end Verif.Args
