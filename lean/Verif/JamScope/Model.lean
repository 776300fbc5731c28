/-
Model of the scope of variables in build rules (/repo/sources/lib/jam/jam-evaluator.dylan,
/repo/sources/lib/jam/jam-state.dylan and /repo/sources/lib/jam/jam-target.dylan): local variables of blocks, parameters of rules, loops over lists,
assignments and statements run on a target.

Simplifications: statements are functions of the variables, of any kind that ends; the conditions signalled by
`return`, `break` and `continue` and errors are outcomes, which go outwards until something handles them; the
expansion of names and values is done before (C157).
-/
namespace Verif.JamScope

/-- Values of variables are lists of strings. -/
abbrev Val := List String

/-- The variables that are set (`jam-state.dylan:9`). -/
abbrev Env := String → Option Val

/-- How a statement ends: with its result, by one of the conditions (`jam-evaluator.dylan:543-546`, `557-560`,
    `671-674`), or by an error. -/
inductive Outcome where
  | value (v : Val)
  | ret (v : Val)
  | brk (v : Val)
  | cont (v : Val)
  | error
  deriving DecidableEq

/-- A statement. -/
abbrev Cmd := Env → Outcome × Env

/-- `jam-variable-setter` (`jam-state.dylan:61-70`): without a value the variable is removed. -/
def setVar (env : Env) (name : String) (v : Option Val) : Env := fun n => if n = name then v else env n

/-- Sets variables one after the other (`do` in `jam-evaluator.dylan:473-477`, `712-716`). -/
def setAll (env : Env) : List (String × Option Val) → Env
  | [] => env
  | (n, v) :: ps => setAll (setVar env n v) ps

/-- The statements of a block (`jam-evaluator.dylan:468-470`, `706-708`): the result is the one of the last
    statement, and a condition ends them. -/
def runAll : List Cmd → Val → Cmd
  | [], result, env => (.value result, env)
  | c :: cs, _, env =>
    match c env with
    | (.value r, env) => runAll cs r env
    | (o, env) => (o, env)

/-- `evaluate-statement` for a block with local variables (`jam-evaluator.dylan:451-480`). -/
def block (vars : List String) (inner : Val) (body : List Cmd) : Cmd := fun env =>
  let outer := vars.map env
  let env1 := setAll env (vars.map fun v => (v, some inner))
  let r := runAll body [] env1
  (r.1, setAll r.2 (vars.zip outer))

/-- The parameters every rule has (`jam-evaluator.dylan:676-677`). -/
def ruleParams : List String := ["<", ">", "1", "2", "3", "4", "5", "6", "7", "8", "9"]

/-- Parameters with the arguments at their positions from `i` on (`jam-evaluator.dylan:697-702`). -/
def positional (lol : List Val) : Nat → List String → List (String × Option Val)
  | _, [] => []
  | i, p :: ps => (p, if lol.length > i then lol[i]? else none) :: positional lol (i + 1) ps

/-- `rule-function` (`jam-evaluator.dylan:687-720`). -/
def rule (params : List String) (body : List Cmd) (lol : List Val) : Cmd := fun env =>
  let allParams := params ++ ruleParams
  let outer := allParams.map env
  let env1 := setVar env "<" (if lol.length > 0 then lol[0]? else none)
  let env2 := setVar env1 ">" (if lol.length > 1 then lol[1]? else none)
  let env3 := setAll env2 (positional lol 0 ["1", "2", "3", "4", "5", "6", "7", "8", "9"])
  let env4 := setAll env3 (positional lol 0 params)
  let r := runAll body [] env4
  let o := match r.1 with
    | .ret v => .value v
    | o => o
  (o, setAll r.2 (allParams.zip outer))

/-- The loop over a list (`jam-evaluator.dylan:571-593`); `result` is the result so far. -/
def forLoop (var : String) (body : List Cmd) : List String → Val → Cmd
  | [], result, env => (.value result, env)
  | v :: vs, result, env =>
    match runAll body result (setVar env var (some [v])) with
    | (.value r, env) => forLoop var body vs r env
    | (.cont r, env) => forLoop var body vs r env
    | (.brk r, env) => (.value r, env)
    | (o, env) => (o, env)

/-- The kinds of assignment (`jam-evaluator.dylan:505-514`). -/
inductive Kind where
  | set
  | append
  | default

/-- `evaluate-statement` for an assignment (`jam-evaluator.dylan:499-517`). -/
def assign (kind : Kind) : List String → Val → Cmd
  | [], values, env => (.value values, env)
  | var :: vars, values, env =>
    match kind with
    | .set => assign kind vars values (setVar env var (some values))
    | .append => assign kind vars values (setVar env var (some ((env var).getD [] ++ values)))
    | .default =>
      if (env var).isSome then assign kind vars values env
      else assign kind vars values (setVar env var (some values))

/-- The loop that keeps the values of the variables of a target and restores the others
    (`jam-target.dylan:179-182`); the first is the target's. A variable that is not set has the value `#[]`
    (`jam-state.dylan:54-59`). -/
def leaveTarget : List (String × Option Val) → Env → Env → Env × Env
  | [], tenv, env => (tenv, env)
  | (n, outer) :: ps, tenv, env => leaveTarget ps (setVar tenv n (some ((env n).getD []))) (setVar env n outer)

/-- `do-with-jam-target` (`/repo/sources/lib/jam/jam-target.dylan:168-184`): `keys` are the variables that are set
    on the target, `tenv` has their values, and the body may change both kinds of variables. -/
def onTarget (keys : List String) (body : Env → Env → Outcome × Env × Env) (tenv env : Env) : Outcome × Env × Env :=
  let outer := keys.map env
  let env1 := setAll env (keys.map fun v => (v, tenv v))
  let r := body tenv env1
  (r.1, leaveTarget (keys.zip outer) r.2.1 r.2.2)

end Verif.JamScope
