/-!
# Calls in the C run time: entry points, keyword arguments, `apply`

Model of the code in sources/lib/run-time/c-run-time.c that stands between a
call and the body of a method: the external entry points (XEPs) count and check
the arguments, collect the optional ones and give each keyword parameter its
value; the method entry points (MEPs) do the same for calls that come from
generic dispatch; `primitive_apply` spreads a vector of arguments.

A call ends in the body of the method (`ok`, with the arguments that the body
gets), in a Dylan error, in `primitive_break`, or in undefined behaviour.
-/

namespace Verif.Args

/-- A word in an argument position: a Dylan value, a vector of values that the
run time made, or whatever was left there. -/
inductive Cell (V : Type) where
  | junk
  | val (v : V)
  | vec (l : List V)
  deriving DecidableEq

/-- The errors that the entry points signal. -/
inductive Err (V : Type) where
  /-- `argument-count-overflow-error` -/
  | countOverflow (n : Nat)
  /-- `argument-count-error` -/
  | count (n : Nat)
  /-- `odd-keyword-arguments-error`, `odd-number-of-keyword-args-trap` -/
  | odd
  /-- `type-check-error`, with the argument that has the wrong type -/
  | type (v : V)
  /-- `unknown-keyword-argument-error`, with the keyword -/
  | keyword (v : V)
  /-- `missing-keyword-error`, with what stands in the place of a keyword -/
  | keywordExpected (v : V)
  deriving DecidableEq

/-- Why the body of the method was not reached. -/
inductive Stop (V : Type) where
  | error (e : Err V)
  /-- `primitive_break` (c-run-time.c 80-): a trap into the debugger -/
  | broke
  /-- A word outside of a buffer or vector is read or written, or an argument
  is fetched that was not passed. -/
  | undefined
  deriving DecidableEq

abbrev M (V : Type) := Except (Stop V)

instance [DecidableEq α] [DecidableEq ε] : DecidableEq (Except ε α)
  | .ok a, .ok b => if h : a = b then isTrue (by rw [h]) else isFalse (by simp [h])
  | .error a, .error b => if h : a = b then isTrue (by rw [h]) else isFalse (by simp [h])
  | .ok _, .error _ => isFalse (by simp)
  | .error _, .ok _ => isFalse (by simp)

/-- What a method takes besides its required arguments. -/
inductive Opt where
  | none
  | rest
  | key
  deriving DecidableEq

/-- A method object, as far as the entry points look at it (run-time.h,
`dylan_simple_method` and `dylan_keyword_method`). -/
structure Fn (V : Type) where
  /-- `function_number_required` -/
  required : Nat
  /-- `function_specializers`; `none` is NULL.  A type is the test whether a
  value is an instance of it. -/
  specs : Option (List (V → Bool))
  opt : Opt
  /-- `keyword_specifiers`, the keywords with their defaults.  In the object
  they alternate in one vector, see `specVector`. -/
  keys : List (V × V)
  /-- `#all-keys` in the signature -/
  allKeys : Bool
  /-- Does the method call `next-method`? -/
  next : Bool

/-- The keyword specifier vector: keyword, default, keyword, default, ... -/
def specVector {V : Type} : List (V × V) → List V
  | [] => []
  | (k, d) :: r => k :: d :: specVector r

/-! ## Buffers -/

/-- `MAX_ARGUMENTS` (run-time.h 578): the size of each buffer of a thread. -/
def maxArguments : Nat := 256

/-- One of the buffers `arguments`, `new_arguments`, `a`, `iep_a`,
`apply_buffer` and `buffer` of a thread (run-time.h 599-605). -/
abbrev Buf (V : Type) := Nat → Cell V

def Buf.set {V : Type} (b : Buf V) (i : Nat) (c : Cell V) : Buf V :=
  fun j => if j = i then c else b j

variable {V : Type}

/-- A store into a buffer. -/
def store (b : Buf V) (i : Nat) (c : Cell V) : M V (Buf V) :=
  if i < maxArguments then .ok (b.set i c) else .error .undefined

/-- `transfer_varargs` (c-run-time.c 670-677): fetch `n` arguments, from the
`i`-th on, of those that were passed, into the buffer from `off + i` on. -/
def transferVarargs (passed : List (Cell V)) (off : Nat) : Nat → Nat → Buf V → M V (Buf V)
  | 0, _, b => .ok b
  | n + 1, i, b =>
    match passed[i]? with
    | none => .error .undefined
    | some c =>
      match store b (off + i) c with
      | .error e => .error e
      | .ok b' => transferVarargs passed off n (i + 1) b'

/-- `initialize_vector_from_buffer_with_size`, `make_vector_from_buffer`: the
values of `n` words of a buffer from `base` on. -/
def readVals (b : Buf V) (base : Nat) : Nat → M V (List V)
  | 0 => .ok []
  | n + 1 =>
    if base < maxArguments then
      match b base with
      | .val v =>
        match readVals b (base + 1) n with
        | .error e => .error e
        | .ok r => .ok (v :: r)
      | _ => .error .undefined
    else .error .undefined

/-- The first `n` words of a buffer, as arguments of a call. -/
def cells (b : Buf V) (n : Nat) : List (Cell V) := (List.range n).map b

/-! ## Checks -/

/-- `CALL_CHECK` (c-run-time.c 729-734). -/
def callCheck (n : Nat) : M V Unit :=
  if n > maxArguments then .error (.error (.countOverflow n)) else .ok ()

/-- `BASIC_REQUIRED_CALL_CHECK` (c-run-time.c 864-870). -/
def basicRequiredCallCheck (required n : Nat) : M V Unit :=
  match callCheck (V := V) n with
  | .error e => .error e
  | .ok _ => if n ≠ required then .error (.error (.count n)) else .ok ()

/-- `BASIC_OPTIONAL_CALL_CHECK` (c-run-time.c 878-884). -/
def basicOptionalCallCheck (required n : Nat) : M V Unit :=
  match callCheck (V := V) n with
  | .error e => .error e
  | .ok _ => if n < required then .error (.error (.count n)) else .ok ()

/-- The loop of `TYPE_CHECK_ARGS` (c-run-time.c 740-749), also
`TYPE_CHECK_ARGS_1` to `_9`, which have the same checks written out. -/
def typeCheckLoop (specs : List (V → Bool)) (args : Buf V) : Nat → Nat → M V Unit
  | 0, _ => .ok ()
  | n + 1, i =>
    match specs[i]?, args i with
    | some t, .val v =>
      if t v then typeCheckLoop specs args n (i + 1) else .error (.error (.type v))
    | _, _ => .error .undefined

/-- `TYPE_CHECK_ARGS` (c-run-time.c 740-749). -/
def typeCheckArgs (fn : Fn V) (n : Nat) (args : Buf V) : M V Unit :=
  match fn.specs with
  | none => .ok ()
  | some specs => typeCheckLoop specs args n 0

/-- `REQUIRED_CALL_CHECK` (c-run-time.c 872-876). -/
def requiredCallCheck (fn : Fn V) (required n : Nat) (args : Buf V) : M V Unit :=
  match basicRequiredCallCheck (V := V) required n with
  | .error e => .error e
  | .ok _ => typeCheckArgs fn n args

/-- `OPTIONAL_CALL_CHECK` (c-run-time.c 886-890). -/
def optionalCallCheck (fn : Fn V) (required n : Nat) (args : Buf V) : M V Unit :=
  match basicOptionalCallCheck (V := V) required n with
  | .error e => .error e
  | .ok _ => typeCheckArgs fn required args

/-- `KEYWORD_CALL_CHECK` (c-run-time.c 894-900). -/
def keywordCallCheck (fn : Fn V) (required n : Nat) (args : Buf V) : M V Unit :=
  match optionalCallCheck fn required n args with
  | .error e => .error e
  | .ok _ => if (n - required) % 2 = 1 then .error (.error .odd) else .ok ()

/-! ## Calling the body -/

/-- `iep_apply` (c-run-time.c 1104-1129): call the body with `n` words of a
buffer.  From ten on always 64 words are passed, and the body takes its own
`n` of them. -/
def iepApply (n : Nat) (a : Buf V) : M V (List (Cell V)) :=
  if n ≤ 9 then .ok (cells a n)
  else if n > 64 then .error .broke
  else .ok ((cells a 64).take n)

/-! ## Keyword parameters -/

variable [DecidableEq V]

/-- First loop of `default_arguments` (c-run-time.c 1378-1380). -/
def copyRequired (arguments : Buf V) : Nat → Nat → Buf V → M V (Buf V)
  | 0, _, b => .ok b
  | n + 1, i, b =>
    match store b i (arguments i) with
    | .error e => .error e
    | .ok b' => copyRequired arguments n (i + 1) b'

/-- Second loop of `default_arguments` (c-run-time.c 1384-1386), over the
specifier vector, whose odd words are the defaults. -/
def storeDefaults : List V → Nat → Buf V → M V (Buf V)
  | _ :: d :: r, at_, b =>
    match store b at_ (.val d) with
    | .error e => .error e
    | .ok b' => storeDefaults r (at_ + 1) b'
  | _, _, b => .ok b

/-- `default_arguments` (c-run-time.c 1370-1387). -/
def defaultArguments (required : Nat) (arguments : Buf V) (specs : List V) (offset : Nat)
    (newArguments : Buf V) : M V (Buf V) :=
  match copyRequired arguments required 0 newArguments with
  | .error e => .error e
  | .ok b => storeDefaults specs offset b

/-- Inner loop of `process_keyword_parameters` (c-run-time.c 1399-1405). -/
def storeKeyword (keyword value : V) : List V → Nat → Buf V → M V (Buf V)
  | k :: _ :: r, at_, b =>
    if keyword = k then store b at_ (.val value)
    else storeKeyword keyword value r (at_ + 1) b
  | _, _, b => .ok b

/-- `process_keyword_parameters` (c-run-time.c 1389-1407): from the last pair to
the first.  The counter is `i + 1` of the code; the pair before the first word
is outside of the vector. -/
def processKeywordParameters (required : Nat) (specs : List V) (optionals : List V) :
    Nat → Buf V → M V (Buf V)
  | 0, b => .ok b
  | 1, _ => .error .undefined
  | i + 2, b =>
    match optionals[i + 1]?, optionals[i]? with
    | some value, some keyword =>
      match storeKeyword keyword value specs (required + 1) b with
      | .error e => .error e
      | .ok b' => processKeywordParameters required specs optionals i b'
    | _, _ => .error .undefined

/-- `process_keyword_call_into` (c-run-time.c 1411-1429): the arguments for the
body, and how many they are. -/
def processKeywordCallInto (newArguments : Buf V) (fn : Fn V) (required : Nat)
    (requiredArguments : Buf V) (optionals : List V) : M V (Nat × Buf V) :=
  let specs := specVector fn.keys
  let count := required + specs.length / 2 + 1
  match defaultArguments required requiredArguments specs (required + 1) newArguments with
  | .error e => .error e
  | .ok b =>
    match processKeywordParameters required specs optionals optionals.length b with
    | .error e => .error e
    | .ok b' =>
      match store b' required (.vec optionals) with
      | .error e => .error e
      | .ok b'' => .ok (count, b'')

/-! ## External entry points of methods

`n` is the number of arguments that the caller says it passes, `passed` what it
passes. -/

/-- `xep_0` to `xep_9` (c-run-time.c 1138-1206): the arguments are parameters of
the C function. -/
def xepNumbered (fn : Fn V) (n : Nat) (passed : List (Cell V)) : M V (List (Cell V)) :=
  match basicRequiredCallCheck (V := V) fn.required n with
  | .error e => .error e
  | .ok _ =>
    if passed.length < fn.required then .error .undefined
    else
      match typeCheckArgs fn fn.required (fun i => passed.getD i .junk) with
      | .error e => .error e
      | .ok _ => .ok (passed.take fn.required)

/-- `xep` (c-run-time.c 1207-1212).  `buf` is `teb->arguments`. -/
def xepGeneral (fn : Fn V) (buf : Buf V) (n : Nat) (passed : List (Cell V)) :
    M V (List (Cell V)) :=
  match transferVarargs passed 0 n 0 buf with
  | .error e => .error e
  | .ok b =>
    match requiredCallCheck fn fn.required n b with
    | .error e => .error e
    | .ok _ => iepApply n b

/-- `rest_xep_0` to `rest_xep_9` (c-run-time.c 1217-1298): the required
arguments are parameters of the C function, the others are buffered before the
count is checked. -/
def restXepNumbered (fn : Fn V) (buf : Buf V) (n : Nat) (passed : List (Cell V)) :
    M V (List (Cell V)) :=
  match transferVarargs (passed.drop fn.required) 0 (n - fn.required) 0 buf with
  | .error e => .error e
  | .ok b =>
    match basicOptionalCallCheck (V := V) fn.required n with
    | .error e => .error e
    | .ok _ =>
      match typeCheckArgs fn fn.required (fun i => passed.getD i .junk) with
      | .error e => .error e
      | .ok _ =>
        match readVals b 0 (n - fn.required) with
        | .error e => .error e
        | .ok r => .ok (passed.take fn.required ++ [.vec r])

/-- `rest_xep` (c-run-time.c 1300-1314).  `newBuf` is `teb->new_arguments`. -/
def restXepGeneral (fn : Fn V) (buf newBuf : Buf V) (n : Nat) (passed : List (Cell V)) :
    M V (List (Cell V)) :=
  match transferVarargs passed 0 n 0 buf with
  | .error e => .error e
  | .ok b =>
    match optionalCallCheck fn fn.required n b with
    | .error e => .error e
    | .ok _ =>
      match copyRequired b fn.required 0 newBuf with
      | .error e => .error e
      | .ok b' =>
        match readVals b fn.required (n - fn.required) with
        | .error e => .error e
        | .ok r =>
          match store b' fn.required (.vec r) with
          | .error e => .error e
          | .ok b'' => iepApply (fn.required + 1) b''

/-- `rest_key_xep_1` to `rest_key_xep_9` and `rest_key_xep` (c-run-time.c
1471-1602), with `process_keyword_call`, `process_keyword_call_and_n` and
`process_keyword_call_and_restify_into` (1434-1467), which repeats the check.
The numbered ones call the body with the words of the buffer directly, the last
one through `iep_apply`. -/
def restKeyXep (fn : Fn V) (buf newBuf : Buf V) (n : Nat) (passed : List (Cell V)) :
    M V (List (Cell V)) :=
  match transferVarargs passed 0 n 0 buf with
  | .error e => .error e
  | .ok b =>
    match keywordCallCheck fn fn.required n b with
    | .error e => .error e
    | .ok _ =>
      match readVals b fn.required (n - fn.required) with
      | .error e => .error e
      | .ok r =>
        match processKeywordCallInto newBuf fn fn.required b r with
        | .error e => .error e
        | .ok (count, b') =>
          if fn.required + fn.keys.length + 1 < 10 then
            .ok (cells b' (fn.required + fn.keys.length + 1))
          else iepApply count b'

/-- The buffers of a thread and its argument count (`struct _teb`, run-time.h
580-605), as far as they are used here. -/
structure Teb (V : Type) where
  argumentCount : Int
  arguments : Buf V
  newArguments : Buf V
  a : Buf V
  iepA : Buf V
  applyBuffer : Buf V

/-- A call through the external entry point.  The back end chooses it by the
number of parameters (`emit-xep-reference`, dfmc/c-back-end/c-emit-object.dylan
456-474; `$number-xeps` is 10). -/
def xepCall (t : Teb V) (fn : Fn V) (n : Nat) (passed : List (Cell V)) : M V (List (Cell V)) :=
  match fn.opt with
  | .none =>
    if fn.required < 10 then xepNumbered fn n passed
    else xepGeneral fn t.arguments n passed
  | .rest =>
    if fn.required < 10 then restXepNumbered fn t.arguments n passed
    else restXepGeneral fn t.arguments t.newArguments n passed
  | .key => restKeyXep fn t.arguments t.newArguments n passed

/-- A call in compiled code, `CALL0` to `CALL10` (run-time.h 703-714) and the
like: the values are passed as arguments with their number. -/
def call (t : Teb V) (fn : Fn V) (args : List V) : M V (List (Cell V)) :=
  xepCall t fn args.length (args.map .val)

/-! ## `apply` -/

/-- `primitive_xep_apply` (c-run-time.c 904-935): from ten arguments on always 64
words of the buffer are passed; with more than 64, after `primitive_break`. -/
def primitiveXepApply (t : Teb V) (fn : Fn V) (n : Nat) (a : Buf V) : M V (List (Cell V)) :=
  if n ≤ 9 then xepCall t fn n (cells a n)
  else if n > 64 then .error .broke
  else xepCall t fn n (cells a 64)

/-- The loops of `primitive_apply_using_buffer` (c-run-time.c 3500-3505). -/
def fillApplyBuffer : List V → Nat → Buf V → M V (Buf V)
  | [], _, b => .ok b
  | v :: r, i, b =>
    match store b i (.val v) with
    | .error e => .error e
    | .ok b' => fillApplyBuffer r (i + 1) b'

/-- `primitive_apply` (c-run-time.c 3494-3512): the last argument is a vector,
its elements are passed after the others.  (`apply` without arguments besides
the function is rejected by the compiler and not modelled.) -/
def primitiveApply (t : Teb V) (fn : Fn V) (args last : List V) : M V (List (Cell V)) :=
  match fillApplyBuffer args 0 t.applyBuffer with
  | .error e => .error e
  | .ok b =>
    match fillApplyBuffer last args.length b with
    | .error e => .error e
    | .ok b' => primitiveXepApply t fn (args.length + 1 + last.length - 1) b'

/-! ## Calls of generic functions -/

/-- Inner loop of `check_explicit_kwds` (c-run-time.c 2340-2343). -/
def knownKeyword (kwd : V) : List V → Bool
  | [] => false
  | k :: r => if k = kwd then true else knownKeyword kwd r

/-- Outer loop of `check_explicit_kwds` (c-run-time.c 2338-2347). -/
def checkLoop (kwds : List V) : List V → Option V
  | k :: _ :: r => if knownKeyword k kwds then checkLoop kwds r else some k
  | _ => none

/-- How the engine node checks keywords (c-run-time.c 2361-2376). -/
inductive How (V : Type) where
  /-- against a vector of keywords in the engine node -/
  | explicit (kwds : List V)
  /-- against those of the method -/
  | implicit
  | unrestricted
  deriving DecidableEq

/-- Two things to know of the values: which is `#f`, and which are symbols. -/
structure Lang (V : Type) where
  dfalse : V
  isSymbol : V → Bool

/-- `CHECK_KEYWORDS_explicit`, `_implicit`, `_unrestricted` (c-run-time.c
2365-2372) with `check_explicit_kwds` (2328-2349) and `check_unrestricted_kwds`
(2351-2358).  They return NULL (`none`), or DFALSE for an odd number, or a
keyword. -/
def checkKeywords (L : Lang V) (how : How V) (fn : Fn V) (optionals : List V) : Option V :=
  if optionals.length % 2 = 1 then some L.dfalse
  else
    match how with
    | .explicit kwds => checkLoop kwds optionals
    | .implicit => checkLoop (fn.keys.map Prod.fst) optionals
    | .unrestricted => none

/-- `key_mep_1` to `key_mep_9` and `key_mep` (c-run-time.c 1606-1715).  The
number of arguments is taken from the thread, `teb->argument_count`. -/
def keyMep (t : Teb V) (fn : Fn V) (passed : List (Cell V)) : M V (List (Cell V)) :=
  match passed with
  | [] => .error .undefined
  | a1 :: more =>
    match transferVarargs more 1 (t.argumentCount - 1).toNat 0 (t.a.set 0 a1) with
    | .error e => .error e
    | .ok a =>
      match a fn.required with
      | .vec rest =>
        match processKeywordCallInto
            (if fn.required + fn.keys.length + 1 < 10 then t.iepA else t.newArguments)
            fn fn.required a rest with
        | .error e => .error e
        | .ok (count, b) =>
          if fn.required + fn.keys.length + 1 < 10 then
            .ok (cells b (fn.required + fn.keys.length + 1))
          else iepApply count b
      | _ => .error .undefined

/-- A call of the method entry point.  Methods without keywords have no code
between it and the body. -/
def mepCall (t : Teb V) (fn : Fn V) (passed : List (Cell V)) : M V (List (Cell V)) :=
  match fn.opt with
  | .key => keyMep t fn passed
  | _ => .ok passed

/-- `primitive_mep_apply_with_optionals` (c-run-time.c 969-1002): sets the
argument count and spreads the vector; from ten arguments on, 64 words are read
from the vector. -/
def mepApplyWithOptionals (t : Teb V) (fn : Fn V) (args : List (Cell V)) :
    M V (List (Cell V)) :=
  let t := { t with argumentCount := args.length }
  if args.length ≤ 9 then mepCall t fn args
  else if args.length > 64 then .error .broke
  else if args.length < 64 then .error .undefined
  else mepCall t fn args

/-- A warning that was signalled, and where the call ended. -/
abbrev Result (V : Type) := Option V × M V (List (Cell V))

/-- `invalid-keyword-trap` (sources/dylan/boot.dylan 978-1004) with
`*gf-invalid-keyword-error-is-warning*` at its value `#t` (974). -/
def invalidKeywordTrap (L : Lang V) (t : Teb V) (fn : Fn V) (key : V) (mepargs : List (Cell V)) :
    Result V :=
  if ¬ L.isSymbol key then (none, .error (.error (.keywordExpected key)))
  else (some key, mepApplyWithOptionals t fn mepargs)

/-- `INVALID_KEYWORD_explicit` etc. (c-run-time.c 2382-2401). -/
def invalidKeyword (L : Lang V) (t : Teb V) (fn : Fn V) (bad : V) (mepargs : List (Cell V)) :
    Result V :=
  if bad = L.dfalse then (none, .error (.error .odd))
  else invalidKeywordTrap L t fn bad mepargs

/-- `DEFINE_KEYED_SINGLE_METHOD_ENGINE` and its `_UNSPREAD` version (c-run-time.c
2404-2440).  The optional arguments are the last of the arguments. -/
def keyedEngine (L : Lang V) (t : Teb V) (how : How V) (fn : Fn V) (spread : Bool)
    (args : List (Cell V)) : Result V :=
  match args[fn.required]? with
  | some (.vec optionals) =>
    match checkKeywords L how fn optionals with
    | some bad => invalidKeyword L t fn bad args
    | none => (none, if spread then mepCall t fn args else mepApplyWithOptionals t fn args)
  | _ => (none, .error .undefined)

/-- `DEFINE_SINGLE_METHOD_ENGINE` and `single_method_engine_n` (c-run-time.c
2298-2324), and a method in the place of the engine node, whose MEP is called by
`gf_iep_0` to `_7` and `gf_iep` (1719-1807). -/
def plainEngine (t : Teb V) (fn : Fn V) (spread : Bool) (args : List (Cell V)) :
    M V (List (Cell V)) :=
  if spread then mepCall t fn args else mepApplyWithOptionals t fn args

/-- The engine node of the generic function: with or without a check of the
keywords. -/
def engine (L : Lang V) (t : Teb V) (how : Option (How V)) (fn : Fn V) (spread : Bool)
    (args : List (Cell V)) : Result V :=
  match how with
  | none => (none, plainEngine t fn spread args)
  | some h => keyedEngine L t h fn spread args

/-! ### Which engine node a call gets -/

/-- The part of the signature of a generic function that matters here.  Without
`key` the function takes `#rest`. -/
structure GfSig where
  key : Bool
  allKeys : Bool

/-- `inner` in `determine-call-keywords` (sources/dylan/discrimination.dylan
657-669): add the keywords of a method that are not there yet. -/
def addKeys : List (V × V) → List V → List V
  | [], ans => ans
  | (k, _) :: r, ans => if k ∈ ans then addKeys r ans else addKeys r (k :: ans)

/-- `outer` in `determine-call-keywords` (discrimination.dylan 645-673).  `none`
is `#t`: all keywords. -/
def outerKeys : List (Fn V) → List V → Option (List V)
  | [], ans => some ans
  | m :: r, ans => if m.allKeys then none else outerKeys r (addKeys m.keys ans)

/-- What `determine-call-keywords` answers. -/
inductive KeySpec (V : Type) where
  | no
  | all
  | only (kwds : List V)
  deriving DecidableEq

/-- `determine-call-keywords` (discrimination.dylan 639-677). -/
def determineCallKeywords (sig : GfSig) (methods : List (Fn V)) : KeySpec V :=
  if sig.allKeys then .all
  else if sig.key then
    match outerKeys methods [] with
    | none => .all
    | some ks => .only ks
  else .no

/-- `make-single-method-engine-node` (sources/dylan/new-dispatch.dylan 478-526)
and its caller `transmogrify-method-list-grounded` (discrimination.dylan
750-765): a method that does not call `next-method` takes the place of the engine
node itself if no particular keywords are to be checked
(`primitive_callable_as_engine_nodeQ` is always true, run-time.h 1884). -/
def howFor (spec : KeySpec V) (m : Fn V) : Option (How V) :=
  match spec with
  | .no => none
  | .all => if m.next then some .unrestricted else none
  | .only ks =>
    if ks.length = (specVector m.keys).length / 2 ∧ ∀ k ∈ ks, k ∈ m.keys.map Prod.fst then
      some .implicit
    else some (.explicit ks)

/-! ### Entry points of generic functions -/

/-- `gf_optional_xep_0` to `_6` (c-run-time.c 1865-1930): the external entry
point of a generic function that takes optional arguments, for up to six
required ones.  The argument count of the thread is not set. -/
def gfOptionalXepNumbered (L : Lang V) (t : Teb V) (how : Option (How V)) (fn : Fn V) (n : Nat)
    (passed : List (Cell V)) : Result V :=
  match basicOptionalCallCheck (V := V) fn.required n with
  | .error e => (none, .error e)
  | .ok _ =>
    match transferVarargs passed 0 n 0 t.a with
    | .error e => (none, .error e)
    | .ok a =>
      match readVals a fn.required (n - fn.required) with
      | .error e => (none, .error e)
      | .ok r =>
        match store a fn.required (.vec r) with
        | .error e => (none, .error e)
        | .ok a' =>
          engine L { t with a := a' } how fn true (cells a' (fn.required + 1))

/-- `gf_optional_xep` (c-run-time.c 1932-1945), with `gf_iep` (1791-1807): seven
or more required arguments; the engine gets a vector. -/
def gfOptionalXepGeneral (L : Lang V) (t : Teb V) (how : Option (How V)) (fn : Fn V) (n : Nat)
    (passed : List (Cell V)) : Result V :=
  match transferVarargs passed 0 n 0 t.arguments with
  | .error e => (none, .error e)
  | .ok b =>
    match basicOptionalCallCheck (V := V) fn.required n with
    | .error e => (none, .error e)
    | .ok _ =>
      match readVals b fn.required (n - fn.required) with
      | .error e => (none, .error e)
      | .ok r =>
        engine L { t with arguments := b } how fn false (cells b fn.required ++ [.vec r])

/-- A call of a generic function that takes optional arguments, through its
external entry point.  `m` is the most specific applicable method and `methods`
all of them (which ones these are is the matter of other parts of the model);
`m` has as many required arguments as the function, by congruency. -/
def gfCall (L : Lang V) (t : Teb V) (sig : GfSig) (m : Fn V) (methods : List (Fn V))
    (args : List V) : Result V :=
  let how := howFor (determineCallKeywords sig methods) m
  if m.required ≤ 6 then gfOptionalXepNumbered L t how m args.length (args.map .val)
  else gfOptionalXepGeneral L t how m args.length (args.map .val)

/-- A call of the same generic function in compiled code whose arguments are
known to be congruent (`CONGRUENT_CALL_PROLOG`, run-time.h 774-801, which sets
the argument count): the compiler has made the vector of optional arguments. -/
def congruentCall (L : Lang V) (t : Teb V) (sig : GfSig) (m : Fn V) (methods : List (Fn V))
    (required optionals : List V) : Result V :=
  let passed : List (Cell V) := required.map .val ++ [.vec optionals]
  engine L { t with argumentCount := passed.length } (howFor (determineCallKeywords sig methods) m)
    m (decide (passed.length ≤ 7)) passed

end Verif.Args
