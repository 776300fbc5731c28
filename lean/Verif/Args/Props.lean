import Verif.Args.Gf

/-!
# Argument passing: the properties

`bind` and `gfBind` in `Spec.lean` say what a call of a method or of a generic
function means.  `call`, `primitiveApply`, `gfCall` and `congruentCall` are the
ways of calling in the C run time; `t` is the state of the thread, about which
nothing is assumed unless it says so.
-/

namespace Verif.Args

variable {V : Type} [DecidableEq V]

/-! ## C66: calls of methods -/

/-- A call of a method binds its parameters: the required arguments in order, the
vector of all others, and for each keyword parameter the value with the first
occurrence of its keyword, or the default; and wrong numbers of arguments, wrong
types and odd numbers of keyword arguments are errors.

This is for up to 256 arguments and bodies with up to 64 parameters, and for
calls without unknown keywords. -/
theorem call_binds_partial (t : Teb V) (fn : Fn V) (hok : fn.Ok) (args : List V)
    (hn : args.length ≤ 256) (ha : fn.arity ≤ 64)
    (hk : fn.opt = .key → ∀ p ∈ pairs (args.drop fn.required), fn.accepts p.1 = true) :
    call t fn args = bind fn args := by
  rw [bind_eq_lax fn args (fun h => firstUnknown_none _ _ (fun k hk' => by
    obtain ⟨p, hp, rfl⟩ := List.mem_map.1 hk'
    exact hk h p hp))]
  have := xepCall_eq t fn hok args [] hn ha
  rwa [List.append_nil] at this

/-- With unknown keywords, a call behaves as if the method took all keywords. -/
theorem call_ignores_unknown (t : Teb V) (fn : Fn V) (hok : fn.Ok) (args : List V)
    (hn : args.length ≤ 256) (ha : fn.arity ≤ 64) :
    call t fn args = bind { fn with allKeys := true } args := by
  rw [bind_allKeys]
  have := xepCall_eq t fn hok args [] hn ha
  rwa [List.append_nil] at this

/-- `method (a, b :: <even>, #rest r, #key x = 10, y = 20)`.  Keywords are 101
and 102. -/
def exKey : Fn Nat :=
  { required := 2, specs := some [fun _ => true, fun n => n % 2 == 0], opt := .key,
    keys := [(101, 10), (102, 20)], allKeys := false, next := false }

/-- `method (a, #rest r)` -/
def exRest : Fn Nat :=
  { required := 1, specs := none, opt := .rest, keys := [], allKeys := false, next := false }

/-- A thread that has just been started. -/
def exTeb : Teb Nat := ⟨0, fun _ => .junk, fun _ => .junk, fun _ => .junk, fun _ => .junk, fun _ => .junk⟩

theorem exKey_ok : exKey.Ok := ⟨by simp [exKey], by decide, by simp [exKey]⟩
theorem exRest_ok : exRest.Ok := ⟨by simp [exRest], by decide, by simp [exRest]⟩

/-- The hypotheses can be met, and the first occurrence of a keyword counts. -/
example : call exTeb exKey [5, 6, 102, 7, 102, 8] =
    .ok [.val 5, .val 6, .vec [102, 7, 102, 8], .val 10, .val 7] := by
  rw [call_binds_partial exTeb exKey exKey_ok _ (by decide) (by decide) (by decide)]
  decide

example : call exTeb exKey [5, 7, 102, 8] = .error (.error (.type 7)) := by
  rw [call_binds_partial exTeb exKey exKey_ok _ (by decide) (by decide) (by decide)]
  decide

example : call exTeb exKey [5] = .error (.error (.count 1)) ∧
    call exTeb exKey [5, 6, 102] = .error (.error .odd) ∧
    call exTeb exRest [5, 6, 7] = .ok [.val 5, .vec [6, 7]] := by decide

/-- What a caller can rely on for a single keyword parameter. -/
theorem keyword_parameter_bound (t : Teb V) (fn : Fn V) (hok : fn.Ok) (req opts : List V)
    (hreq : req.length = fn.required) (hn : req.length + opts.length ≤ 256) (ha : fn.arity ≤ 64)
    (hopt : fn.opt = .key) (cells : List (Cell V)) (h : call t fn (req ++ opts) = .ok cells)
    (i : Nat) (kw dflt : V) (hi : fn.keys[i]? = some (kw, dflt)) :
    cells[fn.required + 1 + i]? = some (.val
      (((pairs opts).find? (fun p => p.1 = kw)).elim dflt Prod.snd)) := by
  rw [call_ignores_unknown t fn hok _ (by simpa using hn) ha, bind_allKeys] at h
  have hp : cells = parameters fn (req ++ opts) := by
    unfold bindLax at h
    split at h
    · exact absurd h (by simp)
    · split at h
      · exact absurd h (by simp)
      · split at h
        · exact absurd h (by simp)
        · injection h with h
          exact h.symm
  subst hp
  unfold parameters
  rw [hopt, ← hreq, List.take_left, List.drop_left]
  dsimp only
  rw [List.getElem?_append_right (by simp; omega)]
  have : req.length + 1 + i - (req.map Cell.val).length = i + 1 := by simp; omega
  rw [this, List.getElem?_cons_succ, List.getElem?_map, hi]
  simp only [Option.map_some, keywordValue]
  cases (pairs opts).find? (fun p => p.1 = kw) <;> rfl

/-- The methods with fewer than ten required arguments and no others are safe
with any number of arguments. -/
theorem call_counts_required (t : Teb V) (fn : Fn V) (hopt : fn.opt = .none)
    (h10 : fn.required < 10) (args : List V) (h : args.length ≠ fn.required) :
    ∃ e, call t fn args = .error (.error e) := by
  unfold call xepCall
  rw [hopt]
  dsimp only
  rw [if_pos h10]
  unfold xepNumbered basicRequiredCallCheck callCheck
  by_cases hm : args.length > maxArguments
  · rw [if_pos hm]
    exact ⟨_, rfl⟩
  · rw [if_neg hm]
    dsimp only
    rw [if_pos h]
    exact ⟨_, rfl⟩

omit [DecidableEq V] in
theorem transferVarargs_overflow (passed : List (Cell V)) : ∀ (n i : Nat) (b : Buf V),
    i + n ≤ passed.length → i ≤ maxArguments → maxArguments < i + n →
    transferVarargs passed 0 n i b = .error .undefined := by
  intro n
  induction n with
  | zero => intro i b _ h1 h2; omega
  | succ n ih =>
    intro i b h1 h2 h3
    unfold transferVarargs
    rw [List.getElem?_eq_getElem (show i < passed.length by omega)]
    dsimp only
    unfold store
    by_cases hi : 0 + i < maxArguments
    · rw [if_pos hi]
      dsimp only
      exact ih (i + 1) _ (by omega) (by omega) (by omega)
    · rw [if_neg hi]

/-- With more than 256 optional arguments a call writes past the end of the
argument buffer, before the number of arguments is checked. -/
theorem too_many_arguments_violated (t : Teb V) (fn : Fn V) (hopt : fn.opt ≠ .none)
    (args : List V) (hn : args.length - fn.required > 256) :
    call t fn args = .error .undefined := by
  have hall : ∀ b : Buf V, transferVarargs (args.map Cell.val) 0 args.length 0 b
      = .error .undefined := fun b =>
    transferVarargs_overflow _ _ 0 b (by simp) (by omega) (by unfold maxArguments; omega)
  unfold call xepCall
  cases ho : fn.opt with
  | none => exact absurd ho hopt
  | rest =>
    dsimp only
    split
    · unfold restXepNumbered
      rw [transferVarargs_overflow _ _ 0 _ (by simp) (by omega) (by unfold maxArguments; omega)]
    · unfold restXepGeneral
      rw [hall]
  | key =>
    dsimp only
    unfold restKeyXep
    rw [hall]

example : call exTeb exRest (List.replicate 300 0) = .error .undefined :=
  too_many_arguments_violated exTeb exRest (by decide) _ (by rw [List.length_replicate]; decide)

/-- A call of a method with an unknown keyword is no error. -/
theorem unknown_keyword_violated :
    bind exKey [5, 6, 999, 0] = .error (.error (.keyword 999)) ∧
    call exTeb exKey [5, 6, 999, 0] =
      .ok [.val 5, .val 6, .vec [999, 0], .val 10, .val 20] := by decide

/-- A method with more than 64 parameters cannot be called. -/
theorem many_parameters_violated (t : Teb V) (fn : Fn V) (hspecs : fn.specs = none)
    (hopt : fn.opt = .none) (args : List V) (hlen : args.length = fn.required)
    (hn : 64 < fn.required) (hm : fn.required ≤ 256) :
    bind fn args = .ok (args.map .val) ∧ call t fn args = .error .broke := by
  constructor
  · unfold bind
    have hc : countOk fn args.length := by unfold countOk; rw [hopt]; exact hlen
    simp only [hc, not_true, if_false]
    simp [wrongType, hspecs, hopt, parameters, ← hlen]
  · unfold call xepCall
    rw [hopt]
    dsimp only
    rw [if_neg (by omega)]
    obtain ⟨b, hb, _⟩ := transferVarargs_all args t.arguments (by unfold maxArguments; omega)
    unfold xepGeneral requiredCallCheck basicRequiredCallCheck
    rw [hb]
    dsimp only
    rw [callCheck_ok _ (by unfold maxArguments; omega)]
    dsimp only
    rw [if_neg (by simpa using hlen)]
    dsimp only
    unfold typeCheckArgs
    rw [hspecs]
    dsimp only
    unfold iepApply
    rw [if_neg (by omega), if_pos (by omega)]

/-- The case exists. -/
example : call exTeb { exRest with required := 65, opt := .none } (List.replicate 65 0) =
    .error .broke :=
  (many_parameters_violated exTeb _ rfl rfl _ (by simp) (by decide) (by decide)).2

/-! ## C67: `apply` -/

/-- `apply (f, a, b, ..., v)` is the call of `f` with `a`, `b`, ... and the
elements of `v`, as long as these are no more than 64. -/
theorem apply_is_call_partial (t t' : Teb V) (fn : Fn V) (hok : fn.Ok) (args last : List V)
    (hn : args.length + last.length ≤ 64) (ha : fn.arity ≤ 64) :
    primitiveApply t fn args last = call t' fn (args ++ last) := by
  rw [primitiveApply_eq t fn hok args last hn ha]
  have := xepCall_eq t' fn hok (args ++ last) [] (by simp [maxArguments]; omega) ha
  rw [List.append_nil] at this
  exact this.symm

example : primitiveApply exTeb exKey [5] [6, 101, 7] =
    .ok [.val 5, .val 6, .vec [101, 7], .val 7, .val 20] := by
  rw [apply_is_call_partial exTeb exTeb exKey exKey_ok _ _ (by decide) (by decide)]
  decide

/-- With 65 to 256 arguments `apply` stops in the debugger, although the call
would be right. -/
theorem apply_breaks_violated (t : Teb V) (fn : Fn V) (args last : List V)
    (h1 : 64 < args.length + last.length) (h2 : args.length + last.length ≤ 256) :
    primitiveApply t fn args last = .error .broke := by
  obtain ⟨b, hb, _⟩ := fillApplyBuffer_ok args 0 t.applyBuffer (by unfold maxArguments; omega)
  obtain ⟨b', hb', _⟩ := fillApplyBuffer_ok last args.length b (by unfold maxArguments; omega)
  unfold primitiveApply
  rw [hb]
  dsimp only
  rw [hb']
  dsimp only
  unfold primitiveXepApply
  rw [if_neg (by omega), if_pos (by omega)]

example : primitiveApply exTeb exRest [1] (List.replicate 99 0) = .error .broke ∧
    call exTeb exRest ([1] ++ List.replicate 99 0) = .ok [.val 1, .vec (List.replicate 99 0)] := by
  refine ⟨apply_breaks_violated exTeb exRest _ _ (by simp) (by simp), ?_⟩
  rw [call_binds_partial exTeb exRest exRest_ok _ (by simp) (by decide) (by simp [exRest])]
  decide +kernel

omit [DecidableEq V] in
theorem fillApplyBuffer_overflow : ∀ (l : List V) (i : Nat) (b : Buf V), i ≤ maxArguments →
    maxArguments < i + l.length → fillApplyBuffer l i b = .error .undefined := by
  intro l
  induction l with
  | nil => intro i b h1 h2; simp at h2; omega
  | cons v r ih =>
    intro i b h1 h2
    simp only [List.length_cons] at h2
    unfold fillApplyBuffer store
    by_cases hi : i < maxArguments
    · rw [if_pos hi]
      exact ih (i + 1) _ (by omega) (by omega)
    · rw [if_neg hi]

/-- With more than 256 arguments `apply` writes past the end of its buffer,
without any check. -/
theorem apply_overflow_violated (t : Teb V) (fn : Fn V) (args last : List V)
    (hn : 256 < args.length + last.length) :
    primitiveApply t fn args last = .error .undefined := by
  unfold primitiveApply
  by_cases h : args.length ≤ 256
  · obtain ⟨b, hb, _⟩ := fillApplyBuffer_ok args 0 t.applyBuffer (by unfold maxArguments; omega)
    rw [hb]
    dsimp only
    rw [fillApplyBuffer_overflow last args.length b h (by unfold maxArguments; omega)]
  · rw [fillApplyBuffer_overflow args 0 _ (by omega) (by unfold maxArguments; omega)]

example : primitiveApply exTeb exRest [1] (List.replicate 256 0) = .error .undefined :=
  apply_overflow_violated exTeb exRest _ _ (by rw [List.length_replicate]; decide)

/-! ## C68: calls of generic functions -/

theorem gfDoes_eq_bind (L : Lang V) (sig : GfSig) (m : Fn V) (methods : List (Fn V))
    (args : List V) (hk : sig.key = true →
      ∀ p ∈ pairs (args.drop m.required), gfAccepts sig methods p.1 = true) :
    gfDoes L sig m methods args = (none, gfBind sig m methods args) := by
  unfold gfDoes gfBind
  by_cases h1 : args.length < m.required
  · rw [if_pos h1, if_pos h1]
  · rw [if_neg h1, if_neg h1]
    by_cases h2 : sig.key = true
    · rw [if_pos h2, if_pos h2]
      by_cases h3 : (args.length - m.required) % 2 = 1
      · rw [if_pos h3, if_pos h3]
      · rw [if_neg h3, if_neg h3, firstUnknown_none _ _ (fun k hk' => by
          obtain ⟨p, hp, rfl⟩ := List.mem_map.1 hk'
          exact hk h2 p hp)]
    · rw [if_neg h2, if_neg h2]

/-- A call of a generic function with optional arguments, through its entry
point: the number of arguments is checked, the keywords must come in pairs, and
the most specific method gets its parameters as in a call of the method.

Left out are: more than eight required arguments; unknown keywords, see
`gf_unknown_keyword_partial`; an odd number of keyword arguments where all
keywords are allowed and the method does not call `next-method`; and threads
whose argument count was left by a call with more arguments. -/
theorem gf_call_binds_partial (L : Lang V) (t : Teb V) (sig : GfSig) (m : Fn V)
    (methods : List (Fn V)) (hok : m.Ok) (hcong : Congruent sig m) (ha : m.arity ≤ 64)
    (h8 : m.required ≤ 8) (args : List V) (hlen : args.length ≤ 256)
    (hk : sig.key = true →
      ∀ p ∈ pairs (args.drop m.required), gfAccepts sig methods p.1 = true)
    (hodd : sig.key = true → (args.length - m.required) % 2 = 1 →
      m.next = true ∨ ¬ TakesAllKeys sig methods)
    (hcount : sig.key = true → m.required ≤ 6 → t.argumentCount ≤ (m.required : Int) + 1) :
    gfCall L t sig m methods args = (none, gfBind sig m methods args) := by
  rw [gfCall_eq L t sig m methods hok hcong ha h8 args hlen hcount hodd,
    gfDoes_eq_bind L sig m methods args hk]

/-- The same in compiled calls, which set the argument count: here nothing is
assumed of the thread. -/
theorem congruent_call_binds_partial (L : Lang V) (t : Teb V) (sig : GfSig) (m : Fn V)
    (methods : List (Fn V)) (hok : m.Ok) (hcong : Congruent sig m) (ha : m.arity ≤ 64)
    (h8 : m.required ≤ 8) (required optionals : List V) (hreq : required.length = m.required)
    (hk : sig.key = true → ∀ p ∈ pairs optionals, gfAccepts sig methods p.1 = true)
    (hodd : sig.key = true → optionals.length % 2 = 1 →
      m.next = true ∨ ¬ TakesAllKeys sig methods) :
    congruentCall L t sig m methods required optionals =
      (none, gfBind sig m methods (required ++ optionals)) := by
  rw [congruentCall_eq L t sig m methods hok hcong ha h8 required optionals hreq hodd,
    gfDoes_eq_bind L sig m methods _ (fun h => by
      rw [← hreq, List.drop_left]; exact hk h)]

/-- The first unknown keyword, if it is a symbol, is warned of, and the method is
called all the same; if it is not a symbol, an error is signalled (unless it is
`#f`). -/
theorem gf_unknown_keyword_partial (L : Lang V) (t : Teb V) (sig : GfSig) (m : Fn V)
    (methods : List (Fn V)) (hok : m.Ok) (hcong : Congruent sig m) (ha : m.arity ≤ 64)
    (h8 : m.required ≤ 8) (required optionals : List V) (hreq : required.length = m.required)
    (hkey : sig.key = true) (heven : optionals.length % 2 = 0) (k : V)
    (hk : firstUnknown (gfAccepts sig methods) optionals = some k) (hf : k ≠ L.dfalse) :
    congruentCall L t sig m methods required optionals =
      if L.isSymbol k then (some k, .ok (parameters m (required ++ optionals)))
      else (none, .error (.error (.keywordExpected k))) := by
  rw [congruentCall_eq L t sig m methods hok hcong ha h8 required optionals hreq
    (fun _ h => by omega)]
  unfold gfDoes
  rw [if_neg (by simp; omega), if_pos hkey, if_neg (by simp; omega), ← hreq, List.drop_left, hk]
  dsimp only
  rw [if_neg hf]

/-- 0 is `#f`, and the numbers from 100 on are symbols. -/
def exLang : Lang Nat := ⟨0, fun v => decide (100 ≤ v)⟩

/-- `define generic g (a, b, #key)` -/
def exSig : GfSig := ⟨true, false⟩

/-- A less specific method, with another keyword. -/
def exKey2 : Fn Nat := { exKey with keys := [(103, 30)] }

/-- The hypotheses can be met: a keyword of another applicable method is allowed,
and the most specific method ignores it. -/
example : gfCall exLang exTeb exSig exKey [exKey, exKey2] [5, 6, 103, 7, 101, 8] =
    (none, .ok [.val 5, .val 6, .vec [103, 7, 101, 8], .val 8, .val 20]) := by
  rw [gf_call_binds_partial exLang exTeb exSig exKey _ exKey_ok ⟨rfl, by decide⟩ (by decide)
    (by decide) _ (by decide) (by decide) (fun _ h => absurd h (by decide)) (by decide)]
  decide

example : congruentCall exLang exTeb exSig exKey [exKey, exKey2] [5, 6] [104, 7] =
    (some 104, .ok [.val 5, .val 6, .vec [104, 7], .val 10, .val 20]) := by
  rw [gf_unknown_keyword_partial exLang exTeb exSig exKey _ exKey_ok ⟨rfl, by decide⟩ (by decide)
    (by decide) [5, 6] [104, 7] rfl rfl rfl 104 (by decide) (by decide)]
  decide

/-- An unknown keyword is an error by the meaning of the call, but the method is
called after a warning. -/
theorem gf_unknown_keyword_violated :
    gfBind exSig exKey [exKey] [5, 6, 104, 7] = .error (.error (.keyword 104)) ∧
    gfCall exLang exTeb exSig exKey [exKey] [5, 6, 104, 7] =
      (some 104, .ok [.val 5, .val 6, .vec [104, 7], .val 10, .val 20]) := by decide

/-- `#f` in the place of a keyword is reported as an odd number of keyword
arguments. -/
theorem false_keyword_violated :
    gfBind exSig exKey [exKey] [5, 6, 0, 7] = .error (.error (.keyword 0)) ∧
    gfCall exLang exTeb exSig exKey [exKey] [5, 6, 0, 7] = (none, .error (.error .odd)) := by
  decide

/-- Where all keywords are allowed, an odd number of keyword arguments is not
noticed if the method does not call `next-method`: the word before the arguments
is taken for a keyword. -/
theorem odd_keywords_violated :
    gfBind ⟨true, true⟩ exKey [exKey] [5, 6, 101] = .error (.error .odd) ∧
    gfCall exLang exTeb ⟨true, true⟩ exKey [exKey] [5, 6, 101] = (none, .error .undefined) ∧
    gfCall exLang exTeb ⟨true, true⟩ { exKey with next := true } [exKey] [5, 6, 101] =
      (none, .error (.error .odd)) := by decide

/-- The entry points of generic functions do not set the argument count: after a
call that has set it to five, arguments are fetched that were not passed. -/
theorem stale_count_violated :
    gfBind exSig exKey [exKey] [5, 6, 101, 7] =
      .ok [.val 5, .val 6, .vec [101, 7], .val 7, .val 20] ∧
    gfCall exLang { exTeb with argumentCount := 5 } exSig exKey [exKey] [5, 6, 101, 7] =
      (none, .error .undefined) := by decide

/-- With nine required arguments and `#key`, 64 words are read from a vector of
ten. -/
theorem nine_required_violated :
    gfBind exSig { exKey with required := 9, specs := none } [exKey] [1, 2, 3, 4, 5, 6, 7, 8, 9] =
      .ok [.val 1, .val 2, .val 3, .val 4, .val 5, .val 6, .val 7, .val 8, .val 9, .vec [],
        .val 10, .val 20] ∧
    gfCall exLang exTeb exSig { exKey with required := 9, specs := none } [exKey]
      [1, 2, 3, 4, 5, 6, 7, 8, 9] = (none, .error .undefined) := by decide

end Verif.Args
