import Verif.Signal.Sim

/-!
# Conditions: the properties

C106: programs with handlers, exception clauses, signals, exits and cleanup
clauses run as their meaning (`Spec.lean`) says.  C107: the handlers in force.
C108: `error`, `cerror`.  C109: which handlers a signal calls.  C110:
`do-handlers`.
-/

namespace Verif.Signal

/-- Runs have one result at most. -/
theorem run_unique {w live code s z z'} {n k : Nat} (h : run w n live code s = some z)
    (h' : run w k live code s = some z') : z = z' := by
  have a := run_le w (Nat.le_max_left n k) h
  have b := run_le w (Nat.le_max_right n k) h'
  rw [a] at b
  exact Option.some.inj b

/-- The state of a thread in which nothing has happened. -/
def fresh (last : List Handler) : Mem := ⟨[], 0, [], [], last⟩

/-- Nothing noted. -/
def noNotes : Notes := ⟨[], false⟩

theorem inv_fresh (last) : Inv (fresh last) noNotes := by
  refine ⟨rfl, fun t sid hs c h => ?_⟩
  simp [fresh] at h

/-- **C106** (partial).  If by its meaning a program ends with values, and no
cleanup clause was run on the way to an exception clause and the handlers in
force were not used up twice for one signal with last handlers around, then the
program runs to its end, with these values, has called the same other code in
the same order, and leaves the handlers in force as they were.  It has no other
run.  Missing: the cases of the mark, see below. -/
theorem conditions_partial (w : World) (p : Prog) (env last : List Handler) (n : Nat) (vs : Vals)
    (m : Mem) (x : Notes)
    (h : meaning w n [] [] env (.prog p) (fresh last) noNotes = some (.val vs, m, x))
    (hx : x.mark = false) :
    (∃ k, run w k [] (.prog p) ⟨fresh last, env⟩ = some (.val vs, ⟨m, env⟩)) ∧
    ∀ k z, run w k [] (.prog p) ⟨fresh last, env⟩ = some z → z = (.val vs, ⟨m, env⟩) := by
  have a : Runs w [] (.prog p) ⟨fresh last, env⟩ (.val vs, ⟨m, env⟩) :=
    sim w n [] [] env (.prog p) (fresh last) noNotes _ h hx (inv_fresh last) trivial
      (fun _ h => by simp at h) (fun _ h => by simp at h) [] (fun _ h => h) (fun _ h => h)
  obtain ⟨k, a⟩ := a
  exact ⟨⟨k, a⟩, fun k' z hz => run_unique hz a⟩

/-- A program whose exits reach nothing ends with values, or with the call of an
exit procedure of a block that is over. -/
theorem meaning_ends (w : World) (p : Prog) (env last : List Handler) (n : Nat) (r : Res)
    (m : Mem) (x : Notes)
    (h : meaning w n [] [] env (.prog p) (fresh last) noNotes = some (r, m, x)) :
    (∃ vs, r = .val vs) ∨ r = .dead := by
  have g := (meaning_good w n [] [] env (.prog p) (fresh last) noNotes _ h (inv_fresh last) trivial).res
  cases r with
  | val vs => exact Or.inl ⟨vs, rfl⟩
  | dead => exact Or.inr rfl
  | exit h vs => simp [ResOk] at g
  | clause b env h c => simp [ResOk] at g

/-- A world: condition 9 is serious, conditions of 20 or more are restarts, the
others are plain. -/
def exampleWorld : World where
  default := fun c => if c = 9 then .serious else if c ≥ 20 then .restart else .plain
  debugger := fun _ => .act 99
  mayNotReturn := 9
  noRestart := fun _ => 9
  call := fun tr => [tr.length]

/-- Nested handlers, a handler that declines, an exception clause, a cleanup
clause, an exit. -/
def exampleProgram : Prog :=
  .bind
    (.exception 1 (· == 3) none (fun _ => .bind (.act 30) fun _ => .signal 4)
      (.letHandler 2 (fun _ => true) (some fun c => .done [if c = 3 then 1 else 0])
        (fun _ t => .bind (.act 20) fun _ => .next t)
        (.bind (.protect (.act 10) (.act 11)) fun _ => .signal 3)))
    fun vs => .bindExit fun e => .protect (.exit e vs) (.signal 5)

/-- A handler around everything. -/
def exampleEnv : List Handler := [.user 7 (· ≥ 4) none fun c _ => .bind (.act (100 + c)) fun _ => .done [c]]

example : (meaning exampleWorld 30 [] [] exampleEnv (.prog exampleProgram) (fresh []) noNotes).map
      (fun r => (r.2.1.tr, r.2.2.mark)) = some ([10, 11, 20, 30, 104, 105], false) ∧
    (run exampleWorld 30 [] (.prog exampleProgram) ⟨fresh [], exampleEnv⟩).map
      (fun z => (z.1, z.2.mem.tr)) = some (.val [4], [10, 11, 20, 30, 104, 105]) := ⟨rfl, rfl⟩

/-- **C106** is violated: the body of an exception clause is run before the
cleanup clauses on the way to it.
`block () block () signal(c) cleanup act(1) end exception (c) act(2) end`. -/
theorem exception_cleanup_violated :
    ¬ ∀ (w : World) (p : Prog) (n : Nat) (vs : Vals) (m : Mem) (x : Notes),
      meaning w n [] [] [] (.prog p) (fresh []) noNotes = some (.val vs, m, x) →
      ∀ k z, run w k [] (.prog p) ⟨fresh [], []⟩ = some z → z.2.mem.tr = m.tr := by
  intro h
  let p : Prog := .exception 0 (· == 3) none (fun _ => .act 2) (.protect (.signal 3) (.act 1))
  have hm : (meaning exampleWorld 20 [] [] [] (.prog p) (fresh []) noNotes).map (fun r => r.2.1.tr)
    = some [1, 2] := rfl
  have hv : ∃ vs m x, meaning exampleWorld 20 [] [] [] (.prog p) (fresh []) noNotes
    = some (.val vs, m, x) := ⟨_, _, _, rfl⟩
  obtain ⟨vs, m, x, hv⟩ := hv
  have hr : (run exampleWorld 20 [] (.prog p) ⟨fresh [], []⟩).map (fun z => z.2.mem.tr)
    = some [2, 1] := rfl
  cases hz : run exampleWorld 20 [] (.prog p) ⟨fresh [], []⟩ with
  | none => rw [hz] at hr; exact absurd hr (by simp)
  | some z =>
    have a := h _ _ _ _ _ _ hv _ _ hz
    rw [hz] at hr
    rw [hv] at hm
    simp only [Option.map_some, Option.some.injEq] at hr hm
    rw [hr, hm] at a
    exact absurd a (by decide)

/-- **C106** is violated: a cleanup clause that is run on the way out of an
exception clause does not see the handlers around it.
`block () let handler <d> = ...; block () signal(c) cleanup signal(d) end exception (c) end`. -/
theorem cleanup_handlers_violated :
    ∃ (p : Prog) (vs : Vals) (m : Mem) (x : Notes) (z : Out × St),
      meaning exampleWorld 20 [] [] [] (.prog p) (fresh []) noNotes = some (.val vs, m, x) ∧
      run exampleWorld 20 [] (.prog p) ⟨fresh [], []⟩ = some z ∧
      m.tr = [55] ∧ z.2.mem.tr = [] :=
  ⟨.exception 0 (· == 3) none (fun _ => .done [])
    (.letHandler 1 (· == 4) none (fun _ _ => .act 55) (.protect (.signal 3) (.signal 4))),
    _, _, _, _, rfl, rfl, rfl, rfl⟩

/-- **C106** is violated: `next-handler` called a second time does not go on to
the last handlers: `done-last?` is already set.  No cleanup clause, no exception
clause is needed. -/
theorem next_handler_violated :
    ∃ (p : Prog) (last : List Handler) (vs : Vals) (m : Mem) (x : Notes) (z : Out × St),
      meaning exampleWorld 20 [] [] [] (.prog p) (fresh last) noNotes = some (.val vs, m, x) ∧
      run exampleWorld 20 [] (.prog p) ⟨fresh last, []⟩ = some z ∧
      m.tr = [66, 66] ∧ vs = [7] ∧ z.2.mem.tr = [66] ∧ z.1 = .val [0] :=
  ⟨.letHandler 1 (· == 4) none (fun _ t => .bind (.next t) fun _ => .next t) (.signal 4),
    [.user 2 (· == 4) none fun _ _ => .bind (.act 66) fun _ => .done [7]],
    _, _, _, _, rfl, rfl, rfl, rfl, rfl, rfl⟩

/-! ## C107: the handlers in force -/

theorem restore_cur {r : Run} {hs : List Handler} {o s} (h : Run.restore r hs = some (o, s))
    (ho : o ≠ .dead) : s.cur = hs := by
  cases r with
  | none => simp [Run.restore, Run.cleanup] at h
  | some p =>
    obtain ⟨o', s'⟩ := p
    cases o' with
    | dead =>
      simp only [Run.restore, Run.cleanup, Option.some.injEq, Prod.mk.injEq] at h
      exact absurd h.1.symm ho
    | _ =>
      simp only [Run.restore, Run.cleanup, Run.andThen, Option.some.injEq, Prod.mk.injEq] at h
      rw [← h.2]
      rfl

/-- **C107**.  `let handler` and a block with an exception clause leave the
handlers in force as they found them, whether they end with values or by an
exit, and whatever handlers were called meanwhile. -/
theorem handlers_restored (w : World) (n : Nat) (live : List Exit) (s s' : St) (o : Out)
    (tag : Nat) (type : Cond → Bool) (test : Option (Cond → Prog)) (fn : Cond → Next → Prog)
    (handling : Cond → Prog) (body : Prog)
    (h : run w n live (.prog (.letHandler tag type test fn body)) s = some (o, s') ∨
      run w n live (.prog (.exception tag type test handling body)) s = some (o, s'))
    (ho : o ≠ .dead) : s'.cur = s.cur := by
  cases n with
  | zero => rcases h with h | h <;> simp [run] at h
  | succ n =>
    rcases h with h | h
    · simp only [run] at h
      exact restore_cur h ho
    · simp only [run] at h
      cases hr : Run.restore (run w n (s.mem.blocks :: live) (.prog body)
          ((s.upd Mem.newBlock).handlers
            (.clause tag type test handling s.cur s.mem.blocks :: s.cur))) s.cur with
      | none => rw [hr] at h; simp [Run.land] at h
      | some z =>
        rw [hr] at h
        obtain ⟨o', s1⟩ := z
        cases o' with
        | val vs =>
          simp only [Run.land, Option.some.injEq, Prod.mk.injEq] at h
          rw [← h.2]; exact restore_cur hr (by simp)
        | dead =>
          simp only [Run.land, Option.some.injEq, Prod.mk.injEq] at h
          exact absurd h.1.symm ho
        | exit i vs =>
          simp only [Run.land] at h
          split at h <;> simp only [Option.some.injEq, Prod.mk.injEq] at h <;>
            (rw [← h.2]; exact restore_cur hr (by simp))

example : (run exampleWorld 20 [5] (.prog (.letHandler 1 (· == 4) none (fun _ _ => .exit 5 [8])
      (.signal 4))) ⟨{ fresh [] with blocks := 6 }, exampleEnv⟩).map (fun z => (z.1, z.2.cur.length)) =
    some (.exit 5 [8], 1) := rfl

/-- **C107**.  The body of an exception clause runs with the handlers that were
in force around its block, and with no others. -/
theorem clause_handlers (w : World) (n : Nat) (live : List Exit) (s : St) (z : Out × St)
    (sid tag : Nat) (type : Cond → Bool) (test : Option (Cond → Prog)) (handling : Cond → Prog)
    (around hs : List Handler) (b : Exit) (c : Cond)
    (h : run w n live (.invoke sid (.clause tag type test handling around b) hs c) s = some z) :
    ∃ o s0 s1, s0.cur = around ∧ s0.mem.tr = s.mem.tr ∧
      run w (n - 1) live (.prog (handling c)) s0 = some (o, s1) ∧ z.2 = s1 := by
  cases n with
  | zero => simp [run] at h
  | succ n =>
    simp only [run] at h
    cases hr : run w n live (.prog (handling c)) ((s.upd (·.newNext sid hs c)).handlers around) with
    | none => rw [hr] at h; simp [Run.andThen] at h
    | some q =>
      rw [hr] at h
      obtain ⟨o, s1⟩ := q
      refine ⟨o, (s.upd (·.newNext sid hs c)).handlers around, s1, rfl, rfl, hr, ?_⟩
      cases o with
      | val vs =>
        simp only [Run.andThen] at h
        split at h <;> simp only [Option.some.injEq] at h <;> rw [← h]
      | _ => simp only [Run.andThen, Option.some.injEq] at h; rw [← h]

example : ∃ z, run exampleWorld 9 [4] (.invoke 0 (.clause 1 (· == 3) none
    (fun _ => .signal 5) exampleEnv 4) [] 3) ⟨{ fresh [] with blocks := 6 }, []⟩ = some z ∧
    z.1 = .exit 4 [5] := ⟨_, rfl, rfl⟩

/-! ## C108: `error` and `cerror` -/

theorem error_not_val (w : World) (n : Nat) : ∀ (live : List Exit) (c : Cond) (s s' : St) (vs : Vals),
    run w n live (.error c) s ≠ some (.val vs, s') := by
  induction n with
  | zero => intro live c s s' vs h; simp [run] at h
  | succ n ih =>
    intro live c s s' vs h
    simp only [run] at h
    cases hr : run w n live (.prog (.signal c)) s with
    | none => rw [hr] at h; simp [Run.andThen] at h
    | some q =>
      rw [hr] at h
      obtain ⟨o, s1⟩ := q
      cases o with
      | val vs' => exact ih _ _ _ _ _ h
      | exit i vs' => simp [Run.andThen] at h
      | dead => simp [Run.andThen] at h

/-- **C108**.  `error` never returns, whatever the handlers, the default handler
and the debugger do: it ends by an exit, if at all, and what follows it is not
run. -/
theorem error_never_returns (w : World) (n : Nat) (live : List Exit) (c : Cond) (s s' : St)
    (vs : Vals) (k : Vals → Prog) :
    run w n live (.prog (.error c)) s ≠ some (.val vs, s') ∧
    run w n live (.prog (.bind (.error c) k)) s ≠ some (.val vs, s') := by
  have first : ∀ n vs s', run w n live (.prog (.error c)) s ≠ some (.val vs, s') := by
    intro n vs s' h
    cases n with
    | zero => simp [run] at h
    | succ n => simp only [run] at h; exact error_not_val w n _ _ _ _ _ h
  refine ⟨first n vs s', fun h => ?_⟩
  cases n with
  | zero => simp [run] at h
  | succ n =>
    simp only [run] at h
    cases hr : run w n live (.prog (.error c)) s with
    | none => rw [hr] at h; simp [Run.andThen] at h
    | some q =>
      rw [hr] at h
      obtain ⟨o, s1⟩ := q
      cases o with
      | val vs' => exact first _ _ _ hr
      | exit i vs' => simp [Run.andThen] at h
      | dead => simp [Run.andThen] at h

/-- An error is left by an exception clause. -/
example : (run exampleWorld 20 [] (.prog (.exception 0 (· == 9) none (fun _ => .done [1])
    (.bind (.error 9) fun _ => .done [2]))) ⟨fresh [], []⟩).map (fun z => z.1) = some (.val [1]) := rfl

/-- Handlers that say by their type alone whether they apply, and none of which
applies to `c`. -/
def NoneApplies (hs : List Handler) (c : Cond) : Prop := ∀ h ∈ hs, h.type c = false

theorem runs_skip {w live sid} {pre hs : List Handler} {c : Cond} {s z} (hp : NoneApplies pre c)
    (h : Runs w live (.search sid hs c) s z) : Runs w live (.search sid (pre ++ hs) c) s z := by
  induction pre with
  | nil => exact h
  | cons a pre ih =>
    have ha := hp a (by simp)
    obtain ⟨n, h'⟩ := ih (fun b hb => hp b (by simp [hb]))
    refine ⟨n + 2, ?_⟩
    have hm : run w (n + 1) live (.matches a c) s = some (.val [0], s) := by simp [run, ha]
    simp only [List.cons_append]
    rw [run.eq_def]
    dsimp only
    rw [hm]
    exact run_succ w _ _ _ _ _ h'

/-- **C108**.  `cerror` returns `#f` when the handler of its error answers by
signalling a `<simple-restart>`.  `pre` are handlers inside of that handler that
do not apply to the error. -/
theorem cerror_returns (w : World) (simpleRestart : Cond → Bool) (tag tag' : Nat) (c r : Cond)
    (type : Cond → Bool) (pre rest : List Handler) (m : Mem) (live : List Exit)
    (hc : simpleRestart c = false) (hr : simpleRestart r = true) (ht : type c = true)
    (hp : NoneApplies pre c) :
    ∃ n m', run w n live (.prog (cerror simpleRestart tag c))
        ⟨m, pre ++ .user tag' type none (fun _ _ => .signal r) :: rest⟩ =
      some (.val [0], ⟨m', pre ++ .user tag' type none (fun _ _ => .signal r) :: rest⟩) ∧
      m'.tr = m.tr := by
  let env : List Handler := pre ++ .user tag' type none (fun _ _ => .signal r) :: rest
  let cl : Handler := .clause tag simpleRestart none (fun _ => .done [0]) env m.blocks
  let L := m.blocks :: live
  -- the restart is handled by the clause
  have h1 : ∀ mm : Mem, ∃ m', m'.tr = mm.tr ∧
      Runs w L (.prog (.signal r)) ⟨mm, cl :: env⟩ (.exit m.blocks [0], ⟨m', env⟩) := by
    intro mm
    refine ⟨mm.newSearch.newNext mm.doneLast.length env r, rfl, 4, ?_⟩
    have hmt : ∀ k s, run w (k + 1) L (.matches cl r) s = some (.val [1], s) := by
      intro k s; simp [run, cl, Handler.type, Handler.test, hr]
    rw [run.eq_def]; dsimp only
    rw [run.eq_def]; dsimp only
    rw [hmt]
    simp only [Run.andThen, isFalse]
    simp [run, cl, Run.andThen, L, St.upd, St.handlers]
  -- the error is handled by the handler
  have h2 : ∃ m', m'.tr = m.tr ∧ Runs w L (.prog (.signal c)) ⟨m.newBlock, cl :: env⟩
      (.exit m.blocks [0], ⟨m', env⟩) := by
    let m1 := m.newBlock.newSearch.newNext m.newBlock.doneLast.length rest c
    obtain ⟨m', htr, k, hk⟩ := h1 m1
    refine ⟨m', htr, ?_⟩
    have hs : Runs w L (.search m.newBlock.doneLast.length
        (.user tag' type none (fun _ _ => .signal r) :: rest) c) ⟨m.newBlock.newSearch, cl :: env⟩
        (.exit m.blocks [0], ⟨m', env⟩) := by
      refine ⟨k + 3, ?_⟩
      rw [run.eq_def]; dsimp only
      have hmt : run w (k + 2) L (.matches (.user tag' type none fun _ _ => .signal r) c)
          ⟨m.newBlock.newSearch, cl :: env⟩ = some (.val [1], ⟨m.newBlock.newSearch, cl :: env⟩) := by
        simp [run, Handler.type, Handler.test, ht]
      rw [hmt]
      simp only [Run.andThen, isFalse]
      rw [run.eq_def]
      exact run_succ w _ _ _ _ _ hk
    have hs2 := runs_skip (pre := cl :: pre) (w := w) (live := L) (c := c) (by
      intro a ha
      rcases List.mem_cons.1 ha with rfl | ha
      · exact hc
      · exact hp a ha) hs
    exact runs_step hs2 (fun _ => rfl)
  obtain ⟨m', htr, k, hk⟩ := h2
  refine ⟨k + 4, m', ?_, htr⟩
  have he : run w (k + 2) L (.error c) ⟨m.newBlock, cl :: env⟩ =
      some (.exit m.blocks [0], ⟨m', env⟩) := by
    rw [run.eq_def]; dsimp only
    rw [run_succ w _ _ _ _ _ hk]
    rfl
  simp only [cerror]
  rw [run.eq_def]; dsimp only
  have hb : run w (k + 3) L (.prog (.error c)) ⟨m.newBlock, cl :: env⟩ =
      some (.exit m.blocks [0], ⟨m', env⟩) := by
    rw [run.eq_def]; exact he
  have hb' : run w (k + 3) (m.blocks :: live) (.prog (.error c))
      (((⟨m, env⟩ : St).upd Mem.newBlock).handlers (cl :: env)) =
      some (.exit m.blocks [0], ⟨m', env⟩) := hb
  show Run.land (Run.restore (run w (k + 3) (m.blocks :: live) (.prog (.error c))
      (((⟨m, env⟩ : St).upd Mem.newBlock).handlers (cl :: env))) env) m.blocks = _
  rw [hb']
  simp [Run.restore, Run.cleanup, Run.andThen, Run.land, St.handlers, env]

example : (run exampleWorld 30 [] (.prog (cerror (· ≥ 20) 0 9)) ⟨fresh [],
    [.user 1 (· == 4) none fun _ _ => .act 1, .user 2 (· == 9) none fun _ _ => .signal 20]⟩).map
      (fun z => (z.1, z.2.cur.length)) = some (.val [0], 2) := rfl

/-! ## C109: which handlers a signal calls -/

/-- A handler as its user sees it: which conditions it applies to, by type and
test, what it does when called (an effect `e`), and whether it then declines by
calling `next-handler` or else the value it returns. -/
structure Simple where
  type : Cond → Bool
  test : Option (Cond → Bool)
  e : Nat
  answer : Option Val

/-- The handler of a program. -/
def Simple.handler (h : Simple) : Handler :=
  .user 0 h.type (h.test.map fun t c => .done [if t c then 1 else 0])
    fun _ next => .bind (.act h.e) fun _ =>
      match h.answer with
      | none => .next next
      | some v => .done [v]

/-- Does it apply? -/
def Simple.applies (h : Simple) (c : Cond) : Bool :=
  h.type c && (match h.test with | none => true | some t => t c)

/-- The effects of a signal: the handlers that apply, up to the first that
does not decline. -/
def effects (c : Cond) : List Simple → List Nat
  | [] => []
  | h :: hs =>
    if h.applies c then h.e :: (if h.answer.isSome then [] else effects c hs) else effects c hs

/-- The value of a signal: the answer of the first handler that applies and
does not decline, or else `#f`. -/
def answerOf (c : Cond) (hs : List Simple) : Val :=
  ((hs.find? fun h => h.applies c && h.answer.isSome).bind (·.answer)).getD 0

/-- The state after a search: only effects and closures are new. -/
structure After (m m' : Mem) (es : List Nat) : Prop where
  tr : m'.tr = m.tr ++ es
  last : m'.last = m.last

theorem answerOf_cons (c : Cond) (h : Simple) (hs : List Simple) :
    answerOf c (h :: hs) =
      if h.applies c then (match h.answer with | some v => v | none => answerOf c hs)
      else answerOf c hs := by
  unfold answerOf
  rw [List.find?_cons]
  cases ha : h.applies c <;> cases hv : h.answer <;> simp [hv]

theorem matches_simple (w : World) (n : Nat) (live : List Exit) (h : Simple) (c : Cond) (s : St) :
    ∃ vs, run w (n + 2) live (.matches h.handler c) s = some (.val vs, s) ∧
      isFalse vs = !h.applies c := by
  have hty : h.handler.type = h.type := rfl
  have hte : h.handler.test = h.test.map fun t c => Prog.done [if t c then 1 else 0] := rfl
  rw [run.eq_def]
  dsimp only
  rw [hty, hte]
  cases ht : h.type c with
  | false => exact ⟨[0], rfl, by simp [isFalse, Simple.applies, ht]⟩
  | true =>
    cases hq : h.test with
    | none => exact ⟨[1], rfl, by simp [isFalse, Simple.applies, ht, hq]⟩
    | some t =>
      refine ⟨[if t c then 1 else 0], rfl, ?_⟩
      cases htc : t c <;> simp [isFalse, Simple.applies, ht, hq, htc]

theorem search_simple (w : World) (live : List Exit) (c : Cond) (sid : Nat) (cur : List Handler)
    (P : Mem → Prop) (hP : ∀ m hs e, P m → P ((m.newNext sid hs c).log e))
    (more : List Simple)
    (hmore : ∀ m : Mem, P m → ∃ m', After m m' (effects c more) ∧
      Runs w live (.search sid [] c) ⟨m, cur⟩ (.val [answerOf c more], ⟨m', cur⟩))
    (hs : List Simple) : ∀ m : Mem, P m →
    ∃ m', After m m' (effects c (hs ++ more)) ∧
      Runs w live (.search sid (hs.map Simple.handler) c) ⟨m, cur⟩
        (.val [answerOf c (hs ++ more)], ⟨m', cur⟩) := by
  induction hs with
  | nil => exact hmore
  | cons h hs ih =>
    intro m hm
    simp only [List.map_cons, List.cons_append]
    have eff : effects c (h :: (hs ++ more)) = if h.applies c then
        h.e :: (if h.answer.isSome then [] else effects c (hs ++ more)) else effects c (hs ++ more) := rfl
    rw [answerOf_cons, eff]
    cases ha : h.applies c with
    | false =>
      obtain ⟨m', h1, n, h2⟩ := ih m hm
      refine ⟨m', by simpa using h1, n + 3, ?_⟩
      obtain ⟨vs, h3, h4⟩ := matches_simple w n live h c ⟨m, cur⟩
      rw [ha] at h4
      rw [run.eq_def]; dsimp only
      rw [h3]
      simp only [Run.andThen, h4]
      exact run_le w (by omega) h2
    | true =>
      let m1 := (m.newNext sid (hs.map Simple.handler) c).log h.e
      have hm1 : P m1 := hP _ _ _ hm
      have hnx : m1.nexts[m.nexts.length]? = some (sid, hs.map Simple.handler, c) := by
        simp [m1, Mem.log, Mem.newNext]
      -- what the function of the handler does
      have fnRun : ∀ n z, run w (n + 1) live (.prog (match h.answer with
          | none => .next m.nexts.length | some v => .done [v])) ⟨m1, cur⟩ = some z →
          run w (n + 4) live (.search sid (h.handler :: hs.map Simple.handler) c) ⟨m, cur⟩ = some z := by
        intro n z hz
        obtain ⟨vs, h3, h4⟩ := matches_simple w (n + 1) live h c ⟨m, cur⟩
        rw [ha] at h4
        rw [run.eq_def]; dsimp only
        rw [h3]
        simp only [Run.andThen, h4]
        exact hz
      cases hv : h.answer with
      | some v =>
        rw [hv] at fnRun
        refine ⟨m1, ⟨by simp [m1, Mem.log, Mem.newNext], rfl⟩, 4, fnRun 0 _ rfl⟩
      | none =>
        rw [hv] at fnRun
        obtain ⟨m', h1, n, h2⟩ := ih m1 hm1
        refine ⟨m', ⟨?_, by rw [h1.last]; rfl⟩, n + 4, fnRun n _ ?_⟩
        · rw [h1.tr]
          simp [m1, Mem.log, Mem.newNext]
        · rw [run.eq_def]; dsimp only
          rw [hnx]
          exact h2

/-- **C109**.  A signal calls the handlers that apply to the condition, first
those in force, the innermost first, then the last handlers, the newest first,
as long as each one declines by calling `next-handler`; the answer of the first
that does not is the value of the signal.  If all decline, the default handler
is called: the value is then `#f`, for a condition that is not serious and not a
restart.  The handlers in force are the same afterwards. -/
theorem signal_order (w : World) (live : List Exit) (c : Cond) (hw : w.default c = .plain)
    (cur last : List Simple) (m : Mem) (hm : m.last = last.map Simple.handler) :
    ∃ n m', run w n live (.prog (.signal c)) ⟨m, cur.map Simple.handler⟩ =
        some (.val [answerOf c (cur ++ last)], ⟨m', cur.map Simple.handler⟩) ∧
      m'.tr = m.tr ++ effects c (cur ++ last) ∧ m'.last = m.last := by
  let sid := m.doneLast.length
  -- in the last handlers
  have a := search_simple w live c sid (cur.map Simple.handler)
    (fun m => m.doneLast.getD sid false = true) (fun _ _ _ h => h) [] (by
      intro m' hm'
      refine ⟨m', ⟨by simp [effects], rfl⟩, 2, ?_⟩
      rw [run.eq_def]; dsimp only
      rw [hm', if_pos rfl]
      rw [run.eq_def]; dsimp only
      rw [hw]
      rfl) last
  -- in the handlers in force
  have b := search_simple w live c sid (cur.map Simple.handler)
    (fun m => m.doneLast.getD sid false = false ∧ sid < m.doneLast.length ∧
      m.last = last.map Simple.handler) (fun _ _ _ h => h) last (by
      intro m' hm'
      obtain ⟨m2, h1, n, h2⟩ := a (m'.setDone sid) (getD_set_self _ _ hm'.2.1)
      rw [List.append_nil] at h1 h2
      refine ⟨m2, ⟨by rw [h1.tr]; rfl, by rw [h1.last]; rfl⟩, n + 1, ?_⟩
      rw [run.eq_def]; dsimp only
      rw [hm'.1, hm'.2.2]
      exact h2) cur m.newSearch ⟨by simp [Mem.newSearch, sid], by simp [Mem.newSearch, sid], hm⟩
  obtain ⟨m', h1, n, h2⟩ := b
  exact ⟨n + 1, m', h2, h1.tr, h1.last⟩

/-- Three handlers in force, of which the first does not apply by its type, the
second not by its test, the third declines; two last handlers. -/
example : effects 3 ([⟨(· == 4), none, 1, some 7⟩, ⟨(· == 3), some (· > 5), 2, some 7⟩,
      ⟨(· == 3), some (· < 5), 3, none⟩] ++
      [⟨fun _ => true, none, 4, none⟩, ⟨(· == 3), none, 5, some 8⟩, ⟨(· == 3), none, 6, some 9⟩]) = [3, 4, 5] ∧
    answerOf 3 ([⟨(· == 4), none, 1, some 7⟩, ⟨(· == 3), some (· > 5), 2, some 7⟩,
      ⟨(· == 3), some (· < 5), 3, none⟩] ++
      [⟨fun _ => true, none, 4, none⟩, ⟨(· == 3), none, 5, some 8⟩, ⟨(· == 3), none, 6, some 9⟩]) = 8 := by
  decide

/-- The default handler of a serious condition calls the debugger and returns
`#f`; the one of a restart never returns. -/
theorem default_handlers (w : World) (live : List Exit) (c : Cond) (s : St) :
    (w.default c = .serious → ∀ vs s', Runs w live (.prog (w.debugger c)) s (.val vs, s') →
      Runs w live (.default c) s (.val [0], s')) ∧
    (w.default c = .restart → ∀ n vs s', run w n live (.default c) s ≠ some (.val vs, s')) := by
  constructor
  · intro hd vs s' ⟨n, h⟩
    refine ⟨n + 1, ?_⟩
    simp only [run, hd, h, Run.andThen]
  · intro hd n vs s' h
    cases n with
    | zero => simp [run] at h
    | succ n =>
      simp only [run, hd] at h
      cases hr : run w n live (.error (w.noRestart c)) s with
      | none => rw [hr] at h; simp [Run.andThen] at h
      | some q =>
        rw [hr] at h
        obtain ⟨o, s1⟩ := q
        cases o with
        | val vs' => exact error_not_val w n _ _ _ _ _ hr
        | exit i vs' => simp [Run.andThen] at h
        | dead => simp [Run.andThen] at h

example : exampleWorld.default 9 = .serious ∧ exampleWorld.default 21 = .restart := ⟨rfl, rfl⟩

/-! ## C110: `do-handlers` -/

theorem each_acts (w : World) (live : List Exit) (g : Nat → Nat) (hs : List Handler) : ∀ s : St,
    Runs w live (.each (fun t => .act (g t)) hs) s
      (.val [0], s.upd fun m => { m with tr := m.tr ++ hs.map (fun h => g h.tag) }) := by
  induction hs with
  | nil => intro s; exact ⟨1, by simp [run, St.upd]⟩
  | cons h hs ih =>
    intro s
    obtain ⟨n, hn⟩ := ih (s.upd (·.log (g h.tag)))
    refine ⟨n + 2, ?_⟩
    rw [run.eq_def]; dsimp only
    have ha : run w (n + 1) live (.prog (.act (g h.tag))) s =
      some (.val (w.call (s.mem.tr ++ [g h.tag])), s.upd (·.log (g h.tag))) := rfl
    rw [ha]
    simp only [Run.andThen]
    rw [run_succ w _ _ _ _ _ hn]
    simp [St.upd, Mem.log]

/-- **C110**.  `do-handlers` calls its function once for each handler, with what
the handler was made with: first the handlers in force, the innermost first,
then the last handlers, the newest first.  That is the order in which `signal`
looks at them (`signal_order`). -/
theorem do_handlers (w : World) (live : List Exit) (s : St) :
    ∃ n s', run w n live (.prog (.doHandlers fun tag => .act tag)) s = some (.val [0], s') ∧
      s'.mem.tr = s.mem.tr ++ (s.cur ++ s.mem.last).map Handler.tag ∧
      s'.cur = s.cur ∧ s'.mem.last = s.mem.last := by
  let s1 : St := s.upd fun m => { m with tr := m.tr ++ s.cur.map (fun h => id h.tag) }
  let s2 : St := s1.upd fun m => { m with tr := m.tr ++ s.mem.last.map (fun h => id h.tag) }
  have hn : Runs w live (.each (fun tag => .act tag) s.cur) s (.val [0], s1) := each_acts w live id s.cur s
  have hk : Runs w live (.each (fun tag => .act tag) s.mem.last) s1 (.val [0], s2) :=
    each_acts w live id s.mem.last s1
  obtain ⟨n, hn⟩ := hn
  obtain ⟨k, hk⟩ := hk
  refine ⟨max n k + 1, s2, ?_, ?_, rfl, rfl⟩
  · rw [run.eq_def]; dsimp only
    rw [run_le w (Nat.le_max_left n k) hn]
    exact run_le w (Nat.le_max_right n k) hk
  · simp [s2, s1, St.upd]

example : (run exampleWorld 20 [] (.prog (.letHandler 5 (· == 3) none (fun _ _ => .done [])
    (.exception 6 (· == 3) none (fun _ => .done []) (.doHandlers fun tag => .act tag))))
    ⟨fresh [.user 8 (· == 3) none fun _ _ => .done []], exampleEnv⟩).map (fun z => z.2.mem.tr) =
    some [6, 5, 7, 8] := rfl

end Verif.Signal
