/-
C136: a `for` statement does what the Dylan Reference Manual says.
-/
import Verif.Loops.Round

namespace Verif.Loops

set_option linter.unusedSectionVars false

section
variable {V S E N : Type} {W : World V S E N} [DecidableEq N]

/-- The header has a clause or an end test. -/
def For.HasHeader (F : For V S E N) : Prop := F.clauses ≠ [] ∨ F.endTest ≠ none

/-- The converted `for` statement has the same effects, in the same order, the same result, and the same errors as
the statement, if the next values are checked as they are obtained; in every number of rounds, for every state, and
whatever the temporaries have had before. -/
theorem for_means (hW : W.Lawful) (F : For V S E N) (hh : F.HasHeader)
    (hF : ∀ c ∈ F.clauses, NoLostType W c) (n : Nat) (T : Temp → V) (s : S) :
    runFor W F n T s = meaning W true F n s := by
  unfold runFor
  rw [if_neg]
  · exact runConverted_eq hW F hF n T s
  · intro h
    simp only [Bool.and_eq_true, List.isEmpty_iff, Option.isNone_iff_eq_none] at h
    rcases hh with h' | h'
    · exact h' h.1
    · exact h' h.2

/-! ### when the types of the next values are checked -/

theorem check_cases (p : Live V S E N × V) :
    (∀ s, check W p s = .ok s ()) ∨ ∃ e, ∀ s, check W p s = .exit s e := by
  obtain ⟨l, v⟩ := p
  have ht : ∀ ty, (∀ s, typed (S := S) W ty v s = .ok s ()) ∨ ∃ e, ∀ s, typed (S := S) W ty v s = .exit s e := by
    intro ty
    cases ty with
    | none => exact .inl fun _ => rfl
    | some t =>
      simp only [typed]
      by_cases h : W.inst v t = true
      · left; intro s; rw [if_pos h]
      · right; exact ⟨_, fun s => by rw [if_neg h]⟩
  cases l with
  | explicit x ty next => exact ht ty
  | numeric x ty b k d => exact ht ty
  | collection => exact .inl fun _ => rfl

/-- The checks all succeed, or do not. -/
theorem checks_cases (ps : List (Live V S E N × V)) :
    (∀ s, checks W ps s = .ok s ()) ∨ ∃ e, ∀ s, checks W ps s = .exit s e := by
  induction ps with
  | nil => exact .inl fun _ => rfl
  | cons p ps ih =>
    rcases check_cases (W := W) p with h | ⟨e, h⟩
    · rcases ih with h' | ⟨e, h'⟩
      · left; intro s; simp only [checks, h, Res.bind, h']
      · right; exact ⟨e, fun s => by simp only [checks, h, Res.bind, h']⟩
    · right; exact ⟨e, fun s => by simp only [checks, h, Res.bind]⟩

theorem nextValues_iff (ρ : List (N × V)) (ps : List (Live V S E N × V)) :
    ∀ (s s' : S) (qs : List (Live V S E N × V)), nextValues W true ρ ps s = .ok s' qs ↔
      nextValues W false ρ ps s = .ok s' qs ∧ ∀ t, checks W qs t = .ok t () := by
  induction ps with
  | nil =>
    intro s s' qs
    simp only [nextValues]
    constructor
    · intro h; refine ⟨h, ?_⟩; cases h; intro t; rfl
    · exact fun h => h.1
  | cons p ps ih =>
    intro s s' qs
    simp only [nextValues]
    cases next1 W ρ p s with
    | exit => simp [Res.bind]
    | hang => simp [Res.bind]
    | ok s1 v =>
      simp only [Res.bind, if_true, Bool.false_eq_true, if_false]
      rcases check_cases (W := W) (p.1, v) with h | ⟨e, h⟩
      · rw [h]
        simp only []
        constructor
        · intro hk
          cases hn : nextValues W true ρ ps s1 with
          | exit => rw [hn] at hk; cases hk
          | hang => rw [hn] at hk; cases hk
          | ok s2 rs =>
            rw [hn] at hk
            simp only [Res.ok.injEq] at hk
            obtain ⟨hk1, hk2⟩ := hk
            obtain ⟨h1, h2⟩ := (ih s1 s2 rs).1 hn
            rw [h1]
            refine ⟨by simp [hk1, hk2], ?_⟩
            intro t
            rw [← hk2]; simp only [checks, h, Res.bind, h2]
        · rintro ⟨hk, hc⟩
          cases hn : nextValues W false ρ ps s1 with
          | exit => rw [hn] at hk; cases hk
          | hang => rw [hn] at hk; cases hk
          | ok s2 rs =>
            rw [hn] at hk
            simp only [Res.ok.injEq] at hk
            obtain ⟨hk1, hk2⟩ := hk
            have : nextValues W true ρ ps s1 = .ok s2 rs := by
              refine (ih s1 s2 rs).2 ⟨hn, ?_⟩
              intro t
              have := hc t
              rw [← hk2] at this
              simpa only [checks, h, Res.bind] using this
            rw [this]; simp [hk1, hk2]
      · rw [h]
        simp only [reduceCtorEq, false_iff, not_and]
        intro hk hc
        cases hn : nextValues W false ρ ps s1 with
        | exit => rw [hn] at hk; cases hk
        | hang => rw [hn] at hk; cases hk
        | ok s2 rs =>
          rw [hn] at hk
          simp only [Res.ok.injEq] at hk
          have := hc s1
          rw [← hk.2] at this
          simp only [checks, h, Res.bind] at this
          cases this

theorem round_iff (F : For V S E N) (ps : List (Live V S E N × V)) (s s' : S)
    (o : Option (List (Live V S E N × V))) :
    round W true F ps s = .ok s' o ↔ round W false F ps s = .ok s' o := by
  unfold round
  cases exhausted W ps s with
  | exit => simp [Res.bind]
  | hang => simp [Res.bind]
  | ok s1 b =>
    simp only [Res.bind]
    cases b with
    | true => simp
    | false =>
      simp only [Bool.false_eq_true, if_false]
      cases elements W ps (bindings ps []) s1 with
      | exit => simp
      | hang => simp
      | ok s2 ρ =>
        simp only []
        cases ends W ρ F.endTest s2 with
        | exit => simp
        | hang => simp
        | ok s3 b =>
          simp only []
          cases b with
          | true => simp
          | false =>
            simp only [Bool.false_eq_true, if_false, if_true]
            cases value W ρ F.body s3 with
            | exit => simp
            | hang => simp
            | ok s4 _ =>
              simp only []
              constructor
              · intro h
                cases hn : nextValues W true ρ ps s4 with
                | exit => rw [hn] at h; cases h
                | hang => rw [hn] at h; cases h
                | ok s5 qs =>
                  obtain ⟨h1, h2⟩ := (nextValues_iff ρ ps s4 s5 qs).1 hn
                  rw [hn] at h
                  rw [h1]
                  simp only [h2]
                  exact h
              · intro h
                cases hn : nextValues W false ρ ps s4 with
                | exit => rw [hn] at h; cases h
                | hang => rw [hn] at h; cases h
                | ok s5 qs =>
                  rw [hn] at h
                  simp only [] at h
                  rcases checks_cases (W := W) qs with hc | ⟨e, hc⟩
                  · rw [(nextValues_iff ρ ps s4 s5 qs).2 ⟨hn, hc⟩]
                    rw [hc] at h
                    exact h
                  · rw [hc] at h; cases h

theorem iterate_iff (F : For V S E N) (n : Nat) : ∀ (ps : List (Live V S E N × V)) (s s' : S) (v : V),
    (iterate W true F n ps s = some (.ok s' v) ↔ iterate W false F n ps s = some (.ok s' v)) ∧
    (iterate W true F n ps s = none ↔ iterate W false F n ps s = none) := by
  induction n with
  | zero => intro ps s s' v; simp [iterate]
  | succ n ih =>
    intro ps s s' v
    rw [iterate_succ, iterate_succ]
    cases ht : round W true F ps s with
    | ok s1 o =>
      rw [(round_iff F ps s s1 o).1 ht]
      cases o with
      | none => simp
      | some qs => exact ih qs s1 s' v
    | exit s1 e =>
      cases hf : round W false F ps s with
      | ok s2 o => rw [(round_iff F ps s s2 o).2 hf] at ht; cases ht
      | exit => simp
      | hang => simp
    | hang =>
      cases hf : round W false F ps s with
      | ok s2 o => rw [(round_iff F ps s s2 o).2 hf] at ht; cases ht
      | exit => simp
      | hang => simp

/-- The converted `for` statement ends normally when the statement does, as the Dylan Reference Manual has it, with
the same state and the same result, after as many rounds; and when one is still going on, so is the other. -/
theorem for_result (hW : W.Lawful) (F : For V S E N) (hh : F.HasHeader)
    (hF : ∀ c ∈ F.clauses, NoLostType W c) (n : Nat) (T : Temp → V) (s s' : S) (v : V) :
    (runFor W F n T s = some (.ok s' v) ↔ meaning W false F n s = some (.ok s' v)) ∧
    (runFor W F n T s = none ↔ meaning W false F n s = none) := by
  rw [for_means hW F hh hF]
  unfold meaning
  cases (onces W F.clauses s).bind fun ps s => (checks W ps s).bind fun _ s => Res.ok s ps with
  | ok s1 ps => exact iterate_iff F n ps s1 s' v
  | exit => simp
  | hang => simp

/-! ### loops from one integer to another -/

/-- The functions `<` and `+` on integers. -/
structure World.Arith (W : World V S E N) (int : Int → V) : Prop where
  asInt : ∀ i, W.asInt (int i) = some i
  zero : W.zero = int 0
  lt : ∀ i j s, W.call W.lt [int i, int j] s = .ok s [if i < j then W.yes else W.no]
  add : ∀ i j s, W.call W.add [int i, int j] s = .ok s [int (i + j)]

/-- `for (x from a to b by k) body finally last end`, where neither leaves the loop. -/
def fromTo (int : Int → V) (x : N) (a b k : Int) (dir : Dir) (body : Option V → S → S)
    (last : Option V → S → V) : For V S E N :=
  { clauses := [.numeric x none (.const (int a)) (some (dir, .const (int b))) (.const (int k))],
    endTest := none,
    body := .code fun ρ s => .ok (body (ρ x) s) (int 0),
    finally' := .code fun ρ s => .ok s (last (ρ x) s) }

/-- Is the bound passed? -/
def passed (dir : Dir) (k b i : Int) : Bool :=
  match dir with
  | .to => if k < 0 then decide (i < b) else decide (b < i)
  | .below => decide (b ≤ i)
  | .above => decide (i ≤ b)

theorem isNo_if (hW : W.Lawful) (p : Prop) [Decidable p] : W.isNo (if p then W.yes else W.no) = !decide p := by
  by_cases h : p
  · simp [h, hW.yes]
  · simp [h, hW.no]

theorem fromTo_exhausted (hW : W.Lawful) {int : Int → V} (hA : W.Arith int) (x : N) (dir : Dir) (b k i : Int)
    (s : S) : exhausted W [((.numeric x none (some (dir, int b)) (int k) (decide (k < 0)) : Live V S E N), int i)] s =
      .ok s (passed dir k b i) := by
  have hlt : ∀ i j s, call1 W W.lt [int i, int j] s = .ok s (if i < j then W.yes else W.no) := by
    intro i j s; simp [call1, hA.lt, Res.bind]
  have hif : ∀ c : Bool, (if c = true then Res.ok s true else exhausted W ([] : List (Live V S E N × V)) s) =
      .ok s c := by intro c; cases c <;> rfl
  cases dir with
  | below =>
    simp only [exhausted, exhausted1, hlt, Res.bind, isNo_if hW, passed]
    rw [show (!decide (i < b)) = decide (b ≤ i) by by_cases h : i < b <;> simp [h] <;> omega]
    exact hif _
  | above =>
    simp only [exhausted, exhausted1, hlt, Res.bind, isNo_if hW, passed]
    rw [show (!decide (b < i)) = decide (i ≤ b) by by_cases h : b < i <;> simp [h] <;> omega]
    exact hif _
  | «to» =>
    simp only [exhausted, exhausted1, passed]
    by_cases hk : k < 0
    · simp only [hk, decide_true, if_true, hlt, Res.bind, isNo_if hW, Bool.not_not]
      exact hif _
    · simp only [hk, decide_false, Bool.false_eq_true, if_false, hlt, Res.bind, isNo_if hW, Bool.not_not]
      exact hif _

theorem fromTo_iterate (hW : W.Lawful) {int : Int → V} (hA : W.Arith int) (x : N) (a b k : Int) (dir : Dir)
    (body : Option V → S → S) (last : Option V → S → V) (m : Nat) :
    ∀ (i : Int) (n : Nat) (s : S), m < n → (∀ j : Nat, j < m → passed dir k b (i + k * j) = false) →
    passed dir k b (i + k * m) = true →
    iterate W true (fromTo (E := E) int x a b k dir body last) n
      [(.numeric x none (some (dir, int b)) (int k) (decide (k < 0)), int i)] s =
    (let s' := (List.range m).foldl (fun s j => body (some (int (i + k * (j : Nat)))) s) s
     some (.ok s' (last (some (int (i + k * m))) s'))) := by
  induction m with
  | zero =>
    intro i n s hn _ hp
    obtain ⟨n, rfl⟩ : ∃ n', n = n' + 1 := ⟨n - 1, by omega⟩
    rw [iterate_succ]
    have : i + k * ((0 : Nat) : Int) = i := by simp
    rw [this] at hp ⊢
    simp only [round, fromTo_exhausted hW hA, hp, Res.bind, if_true]
    simp [fromTo, value, bindings, lookup]
  | succ m ih =>
    intro i n s hn hlt hp
    obtain ⟨n, rfl⟩ : ∃ n', n = n' + 1 := ⟨n - 1, by omega⟩
    rw [iterate_succ]
    have h0 : passed dir k b i = false := by have := hlt 0 (by omega); simpa using this
    have step : ∀ j : Nat, i + k + k * (j : Int) = i + k * ((j + 1 : Nat) : Int) := by
      intro j; rw [Int.natCast_add, Int.mul_add]; simp; omega
    simp only [round, fromTo_exhausted hW hA, h0, Res.bind, Bool.false_eq_true, if_false]
    have hadd : call1 W W.add [int i, int k] (body (some (int i)) s) =
        .ok (body (some (int i)) s) (int (i + k)) := by
      simp [call1, hA.add, Res.bind]
    have hb : value W [(x, int i)] (fromTo (E := E) int x a b k dir body last).body s =
        .ok (body (some (int i)) s) (int 0) := by
      simp [fromTo, value, lookup]
    have he : (fromTo (E := E) int x a b k dir body last).endTest = none := rfl
    simp only [bindings, elements, he, ends, Bool.false_eq_true, if_false, hb, nextValues, next1, hadd, Res.bind,
      if_true, check, typed]
    rw [ih (i + k) n _ (by omega) (by intro j hj; rw [step]; exact hlt (j + 1) (by omega))
      (by rw [step]; exact hp)]
    simp only [step, List.range_succ_eq_map, List.foldl_cons, List.foldl_map]
    simp

/-- A loop from `a` to (or above, or below) `b` by `k`: if the bound is first passed after `m` steps, the body is
executed for `a`, `a + k`, … up to the last value before the bound is passed, in this order, and `finally` sees the
value that passes it. -/
theorem from_to_runs (hW : W.Lawful) {int : Int → V} (hA : W.Arith int) (x : N) (a b k : Int) (dir : Dir)
    (body : Option V → S → S) (last : Option V → S → V) (m n : Nat) (hn : m < n) (T : Temp → V) (s : S)
    (hlt : ∀ j : Nat, j < m → passed dir k b (a + k * j) = false) (hp : passed dir k b (a + k * m) = true) :
    runFor W (fromTo (E := E) int x a b k dir body last) n T s =
    (let s' := (List.range m).foldl (fun s j => body (some (int (a + k * (j : Nat)))) s) s
     some (.ok s' (last (some (int (a + k * m))) s'))) := by
  rw [for_means hW _ (.inl (by simp [fromTo])) (by simp [fromTo, NoLostType])]
  have hneg : call1 W W.lt [int k, W.zero] s = .ok s (if k < 0 then W.yes else W.no) := by
    rw [hA.zero]; simp [call1, hA.lt, Res.bind]
  have : ((onces W (fromTo (E := E) int x a b k dir body last).clauses s).bind fun ps s =>
      (checks W ps s).bind fun _ s => Res.ok s ps) =
      .ok s [(.numeric x none (some (dir, int b)) (int k) (decide (k < 0)), int a)] := by
    simp only [fromTo, onces, once, valueTy, value, valueBound, Res.bind, hneg, isNo_if hW, Bool.not_not, checks,
      check, typed]
  unfold meaning
  rw [this]
  exact fromTo_iterate hW hA x a b k dir body last m a n s hn hlt hp

end

/-! ### examples, and where the compiler disagrees with the manual -/

/-- Values of a small world. -/
inductive Val where
  | int (i : Int) | list (l : List Int) | no | yes | lt | add | curry | integer | string
  | fip | next | finished | key | element | setter
  deriving DecidableEq

deriving instance DecidableEq for Res

/-- The state is a trace. -/
def calls (f : Val) (args : List Val) (s : List Int) : Res (List Int) Nat (List Val) :=
  match f, args with
  | .lt, [.int i, .int j] => .ok s [if i < j then .yes else .no]
  | .add, [.int i, .int j] => .ok s [.int (i + j)]
  | .fip, [.list l] => .ok s [.int 0, .int l.length, .next, .finished, .key, .element, .setter]
  | .next, [_, .int i] => .ok s [.int (i + 1)]
  | .finished, [_, .int i, .int j] => .ok s [if i = j then .yes else .no]
  | .key, [_, .int i] => .ok s [.int i]
  | .element, [.list l, .int i] => .ok s [.int (l.getD i.toNat 0)]
  | _, _ => .exit s 0

def small : World Val (List Int) Nat Nat where
  no := .no
  yes := .yes
  isNo v := v == .no
  outer _ := .no
  inst v t := match v, t with
    | .int _, .integer => true
    | _, _ => false
  typeError _ _ := 1
  call := calls
  lt := .lt
  add := .add
  curry := .curry
  zero := .int 0
  integer := .integer
  asInt v := match v with
    | .int i => some i
    | _ => none

theorem small_lawful : small.Lawful where
  no := rfl
  yes := rfl
  lt v i s h := by
    cases v <;> simp [small] at h
    subst h
    refine ⟨_, rfl, ?_⟩
    rename_i i
    by_cases hi : i < 0 <;> simp [small, hi]
  int v i h := by cases v <;> simp [small] at h ⊢
  add u v i j s s' vs hu hv h := by
    cases u <;> simp [small] at hu
    cases v <;> simp [small] at hv
    simp only [small, calls, Res.ok.injEq] at h
    rw [← h.2]; exact ⟨_, rfl⟩

theorem small_arith : small.Arith .int where
  asInt _ := rfl
  zero := rfl
  lt _ _ _ := rfl
  add _ _ _ := rfl

/-- Code that adds the integers in variables to the trace. -/
def note (xs : List Nat) : Exp Val (List Int) Nat Nat :=
  .code fun ρ s => .ok (s ++ xs.map fun x => match ρ x with | some (.int i) => i | _ => -1) .no

/-- `for (a = 1 then b, b = 2 then a, i from 0 to 2) note(a, b, i) finally i end` -/
def swaps : For Val (List Int) Nat Nat :=
  { clauses := [.explicit 0 (some (.const .integer)) (.const (.int 1)) (.var 1),
      .explicit 1 none (.const (.int 2)) (.var 0),
      .numeric 2 none (.const (.int 0)) (some (.to, .const (.int 2))) (.const (.int 1))],
    endTest := none, body := note [0, 1, 2], finally' := .var 2 }

example : swaps.HasHeader ∧ ∀ c ∈ swaps.clauses, NoLostType small c :=
  ⟨.inl (by simp [swaps]), by simp [swaps, NoLostType]⟩

/-- The variables are stepped at once: `a` and `b` are swapped. -/
example : runFor small swaps 4 (fun _ => .no) [] = some (.ok [1, 2, 0, 2, 1, 1, 1, 2, 2] (.int 3)) := by
  decide +kernel
example : meaning small false swaps 4 [] = some (.ok [1, 2, 0, 2, 1, 1, 1, 2, 2] (.int 3)) := by decide +kernel
example : runFor small swaps 3 (fun _ => .no) [] = none := by decide +kernel

/-- `for (x in #(10, 20, 30) keyed-by k, j from 5 by -1, until: x > 15) note(x, k, j) finally j end`; the end test
sees the element. -/
def elems : For Val (List Int) Nat Nat :=
  { clauses := [.collection 0 (some (.const .integer)) (some 1) none (.const (.list [10, 20, 30])) (.const .fip),
      .numeric 2 none (.const (.int 5)) none (.const (.int (-1)))],
    endTest := some (true, .code fun ρ s => .ok s (match ρ 0 with | some (.int i) => if 15 < i then .yes else .no | _ => .no)),
    body := note [0, 1, 2], finally' := .var 2 }

example : runFor small elems 4 (fun _ => .no) [] = some (.ok [10, 0, 5] (.int 4)) := by decide +kernel

example : runFor small { elems with endTest := none } 4 (fun _ => .no) [] =
    some (.ok [10, 0, 5, 20, 1, 4, 30, 2, 3] (.int 2)) := by decide +kernel

example : passed .to (-2) 3 (8 + -2 * (2 : Nat)) = false ∧ passed .to (-2) 3 (8 + -2 * (3 : Nat)) = true := by decide

/-- `for (i :: <string> from 0 to 1) note(i) end`: the manual wants an error, as 0 is not a string; the compiler takes
`<integer>` for the type, as the start and the increment are constant integers, and runs the loop. -/
def lostType : For Val (List Int) Nat Nat :=
  { clauses := [.numeric 0 (some (.const .string)) (.const (.int 0)) (some (.to, .const (.int 1))) (.const (.int 1))],
    endTest := none, body := note [0], finally' := .const .no }

theorem declared_type_violated : runFor small lostType 3 (fun _ => .no) [] = some (.ok [0, 1] .no) ∧
    meaning small false lostType 3 [] = some (.exit [] 1) := by decide +kernel

/-- `for () note() finally 7 end`: the manual has it loop forever; the compiler leaves the body away, and the
statement ends at once. -/
def noHeader : For Val (List Int) Nat Nat :=
  { clauses := [], endTest := none, body := note [5], finally' := .const (.int 7) }

theorem empty_header_violated (n : Nat) (s : List Int) :
    runFor small noHeader n (fun _ => .no) s = some (.ok s (.int 7)) ∧ meaning small false noHeader n s = none := by
  refine ⟨rfl, ?_⟩
  unfold meaning
  simp only [noHeader, onces, Res.bind, checks]
  induction n generalizing s with
  | zero => rfl
  | succ n ih =>
    rw [iterate_succ]
    simp only [round, exhausted, Res.bind, elements, ends, value, note, nextValues, checks, Bool.false_eq_true, if_false]
    exact ih _

/-- `for (a :: <integer> = 0 then #f, b = 0 then note(a)) end`: the next value of `a` is not an integer.  The manual
has all next values computed before the types are checked; the compiler checks the first before it computes the
second, which leaves no trace. -/
def checkedEarly : For Val (List Int) Nat Nat :=
  { clauses := [.explicit 0 (some (.const .integer)) (.const (.int 0)) (.const .no),
      .explicit 1 none (.const (.int 0)) (note [0])],
    endTest := none, body := .const .no, finally' := .const .no }

theorem check_order_violated : runFor small checkedEarly 1 (fun _ => .no) [] = some (.exit [] 1) ∧
    meaning small false checkedEarly 1 [] = some (.exit [0] 1) := by decide +kernel

end Verif.Loops
