/-
C53: dispatch through the cache does what dispatch without it would do, whatever calls came
before.
-/
import Verif.Dispatch.Engine.Walk
import Verif.Dispatch.Order.Props

namespace Verif.Dispatch
open Verif.Types
variable {C : Type} [DecidableEq C]

theorem call_good {K : DWorld C} {nreq : Nat} {ms : List (Meth C)} (hK : DLawful K)
    (hR : Regular K nreq ms) {order : List Nat} (ho : ∀ a, a ∈ order ↔ a < nreq) {args : Args C}
    (hp : ProperArgs K nreq args) {root : Node C}
    (hw : WF K nreq ms root (ProperArgs K nreq) ∅) :
    ∃ root', call K nreq order ms args 1 root = some (direct K nreq ms args, root') ∧
      WF K nreq ms root' (ProperArgs K nreq) ∅ := by
  simp only [call]
  rcases h : outcome (run K args root) with _ | o
  · have hcov : Cov nreq order ∅ := ⟨fun a ha => .inl ((ho a).2 ha), fun a ha => (ho a).1 ha, by simp⟩
    obtain ⟨r, hr, hg, hd, hrun⟩ := walk_good hK hR root order ∅ _ hcov hw hp (fun x hx => hx)
    rw [live_empty] at hr
    simp only [miss, hr, Option.bind_some]
    by_cases hb : r.2 = true
    · rw [if_pos hb, ← hd hb]
      exact ⟨_, rfl, hg⟩
    · rw [if_neg hb, hrun (by simpa using hb)]
      exact ⟨_, rfl, hg⟩
  · rw [run_sound root ∅ _ hw hp o h]
    exact ⟨_, rfl, hw⟩

/-- C53: for a regular generic function, any calls with any arguments, in any order, end as they
    would without a cache.  None of them ends with an error inside the dispatcher, and none needs
    more than one extension of the cache.  Missing: the generic functions that are not regular,
    for which it is false (see below). -/
theorem cache_transparent_partial (K : DWorld C) (hK : DLawful K) (nreq : Nat) (ms : List (Meth C))
    (hR : Regular K nreq ms) (calls : List (List Nat × Args C))
    (ho : ∀ c ∈ calls, ∀ a, a ∈ c.1 ↔ a < nreq) (hp : ∀ c ∈ calls, ProperArgs K nreq c.2) :
    history K nreq ms calls .absent = some (calls.map fun c => direct K nreq ms c.2) := by
  have hw : WF K nreq ms .absent (ProperArgs K nreq) ∅ := by
    simp only [WF]
    exact ⟨fun x y _ _ m _ h => by simp [App], fun x y _ _ m _ m' _ _ _ a ha => by simp at ha,
      fun x y _ _ m _ _ a ha => by simp at ha⟩
  generalize (Node.absent : Node C) = root at hw
  induction calls generalizing root with
  | nil => rfl
  | cons c calls ih =>
    obtain ⟨order, args⟩ := c
    obtain ⟨root', h1, h2⟩ := call_good hK hR (ho (order, args) (by simp)) (hp (order, args) (by simp)) hw
    simp only [history, h1, Option.bind_some,
      ih (fun c hc => ho c (by simp [hc])) (fun c hc => hp c (by simp [hc])) root' h2]
    rfl

theorem mem_applicable {K : DWorld C} {nreq : Nat} {ms : List (Meth C)} {args : Args C}
    {m : Meth C} : m ∈ applicable K nreq ms args ↔ m ∈ ms ∧ Applicable K nreq args m := by
  simp only [applicable, List.mem_filter, List.all_eq_true, List.mem_range, isInst_iff, Applicable]
  rfl

theorem direct_right {K : DWorld C} (hK : DLawful K) {nreq : Nat} {ms : List (Meth C)}
    (hn : ms.Nodup) (hc : ∀ m ∈ ms, ∀ m' ∈ ms, m ≠ m' → ComparableMethods K nreq m m')
    (hd : ∀ m ∈ ms, ∀ m' ∈ ms, m ≠ m' → ∃ a < nreq, ¬ Equivalent K (spec K m a) (spec K m' a))
    (args : Args C) : Right K nreq ms args (direct K nreq ms args) := by
  unfold direct
  by_cases h : applicable K nreq ms args = []
  · rw [if_pos h]
    intro m hm ha
    have := mem_applicable.2 ⟨hm, ha⟩
    rw [h] at this; cases this
  · rw [if_neg h]
    obtain ⟨m, hm⟩ := List.exists_mem_of_ne_nil _ h
    refine ⟨⟨m, mem_applicable.1 hm⟩, _, _, _, hn.filter _, fun m => mem_applicable, ?_, rfl, rfl⟩
    exact methods_sorted hK nreq args _ (hn.filter _) (fun m hm => (mem_applicable.1 hm).2)
      (fun m hm m' hm' => hc m (mem_applicable.1 hm).1 m' (mem_applicable.1 hm').1)
      (fun m hm m' hm' => hd m (mem_applicable.1 hm).1 m' (mem_applicable.1 hm').1)

/-- C53 with C52: for a regular generic function, no two of whose methods are equivalent, every
    call in any history of calls invokes the applicable methods in the order of the specificity
    rules, or signals an error if there are none.  Missing: as above, and the types that the
    sort does not handle (C52). -/
theorem dispatch_correct_partial (K : DWorld C) (hK : DLawful K) (nreq : Nat) (ms : List (Meth C))
    (hR : Regular K nreq ms) (hn : ms.Nodup)
    (hc : ∀ m ∈ ms, ∀ m' ∈ ms, m ≠ m' → ComparableMethods K nreq m m')
    (hd : ∀ m ∈ ms, ∀ m' ∈ ms, m ≠ m' → ∃ a < nreq, ¬ Equivalent K (spec K m a) (spec K m' a))
    (calls : List (List Nat × Args C)) (ho : ∀ c ∈ calls, ∀ a, a ∈ c.1 ↔ a < nreq)
    (hp : ∀ c ∈ calls, ProperArgs K nreq c.2) :
    ∃ os, history K nreq ms calls .absent = some os ∧
      List.Forall₂ (fun c o => Right K nreq ms c.2 o) calls os := by
  refine ⟨_, cache_transparent_partial K hK nreq ms hR calls ho hp, ?_⟩
  rw [List.forall₂_map_right_iff, List.forall₂_same]
  exact fun c _ => direct_right hK hn hc hd c.2

/-! ### the hypotheses are met -/

/-- Methods on classes, subclass types, singletons and limited integers, and a slot accessor whose
    slot moves. -/
def mixMethods : List (Meth K8) :=
  [{ id := 1, specs := [.cls .object, .cls .object] },
   { id := 2, specs := [.cls .vector, .limInt (.minOnly 0)] },
   { id := 3, specs := [.subclass .vector, .limInt (.maxOnly (-1))] },
   { id := 4, specs := [.single (.cls .vector), .cls .integer] },
   { id := 5, specs := [.cls .limitedCollection, .single (.cls .integer)] },
   { id := 6, specs := [.cls .limitedVector, .cls .function], acc := some 0, fixed := false },
   { id := 7, specs := [.union (.single (.other .method 4)) (.cls .class_), .cls .object] }]

/-- All the members of specializers at a position. -/
def typesAt (K : DWorld C) (ms : List (Meth C)) (a : Nat) : List (Ty C) :=
  ms.flatMap fun m => (spec K m a).members

theorem at_iff {K : DWorld C} {ms : List (Meth C)} {a : Nat} {t : Ty C} :
    At K ms a t ↔ t ∈ typesAt K ms a := by simp [At, typesAt]

/-- Is it a limited type? -/
def limB : Ty C → Bool
  | .limInt _ => true
  | .limFun _ => true
  | _ => false

theorem limited_limB {K : DWorld C} {t : Ty C} {c : C} (h : Limited K t c) : limB t = true := by
  cases h <;> rfl

theorem mix_regular : Regular zoo 2 mixMethods where
  noColl a ha t ht c e s d h := by
    have : ∀ a < 2, ∀ t ∈ typesAt zoo mixMethods a,
        (match t with | .limColl _ _ _ _ => false | _ => true) = true := by decide
    have := this a ha t (at_iff.1 ht)
    rw [h] at this; cases this
  noSubclass a ha t ht h := by
    have : ∀ a < 2, ∀ t ∈ typesAt zoo mixMethods a, t ≠ .subclass .class_ := by decide
    exact this a ha t (at_iff.1 ht) h
  bounds a ha m M ht := by
    have : ∀ a < 2, ∀ t ∈ typesAt zoo mixMethods a,
        (match t with | .limInt (.both _ _) => false | _ => true) = true := by decide
    have := this a ha _ (at_iff.1 ht)
    cases this
  defined a ha m hm m' hm' := by
    have : ∀ a < 2, ∀ m ∈ mixMethods, ∀ m' ∈ mixMethods,
        subS zoo.toWorld (spec zoo m a) (spec zoo m' a) ≠ none := by decide
    have := this a ha m hm m' hm'
    rwa [subS_eq] at this
  flat a ha m hm s t h c := by
    have : ∀ a < 2, ∀ m ∈ mixMethods, (match spec zoo m a with
        | .union s t => ((Ty.union s t).members.all fun u =>
          match u with | .subclass _ => false | _ => true)
        | _ => true) = true := by decide
    have := this a ha m hm
    rw [h] at this ⊢
    intro hc
    have := List.all_eq_true.1 this _ hc
    cases this
  unrelated a ha s t c d hs ht hc hd h := by
    have : ∀ a < 2, ∀ s ∈ typesAt zoo mixMethods a, ∀ t ∈ typesAt zoo mixMethods a,
        limB s = true → limB t = true → subS zoo.toWorld s t = some true →
        subS zoo.toWorld t s = some true := by decide
    have := this a ha s (at_iff.1 hs) t (at_iff.1 ht) (limited_limB hc) (limited_limB hd)
    rw [subS_eq, subS_eq] at this
    exact this h
  noMix a ha o t c ho ht hc := by
    have : ∀ a < 2, ∀ s ∈ typesAt zoo mixMethods a, ∀ t ∈ typesAt zoo mixMethods a,
        (match s, t with
        | .single o, .limInt _ => !zoo.sub (classOf zoo.toWorld o) zoo.intC &&
          !zoo.sub zoo.intC (classOf zoo.toWorld o)
        | .single o, .limFun _ => !zoo.sub (classOf zoo.toWorld o) zoo.funC &&
          !zoo.sub zoo.funC (classOf zoo.toWorld o)
        | _, _ => true) = true := by decide
    have := this a ha _ (at_iff.1 ho) t (at_iff.1 ht)
    cases hc <;> simpa using this
  accArg m hm a ha := by
    have : ∀ m ∈ mixMethods, m.acc = none ∨ m.acc = some 0 := by decide
    rcases this m hm with h | h <;> rw [h] at ha
    · cases ha
    · cases ha; decide
  accFixed m hm a ha hf := by
    have : ∀ m ∈ mixMethods, m.acc = none ∨ m.fixed = false := by decide
    rcases this m hm with h | h
    · rw [h] at ha; cases ha
    · rw [h] at hf; cases hf

/-- Two arguments. -/
def two (x y : Obj K8) : Args K8 := fun a => if a = 0 then x else y

/-- Calls that meet the hypotheses, with different orders of the arguments, and what they do. -/
def mixCalls : List (List Nat × Args K8) :=
  [([0, 1], two (.other .vector 1) (.int 3)),
   ([1, 0], two (.other .vector 1) (.int (-3))),
   ([0, 1], two (.cls .limitedVector) (.int (-3))),
   ([0, 1], two (.cls .vector) (.int (-3))),
   ([1, 0], two (.other .limitedVector 2) (.other .method 1)),
   ([0, 1], two (.other .limitedVector 2) (.cls .integer)),
   ([0, 1], two (.other .method 4) (.int 0)),
   ([0, 1], two (.other .limitedVector 2) (.int 5))]

example : (∀ c ∈ mixCalls, ∀ a, a ∈ c.1 ↔ a < 2) ∧ (∀ c ∈ mixCalls, ProperArgs zoo 2 c.2) := by
  constructor
  · intro c hc a
    have : ∀ c ∈ mixCalls, c.1 = [0, 1] ∨ c.1 = [1, 0] := by decide
    rcases this c hc with h | h <;> rw [h] <;> simp <;> omega
  · intro c hc a ha h
    have : ∀ c ∈ mixCalls, ∀ a < 2, zoo.sub (classOf zoo.toWorld (c.2 a)) .class_ = true →
        isClassObj (c.2 a) = true := by decide
    have := this c hc a ha h
    cases hx : c.2 a <;> rw [hx] at this <;> first | exact ⟨_, rfl⟩ | cases this

example : history zoo 2 mixMethods mixCalls .absent = some
    [.invoke [(2, none), (1, none)] [], .invoke [(1, none)] [],
     .invoke [(3, none), (7, none), (1, none)] [],
     .invoke [] [7, 4, 1, 3], .invoke [(6, some 0), (1, none)] [],
     .invoke [(5, none), (1, none)] [], .invoke [(7, none), (1, none)] [],
     .invoke [(2, none), (1, none)] []] := by decide +kernel

/-- The methods of `mixMethods` that meet the further hypotheses of `dispatch_correct_partial`. -/
def mixPlain : List (Meth K8) := mixMethods.filter fun m => m.id ≠ 3 && m.id ≠ 7

theorem Regular.filter {K : DWorld C} {nreq : Nat} {ms ms' : List (Meth C)}
    (h : Regular K nreq ms) (hs : ∀ m ∈ ms', m ∈ ms) : Regular K nreq ms' := by
  have at' : ∀ {a t}, At K ms' a t → At K ms a t := fun ⟨m, hm, ht⟩ => ⟨m, hs m hm, ht⟩
  exact ⟨fun a ha t ht => h.noColl a ha t (at' ht), fun a ha t ht => h.noSubclass a ha t (at' ht),
    fun a ha m M ht => h.bounds a ha m M (at' ht),
    fun a ha m hm m' hm' => h.defined a ha m (hs m hm) m' (hs m' hm'),
    fun a ha m hm => h.flat a ha m (hs m hm),
    fun a ha s t c d h1 h2 => h.unrelated a ha s t c d (at' h1) (at' h2),
    fun a ha o t c h1 h2 => h.noMix a ha o t c (at' h1) (at' h2),
    fun m hm => h.accArg m (hs m hm), fun m hm => h.accFixed m (hs m hm)⟩

example : Regular zoo 2 mixPlain ∧ mixPlain.Nodup ∧ mixPlain.length = 5 ∧
    (∀ m ∈ mixPlain, ∀ m' ∈ mixPlain, m ≠ m' → ComparableMethods zoo 2 m m') ∧
    (∀ m ∈ mixPlain, ∀ m' ∈ mixPlain, m ≠ m' →
      ∃ a < 2, ¬ Equivalent zoo (spec zoo m a) (spec zoo m' a)) := by
  refine ⟨mix_regular.filter fun m hm => List.mem_of_mem_filter hm, by decide, by decide, ?_, ?_⟩
  · intro m hm m' hm' _ a ha
    have hcl : ∀ m ∈ mixPlain, ∀ a < 2,
        (match spec zoo m a with | .subclass _ => false | .union _ _ => false | _ => true) = true := by
      decide
    have hs : ∀ m ∈ mixPlain, ∀ m' ∈ mixPlain, ∀ a < 2,
        subS zoo.toWorld (spec zoo m a) (spec zoo m' a) ≠ none := by decide
    have c1 := hcl m hm a ha
    have c2 := hcl m' hm' a ha
    refine comparable_of (hs m hm m' hm' a ha) (hs m' hm' m hm a ha) ?_ ?_ ?_ ?_ <;>
    · intros; intro h; simp [h] at c1 c2
  · have h : ∀ m ∈ mixPlain, ∀ m' ∈ mixPlain, m ≠ m' → ∃ a < 2,
        spec zoo m a ≠ spec zoo m' a ∧
          ¬ (subS zoo.toWorld (spec zoo m a) (spec zoo m' a) = some true ∧
            subS zoo.toWorld (spec zoo m' a) (spec zoo m a) = some true) := by decide
    intro m hm m' hm' hne
    obtain ⟨a, ha, h1, h2⟩ := h m hm m' hm' hne
    refine ⟨a, ha, ?_⟩
    simpa [Equivalent, Sub, ← subS_eq, h1] using h2

/-! ### disagreements -/

/-- A call with one integer. -/
def oneInt (i : Fix) : List Nat × Args K8 := ([0], fun _ => .int i)

/-- C53 fails for limited types one of which is a subtype of the other: with methods 1 on
    `limited(<integer>, min: 0)` and 2 on `limited(<integer>, min: 10)`, the call `f(20)` makes a
    later `f(5)` invoke method 2, which does not accept 5.  Calling `f(5)` first needs two
    extensions of the cache, and makes a later `f(20)` miss method 2.  The test for membership in
    the supertype is taken to decide the one for the subtype (`subsumed?`,
    `discrimination.dylan:491-499,516`). -/
theorem nested_limited_violated :
    let ms : List (Meth K8) := [{ id := 2, specs := [.limInt (.minOnly 10)] },
      { id := 1, specs := [.limInt (.minOnly 0)] }]
    (direct zoo 1 ms fun _ => .int 20) = .invoke [(2, none), (1, none)] [] ∧
    (direct zoo 1 ms fun _ => .int 5) = .invoke [(1, none)] [] ∧
    history zoo 1 ms [oneInt 20, oneInt 5] .absent =
      some [.invoke [(2, none), (1, none)] [], .invoke [(2, none), (1, none)] []] ∧
    history zoo 1 ms [oneInt 5] .absent = none ∧
    ((call zoo 1 [0] ms (fun _ => .int 5) 2 .absent).bind fun r =>
      (call zoo 1 [0] ms (fun _ => .int 20) 2 r.2).map fun q => (r.1, q.1)) =
      some (.invoke [(1, none)] [], .invoke [(1, none)] []) := by decide +kernel

/-- C53 fails for a singleton and a limited type at the same position: with methods 1 on the
    singleton of 5, 2 on `limited(<integer>, min: 0)` and 3 on `<integer>`, the node that the
    second call makes for integers other than 5 takes no notice of method 2
    (`discrimination.dylan:427-437,353-371`), so the third call goes wrong. -/
theorem singleton_and_limited_violated :
    let ms : List (Meth K8) := [{ id := 1, specs := [.single (.int 5)] },
      { id := 2, specs := [.limInt (.minOnly 0)] }, { id := 3, specs := [.cls .integer] }]
    (direct zoo 1 ms fun _ => .int 3) = .invoke [(2, none), (3, none)] [] ∧
    (direct zoo 1 ms fun _ => .int (-1)) = .invoke [(3, none)] [] ∧
    history zoo 1 ms [oneInt 5, oneInt (-1), oneInt 3] .absent =
      some [.invoke [(1, none), (2, none), (3, none)] [], .invoke [(3, none)] [],
        .invoke [(3, none)] []] ∧
    history zoo 1 ms [oneInt 5, oneInt 3, oneInt (-1)] .absent =
      some [.invoke [(1, none), (2, none), (3, none)] [], .invoke [(2, none), (3, none)] [],
        .invoke [(2, none), (3, none)] []] := by decide +kernel

/-- C53 fails for a subclass type in a union: the dispatcher asks an integer for its key as a
    class (`discrimination.dylan:425-427,469-475`). -/
theorem subclass_in_union_violated :
    let ms : List (Meth K8) :=
      [{ id := 1, specs := [.union (.subclass .vector) (.cls .integer)] },
       { id := 2, specs := [.single (.int 5)] }]
    (direct zoo 1 ms fun _ => .int 7) = .invoke [(1, none)] [] ∧
    history zoo 1 ms [oneInt 7] .absent = none := by decide +kernel

/-- A world in which a slot is at another place in a subclass. -/
def movedZoo : DWorld K8 where
  toWorld := demo
  objC := .object
  cpl c := c.supers
  offset _ c := if c = .limitedVector then 3 else 2

/-- C53 fails for an accessor of a slot whose place is wrongly taken to be fixed (C46): the place
    found for the first argument is used for instances of other classes. -/
theorem moved_slot_violated :
    let ms : List (Meth K8) :=
      [{ id := 1, specs := [.cls .vector], acc := some 0, fixed := true }]
    (direct movedZoo 1 ms fun _ => .other .limitedVector 1) = .invoke [(1, some 3)] [] ∧
    history movedZoo 1 ms [([0], fun _ => .other .vector 1), ([0], fun _ => .other .limitedVector 1)]
      .absent = some [.invoke [(1, some 2)] [], .invoke [(1, some 2)] []] := by decide +kernel

end Verif.Dispatch
