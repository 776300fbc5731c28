/-
C29–C32, C42: what a user relies on about `instance?`, `subtype?`, `disjoint-types?`,
`limited(<integer>, ...)` and `type-union`.
`some true` is the answer `#t`, `some false` is `#f`, `none` is an error signalled because no
method applies.
-/
import Verif.Types.Lemmas
import Mathlib.Tactic.FinCases

namespace Verif.Types
variable {C : Type} [DecidableEq C]

set_option linter.unusedSimpArgs false

/-! ### a small class heterarchy for the examples -/

/-- `<object>`, `<class>`, `<integer>`, `<function>`, `<limited-collection>`, `<vector>`,
    a concrete limited vector class, `<method>`. -/
inductive K8 where
  | object | class_ | integer | function | limitedCollection | vector | limitedVector | method
  deriving DecidableEq, Repr

/-- All superclasses. -/
def K8.supers : K8 → List K8
  | .object => [.object]
  | .class_ => [.class_, .object]
  | .integer => [.integer, .object]
  | .function => [.function, .object]
  | .limitedCollection => [.limitedCollection, .object]
  | .vector => [.vector, .object]
  | .limitedVector => [.limitedVector, .limitedCollection, .vector, .object]
  | .method => [.method, .function, .object]

/-- The example world. -/
def demo : World K8 where
  sub a b := decide (b ∈ a.supers)
  metaC _ := .class_
  classC := .class_
  intC := .integer
  funC := .function
  limCollC := .limitedCollection
  collKind c := decide (K8.limitedCollection ∈ c.supers)
  congr a b := decide (b ≤ a)
  primary c := decide (c ∈ [K8.object, K8.class_, K8.integer, K8.function, K8.method])
  joint c := if c = .vector then [.limitedCollection] else []
  same _ _ := false

theorem demo_lawful : Lawful demo where
  refl c := by cases c <;> decide
  trans a b c := by cases a <;> cases b <;> cases c <;> decide
  antisymm a b := by cases a <;> cases b <;> decide
  metaC c := by cases c <;> decide
  same a b h := by simp [demo] at h

theorem demo_joined : Joined demo where
  primary k a b := by cases k <;> cases a <;> cases b <;> decide
  joint k a b := by cases k <;> cases a <;> cases b <;> decide

/-! ### C31: limited integers -/

/-- C31, for bounds that are not inverted: with at least one bound given, an object is an
    instance of `limited(<integer>, min: mn, max: mx)` exactly when it is an integer within the
    given bounds; and the test never fails. -/
theorem limited_integer_instance_partial (K : World C) (x : Obj C) (mn mx : Option Fix)
    (hone : mn ≠ none ∨ mx ≠ none)
    (hord : ∀ m M, mn = some m → mx = some M → m.toInt ≤ M.toInt) :
    inst K x (limitedInteger K mn mx) ≠ none ∧
    (inst K x (limitedInteger K mn mx) = some true ↔
      ∃ i, x = .int i ∧ (∀ m, mn = some m → m.toInt ≤ i.toInt) ∧
        (∀ M, mx = some M → i.toInt ≤ M.toInt)) := by
  rcases mn with _ | m <;> rcases mx with _ | M
  · simp at hone
  · cases x <;> simp [limitedInteger, inst, limIntTest_max]
  · cases x <;> simp [limitedInteger, inst, limIntTest_min]
  · have := hord m M rfl rfl
    cases x <;> simp [limitedInteger, inst, limIntTest_both this]

/-- C31 without the order of the bounds is false: 7 is an instance of
    `limited(<integer>, min: 5, max: 3)`. -/
theorem limited_integer_instance_violated :
    inst demo (.int 7) (limitedInteger demo (some 5) (some 3)) = some true ∧
    ¬ ((5 : Fix).toInt ≤ (7 : Fix).toInt ∧ (7 : Fix).toInt ≤ (3 : Fix).toInt) := by
  simp only [inst, limitedInteger]
  decide

/-- The only bounds that go wrong are inverted ones, and then the answer is `#t` for every
    integer outside the gap between them: `i ≥ min` or `i ≤ max`. -/
theorem limited_integer_inverted (K : World C) (i m M : Fix) (h : M.toInt < m.toInt) :
    inst K (.int i) (limitedInteger K (some m) (some M)) = some true ↔
      m.toInt ≤ i.toInt ∨ i.toInt ≤ M.toInt := by
  have h1 := tagWord_sub i m
  have h2 := tagWord_sub M m
  have := fix_range i
  have := fix_range m
  have := fix_range M
  simp only [inst, limitedInteger, limIntTest, Option.some.injEq, decide_eq_true_eq]
  norm_num at *
  omega

/-- Nothing but an integer is an instance, with or without inverted bounds. -/
theorem limited_integer_only_integers (K : World C) (x : Obj C) (mn mx : Option Fix)
    (hone : mn ≠ none ∨ mx ≠ none) (h : inst K x (limitedInteger K mn mx) = some true) :
    ∃ i, x = .int i := by
  rcases mn with _ | m <;> rcases mx with _ | M
  · simp at hone
  all_goals cases x <;> simp_all [limitedInteger, inst]

example : inst demo (.int (-3)) (limitedInteger demo (some (-128)) (some 127)) = some true ∧
    inst demo (.int 128) (limitedInteger demo (some (-128)) (some 127)) = some false ∧
    ((-128 : Fix).toInt ≤ (127 : Fix).toInt) := by
  simp only [inst, limitedInteger]
  decide

/-! ### C29: subtype? is sound -/

/-- C29 on tame types: if `t1` is a subtype of `t2`, an instance of `t1` is never answered not to
    be an instance of `t2`. -/
theorem subtype_sound_partial (K : World C) (hK : Lawful K) (r : Nat) (x : Obj C) (t1 t2 : Ty C)
    (hx : x.Tame K r) (h1 : t1.Tame K r) (h2 : t2.Tame K r)
    (hi : inst K x t1 = some true) (hs : sub K t1 t2 = some true) :
    inst K x t2 ≠ some false := by
  rw [← sub_single] at hi ⊢
  exact sub_trans_aux hK _ _ _ _ le_rfl (by simpa [Ty.Tame] using hx) h1 h2 hi hs

/-- C29 in full strength on types in which at most one of the kinds limited integer, subclass
    and limited function occurs: an instance of the subtype is answered to be an instance of the
    supertype. -/
theorem subtype_sound_one_kind_partial (K : World C) (hK : Lawful K) (r : Nat) (k : Kind)
    (x : Obj C) (t1 t2 : Ty C)
    (hx : x.Tame K r) (h1 : t1.Tame K r) (h2 : t2.Tame K r) (kx : x.Only k) (k2 : t2.Only k)
    (hi : inst K x t1 = some true) (hs : sub K t1 t2 = some true) :
    inst K x t2 = some true := by
  have hf := subtype_sound_partial K hK r x t1 t2 hx h1 h2 hi hs
  have hn := (no_error_aux (K := K) (k := k) _).2 x t2 le_rfl kx k2
  rcases h : inst K x t2 with _ | _ | _ <;> simp_all

/-- Without limited collections `instance?` never fails, so C29 holds in full strength for types
    built from classes, singletons, unions, limited integers, subclass types and limited
    functions, except for inverted limited integers and `subclass(<class>)`. -/
def NoColl : Ty C → Prop
  | .union a b => NoColl a ∧ NoColl b
  | .limColl _ _ _ _ => False
  | _ => True

/-- C29 without limited collections (see `NoColl`). -/
theorem subtype_sound_noColl_partial (K : World C) (hK : Lawful K) (r : Nat)
    (x : Obj C) (t1 t2 : Ty C)
    (hx : x.Tame K r) (h1 : t1.Tame K r) (h2 : t2.Tame K r) (n2 : NoColl t2)
    (hi : inst K x t1 = some true) (hs : sub K t1 t2 = some true) :
    inst K x t2 = some true := by
  have hf := subtype_sound_partial K hK r x t1 t2 hx h1 h2 hi hs
  have key : ∀ t : Ty C, NoColl t → inst K x t ≠ none := by
    intro t
    induction t using Ty.rec (motive_2 := fun _ => True) with
    | union a b iha ihb =>
      intro h; simp only [inst]; exact orO_isSome (iha h.1) (ihb h.2)
    | limColl => intro h; exact h.elim
    | cls | single | limInt | subclass | limFun => intro _; cases x <;> simp [inst]
    | _ => trivial
  have hn := key t2 n2
  rcases h : inst K x t2 with _ | _ | _ <;> simp_all

/-- C29 fails for `subclass(<class>)`: `<class>` is answered to be a subtype of it, but the class
    `<integer>`, an instance of `<class>`, is not an instance of it. -/
theorem subtype_sound_violated_subclass :
    sub demo (.cls .class_) (.subclass .class_) = some true ∧
    inst demo (.cls .integer) (.cls .class_) = some true ∧
    inst demo (.cls .integer) (.subclass .class_) = some false := by
  simp [sub, inst, demo, classOf, K8.supers]

/-- C29 fails for an inverted limited integer: `limited(<integer>, min: 5, max: 3)` is answered
    to be a subtype of `limited(<integer>, min: 4, max: 10)`, but its instance 100 is not an
    instance of the latter. -/
theorem subtype_sound_violated_inverted :
    sub demo (limitedInteger demo (some 5) (some 3)) (limitedInteger demo (some 4) (some 10))
      = some true ∧
    inst demo (.int 100) (limitedInteger demo (some 5) (some 3)) = some true ∧
    inst demo (.int 100) (limitedInteger demo (some 4) (some 10)) = some false := by
  simp only [sub, inst, limitedInteger]
  decide

/-- C29 fails for dimensions of different rank, because the dimensions are compared only as far
    as the shorter list reaches: `limited(<array>, of: <integer>, dimensions: #[2])` is answered
    to be a subtype of the one with dimensions `#[2, 3]`, but a 2-by-5 array is an instance of
    the former only. -/
theorem subtype_sound_violated_dimensions :
    sub demo (.limColl .vector (.cls .integer) none (some [2]))
      (.limColl .vector (.cls .integer) none (some [2, 3])) = some true ∧
    inst demo (.coll .limitedVector (.cls .integer) [2, 5] 0)
      (.limColl .vector (.cls .integer) none (some [2])) = some true ∧
    inst demo (.coll .limitedVector (.cls .integer) [2, 5] 0)
      (.limColl .vector (.cls .integer) none (some [2, 3])) = some false := by
  simp [sub, inst, equiv, andO, demo, K8.supers, shapeSub, shapeInst, everyEq, sizeByDims]

example : ∃ (x : Obj K8) (t1 t2 : Ty K8), x.Tame demo 1 ∧ t1.Tame demo 1 ∧ t2.Tame demo 1 ∧
    NoColl t2 ∧ x.Only .limInt ∧ t2.Only .limInt ∧
    inst demo x t1 = some true ∧ sub demo t1 t2 = some true :=
  ⟨.int 7, .union (.limInt (.both 5 9)) (.single (.cls .integer)),
    .union (.cls .class_) (.limInt (.minOnly 3)),
    by simp [Obj.Tame], by simp [Ty.Tame, Obj.Tame], by simp [Ty.Tame], by simp [NoColl],
    by simp [Obj.Only], by simp [Ty.Only],
    by simp only [inst]; decide,
    by simp only [sub, inst, demo]; decide⟩

/-! ### C30: subtype? is a preorder, as far as it answers -/

/-- C30, reflexivity: on types without limited functions `subtype?(t, t)` is never `#f`. -/
theorem subtype_refl_partial (K : World C) (hK : Lawful K) (t : Ty C) (h : t.Reflexive) :
    sub K t t ≠ some false :=
  sub_refl_aux hK _ t le_rfl h

/-- C30, transitivity on tame types: `subtype?(t1, t3)` is never `#f`. -/
theorem subtype_trans_partial (K : World C) (hK : Lawful K) (r : Nat) (t1 t2 t3 : Ty C)
    (h1 : t1.Tame K r) (h2 : t2.Tame K r) (h3 : t3.Tame K r)
    (h12 : sub K t1 t2 = some true) (h23 : sub K t2 t3 = some true) :
    sub K t1 t3 ≠ some false :=
  sub_trans_aux hK _ t1 t2 t3 le_rfl h1 h2 h3 h12 h23

/-- `subtype?` always answers on types in which at most one of the kinds limited integer,
    subclass and limited function occurs. -/
theorem subtype_answers_one_kind (K : World C) (k : Kind) (t1 t2 : Ty C) (h1 : t1.Only k)
    (h2 : t2.Only k) : sub K t1 t2 ≠ none :=
  (no_error_aux _).1 t1 t2 le_rfl h1 h2

/-- C30 on types of one kind: reflexive and transitive outright. -/
theorem subtype_preorder_one_kind_partial (K : World C) (hK : Lawful K) (k : Kind) (r : Nat) :
    (∀ t : Ty C, t.Only k → t.Reflexive → sub K t t = some true) ∧
    (∀ t1 t2 t3 : Ty C, t1.Only k → t3.Only k → t1.Tame K r → t2.Tame K r →
      t3.Tame K r → sub K t1 t2 = some true → sub K t2 t3 = some true →
      sub K t1 t3 = some true) := by
  refine ⟨fun t ho hr => ?_, fun t1 t2 t3 o1 o3 h1 h2 h3 h12 h23 => ?_⟩
  · have a := subtype_refl_partial K hK t hr
    have b := subtype_answers_one_kind K k t t ho ho
    rcases h : sub K t t with _ | _ | _ <;> simp_all
  · have a := subtype_trans_partial K hK r t1 t2 t3 h1 h2 h3 h12 h23
    have b := subtype_answers_one_kind K k t1 t3 o1 o3
    rcases h : sub K t1 t3 with _ | _ | _ <;> simp_all

/-- C30 fails: asking whether `type-union(subclass(<vector>), limited(<integer>, min: 0))` is a
    subtype of itself signals an error. -/
theorem subtype_refl_violated_error :
    sub demo (.union (.subclass .vector) (.limInt (.minOnly 0)))
      (.union (.subclass .vector) (.limInt (.minOnly 0))) = none := by
  simp only [sub]; decide

/-- C30 fails: a limited function type is not a subtype of itself. -/
theorem subtype_refl_violated_function (K : World C) (s : Nat) :
    sub K (.limFun s) (.limFun s) = some false := by simp [sub]

/-- C30 fails: `singleton(<integer>)` is a subtype of `<class>`, `<class>` is a subtype of
    `subclass(<class>)`, and `singleton(<integer>)` is not a subtype of `subclass(<class>)`. -/
theorem subtype_trans_violated :
    sub demo (.single (.cls .integer)) (.cls .class_) = some true ∧
    sub demo (.cls .class_) (.subclass .class_) = some true ∧
    sub demo (.single (.cls .integer)) (.subclass .class_) = some false := by
  simp [sub, inst, demo, classOf, K8.supers]

example : ∃ t1 t2 t3 : Ty K8, t1.Only .subclass ∧ t3.Only .subclass ∧ t1.Reflexive ∧
    t1.Tame demo 1 ∧ t2.Tame demo 1 ∧ t3.Tame demo 1 ∧
    sub demo t1 t2 = some true ∧ sub demo t2 t3 = some true :=
  ⟨.union (.subclass .limitedVector) (.limColl .vector (.cls .integer) (some 3) none),
    .union (.subclass .vector) (.limColl .vector (.cls .integer) none none),
    .union (.cls .class_) (.cls .vector),
    by simp [Ty.Only], by simp [Ty.Only], by simp [Ty.Reflexive],
    by simp [Ty.Tame, demo], by simp [Ty.Tame, demo], by simp [Ty.Tame],
    by simp [sub, equiv, demo, K8.supers, andO, orO, shapeSub],
    by simp [sub, demo, K8.supers, andO, orO]⟩

/-! ### C32: disjointness -/

/-- C32: if `disjoint-types?(t1, t2)` answers `#t`, no object is an instance of both, as long as
    no member of `t1` and member of `t2` form one of the shaky pairs. -/
theorem disjoint_sound_partial (K : World C) (hK : Lawful K) (hJ : Joined K) (r : Nat)
    (t1 t2 : Ty C) (h1 : t1.Tame K r) (h2 : t2.Tame K r)
    (hs : ∀ p ∈ t1.members, ∀ q ∈ t2.members, ¬ Shaky K p q)
    (h : disj K t1 t2 = some true) :
    ¬ ∃ x : Obj C, x.Tame K r ∧ inst K x t1 = some true ∧ inst K x t2 = some true := by
  rintro ⟨x, hx, i1, i2⟩
  exact disj_sound_aux hK hJ hx _ t1 t2 le_rfl h1 h2 hs h i1 i2

/-- C32 fails: `<vector>` and `limited(<vector>, of: <integer>)` are answered to be disjoint,
    although every instance of the second is an instance of the first. -/
theorem disjoint_sound_violated_class :
    disj demo (.cls .vector) (.limColl .vector (.cls .integer) none none) = some true ∧
    inst demo (.coll .limitedVector (.cls .integer) [3] 0) (.cls .vector) = some true ∧
    inst demo (.coll .limitedVector (.cls .integer) [3] 0)
      (.limColl .vector (.cls .integer) none none) = some true := by
  simp [disj, disj1, hasInst, inst, equiv, andO, demo, classOf, K8.supers, shapeInst]

/-- C32 fails: `limited(<vector>, of: <integer>, size: 3)` and
    `limited(<limited-collection>, of: <integer>)` are answered to be disjoint, with a common
    instance. -/
theorem disjoint_sound_violated_collections :
    disj demo (.limColl .vector (.cls .integer) (some 3) none)
      (.limColl .limitedCollection (.cls .integer) none none) = some true ∧
    inst demo (.coll .limitedVector (.cls .integer) [3] 0)
      (.limColl .vector (.cls .integer) (some 3) none) = some true ∧
    inst demo (.coll .limitedVector (.cls .integer) [3] 0)
      (.limColl .limitedCollection (.cls .integer) none none) = some true := by
  simp [disj, disj1, sub, notO, inst, equiv, andO, demo, classOf, K8.supers, shapeInst,
    sizeOfDims]

/-- C32 fails: a limited function type is answered to be disjoint from itself, although it has
    instances. -/
theorem disjoint_sound_violated_function :
    disj demo (.limFun 2) (.limFun 2) = some true ∧
    inst demo (.fn .method 2 0) (.limFun 2) = some true := by
  simp [disj, disj1, inst, demo, K8.supers]

/-- Asking whether a limited integer type and a subclass type are disjoint signals an error. -/
theorem disjoint_error (K : World C) (b : Bounds) (c : C) :
    disj K (.limInt b) (.subclass c) = none := by
  simp [disj, disj1, sub, notO, andO]

example : ∃ t1 t2 : Ty K8, t1.Tame demo 1 ∧ t2.Tame demo 1 ∧
    (∀ p ∈ t1.members, ∀ q ∈ t2.members, ¬ Shaky demo p q) ∧ disj demo t1 t2 = some true :=
  ⟨.union (.limInt (.maxOnly (-1))) (.cls .function),
    .union (.limInt (.minOnly 0)) (.single (.cls .vector)),
    by simp [Ty.Tame], by simp [Ty.Tame, Obj.Tame], by simp [Ty.members, Shaky],
    by simp only [disj, disj1, sub, inst, hasInst, demo]; decide⟩

/-! ### C42: unions -/

/-- C42: an object is an instance of `type-union(t, more...)` exactly when it is an instance of
    one of the given types (on types for which `instance?` does not fail). -/
theorem type_union_instance (K : World C) (hK : Lawful K) (k : Kind) (x : Obj C) (t : Ty C)
    (more : List (Ty C)) (hx : x.Only k) (ht : ∀ u ∈ t :: more, u.Only k) :
    inst K x (typeUnion K t more) ≠ none ∧
    (inst K x (typeUnion K t more) = some true ↔ ∃ u ∈ t :: more, inst K x u = some true) := by
  have ans : ∀ u : Ty C, u.Only k → inst K x u ≠ none :=
    fun u hu => (no_error_aux _).2 x u le_rfl hx hu
  unfold typeUnion
  induction more generalizing t with
  | nil =>
    simp only [List.foldl_nil, List.mem_singleton, exists_eq_left, iff_self, and_true]
    exact ans t (ht t (by simp))
  | cons v vs ih =>
    have h1 := ht t (by simp)
    have h2 := ht v (by simp)
    simp only [List.foldl_cons]
    by_cases hsame : K.same t v = true
    · have := hK.same _ _ hsame
      subst this
      rw [if_pos hsame]
      have := ih t (fun u hu => ht u (by simp only [List.mem_cons] at hu ⊢; tauto))
      simpa using this
    · rw [if_neg hsame]
      have := ih (.union t v) (fun u hu => by
        simp only [List.mem_cons] at hu
        rcases hu with rfl | hu
        · exact ⟨h1, h2⟩
        · exact ht u (by simp [hu]))
      refine ⟨this.1, this.2.trans ?_⟩
      have hor : inst K x (.union t v) = some true ↔
          inst K x t = some true ∨ inst K x v = some true := by
        simp only [inst, orO_true]
        have ha := ans t h1
        clear this ih ht
        rcases hi : inst K x t with _ | _ | _
        · exact absurd hi ha
        · simp
        · simp
      simp only [List.mem_cons, exists_eq_or_imp, hor]
      tauto

example : ∃ (x : Obj K8) (t : Ty K8) (more : List (Ty K8)), more.length = 2 ∧ x.Only .limInt ∧
    (∀ u ∈ t :: more, u.Only .limInt) ∧ inst demo x (typeUnion demo t more) = some true :=
  ⟨.int 4, .single (.cls .vector), [.limInt (.both 0 9), .cls .function], rfl, by simp [Obj.Only],
    by simp [Ty.Only, Obj.Only],
    by simp [typeUnion, demo, inst, orO]; decide⟩

end Verif.Types
