/-
C45, C46, C47: the layout of instances, fixed slot offsets, and slot access.
-/
import Verif.Slots.CStore
import Verif.Class.Props
import Mathlib.Tactic.IntervalCases

namespace Verif.Slots

open Class (World Reachable)

/-! ### A few worlds -/

/-- `<p>` (1) primary, `<m>` (2) a mixin, `<q>` (3) primary below `<p>`, `<c>` (4) with
    superclasses `<m>`, `<q>`. -/
def demoW : World :=
  Class.run Class.objectWorld [.make ⟨[0], true, 0⟩, .make ⟨[0], false, 0⟩, .make ⟨[1], true, 0⟩, .make ⟨[2, 3], false, 0⟩]

theorem demo_reachable : Reachable demoW := ⟨_, rfl⟩

/-- `<p>`: instance slots 10, 11 and class slot 12; `<m>`: instance slot 20, each-subclass slot 21,
    virtual slot 22; `<q>`: repeated slot 30 with size 31; `<c>`: instance slot 40. -/
def demoSlots : Nat → List SlotDef
  | 1 => [⟨10, .inst⟩, ⟨11, .inst⟩, ⟨12, .cls⟩]
  | 2 => [⟨20, .inst⟩, ⟨21, .eachSubclass⟩, ⟨22, .virt⟩]
  | 3 => [⟨30, .repeated 31⟩]
  | 4 => [⟨40, .inst⟩]
  | _ => []

def demoG : Graph := ofWorld demoW (fun _ => false) demoSlots

def demoLs : List Layout :=
  match layoutAll demoG demoW.length with
  | .ok ls => ls
  | .error _ => []

set_option maxRecDepth 100000 in
theorem demo_ok : layoutAll demoG demoW.length = .ok demoLs := by decide +kernel

set_option maxRecDepth 100000 in
theorem demo_length : demoW.length = 5 := by decide +kernel

instance (G : Graph) (c : Nat) : Decidable (DistinctGetters G c) :=
  inferInstanceAs (Decidable (List.Nodup _))

set_option maxRecDepth 100000 in
theorem demo_distinct : ∀ c < 5, DistinctGetters demoG c := by decide +kernel

/-- Slots by number. -/
theorem fresh_of {w : World} {ab : Nat → Bool} {sl : Nat → List SlotDef} {N : Nat} (hN : w.length ≤ N)
    (h : ∀ a < N, ∀ d ∈ sl a, ∀ g, d.alloc = .repeated g → ∀ a' < N, ∀ d' ∈ sl a', d'.getter ≠ g)
    (hw : Class.WInv w) : ∀ c < w.length, SizeGettersFresh (ofWorld w ab sl) c := by
  intro c hc a d g a' d' h1 h2 h3
  have hier := ofWorld_hier hw ab sl
  have l1 := hier.mem_lt hc h1.1
  have l2 := hier.mem_lt hc h3.1
  exact h a (by omega) d h1.2 g h2 a' (by omega) d' h3.2

theorem demo_fresh : ∀ c < 5, SizeGettersFresh demoG c := by
  have := fresh_of (w := demoW) (ab := fun _ => false) (sl := demoSlots) (N := 5)
    (by rw [demo_length]) (by
      intro a ha d hd g hg a' ha' d' hd'
      have h1 : a = 3 := by
        interval_cases a <;> simp [demoSlots] at hd <;> first | rfl | (rcases hd with rfl | rfl | rfl <;> simp at hg) | (subst hd; simp at hg)
      subst h1
      simp only [demoSlots, List.mem_singleton] at hd
      subst hd
      simp only [Alloc.repeated.injEq] at hg
      subst hg
      interval_cases a' <;> simp [demoSlots] at hd' <;> first | (rcases hd' with rfl | rfl | rfl <;> simp) | (subst hd'; simp))
    (Class.reachable_inv demo_reachable)
  rwa [demo_length] at this

/-! ### C45: layouts -/

/-- The slots of a class are those declared by its superclasses. -/
theorem declared_iff (w : World) (h : Reachable w) (ab : Nat → Bool) (sl : Nat → List SlotDef)
    (c a : Nat) (d : SlotDef) (hc : c < w.length) :
    Declared (ofWorld w ab sl) c a d ↔ Class.Superclass w c a ∧ d ∈ sl a := by
  have hw := Class.reachable_inv h
  have hr : w[c]? = some w[c] := List.getElem?_eq_getElem hc
  rw [Declared, ofWorld_cpl hw hr, hw.mem_cpl c _ hr a]
  rfl

/-- C45: an instance of a class has one word for each instance slot and each repeated slot's size,
    of the class and its superclasses, no two of them the same and no others; likewise for class
    slots. -/
theorem layout_sound_partial (w : World) (h : Reachable w) (ab : Nat → Bool)
    (sl : Nat → List SlotDef) (ls : List Layout) (he : layoutAll (ofWorld w ab sl) w.length = .ok ls)
    (c : Nat) (hc : c < w.length) (ht : Tame (ofWorld w ab sl) c) :
    ∃ (l : Layout) (X Y : List Sd), ls[c]? = some l ∧ l.ivec = X.map some ∧ l.cvec = Y.map some ∧ X.Nodup ∧ Y.Nodup ∧
      l.size = X.length ∧ (∀ s, s ∈ X ↔ Stored (ofWorld w ab sl) c s) ∧
      ∀ s, s ∈ Y ↔ ClassSlot (ofWorld w ab sl) c s := by
  obtain ⟨l, st, X, Y, hl, hok⟩ := layout_ok (ofWorld_hier (Class.reachable_inv h) ab sl) he c hc ht
  refine ⟨l, X, Y, hl, by rw [hok.eq], by rw [hok.eq], hok.xnodup, hok.ynodup, ?_, hok.xstored, hok.yslot⟩
  rw [hok.eq, hok.xperm.length_eq]
  exact (collect_ok _ hok.coll).1.icount

set_option maxRecDepth 100000 in
example : Tame demoG 4 ∧ (demoLs[4]?.map Layout.ivec) =
    some [some (.slot 1 ⟨10, .inst⟩), some (.slot 1 ⟨11, .inst⟩), some (.size 3 31),
      some (.slot 2 ⟨20, .inst⟩), some (.slot 4 ⟨40, .inst⟩)] ∧
    (demoLs[4]?.map Layout.cvec) = some [some (.slot 1 ⟨12, .cls⟩), some (.slot 2 ⟨21, .eachSubclass⟩)] :=
  ⟨Or.inl (demo_distinct 4 (by decide)), by decide +kernel, by decide +kernel⟩

/-- C45: the search for a slot finds the word that belongs to it. -/
theorem offset_sound_partial (w : World) (h : Reachable w) (ab : Nat → Bool)
    (sl : Nat → List SlotDef) (ls : List Layout) (he : layoutAll (ofWorld w ab sl) w.length = .ok ls)
    (c : Nat) (hc : c < w.length) (ht : Tame (ofWorld w ab sl) c)
    (hz : SizeGettersFresh (ofWorld w ab sl) c) :
    ∃ l, ls[c]? = some l ∧
      (∀ s, Stored (ofWorld w ab sl) c s → ∃ j < l.size, slotOffset s l = .ok (some j) ∧
        l.ivec[j]? = some (some s)) ∧
      ∀ s, ClassSlot (ofWorld w ab sl) c s → ∃ j, slotOffset s l = .ok (some j) ∧
        l.cvec[j]? = some (some s) := by
  obtain ⟨l, st, X, Y, hl, hok⟩ := layout_ok (ofWorld_hier (Class.reachable_inv h) ab sl) he c hc ht
  refine ⟨l, hl, ?_, ?_⟩
  · intro s hs
    obtain ⟨j, hj⟩ := List.getElem?_of_mem ((hok.xstored s).mpr hs)
    refine ⟨j, ?_, hok.offset hz hj, by rw [hok.eq]; simp [hj]⟩
    have : l.size = X.length := by
      rw [hok.eq, hok.xperm.length_eq]
      exact (collect_ok _ hok.coll).1.icount
    rw [this]
    exact (List.getElem?_eq_some_iff.mp hj).1
  · intro s hs
    obtain ⟨j, hj⟩ := List.getElem?_of_mem ((hok.yslot s).mpr hs)
    exact ⟨j, hok.coffset hj, by rw [hok.eq]; simp [hj]⟩

set_option maxRecDepth 100000 in
example : SizeGettersFresh demoG 4 ∧
    (demoLs[4]?.map (slotOffset (.slot 2 ⟨20, .inst⟩))) = some (.ok (some 3)) ∧
    (demoLs[2]?.map (slotOffset (.slot 2 ⟨20, .inst⟩))) = some (.ok (some 0)) :=
  ⟨demo_fresh 4 (by decide), by decide +kernel, by decide +kernel⟩

/-- C45: a slot the class does not have is not found. -/
theorem offset_absent (w : World) (h : Reachable w) (ab : Nat → Bool)
    (sl : Nat → List SlotDef) (ls : List Layout) (he : layoutAll (ofWorld w ab sl) w.length = .ok ls)
    (c : Nat) (hc : c < w.length) (ht : Tame (ofWorld w ab sl) c) (sd : Sd) (ha : sd.alloc = .inst)
    (hn : ∀ s, Stored (ofWorld w ab sl) c s → s.getter ≠ sd.getter) :
    ∃ l, ls[c]? = some l ∧ slotOffset sd l = .ok none := by
  obtain ⟨l, st, X, Y, hl, hok⟩ := layout_ok (ofWorld_hier (Class.reachable_inv h) ab sl) he c hc ht
  refine ⟨l, hl, ?_⟩
  rw [slotOffset, ha, hok.eq]
  exact findOffset_none X 0 (fun t hm => hn t ((hok.xstored t).mp hm))

set_option maxRecDepth 100000 in
example : (demoLs[3]?.map (slotOffset (.slot 2 ⟨20, .inst⟩))) = some (.ok none) := by decide +kernel

/-- C45: the layout of a primary class is the start of the layout of each of its subclasses. -/
theorem primary_layout_kept_partial (w : World) (h : Reachable w) (ab : Nat → Bool)
    (sl : Nat → List SlotDef) (ls : List Layout) (he : layoutAll (ofWorld w ab sl) w.length = .ok ls)
    (c q : Nat) (hc : c < w.length) (ht : Tame (ofWorld w ab sl) c) (hq : Class.Superclass w c q)
    (hp : Class.IsPrimary w q) : ∃ lq l, ls[q]? = some lq ∧ ls[c]? = some l ∧
      lq.ivec <+: l.ivec ∧ lq.cvec <+: l.cvec := by
  have hw := Class.reachable_inv h
  have hr : w[c]? = some w[c] := List.getElem?_eq_getElem hc
  refine primary_prefix (ofWorld_hier hw ab sl) he c hc ht q ?_ ?_
  · rw [ofWorld_cpl hw hr]; exact (hw.mem_cpl c _ hr q).mpr hq
  · obtain ⟨r, h1, h2⟩ := hp
    simp [ofWorld, h1, h2]

/-- `<m>` comes before `<q>` in the precedence list of `<c>`, but the words of `<q>` come first. -/
example : Class.Superclass demoW 4 1 ∧ Class.IsPrimary demoW 1 :=
  ⟨Relation.ReflTransGen.tail (b := 3) (Relation.ReflTransGen.single ⟨demoW[4]'(by rw [demo_length]; decide), by simp [demo_length], by decide +kernel⟩)
    ⟨demoW[3]'(by rw [demo_length]; decide), by simp [demo_length], by decide +kernel⟩,
    demoW[1]'(by rw [demo_length]; decide), by simp [demo_length], by decide +kernel⟩

theorem oneRepeated_iff {G : Graph} {c : Nat} (hd : DistinctGetters G c) :
    OneRepeated G c ↔ ∀ s ∈ (G.cpl c).flatMap G.direct, ∀ s' ∈ (G.cpl c).flatMap G.direct,
      isRep s = true → isRep s' = true → s.getter = s'.getter := by
  have hrep : ∀ {o d}, isRep (.slot o d) = true ↔ ∃ g, d.alloc = .repeated g := by
    intro o d; cases ha : d.alloc <;> simp [isRep, ha]
  constructor
  · intro h s hs s' hs' r r'
    obtain ⟨a, ha, hs⟩ := List.mem_flatMap.mp hs
    obtain ⟨a', ha', hs'⟩ := List.mem_flatMap.mp hs'
    obtain ⟨d, hd, rfl⟩ := mem_direct.mp hs
    obtain ⟨d', hd', rfl⟩ := mem_direct.mp hs'
    obtain ⟨g, hg⟩ := hrep.mp r
    obtain ⟨g', hg'⟩ := hrep.mp r'
    obtain ⟨-, rfl⟩ := h a d g a' d' g' ⟨ha, hd⟩ hg ⟨ha', hd'⟩ hg'
    rfl
  · intro h a d g a' d' g' h1 h2 h3 h4
    have m1 : Sd.slot a d ∈ (G.cpl c).flatMap G.direct :=
      List.mem_flatMap.mpr ⟨a, h1.1, mem_direct.mpr ⟨d, h1.2, rfl⟩⟩
    have m2 : Sd.slot a' d' ∈ (G.cpl c).flatMap G.direct :=
      List.mem_flatMap.mpr ⟨a', h3.1, mem_direct.mpr ⟨d', h3.2, rfl⟩⟩
    have e := h _ m1 _ m2 (hrep.mpr ⟨g, h2⟩) (hrep.mpr ⟨g', h4⟩)
    have hnd : (((G.cpl c).flatMap G.direct).map Sd.getter).Nodup := by rw [getters_flatMap]; exact hd
    have := List.inj_on_of_nodup_map hnd m1 m2 e
    simpa using this

theorem layout_total {G : Graph} : ∀ (n : Nat), Hier G n → (∀ c < n, DistinctGetters G c) →
    (∃ ls, layoutAll G n = .ok ls) ∨ (layoutAll G n = .error .repeats ∧ ∃ c < n, ¬ OneRepeated G c) := by
  intro n
  induction n with
  | zero => intro _ _; exact Or.inl ⟨[], rfl⟩
  | succ n ih =>
    intro h hd
    have h' : Hier G n := ⟨fun c hc => h.head c (by omega), fun c hc => h.nodup c (by omega),
      fun c hc => h.lt c (by omega), fun c hc => h.mono c (by omega), fun c hc => h.related c (by omega)⟩
    rcases ih h' (fun c hc => hd c (by omega)) with ⟨ls, hls⟩ | ⟨he, c, hc, hn⟩
    · obtain ⟨d1, d2⟩ := (hd n (by omega)).checks h (Nat.lt_succ_self n)
      have hok : ∀ p ∈ (G.cpl n).tail, ∃ l st X Y, ls[p]? = some l ∧ LayoutOk G ls p l st X Y := by
        intro p hp
        have := h.lt n (by omega) p hp
        exact layout_ok h' hls p this (Or.inl (hd p (by omega)))
      have hdn := hd n (by omega)
      rcases collect_distinct_ok (G.cpl n) hdn with ⟨st, hst⟩ | ⟨hst, s, hs, s', hs', h1, h2, h3⟩
      · obtain ⟨l, hl⟩ := computeSlots_total h (Nat.lt_succ_self n) hok hdn hst
        left
        refine ⟨ls ++ [l], ?_⟩
        simp only [layoutAll, hls, layoutClass, d1, d2, Bool.false_eq_true, if_false, hl]
      · right
        refine ⟨?_, n, by omega, ?_⟩
        · simp only [layoutAll, hls, layoutClass, d1, d2, Bool.false_eq_true, if_false, computeSlots, hst]
        · rw [oneRepeated_iff hdn]
          intro hh
          exact h3 (hh s hs s' hs' h1 h2)
    · right
      refine ⟨by simp only [layoutAll, he], c, by omega, hn⟩

/-- C45: if no getter occurs twice in a class and its superclasses, the layouts can be computed
    exactly when no class has two repeated slots, and that is the only error. -/
theorem layout_succeeds_iff (w : World) (h : Reachable w) (ab : Nat → Bool)
    (sl : Nat → List SlotDef) (hd : ∀ c < w.length, DistinctGetters (ofWorld w ab sl) c) :
    ((∃ ls, layoutAll (ofWorld w ab sl) w.length = .ok ls) ↔
      ∀ c < w.length, OneRepeated (ofWorld w ab sl) c) ∧
    ∀ e, layoutAll (ofWorld w ab sl) w.length = .error e → e = .repeats := by
  have hier := ofWorld_hier (Class.reachable_inv h) ab sl
  have ht := layout_total w.length hier hd
  refine ⟨⟨?_, ?_⟩, ?_⟩
  · rintro ⟨ls, hls⟩ c hc
    obtain ⟨l, st, X, Y, hl, hok⟩ := layout_ok hier hls c hc (Or.inl (hd c hc))
    obtain ⟨hI, -⟩ := collect_ok _ hok.coll
    intro a d g a' d' g' h1 h2 h3 h4
    have m1 := Tame.rep_mem (Or.inl (hd c hc)) hok.coll h1 (by simp [isRep, h2])
    have m2 := Tame.rep_mem (Or.inl (hd c hc)) hok.coll h3 (by simp [isRep, h4])
    have := isRep_unique hI m1 m2 (by simp [isRep, h2]) (by simp [isRep, h4])
    simpa using this
  · intro hone
    rcases ht with ht | ⟨-, c, hc, hn⟩
    · exact ht
    · exact absurd (hone c hc) hn
  · intro e he
    rcases ht with ⟨ls, hls⟩ | ⟨hr, -⟩
    · rw [hls] at he; cases he
    · rw [hr] at he; exact (Except.error.inj he).symm

/-- Both outcomes occur. -/
def twoRep : Nat → List SlotDef
  | 1 => [⟨30, .repeated 31⟩]
  | 2 => [⟨32, .repeated 33⟩]
  | _ => []

set_option maxRecDepth 100000 in
example : (∀ c < 5, DistinctGetters demoG c) ∧
    (∀ c < 5, DistinctGetters (ofWorld demoW (fun _ => false) twoRep) c) ∧
    layoutAll (ofWorld demoW (fun _ => false) twoRep) 5 = .error .repeats := by decide +kernel

/-- C45: where there are no repeated slots, a class in which two slots with storage have the same
    getter is always refused. -/
theorem shared_getter_refused_partial (w : World) (h : Reachable w) (ab : Nat → Bool)
    (sl : Nat → List SlotDef) (ls : List Layout) (he : layoutAll (ofWorld w ab sl) w.length = .ok ls)
    (c : Nat) (hc : c < w.length) (ht : NoRepeated (ofWorld w ab sl) c) (a a' : Nat) (d d' : SlotDef)
    (h1 : Declared (ofWorld w ab sl) c a d) (h2 : Declared (ofWorld w ab sl) c a' d')
    (n1 : d.alloc ≠ .virt) (n2 : d'.alloc ≠ .virt) (e : d.getter = d'.getter) : a = a' ∧ d = d' := by
  obtain ⟨l, st, X, Y, hl, hok⟩ :=
    layout_ok (ofWorld_hier (Class.reachable_inv h) ab sl) he c hc (Or.inr ht)
  have key : ∀ {a d}, Declared (ofWorld w ab sl) c a d → d.alloc ≠ .virt → Sd.slot a d ∈ st.all := by
    intro a d hd hn
    have viaX : d.alloc = .inst → Sd.slot a d ∈ st.all := by
      intro ha
      obtain ⟨b, hb, e⟩ := List.mem_filterMap.mp (hok.xperm.subset (hok.stored _ ⟨a, d, hd, Or.inl ⟨ha, rfl⟩⟩))
      obtain ⟨o, db, rfl⟩ := (collect_ok _ hok.coll).1.slots b hb
      cases hba : db.alloc <;> simp [ipart, hba] at e
      rw [← e.1, ← e.2]; exact hb
    have viaY : (d.alloc = .cls ∨ d.alloc = .eachSubclass) → Sd.slot a d ∈ st.all := by
      intro ha
      obtain ⟨b, hb, e⟩ := List.mem_filterMap.mp (hok.yperm.subset (hok.classSlot _ ⟨a, d, hd, ha, rfl⟩))
      rw [cpart_eq e]; exact hb
    cases ha : d.alloc with
    | inst => exact viaX ha
    | cls => exact viaY (Or.inl ha)
    | eachSubclass => exact viaY (Or.inr ha)
    | virt => exact absurd ha hn
    | repeated g => exact absurd ha (ht a d g hd)
  have := getter_inj (collect_ok _ hok.coll).1 (key h1 n1) (key h2 n2) e
  simpa using this

/-- `<a>` (1), `<b>` (2), `<c>` (3) with superclasses `<b>`, `<a>`, `<p>` (4) primary, `<d>` (5) with
    superclasses `<p>`, `<a>`. -/
def clashW : World :=
  Class.run Class.objectWorld [.make ⟨[0], false, 0⟩, .make ⟨[0], false, 0⟩, .make ⟨[2, 1], false, 0⟩, .make ⟨[0], true, 0⟩, .make ⟨[4, 1], false, 0⟩]

theorem clash_reachable : Reachable clashW := ⟨_, rfl⟩

def noRep : Nat → List SlotDef
  | 1 => [⟨10, .inst⟩, ⟨9, .virt⟩]
  | 2 => [⟨11, .inst⟩, ⟨9, .virt⟩]
  | _ => []

set_option maxRecDepth 100000 in
example : (layoutAll (ofWorld clashW (fun _ => false) noRep) 6).isOk = true ∧
    NoRepeated (ofWorld clashW (fun _ => false) noRep) 3 ∧ ¬ DistinctGetters (ofWorld clashW (fun _ => false) noRep) 3 := by
  refine ⟨by decide +kernel, ?_, by decide +kernel⟩
  rintro a d g ⟨-, hd⟩ e
  simp only [ofWorld] at hd
  rcases a with _ | _ | _ | a <;> simp [noRep] at hd <;> rcases hd with rfl | rfl <;> simp at e

/-- A getter that two unrelated superclasses share. -/
def sharedInst : Nat → List SlotDef
  | 1 => [⟨10, .inst⟩]
  | 2 => [⟨10, .inst⟩]
  | _ => []

set_option maxRecDepth 100000 in
/-- C45, disagreement: two superclasses with instance slots of the same getter are not reported as a
    slot conflict; the internal error "Bug - ran out of space" is signalled. -/
theorem shared_getter_report_violated : ∃ w sl, Reachable w ∧
    layoutAll (ofWorld w (fun _ => false) sl) w.length = .error .bug :=
  ⟨clashW, sharedInst, clash_reachable, by decide +kernel⟩

/-- An instance slot of a primary class and a virtual slot of a mixin with the same getter. -/
def sharedVirt : Nat → List SlotDef
  | 1 => [⟨10, .virt⟩]
  | 4 => [⟨10, .inst⟩]
  | _ => []

set_option maxRecDepth 100000 in
/-- C45, disagreement: a primary class with an instance slot and a mixin with a virtual slot of the
    same getter make the layout write outside a vector. -/
theorem layout_bounds_violated : ∃ w sl, Reachable w ∧
    layoutAll (ofWorld w (fun _ => false) sl) w.length = .error .ub :=
  ⟨clashW, sharedVirt, clash_reachable, by decide +kernel⟩

/-- A repeated slot and an instance slot with the same getter. -/
def sharedRep : Nat → List SlotDef
  | 1 => [⟨10, .inst⟩]
  | 2 => [⟨10, .repeated 11⟩]
  | 3 => [⟨12, .inst⟩]
  | _ => []

set_option maxRecDepth 100000 in
/-- C45, disagreement: a repeated slot whose getter another superclass uses is dropped without an
    error: the class has no repeated slot and no word for its size. -/
theorem layout_sound_violated : ∃ w sl ls l c s, Reachable w ∧
    layoutAll (ofWorld w (fun _ => false) sl) w.length = .ok ls ∧ ls[c]? = some l ∧
    Stored (ofWorld w (fun _ => false) sl) c s ∧ some s ∉ l.ivec ∧ l.repeater = none := by
  refine ⟨clashW, sharedRep, _, _, 3, .size 2 11, clash_reachable, rfl, rfl, ?_, ?_, ?_⟩
  · exact ⟨2, ⟨10, .repeated 11⟩, ⟨by decide +kernel, by simp [ofWorld, sharedRep]⟩, Or.inr ⟨11, rfl, rfl⟩⟩
  · decide +kernel
  · decide +kernel

/-- A slot with the getter of the size of an inherited repeated slot. -/
def sharedSize : Nat → List SlotDef
  | 1 => [⟨10, .repeated 11⟩]
  | 3 => [⟨11, .inst⟩]
  | _ => []

set_option maxRecDepth 100000 in
/-- C45, disagreement: a slot may have the getter of the size of an inherited repeated slot, and then
    two words of an instance have one offset. -/
theorem offset_sound_violated : ∃ w sl ls l c s s', Reachable w ∧
    layoutAll (ofWorld w (fun _ => false) sl) w.length = .ok ls ∧ ls[c]? = some l ∧
    Stored (ofWorld w (fun _ => false) sl) c s ∧ Stored (ofWorld w (fun _ => false) sl) c s' ∧ s ≠ s' ∧
    slotOffset s l = slotOffset s' l := by
  refine ⟨clashW, sharedSize, _, _, 3, .size 1 11, .slot 3 ⟨11, .inst⟩, clash_reachable, rfl, rfl, ?_, ?_, by decide, ?_⟩
  · exact ⟨1, ⟨10, .repeated 11⟩, ⟨by decide +kernel, by simp [ofWorld, sharedSize]⟩, Or.inr ⟨11, rfl, rfl⟩⟩
  · exact ⟨3, ⟨11, .inst⟩, ⟨by decide +kernel, by simp [ofWorld, sharedSize]⟩, Or.inl ⟨rfl, rfl⟩⟩
  · decide +kernel

/-! ### C46: fixed offsets -/

/-- C46: if the compiler decides that a slot has a fixed offset in a class, that is the offset at
    which the search finds the slot in every concrete subclass, those in other libraries included. -/
theorem fixed_offset_sound_partial (w : World) (h : Reachable w) (ab : Nat → Bool)
    (sl : Nat → List SlotDef) (ls : List Layout) (he : layoutAll (ofWorld w ab sl) w.length = .ok ls)
    (ht : ∀ c < w.length, Tame (ofWorld w ab sl) c)
    (hz : ∀ c < w.length, SizeGettersFresh (ofWorld w ab sl) c)
    (S : Subs) (hS : SubsTrue w S) (sd : Sd) (hsd : Stored (ofWorld w ab sl) sd.owner sd)
    (c off : Nat) (hc : c < w.length) (hco : Class.Superclass w c sd.owner)
    (hf : fixedOffsetIn (ofWorld w ab sl) S ls sd c = some off)
    (k : Nat) (hk : k < w.length) (hkc : Class.Superclass w k c) (hab : ab k = false) :
    ∃ l, ls[k]? = some l ∧ slotOffset sd l = .ok (some off) := by
  have hw := Class.reachable_inv h
  have mem : ∀ {x y}, x < w.length → Class.Superclass w x y → y ∈ (ofWorld w ab sl).cpl x := by
    intro x y hx hs
    have hr : w[x]? = some w[x] := List.getElem?_eq_getElem hx
    rw [ofWorld_cpl hw hr]; exact (hw.mem_cpl x _ hr y).mpr hs
  exact fixedOffsetIn_ok (ofWorld_hier hw ab sl) (known_of hw hS ab sl) he ht hz hc hsd (mem hc hco) hf hk
    (mem hk hkc) hab

/-- C46: the same for an object known to be an instance of one of several classes. -/
theorem fixed_offset_union_partial (w : World) (h : Reachable w) (ab : Nat → Bool)
    (sl : Nat → List SlotDef) (ls : List Layout) (he : layoutAll (ofWorld w ab sl) w.length = .ok ls)
    (ht : ∀ c < w.length, Tame (ofWorld w ab sl) c)
    (hz : ∀ c < w.length, SizeGettersFresh (ofWorld w ab sl) c)
    (S : Subs) (hS : SubsTrue w S) (sd : Sd) (hsd : Stored (ofWorld w ab sl) sd.owner sd)
    (cs : List Nat) (off : Nat) (hcs : ∀ c ∈ cs, c < w.length ∧ Class.Superclass w c sd.owner)
    (hf : fixedOffsetUnion (ofWorld w ab sl) S ls sd none cs = some off)
    (k : Nat) (hk : k < w.length) (hkc : ∃ c ∈ cs, Class.Superclass w k c) (hab : ab k = false) :
    ∃ l, ls[k]? = some l ∧ slotOffset sd l = .ok (some off) := by
  have key : ∀ (cs : List Nat) (o : Option Nat), fixedOffsetUnion (ofWorld w ab sl) S ls sd o cs = some off →
      (∀ x, o = some x → x = off) ∧ ∀ c ∈ cs, fixedOffsetIn (ofWorld w ab sl) S ls sd c = some off := by
    intro cs
    induction cs with
    | nil => intro o ho; exact ⟨by intro x hx; rw [fixedOffsetUnion, hx] at ho; exact Option.some.inj ho, by simp⟩
    | cons c cs ih =>
      intro o ho
      simp only [fixedOffsetUnion] at ho
      cases h1 : fixedOffsetIn (ofWorld w ab sl) S ls sd c with
      | none => rw [h1] at ho; cases ho
      | some x =>
        rw [h1] at ho
        cases o with
        | none =>
          simp only at ho
          obtain ⟨i1, i2⟩ := ih _ ho
          obtain rfl := i1 x rfl
          refine ⟨by simp, ?_⟩
          intro c' hc'
          rcases List.mem_cons.mp hc' with rfl | hc'
          · exact h1
          · exact i2 c' hc'
        | some y =>
          simp only at ho
          split at ho
          · rename_i hxy
            subst hxy
            obtain ⟨i1, i2⟩ := ih _ ho
            obtain rfl := i1 y rfl
            refine ⟨by simp, ?_⟩
            intro c' hc'
            rcases List.mem_cons.mp hc' with rfl | hc'
            · exact h1
            · exact i2 c' hc'
          · cases ho
  obtain ⟨c, hc, hs⟩ := hkc
  exact fixed_offset_sound_partial w h ab sl ls he ht hz S hS sd hsd c off (hcs c hc).1 (hcs c hc).2
    ((key cs none hf).2 c hc) k hk hs hab

/-- Everything below `<m>` is known. -/
def demoSubs : Subs := ⟨fun c => decide (c = 2 ∨ c = 4), fun c => if c = 2 then [4] else []⟩

set_option maxRecDepth 100000 in
/-- The slots of `<p>` have fixed offsets as `<p>` is primary; those of the sealed class `<m>` have
    none, as `<c>` has them elsewhere, unless `<m>` is abstract. -/
example : fixedOffsetIn demoG demoSubs demoLs (.slot 1 ⟨11, .inst⟩) 1 = some 1 ∧
    fixedOffsetIn demoG demoSubs demoLs (.size 3 31) 4 = some 2 ∧
    fixedOffsetIn demoG demoSubs demoLs (.slot 2 ⟨20, .inst⟩) 2 = none ∧
    fixedOffsetIn (ofWorld demoW (fun c => decide (c = 2)) demoSlots) demoSubs demoLs (.slot 2 ⟨20, .inst⟩) 2 = some 3 := by
  decide +kernel

set_option maxRecDepth 100000 in
theorem demo_direct : ∀ c < 5, ∀ k < 5, (c ∈ ((demoW[k]?).elim [] (fun r => r.fx.supers))) →
    ((demoSubs.known c = true → k ∈ demoSubs.direct c)) := by decide +kernel

set_option maxRecDepth 100000 in
example : SubsTrue demoW demoSubs := by
  refine ⟨?_, ?_⟩
  · intro c k hk
    simp only [demoSubs] at hk
    split at hk
    · rename_i hc
      subst hc
      simp only [List.mem_singleton] at hk
      subst hk
      exact ⟨demoW[4]'(by rw [demo_length]; decide), by simp [demo_length], by decide +kernel⟩
    · cases hk
  · rintro c k hkn ⟨r, hr, hs⟩
    have hk : k < 5 := by rw [← demo_length]; exact (List.getElem?_eq_some_iff.mp hr).1
    have hc : c < 5 := by
      simp only [demoSubs, decide_eq_true_eq] at hkn
      omega
    exact demo_direct c hc k hk (by rw [hr]; exact hs) hkn

/-- The class of a repeated slot, primary, and a subclass with an instance slot. -/
def repSlots : Nat → List SlotDef
  | 1 => [⟨10, .repeated 11⟩]
  | 3 => [⟨12, .inst⟩]
  | _ => []

set_option maxRecDepth 100000 in
/-- C46, disagreement: the offset of the elements of a repeated slot is the number of words before
    them, which grows in a subclass with more instance slots; the compiler takes the offset for
    fixed if the class is primary. -/
theorem fixed_offset_repeated_violated : ∃ w sl ls S sd l, Reachable w ∧
    layoutAll (ofWorld w (fun _ => false) sl) w.length = .ok ls ∧ SubsTrue w S ∧
    fixedOffsetIn (ofWorld w (fun _ => false) sl) S ls sd 1 = some 1 ∧ Class.Superclass w 3 1 ∧
    ls[3]? = some l ∧ slotOffset sd l = .ok (some 2) := by
  refine ⟨demoW, repSlots, _, ⟨fun _ => false, fun _ => []⟩, .slot 1 ⟨10, .repeated 11⟩, _, demo_reachable, rfl,
    ⟨(fun c k hk => by cases hk), (fun c k hk => by cases hk)⟩, by decide +kernel,
    Relation.ReflTransGen.single ⟨demoW[3]'(by rw [demo_length]; decide), by simp [demo_length], by decide +kernel⟩, rfl, by decide +kernel⟩

/-! ### C47: access -/

/-- C47: after any assignments to slots of a new object, each slot has the last value assigned to
    it, and a slot never assigned is unbound. -/
theorem slot_access_partial (w : World) (h : Reachable w) (ab : Nat → Bool)
    (sl : Nat → List SlotDef) (ls : List Layout) (he : layoutAll (ofWorld w ab sl) w.length = .ok ls)
    (c : Nat) (hc : c < w.length) (ht : Tame (ofWorld w ab sl) c)
    (hz : SizeGettersFresh (ofWorld w ab sl) c) :
    ∃ l, ls[c]? = some l ∧ ∀ ps : List (Sd × Nat), (∀ p ∈ ps, Stored (ofWorld w ab sl) c p.1) →
      ∃ o, setAll ls (newObj c l) ps = .ok o ∧
        ∀ s, Stored (ofWorld w ab sl) c s → slotValue ls o s = .ok (assigned (fun _ => none) ps s) := by
  have hier := ofWorld_hier (Class.reachable_inv h) ab sl
  obtain ⟨l, st, X, Y, hl, hok⟩ := layout_ok hier he c hc ht
  have hsz : l.size = X.length := by
    rw [hok.eq, hok.xperm.length_eq]
    exact (collect_ok _ hok.coll).1.icount
  have hoff : ∀ s, Stored (ofWorld w ab sl) c s → ∃ j, X[j]? = some s ∧ slotOffset s l = .ok (some j) := by
    intro s hs
    obtain ⟨j, hj⟩ := List.getElem?_of_mem ((hok.xstored s).mpr hs)
    exact ⟨j, hj, hok.offset hz hj⟩
  have read : ∀ (o : Obj) (t : Sd → Option Nat), o.cls = c → o.vals = X.map t →
      ∀ s, Stored (ofWorld w ab sl) c s → slotValue ls o s = .ok (t s) := by
    intro o t h1 h2 s hs
    obtain ⟨j, hj, e⟩ := hoff s hs
    simp [slotValue, h1, hl, e, h2, hj]
  have go : ∀ (ps : List (Sd × Nat)) (o : Obj) (t : Sd → Option Nat), o.cls = c → o.vals = X.map t →
      (∀ p ∈ ps, Stored (ofWorld w ab sl) c p.1) →
      ∃ o', setAll ls o ps = .ok o' ∧ o'.cls = c ∧ o'.vals = X.map (assigned t ps) := by
    intro ps
    induction ps with
    | nil => intro o t h1 h2 _; exact ⟨o, rfl, h1, h2⟩
    | cons p ps ih =>
      intro o t h1 h2 hp
      obtain ⟨j, hj, e⟩ := hoff p.1 (hp p (by simp))
      have hjl := (List.getElem?_eq_some_iff.mp hj).1
      have hset : slotValueSetter ls p.2 o p.1 = .ok { o with vals := o.vals.set j (some p.2) } := by
        simp [slotValueSetter, h1, hl, e, h2, hjl]
      have hvals : o.vals.set j (some p.2) = X.map (fun s => if s = p.1 then some p.2 else t s) := by
        rw [h2]
        apply List.ext_getElem?
        intro i
        by_cases hij : i = j
        · subst hij
          rw [List.getElem?_set_self (by simpa using hjl), List.getElem?_map, hj]; simp
        · rw [List.getElem?_set_ne (Ne.symm hij)]
          simp only [List.getElem?_map]
          cases hi : X[i]? with
          | none => rfl
          | some x =>
            have : x ≠ p.1 := by
              rintro rfl
              exact hij ((List.getElem?_inj (List.getElem?_eq_some_iff.mp hi).1 hok.xnodup).mp (hi.trans hj.symm))
            simp [this]
      obtain ⟨o', f1, f2, f3⟩ := ih { o with vals := o.vals.set j (some p.2) } _ h1 hvals
        (fun q hq => hp q (List.mem_cons_of_mem _ hq))
      exact ⟨o', by simp only [setAll, hset, f1], f2, f3⟩
  refine ⟨l, hl, fun ps hps => ?_⟩
  obtain ⟨o, f1, f2, f3⟩ := go ps (newObj c l) (fun _ => none) rfl
    (by simp [newObj, hsz]) hps
  exact ⟨o, f1, read o _ f2 f3⟩

set_option maxRecDepth 100000 in
example : Stored demoG 4 (.slot 1 ⟨11, .inst⟩) ∧ Stored demoG 4 (.slot 4 ⟨40, .inst⟩) :=
  ⟨⟨1, ⟨11, .inst⟩, ⟨by decide +kernel, by simp [demoG, ofWorld, demoSlots]⟩, Or.inl ⟨rfl, rfl⟩⟩,
   ⟨4, ⟨40, .inst⟩, ⟨by decide +kernel, by simp [demoG, ofWorld, demoSlots]⟩, Or.inl ⟨rfl, rfl⟩⟩⟩

/-- C47: compiled access at a fixed offset gives what the slot's getter gives, for every instance. -/
theorem compiled_access_partial (w : World) (h : Reachable w) (ab : Nat → Bool)
    (sl : Nat → List SlotDef) (ls : List Layout) (he : layoutAll (ofWorld w ab sl) w.length = .ok ls)
    (ht : ∀ c < w.length, Tame (ofWorld w ab sl) c)
    (hz : ∀ c < w.length, SizeGettersFresh (ofWorld w ab sl) c)
    (S : Subs) (hS : SubsTrue w S) (sd : Sd) (hsd : Stored (ofWorld w ab sl) sd.owner sd)
    (c off : Nat) (hc : c < w.length) (hco : Class.Superclass w c sd.owner)
    (hf : fixedOffsetIn (ofWorld w ab sl) S ls sd c = some off)
    (o : Obj) (ho : o.cls < w.length) (hoc : Class.Superclass w o.cls c) (hab : ab o.cls = false) :
    compiledValue off o = slotValue ls o sd := by
  obtain ⟨l, hl, e⟩ := fixed_offset_sound_partial w h ab sl ls he ht hz S hS sd hsd c off hc hco hf o.cls ho hoc hab
  simp only [compiledValue, slotValue, hl, e]

set_option maxRecDepth 100000 in
example : compiledValue 1 ⟨4, [some 7, some 8, some 0, none, some 9]⟩ = .ok (some 8) ∧
    slotValue demoLs ⟨4, [some 7, some 8, some 0, none, some 9]⟩ (.slot 1 ⟨11, .inst⟩) = .ok (some 8) := by
  decide +kernel

/-- The operation concerns a class slot of the class. -/
def COp.Ok (G : Graph) (n : Nat) : COp → Prop
  | .get k sd => k < n ∧ ClassSlot G k sd
  | .set k sd _ => k < n ∧ ClassSlot G k sd
  | .new k => k < n

/-- C47: for every history of reads and writes of class slots and of making instances, a read gives
    the last value written with the same home (the owner of the slot for allocation `class`, the
    class of the object for `each-subclass`), or else the initial value. -/
theorem class_slots_partial (w : World) (h : Reachable w) (ab : Nat → Bool)
    (sl : Nat → List SlotDef) (ls : List Layout) (he : layoutAll (ofWorld w ab sl) w.length = .ok ls)
    (ht : ∀ c < w.length, Tame (ofWorld w ab sl) c) (init : Sd → Nat → Option Nat) (ops : List COp)
    (hops : ∀ op ∈ ops, op.Ok (ofWorld w ab sl) w.length) :
    ∃ s, crun ls init Store.empty ops = .ok (ideal init ops, s) := by
  have hier := ofWorld_hier (Class.reachable_inv h) ab sl
  refine crun_ideal (layout_cok hier he ht) ops Store.empty init (empty_inv ls init) ?_
  intro op hop
  have := hops op hop
  cases op with
  | get k sd => exact (layout_at hier he ht this.1).mp this.2
  | set k sd v => exact (layout_at hier he ht this.1).mp this.2
  | new k =>
    obtain ⟨l, -, -, -, hl, -⟩ := layout_ok hier he k this (ht k this)
    exact ⟨l, hl⟩

/-- A class slot is shared through all classes, an each-subclass slot is not. -/
def demoCOps : List COp :=
  [.set 4 (.slot 1 ⟨12, .cls⟩) 5, .get 3 (.slot 1 ⟨12, .cls⟩), .new 2, .set 4 (.slot 2 ⟨21, .eachSubclass⟩) 6,
   .get 2 (.slot 2 ⟨21, .eachSubclass⟩), .get 4 (.slot 2 ⟨21, .eachSubclass⟩)]

set_option maxRecDepth 100000 in
example : (crun demoLs (fun _ k => some k) Store.empty demoCOps).map Prod.fst = .ok [some 5, some 2, some 6] ∧
    ideal (fun _ k => some k) demoCOps = [some 5, some 2, some 6] := by decide +kernel

end Verif.Slots
