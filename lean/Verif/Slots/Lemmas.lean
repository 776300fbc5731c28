/-
Lemmas about the computation of layouts: collection of slots, and the shape of the vectors.
-/
import Verif.Slots.Spec
import Verif.Class.Final
import Mathlib.Data.List.Perm.Subperm
import Mathlib.Data.List.Nodup

namespace Verif.Slots

/-! ### Graphs of classes -/

/-- What the layout needs of precedence lists. -/
structure Hier (G : Graph) (n : Nat) : Prop where
  head : ∀ c < n, ∃ t, G.cpl c = c :: t
  nodup : ∀ c < n, (G.cpl c).Nodup
  lt : ∀ c < n, ∀ x ∈ (G.cpl c).tail, x < c
  mono : ∀ c < n, ∀ x ∈ G.cpl c, (G.cpl x).Sublist (G.cpl c)
  related : ∀ c < n, ∀ p ∈ G.cpl c, ∀ q ∈ G.cpl c, G.primary p = true → G.primary q = true →
    p ∈ G.cpl q ∨ q ∈ G.cpl p

theorem ofWorld_cpl {w : Class.World} (h : Class.WInv w) {ab : Nat → Bool} {sl : Nat → List SlotDef}
    {c : Nat} {r : Class.Cls} (hr : w[c]? = some r) : (ofWorld w ab sl).cpl c = r.fx.cpl := by
  simp only [ofWorld, h.all hr]

theorem ofWorld_hier {w : Class.World} (h : Class.WInv w) (ab : Nat → Bool)
    (sl : Nat → List SlotDef) : Hier (ofWorld w ab sl) w.length := by
  have hget : ∀ c < w.length, ∃ r, w[c]? = some r := fun c hc => ⟨_, List.getElem?_eq_getElem hc⟩
  have hmem : ∀ c < w.length, ∀ x ∈ (ofWorld w ab sl).cpl c, x < w.length := by
    intro c hc x hx
    obtain ⟨r, hr⟩ := hget c hc
    rw [ofWorld_cpl h hr] at hx
    obtain ⟨g, hg, -⟩ := h.fixed.trans c _ (Class.get_fixeds hr) x hx
    have := Class.lt_of_get hg
    rwa [Class.length_fixeds] at this
  refine ⟨?_, ?_, ?_, ?_, ?_⟩
  · intro c hc
    obtain ⟨r, hr⟩ := hget c hc
    rw [ofWorld_cpl h hr]
    obtain ⟨M, hM, -⟩ := (h.fixed c _ (Class.get_fixeds hr)).head
    exact ⟨M, hM⟩
  · intro c hc
    obtain ⟨r, hr⟩ := hget c hc
    rw [ofWorld_cpl h hr]
    exact (h.fixed c _ (Class.get_fixeds hr)).nodup
  · intro c hc x hx
    obtain ⟨r, hr⟩ := hget c hc
    rw [ofWorld_cpl h hr] at hx
    obtain ⟨M, hM, hl⟩ := (h.fixed c _ (Class.get_fixeds hr)).head
    rw [hM] at hx
    exact hl x hx
  · intro c hc x hx
    have hxl := hmem c hc x hx
    obtain ⟨r, hr⟩ := hget c hc
    obtain ⟨rx, hrx⟩ := hget x hxl
    rw [ofWorld_cpl h hr] at hx ⊢
    rw [ofWorld_cpl h hrx]
    obtain ⟨g, hg, hs⟩ := h.fixed.trans c _ (Class.get_fixeds hr) x hx
    rw [Class.get_fixeds hrx] at hg
    cases hg
    exact hs
  · intro c hc p hp q hq pp pq
    obtain ⟨r, hr⟩ := hget c hc
    obtain ⟨rp, hrp⟩ := hget p (hmem c hc p hp)
    obtain ⟨rq, hrq⟩ := hget q (hmem c hc q hq)
    rw [ofWorld_cpl h hr] at hp hq
    rw [ofWorld_cpl h hrp, ofWorld_cpl h hrq]
    simp only [ofWorld, hrp, hrq, Option.elim] at pp pq
    rcases (h.fixed c _ (Class.get_fixeds hr)).prim p hp q hq _ _ (Class.get_fixeds hrp)
      (Class.get_fixeds hrq) pp pq with h1 | h1
    · exact Or.inr h1
    · exact Or.inl h1

theorem Hier.self_mem {G : Graph} {n : Nat} (h : Hier G n) {c : Nat} (hc : c < n) : c ∈ G.cpl c := by
  obtain ⟨t, ht⟩ := h.head c hc
  rw [ht]; exact List.mem_cons_self

theorem Hier.mem_lt {G : Graph} {n : Nat} (h : Hier G n) {c : Nat} (hc : c < n) {x : Nat}
    (hx : x ∈ G.cpl c) : x ≤ c := by
  obtain ⟨t, ht⟩ := h.head c hc
  rw [ht] at hx
  rcases List.mem_cons.mp hx with rfl | hx
  · exact Nat.le_refl _
  · exact Nat.le_of_lt (h.lt c hc x (by rw [ht]; exact hx))

/-! ### Parts -/

/-- The word a slot needs in an instance. -/
def ipart : Sd → Option Sd
  | .slot o d => match d.alloc with
    | .inst => some (.slot o d)
    | .repeated g => some (.size o g)
    | _ => none
  | .size _ _ => none

/-- The cell a slot needs in a class. -/
def cpart : Sd → Option Sd
  | .slot o d => match d.alloc with
    | .cls => some (.slot o d)
    | .eachSubclass => some (.slot o d)
    | _ => none
  | .size _ _ => none

/-- The repeated slots. -/
def isRep : Sd → Bool
  | .slot _ d => match d.alloc with
    | .repeated _ => true
    | _ => false
  | .size _ _ => false

/-- The instance slots proper. -/
def isInst : Sd → Bool
  | .slot _ d => decide (d.alloc = .inst)
  | .size _ _ => false

theorem mem_direct {G : Graph} {c : Nat} {s : Sd} : s ∈ G.direct c ↔ ∃ d ∈ G.slots c, s = .slot c d := by
  simp only [Graph.direct, List.mem_map]
  constructor
  · rintro ⟨d, hd, rfl⟩; exact ⟨d, hd, rfl⟩
  · rintro ⟨d, hd, rfl⟩; exact ⟨d, hd, rfl⟩

/-- Descriptors that come from definitions. -/
def IsSlot (s : Sd) : Prop := ∃ o d, s = .slot o d

/-! ### Collection -/

structure CollInv (st : Coll) : Prop where
  slots : ∀ s ∈ st.all, IsSlot s
  getters : (st.all.map Sd.getter).Nodup
  icount : st.icount = (st.all.filterMap ipart).length
  ccount : st.ccount = (st.all.filterMap cpart).length
  rep : st.all.filter isRep = st.repeater.toList

theorem addSlot_ok {st st' : Coll} {o : Nat} {d : SlotDef} (h : CollInv st)
    (he : addSlot st (.slot o d) = .ok st') : CollInv st' ∧
      ((st' = st ∧ ∃ s ∈ st.all, s.getter = d.getter) ∨
       (st'.all = st.all ++ [.slot o d] ∧ ∀ s ∈ st.all, s.getter ≠ d.getter)) := by
  simp only [addSlot] at he
  by_cases hg : (st.all.any (fun o => decide (d.getter = o.getter))) = true
  · have : (st.all.any (fun o_1 => decide ((Sd.slot o d).getter = o_1.getter))) = true := hg
    rw [if_pos this] at he
    obtain rfl := Except.ok.inj he
    obtain ⟨s, hs, e⟩ := List.any_eq_true.mp hg
    exact ⟨h, Or.inl ⟨rfl, s, hs, (of_decide_eq_true e).symm⟩⟩
  · have : ¬ (st.all.any (fun o_1 => decide ((Sd.slot o d).getter = o_1.getter))) = true := hg
    rw [if_neg this] at he
    have hne : ∀ s ∈ st.all, s.getter ≠ d.getter := by
      intro s hs e
      exact hg (List.any_eq_true.mpr ⟨s, hs, decide_eq_true e.symm⟩)
    have hnd : ((st.all ++ [Sd.slot o d]).map Sd.getter).Nodup := by
      rw [List.map_append, List.nodup_append]
      refine ⟨h.getters, by simp, ?_⟩
      intro a ha b hb e
      obtain ⟨s, hs, rfl⟩ := List.mem_map.mp ha
      simp only [List.map_cons, List.map_nil, List.mem_singleton] at hb
      exact hne s hs (e.trans hb)
    have hsl : ∀ s ∈ st.all ++ [Sd.slot o d], IsSlot s := by
      intro s hs
      rcases List.mem_append.mp hs with hs | hs
      · exact h.slots s hs
      · exact ⟨o, d, by simpa using hs⟩
    have hi := h.icount
    have hc := h.ccount
    have hr := h.rep
    cases ha : d.alloc with
    | inst =>
      simp only [Sd.alloc, ha, Except.ok.injEq] at he
      subst he
      refine ⟨⟨hsl, hnd, ?_, ?_, ?_⟩, Or.inr ⟨rfl, hne⟩⟩
      · simp [List.filterMap_append, ipart, ha, hi]
      · simp [List.filterMap_append, cpart, ha, hc]
      · simp [List.filter_append, isRep, ha, hr]
    | eachSubclass =>
      simp only [Sd.alloc, ha, Except.ok.injEq] at he
      subst he
      refine ⟨⟨hsl, hnd, ?_, ?_, ?_⟩, Or.inr ⟨rfl, hne⟩⟩
      · simp [List.filterMap_append, ipart, ha, hi]
      · simp [List.filterMap_append, cpart, ha, hc]
      · simp [List.filter_append, isRep, ha, hr]
    | cls =>
      simp only [Sd.alloc, ha, Except.ok.injEq] at he
      subst he
      refine ⟨⟨hsl, hnd, ?_, ?_, ?_⟩, Or.inr ⟨rfl, hne⟩⟩
      · simp [List.filterMap_append, ipart, ha, hi]
      · simp [List.filterMap_append, cpart, ha, hc]
      · simp [List.filter_append, isRep, ha, hr]
    | virt =>
      simp only [Sd.alloc, ha, Except.ok.injEq] at he
      subst he
      refine ⟨⟨hsl, hnd, ?_, ?_, ?_⟩, Or.inr ⟨rfl, hne⟩⟩
      · simp [List.filterMap_append, ipart, ha, hi]
      · simp [List.filterMap_append, cpart, ha, hc]
      · simp [List.filter_append, isRep, ha, hr]
    | repeated g =>
      simp only [Sd.alloc, ha] at he
      split at he
      · cases he
      · rename_i hn
        have hn : st.repeater = none := by
          cases hq : st.repeater with
          | none => rfl
          | some x => rw [hq] at hn; simp at hn
        obtain rfl := Except.ok.inj he
        refine ⟨⟨hsl, hnd, ?_, ?_, ?_⟩, Or.inr ⟨rfl, hne⟩⟩
        · simp [List.filterMap_append, ipart, ha, hi]
        · simp [List.filterMap_append, cpart, ha, hc]
        · rw [hn] at hr
          simp [List.filter_append, isRep, ha, hr]

theorem addSlots_ok {o : Nat} : ∀ (ds : List SlotDef) {st st' : Coll}, CollInv st →
    addSlots st (ds.map (Sd.slot o)) = .ok st' → CollInv st' ∧ st.all.Sublist st'.all ∧
      (∀ s ∈ st'.all, s ∈ st.all ∨ s ∈ ds.map (Sd.slot o)) ∧
      (∀ d ∈ ds, ∃ s ∈ st'.all, s.getter = d.getter) ∧
      ((st.all.map Sd.getter ++ ds.map SlotDef.getter).Nodup → st'.all = st.all ++ ds.map (Sd.slot o)) := by
  intro ds
  induction ds with
  | nil =>
    intro st st' h he
    obtain rfl := Except.ok.inj he
    exact ⟨h, List.Sublist.refl _, fun s hs => Or.inl hs, by simp, by simp⟩
  | cons d ds ih =>
    intro st st' h he
    simp only [List.map_cons, addSlots] at he
    cases hs : addSlot st (.slot o d) with
    | error e => rw [hs] at he; cases he
    | ok st1 =>
      rw [hs] at he
      obtain ⟨h1, h2⟩ := addSlot_ok h hs
      obtain ⟨i1, i2, i3, i4, i5⟩ := ih h1 he
      have hsub1 : st.all.Sublist st1.all := by
        rcases h2 with ⟨rfl, -⟩ | ⟨e, -⟩
        · exact List.Sublist.refl _
        · rw [e]; exact List.sublist_append_left _ _
      refine ⟨i1, hsub1.trans i2, ?_, ?_, ?_⟩
      · intro s hs'
        rcases i3 s hs' with h3 | h3
        · rcases h2 with ⟨rfl, -⟩ | ⟨e, -⟩
          · exact Or.inl h3
          · rw [e] at h3
            rcases List.mem_append.mp h3 with h3 | h3
            · exact Or.inl h3
            · right; simp only [List.mem_singleton] at h3; simp [h3]
        · right; simp only [List.map_cons, List.mem_cons]; exact Or.inr h3
      · intro d' hd'
        rcases List.mem_cons.mp hd' with rfl | hd'
        · rcases h2 with ⟨rfl, s, hs1, hs2⟩ | ⟨e, -⟩
          · exact ⟨s, i2.subset hs1, hs2⟩
          · exact ⟨.slot o d', i2.subset (by rw [e]; simp), rfl⟩
        · exact i4 d' hd'
      · intro hn
        rcases h2 with ⟨rfl, s, hs1, hs2⟩ | ⟨e, -⟩
        · exfalso
          rw [List.nodup_append] at hn
          exact hn.2.2 s.getter (List.mem_map_of_mem hs1) d.getter (by simp) hs2
        · rw [i5 (by rw [e]; simpa [Sd.getter] using hn), e]
          simp

theorem collect_ok {G : Graph} : ∀ (cs : List Nat) {st : Coll}, collect G cs = .ok st →
    CollInv st ∧ (∀ s ∈ st.all, ∃ a ∈ cs, s ∈ G.direct a) ∧
      (∀ a ∈ cs, ∀ d ∈ G.slots a, ∃ s ∈ st.all, s.getter = d.getter) ∧
      (((cs.reverse.flatMap G.direct).map Sd.getter).Nodup → st.all = cs.reverse.flatMap G.direct) := by
  intro cs
  induction cs with
  | nil =>
    intro st he
    obtain rfl := Except.ok.inj he
    refine ⟨⟨by simp, by simp, rfl, rfl, rfl⟩, by simp, by simp, by simp⟩
  | cons c cs ih =>
    intro st he
    simp only [collect] at he
    cases hc : collect G cs with
    | error e => rw [hc] at he; cases he
    | ok st1 =>
      rw [hc] at he
      obtain ⟨h1, h2, h3, h4⟩ := ih hc
      obtain ⟨i1, i2, i3, i4, i5⟩ := addSlots_ok (o := c) (G.slots c) h1 he
      refine ⟨i1, ?_, ?_, ?_⟩
      · intro s hs
        rcases i3 s hs with hs | hs
        · obtain ⟨a, ha, hs⟩ := h2 s hs
          exact ⟨a, List.mem_cons_of_mem _ ha, hs⟩
        · exact ⟨c, List.mem_cons_self, hs⟩
      · intro a ha d hd
        rcases List.mem_cons.mp ha with rfl | ha
        · exact i4 d hd
        · obtain ⟨s, hs, e⟩ := h3 a ha d hd
          exact ⟨s, i2.subset hs, e⟩
      · intro hn
        have e : (c :: cs).reverse.flatMap G.direct = cs.reverse.flatMap G.direct ++ G.direct c := by
          simp [List.flatMap_append]
        rw [e] at hn ⊢
        have hn1 := hn
        rw [List.map_append] at hn1
        have h5 := h4 (List.nodup_append.mp hn1).1
        rw [i5 ?_, h5]
        · rfl
        · rw [h5]
          have : (G.direct c).map Sd.getter = (G.slots c).map SlotDef.getter := by
            simp [Graph.direct, Sd.getter, Function.comp_def]
          rw [← this]
          exact hn1

theorem isRep_unique {st : Coll} (h : CollInv st) {a b : Sd} (ha : a ∈ st.all) (hb : b ∈ st.all)
    (ra : isRep a = true) (rb : isRep b = true) : a = b := by
  have h1 : a ∈ st.all.filter isRep := List.mem_filter.mpr ⟨ha, ra⟩
  have h2 : b ∈ st.all.filter isRep := List.mem_filter.mpr ⟨hb, rb⟩
  rw [h.rep, Option.mem_toList] at h1 h2
  rw [h1] at h2
  exact Option.some.inj h2

theorem ipart_inj {st : Coll} (h : CollInv st) {a b s : Sd} (ha : a ∈ st.all) (hb : b ∈ st.all)
    (ia : ipart a = some s) (ib : ipart b = some s) : a = b := by
  cases a with
  | size o g => simp [ipart] at ia
  | slot o d =>
    cases b with
    | size o g => simp [ipart] at ib
    | slot o' d' =>
      cases hd : d.alloc with
      | inst =>
        simp only [ipart, hd, Option.some.injEq] at ia
        subst ia
        cases hd' : d'.alloc <;> simp [ipart, hd'] at ib
        rw [ib.1, ib.2]
      | repeated g =>
        simp only [ipart, hd, Option.some.injEq] at ia
        subst ia
        cases hd' : d'.alloc <;> simp [ipart, hd'] at ib
        exact isRep_unique h ha hb (by simp [isRep, hd]) (by simp [isRep, hd'])
      | eachSubclass => simp [ipart, hd] at ia
      | cls => simp [ipart, hd] at ia
      | virt => simp [ipart, hd] at ia

theorem cpart_eq {a s : Sd} (h : cpart a = some s) : s = a := by
  cases a with
  | size o g => simp [cpart] at h
  | slot o d => cases hd : d.alloc <;> simp [cpart, hd] at h <;> exact h.symm

theorem nodup_filterMap {f : Sd → Option Sd} {l : List Sd} (hl : l.Nodup)
    (h : ∀ a ∈ l, ∀ b ∈ l, ∀ s, f a = some s → f b = some s → a = b) : (l.filterMap f).Nodup := by
  induction l with
  | nil => simp
  | cons a l ih =>
    have hl' := List.nodup_cons.mp hl
    have ih' := ih hl'.2 (fun x hx y hy => h x (List.mem_cons_of_mem _ hx) y (List.mem_cons_of_mem _ hy))
    cases hf : f a with
    | none => rw [List.filterMap_cons_none hf]; exact ih'
    | some s =>
      rw [List.filterMap_cons_some hf, List.nodup_cons]
      refine ⟨?_, ih'⟩
      intro hm
      obtain ⟨b, hb, e⟩ := List.mem_filterMap.mp hm
      have := h a List.mem_cons_self b (List.mem_cons_of_mem _ hb) s hf e
      subst this
      exact hl'.1 hb

theorem ipart_nodup {st : Coll} (h : CollInv st) : (st.all.filterMap ipart).Nodup :=
  nodup_filterMap (List.Nodup.of_map _ h.getters) (fun _ ha _ hb _ => ipart_inj h ha hb)

theorem cpart_nodup {st : Coll} (h : CollInv st) : (st.all.filterMap cpart).Nodup :=
  nodup_filterMap (List.Nodup.of_map _ h.getters)
    (fun _ _ _ _ _ h1 h2 => (cpart_eq h1).symm.trans (cpart_eq h2))

/-! ### The shape of a vector while it is filled -/

/-- Filled from below, perhaps with the last place taken. -/
def filled (X : List Sd) (k : Nat) (T : List Sd) : Vec :=
  X.map some ++ (List.replicate k none ++ T.map some)

theorem filled_length (X : List Sd) (k : Nat) (T : List Sd) :
    (filled X k T).length = X.length + k + T.length := by
  simp [filled]; omega

theorem position_filled (sd : Sd) (T : List Sd) (k : Nat) : ∀ (X : List Sd),
    position sd (filled X (k + 1) T) = .ok (filled (X ++ [sd]) k T) := by
  intro X
  induction X with
  | nil => simp [filled, position, List.replicate_succ]
  | cons x X ih =>
    simp only [filled, List.map_cons, List.cons_append, position]
    simp only [filled] at ih
    rw [ih]

theorem position_full (sd : Sd) (T : List Sd) : ∀ (X : List Sd),
    position sd (filled X 0 T) = .error .bug := by
  have hT : ∀ T : List Sd, position sd (T.map some) = .error .bug := by
    intro T
    induction T with
    | nil => rfl
    | cons t T ih => simp [position, ih]
  intro X
  induction X with
  | nil => simpa [filled] using hT T
  | cons x X ih =>
    simp only [filled, List.map_cons, List.cons_append, position]
    simp only [filled] at ih
    rw [ih]

theorem mergeVec_filled : ∀ (S : List Sd) (X : List Sd) (k : Nat),
    mergeVec X.length (S.map some) (filled X k []) =
      if S.length ≤ k then .ok (filled (X ++ S) (k - S.length) []) else .error .ub := by
  intro S
  induction S with
  | nil => intro X k; simp [mergeVec]
  | cons s S ih =>
    intro X k
    simp only [List.map_cons, mergeVec]
    cases k with
    | zero => simp [filled]
    | succ k =>
      have h1 : (filled X (k + 1) [])[X.length]? = some none := by
        simp [filled, List.replicate_succ]
      have h2 : (filled X (k + 1) []).set X.length (some s) = filled (X ++ [s]) k [] := by
        simp [filled, List.replicate_succ]
      simp only [h1, h2]
      have := ih (X ++ [s]) k
      rw [List.length_append, List.length_singleton] at this
      rw [this]
      simp only [List.length_cons, Nat.add_le_add_iff_right, List.append_assoc, List.singleton_append,
        Nat.add_sub_add_right]

theorem placeSize_filled (r : Option Sd) (X : List Sd) (k : Nat) (sz : Sd) (hr : r.bind Sd.sizeSlot = some sz) :
    placeSize r (X.length + (k + 1)) (filled X (k + 1) []) = .ok (filled X k [sz]) := by
  have h1 : (filled X (k + 1) [])[X.length + (k + 1) - 1]? = some none := by
    rw [show X.length + (k + 1) - 1 = X.length + k from rfl]
    simp [filled]
  have h2 : (filled X (k + 1) []).set (X.length + (k + 1) - 1) (some sz) = filled X k [sz] := by
    rw [show X.length + (k + 1) - 1 = X.length + k from rfl]
    rw [filled, List.replicate_succ']
    simp [filled]
  unfold placeSize
  rw [if_neg (by omega)]
  simp only [h1, hr, h2]

theorem placeSize_full (r : Option Sd) (X T : List Sd) (k : Nat) (h : k = 0 ∨ T ≠ []) (i : Nat)
    (hi : i = X.length + k + T.length) (v : Vec) : placeSize r i (filled X k T) ≠ .ok v := by
  intro he
  unfold placeSize at he
  split at he
  · cases he
  · rename_i h0
    have hlt : i - 1 < (filled X k T).length := by rw [filled_length]; omega
    have hs : ∃ s, (filled X k T)[i - 1]? = some (some s) := by
      rcases List.eq_nil_or_concat T with rfl | ⟨T', t, rfl⟩
      · rcases h with rfl | h
        · rcases List.eq_nil_or_concat X with rfl | ⟨X', x, rfl⟩
          · simp at hi; omega
          · refine ⟨x, ?_⟩
            simp only [filled]
            simp at hi
            simp [hi]
        · exact absurd rfl h
      · refine ⟨t, ?_⟩
        simp only [filled]
        rw [← List.append_assoc, List.getElem?_append_right (by simp; simp at hi; omega)]
        simp at hi
        have : i - 1 - (List.map some X ++ List.replicate k (none : Option Sd)).length = T'.length := by
          simp; omega
        rw [this]
        simp
    obtain ⟨s, hs⟩ := hs
    rw [hs] at he
    cases he

end Verif.Slots
