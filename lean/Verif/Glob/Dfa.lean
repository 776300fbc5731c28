import Mathlib.Data.Finset.Powerset
import Verif.Glob.Lang

/-!
# The automaton
-/

namespace Verif.Glob

theorem sameSet_iff {s1 s2 : List Pos} (h1 : s1.Nodup) (h2 : s2.Nodup) : sameSet s1 s2 = true ↔ ∀ q, q ∈ s1 ↔ q ∈ s2 := by
  simp only [sameSet, Bool.and_eq_true, beq_iff_eq, List.all_eq_true, decide_eq_true_eq]
  constructor
  · rintro ⟨hl, hs⟩ q
    exact ((h1.subperm hs).perm_of_length_le (by omega)).mem_iff
  · intro h
    exact ⟨((List.perm_ext_iff_of_nodup h1 h2).2 h).length_eq, fun p hp => (h p).1 hp⟩

/-! ### The transitions of a label -/

theorem fold_addTrans {follow : List Pos} (hf : follow.Nodup) (x : Nat) : ∀ (cs : List Nat) (t : Nat → Option (List Pos)),
    (∀ L, t x = some L → L.Nodup) →
    (x ∉ cs → cs.foldl (fun t c => addTrans follow c t) t x = t x) ∧
    (x ∈ cs → ∃ L, cs.foldl (fun t c => addTrans follow c t) t x = some L ∧ L.Nodup ∧
      ∀ q, q ∈ L ↔ (∃ M, t x = some M ∧ q ∈ M) ∨ q ∈ follow)
  | [], t, _ => ⟨fun _ => rfl, fun h => absurd h (by simp)⟩
  | c :: cs, t, ht => by
    have hx : x ≠ c → addTrans follow c t x = t x := fun h => by simp [addTrans, h]
    have hc : ∃ L, addTrans follow x t x = some L ∧ L.Nodup ∧ ∀ q, q ∈ L ↔ (∃ M, t x = some M ∧ q ∈ M) ∨ q ∈ follow := by
      simp only [addTrans, if_true]
      cases hM : t x with
      | none => exact ⟨follow, rfl, hf, fun q => by simp⟩
      | some M => exact ⟨_, rfl, nodup_union (ht M hM) hf, fun q => by simp [mem_union]⟩
    rw [List.foldl_cons]
    by_cases e : x = c
    · subst e
      refine ⟨fun h => absurd (List.mem_cons_self) h, fun _ => ?_⟩
      obtain ⟨L, h1, h2, h3⟩ := hc
      obtain ⟨i1, i2⟩ := fold_addTrans hf x cs (addTrans follow x t) (fun M hM => by
        rw [h1, Option.some.injEq] at hM; exact hM ▸ h2)
      by_cases hm : x ∈ cs
      · obtain ⟨L', h4, h5, h6⟩ := i2 hm
        refine ⟨L', h4, h5, fun q => ?_⟩
        rw [h6, h1]
        simp only [Option.some.injEq, exists_eq_left', h3]
        constructor
        · rintro ((h | h) | h)
          · exact .inl h
          · exact .inr h
          · exact .inr h
        · exact .inl
      · exact ⟨L, (i1 hm).trans h1, h2, h3⟩
    · obtain ⟨i1, i2⟩ := fold_addTrans hf x cs (addTrans follow c t) (by rw [hx e]; exact ht)
      rw [hx e] at i1 i2
      refine ⟨fun h => i1 fun hm => h (List.mem_cons_of_mem _ hm), fun h => ?_⟩
      rcases List.mem_cons.1 h with h | h
      · exact absurd h e
      · exact i2 h

/-- The transitions of the positions so far. -/
def Right (f : Follow) (S : List Pos) (x : Nat) : Option (List Pos) → Prop
  | none => ∀ p ∈ S, ¬ acc p (some x)
  | some L => (∃ p ∈ S, acc p (some x)) ∧ L.Nodup ∧ ∀ q, q ∈ L ↔ ∃ p ∈ S, acc p (some x) ∧ q ∈ f p

theorem right_skip {f : Follow} {S : List Pos} {x : Nat} {o : Option (List Pos)} {p : Pos} (h : Right f S x o)
    (hp : ¬ acc p (some x)) : Right f (S ++ [p]) x o := by
  cases o with
  | none =>
    intro q hq
    rcases List.mem_append.1 hq with hq | hq
    · exact h q hq
    · rw [List.mem_singleton.1 hq]
      exact hp
  | some L =>
    obtain ⟨⟨p0, h1, h2⟩, h3, h4⟩ := h
    refine ⟨⟨p0, List.mem_append_left _ h1, h2⟩, h3, fun q => ?_⟩
    rw [h4]
    constructor
    · rintro ⟨p1, h5, h6⟩
      exact ⟨p1, List.mem_append_left _ h5, h6⟩
    · rintro ⟨p1, h5, h6⟩
      rcases List.mem_append.1 h5 with h5 | h5
      · exact ⟨p1, h5, h6⟩
      · rw [List.mem_singleton.1 h5] at h6
        exact absurd h6.1 hp

theorem right_add {f : Follow} {S : List Pos} {x : Nat} {o : Option (List Pos)} {p : Pos} {L : List Pos} (h : Right f S x o)
    (hp : acc p (some x)) (hL : L.Nodup) (hq : ∀ q, q ∈ L ↔ (∃ M, o = some M ∧ q ∈ M) ∨ q ∈ f p) :
    Right f (S ++ [p]) x (some L) := by
  refine ⟨⟨p, by simp, hp⟩, hL, fun q => ?_⟩
  rw [hq]
  constructor
  · rintro (⟨M, rfl, hm⟩ | hm)
    · obtain ⟨p1, h5, h6⟩ := (h.2.2 q).1 hm
      exact ⟨p1, List.mem_append_left _ h5, h6⟩
    · exact ⟨p, by simp, hp, hm⟩
  · rintro ⟨p1, h5, h6, h7⟩
    rcases List.mem_append.1 h5 with h5 | h5
    · left
      cases o with
      | none => exact absurd h6 (h p1 h5)
      | some M => exact ⟨M, rfl, (h.2.2 q).2 ⟨p1, h5, h6, h7⟩⟩
    · rw [List.mem_singleton.1 h5] at h7
      exact .inr h7

theorem right_nodup {f : Follow} {S : List Pos} {x : Nat} {o : Option (List Pos)} (h : Right f S x o) :
    ∀ L, o = some L → L.Nodup := by
  rintro L rfl
  exact h.2.1

theorem collect_fold {f : Follow} (hf : ∀ p, (f p).Nodup) : ∀ (l S : List Pos) (s : (Nat → Option (List Pos)) × Bool),
    (∀ x, Right f S x (s.1 x)) → (s.2 = true ↔ ∃ p ∈ S, p.kind = .accept) →
    (∀ x, Right f (S ++ l) x ((l.foldl (doPosition f) s).1 x)) ∧
      ((l.foldl (doPosition f) s).2 = true ↔ ∃ p ∈ S ++ l, p.kind = .accept)
  | [], S, s, h1, h2 => by
    rw [List.append_nil]
    exact ⟨h1, h2⟩
  | p :: l, S, s, h1, h2 => by
    rw [List.foldl_cons, show S ++ p :: l = (S ++ [p]) ++ l by simp]
    have hkeep : p.kind ≠ .accept → (s.2 = true ↔ ∃ q ∈ S ++ [p], q.kind = .accept) := by
      intro hk
      rw [h2]
      constructor
      · rintro ⟨q, hq, h⟩
        exact ⟨q, List.mem_append_left _ hq, h⟩
      · rintro ⟨q, hq, h⟩
        rcases List.mem_append.1 hq with hq | hq
        · exact ⟨q, hq, h⟩
        · rw [List.mem_singleton.1 hq] at h
          exact absurd h hk
    refine collect_fold hf l _ _ ?_ ?_
    · intro x
      rw [doPosition]
      cases hk : p.kind with
      | sym c =>
        obtain ⟨i1, i2⟩ := fold_addTrans (hf p) x [c] s.1 (right_nodup (h1 x))
        simp only [List.foldl_cons, List.foldl_nil, List.mem_singleton] at i1 i2 ⊢
        by_cases e : x = c
        · obtain ⟨L, h3, h4, h5⟩ := i2 e
          rw [h3]
          exact right_add (h1 x) (by simp [acc, hk, e]) h4 h5
        · rw [i1 e]
          exact right_skip (h1 x) (by simp [acc, hk, e])
      | set cs =>
        obtain ⟨i1, i2⟩ := fold_addTrans (hf p) x cs s.1 (right_nodup (h1 x))
        by_cases e : x ∈ cs
        · obtain ⟨L, h3, h4, h5⟩ := i2 e
          simp only
          rw [h3]
          exact right_add (h1 x) (by simp [acc, hk, e]) h4 h5
        · simp only
          rw [i1 e]
          exact right_skip (h1 x) (by simp [acc, hk, e])
      | accept => exact right_skip (h1 x) (by simp [acc, hk])
    · rw [doPosition]
      cases hk : p.kind with
      | sym c => exact hkeep (by simp [hk])
      | set cs => exact hkeep (by simp [hk])
      | accept => exact ⟨fun _ => ⟨p, by simp, hk⟩, fun _ => rfl⟩

theorem collect_right {f : Follow} (hf : ∀ p, (f p).Nodup) (l : List Pos) :
    (∀ x, Right f l x ((collect f l).1 x)) ∧ ((collect f l).2 = true ↔ ∃ p ∈ l, p.kind = .accept) :=
  collect_fold hf l [] _ (fun x p hp => absurd hp (by simp)) (by simp)

/-! ### The invariant -/

/-- A transition is right. -/
def TransOk (f : Follow) (d : Dfa) (i : Nat) (l : List Pos) (c : Nat) : Prop :=
  match d.trans i c with
  | none => ∀ p ∈ l, ¬ acc p (some c)
  | some j => ∃ L, d.labels[j]? = some L ∧ ∀ q, q ∈ L ↔ ∃ p ∈ l, acc p (some c) ∧ q ∈ f p

/-- A state is done. -/
def Done (f : Follow) (d : Dfa) (i : Nat) (l : List Pos) : Prop :=
  (d.accepting i = true ↔ ∃ p ∈ l, p.kind = .accept) ∧ ∀ c < 256, TransOk f d i l c

/-- All is right but the state that is being made. -/
structure DInv (f : Follow) (P : List Pos) (busy : Option Nat) (d : Dfa) : Prop where
  nodup : ∀ l ∈ d.labels, l.Nodup
  sub : ∀ l ∈ d.labels, ∀ p ∈ l, p ∈ P
  distinct : d.labels.Pairwise fun a b => ¬ ∀ q, q ∈ a ↔ q ∈ b
  work : ∀ x ∈ d.work, d.labels[x.1]? = some x.2
  workNodup : (d.work.map Prod.fst).Nodup
  fresh : ∀ i c, i ∈ d.work.map Prod.fst ∨ d.labels.length ≤ i → d.trans i c = none
  done : ∀ i l, d.labels[i]? = some l → i ∉ d.work.map Prod.fst → busy ≠ some i → Done f d i l

theorem transOk_mono {f : Follow} {d d' : Dfa} {i : Nat} {l : List Pos} {c : Nat} (h : TransOk f d i l c)
    (ht : d'.trans i c = d.trans i c) (hl : d.labels <+: d'.labels) : TransOk f d' i l c := by
  unfold TransOk at h ⊢
  rw [ht]
  cases hc : d.trans i c with
  | none =>
    rw [hc] at h
    exact h
  | some j =>
    rw [hc] at h
    obtain ⟨L, h1, h2⟩ := h
    obtain ⟨t, ht⟩ := hl
    refine ⟨L, ?_, h2⟩
    rw [← ht, List.getElem?_append_left (List.getElem?_eq_some_iff.1 h1).1]
    exact h1

theorem locate_spec {f : Follow} {P : List Pos} {busy : Option Nat} {d : Dfa} {L : List Pos} (h : DInv f P busy d)
    (hb : ∀ i, busy = some i → i < d.labels.length) (hL : L.Nodup) (hP : ∀ p ∈ L, p ∈ P) :
    DInv f P busy (locate L d).2 ∧ (∃ L', (locate L d).2.labels[(locate L d).1]? = some L' ∧ ∀ q, q ∈ L' ↔ q ∈ L) ∧
      d.labels <+: (locate L d).2.labels ∧ (locate L d).2.trans = d.trans ∧ (locate L d).2.accepting = d.accepting ∧
      (locate L d).2.labels.length + d.work.length = d.labels.length + (locate L d).2.work.length ∧
      ∀ i, i < d.labels.length → i ∉ d.work.map Prod.fst → i ∉ (locate L d).2.work.map Prod.fst := by
  unfold locate
  cases hi : d.labels.findIdx? (sameSet L) with
  | some i =>
    rw [List.findIdx?_eq_some_iff_getElem] at hi
    obtain ⟨h1, h2, _⟩ := hi
    refine ⟨h, ⟨_, List.getElem?_eq_getElem h1, fun q => ?_⟩, List.prefix_rfl, rfl, rfl, by simp, fun _ _ h => h⟩
    exact ((sameSet_iff hL (h.nodup _ (List.getElem_mem _))).1 h2 q).symm
  | none =>
    rw [List.findIdx?_eq_none_iff] at hi
    refine ⟨⟨?_, ?_, ?_, ?_, ?_, ?_, ?_⟩, ⟨L, by simp, fun _ => Iff.rfl⟩, List.prefix_append _ _, rfl, rfl, by simp; omega, ?_⟩
    · intro l hl
      rcases List.mem_append.1 hl with hl | hl
      · exact h.nodup l hl
      · rw [List.mem_singleton.1 hl]
        exact hL
    · intro l hl
      rcases List.mem_append.1 hl with hl | hl
      · exact h.sub l hl
      · rw [List.mem_singleton.1 hl]
        exact hP
    · refine List.pairwise_append.2 ⟨h.distinct, List.pairwise_singleton _ _, ?_⟩
      intro a ha b hb2 hq
      rw [List.mem_singleton.1 hb2] at hq
      have h1 := (sameSet_iff hL (h.nodup a ha)).2 fun q => (hq q).symm
      rw [hi a ha] at h1
      exact absurd h1 (by simp)
    · intro x hx
      rcases List.mem_append.1 hx with hx | hx
      · have h1 := h.work x hx
        show (d.labels ++ [L])[x.1]? = _
        rw [List.getElem?_append_left (List.getElem?_eq_some_iff.1 h1).1]
        exact h1
      · rw [List.mem_singleton.1 hx]
        simp
    · show ((d.work ++ [(d.labels.length, L)]).map Prod.fst).Nodup
      rw [List.map_append, List.nodup_append]
      refine ⟨h.workNodup, by simp, ?_⟩
      intro a ha b hb2 e
      rw [List.mem_map] at ha
      obtain ⟨x, hx, rfl⟩ := ha
      have h1 := (List.getElem?_eq_some_iff.1 (h.work x hx)).1
      simp only [List.map_cons, List.map_nil, List.mem_singleton] at hb2
      omega
    · intro i c hi2
      refine h.fresh i c ?_
      simp only [List.map_append, List.map_cons, List.map_nil, List.mem_append, List.mem_singleton, List.length_append,
        List.length_cons, List.length_nil] at hi2
      rcases hi2 with (h1 | h1) | h1
      · exact .inl h1
      · exact .inr (by omega)
      · exact .inr (by omega)
    · intro i l hl hw hbz
      simp only [List.map_append, List.map_cons, List.map_nil, List.mem_append, List.mem_singleton, not_or] at hw
      have hlt := (List.getElem?_eq_some_iff.1 hl).1
      simp only [List.length_append, List.length_cons, List.length_nil] at hlt
      have hl2 : d.labels[i]? = some l := by
        rw [← hl]
        exact (List.getElem?_append_left (by omega)).symm
      obtain ⟨h1, h2⟩ := h.done i l hl2 hw.1 hbz
      exact ⟨h1, fun c hc => transOk_mono (h2 c hc) rfl (List.prefix_append _ _)⟩
    · intro i hlt hw hm
      simp only [List.map_append, List.map_cons, List.map_nil, List.mem_append, List.mem_singleton] at hm
      rcases hm with hm | hm
      · exact hw hm
      · omega

/-- The state that is being made. -/
structure Busy (f : Follow) (d : Dfa) (i : Nat) (l : List Pos) (cs : List Nat) : Prop where
  label : d.labels[i]? = some l
  work : i ∉ d.work.map Prod.fst
  acc : d.accepting i = true ↔ ∃ p ∈ l, p.kind = .accept
  todo : ∀ c ∈ cs, d.trans i c = none
  ok : ∀ c < 256, c ∉ cs → TransOk f d i l c

theorem resolve_spec {f : Follow} {P : List Pos} {i : Nat} {l : List Pos} {t : Nat → Option (List Pos)}
    (ht : ∀ c, Right f l c (t c)) (hP : ∀ p q, q ∈ f p → q ∈ P) : ∀ (cs : List Nat) (d : Dfa), cs.Nodup → DInv f P (some i) d →
    Busy f d i l cs → DInv f P (some i) (resolve t i cs d) ∧ Busy f (resolve t i cs d) i l [] ∧
      d.labels <+: (resolve t i cs d).labels ∧
      (resolve t i cs d).labels.length + d.work.length = d.labels.length + (resolve t i cs d).work.length
  | [], d, _, h1, h2 => ⟨h1, h2, List.prefix_rfl, rfl⟩
  | c :: cs, d, hn, h1, h2 => by
    rw [List.nodup_cons] at hn
    have htc := ht c
    rw [resolve]
    cases hc : t c with
    | none =>
      rw [hc] at htc
      refine resolve_spec ht hP cs d hn.2 h1 ⟨h2.label, h2.work, h2.acc, fun x hx => h2.todo x (List.mem_cons_of_mem _ hx), ?_⟩
      intro x hx hm
      by_cases e : x = c
      · subst e
        unfold TransOk
        rw [h2.todo x (by simp)]
        exact htc
      · exact h2.ok x hx fun h => by
          rcases List.mem_cons.1 h with h | h
          · exact e h
          · exact hm h
    | some L =>
      rw [hc] at htc
      obtain ⟨_, hL, hq⟩ := htc
      have hlt := (List.getElem?_eq_some_iff.1 h2.label).1
      obtain ⟨l1, ⟨L', l2, l3⟩, l4, l5, l6, l7, l8⟩ := locate_spec h1 (fun k hk => by
        rw [Option.some.injEq] at hk; omega) hL (fun q hm => by
          obtain ⟨p, _, _, hm⟩ := (hq q).1 hm
          exact hP p q hm)
      generalize hd : locate L d = z at l1 l2 l4 l5 l6 l7 l8
      obtain ⟨j, d1⟩ := z
      simp only [hd] at l1 l2 l4 l5 l6 l7 l8 ⊢
      have hle := l4.length_le
      have hw1 := l8 i hlt h2.work
      have hlab : d1.labels[i]? = some l := by
        obtain ⟨s, hs⟩ := l4
        rw [← hs, List.getElem?_append_left hlt]
        exact h2.label
      have i1 : DInv f P (some i) { d1 with trans := fun s x => if s = i ∧ x = c then some j else d1.trans s x } := by
        refine ⟨l1.nodup, l1.sub, l1.distinct, l1.work, l1.workNodup, ?_, ?_⟩
        · intro k x hk
          have hne : ¬ (k = i ∧ x = c) := by
            rintro ⟨rfl, _⟩
            rcases hk with hk | hk
            · exact hw1 hk
            · simp only at hk
              omega
          simp only [hne, if_false]
          exact l1.fresh k x hk
        · intro k m hm hw hb
          obtain ⟨g1, g2⟩ := l1.done k m hm hw hb
          refine ⟨g1, fun x hx => transOk_mono (g2 x hx) ?_ List.prefix_rfl⟩
          have hne : ¬ (k = i ∧ x = c) := fun h => hb (by rw [h.1])
          simp only [hne, if_false]
      have i2 : Busy f { d1 with trans := fun s x => if s = i ∧ x = c then some j else d1.trans s x } i l cs := by
        refine ⟨hlab, hw1, ?_, ?_, ?_⟩
        · show d1.accepting i = true ↔ _
          rw [l6]
          exact h2.acc
        · intro x hx
          have hne : x ≠ c := fun h => hn.1 (h ▸ hx)
          simp only [hne, and_false, if_false]
          rw [l5]
          exact h2.todo x (List.mem_cons_of_mem _ hx)
        · intro x hx hm
          by_cases e : x = c
          · subst e
            unfold TransOk
            simp only [and_self, if_true]
            exact ⟨L', l2, fun q => (l3 q).trans (hq q)⟩
          · refine transOk_mono (h2.ok x hx fun h => ?_) ?_ l4
            · rcases List.mem_cons.1 h with h | h
              · exact e h
              · exact hm h
            · simp only [e, and_false, if_false]
              rw [l5]
      obtain ⟨r1, r2, r3, r4⟩ := resolve_spec ht hP cs _ hn.2 i1 i2
      exact ⟨r1, r2, l4.trans r3, by simp only at r4; omega⟩

theorem visit_spec {f : Follow} {P : List Pos} {d : Dfa} {i : Nat} {l : List Pos} {w : List (Nat × List Pos)}
    (hf : ∀ p, (f p).Nodup) (hP : ∀ p q, q ∈ f p → q ∈ P) (h : DInv f P none d) (hw : d.work = (i, l) :: w) :
    DInv f P none (visit f i l { d with work := w }) ∧ d.labels <+: (visit f i l { d with work := w }).labels ∧
      (visit f i l { d with work := w }).labels.length + w.length =
        d.labels.length + (visit f i l { d with work := w }).work.length := by
  obtain ⟨c1, c2⟩ := collect_right hf l
  have hlab := h.work (i, l) (by rw [hw]; simp)
  simp only at hlab
  have hnd := h.workNodup
  rw [hw, List.map_cons, List.nodup_cons] at hnd
  have i1 : DInv f P (some i)
      { d with work := w, accepting := fun s => if s = i then (collect f l).2 else d.accepting s } := by
    refine ⟨h.nodup, h.sub, h.distinct, fun x hx => h.work x (by rw [hw]; simp [hx]), hnd.2, ?_, ?_⟩
    · intro k c hk
      refine h.fresh k c ?_
      rcases hk with hk | hk
      · exact .inl (by rw [hw]; simp only [List.map_cons, List.mem_cons]; exact .inr hk)
      · exact .inr hk
    · intro k m hm hk hb
      have hne : k ≠ i := fun e => hb (by rw [e])
      have hk2 : k ∉ d.work.map Prod.fst := by
        rw [hw]
        simp only [List.map_cons, List.mem_cons, not_or]
        exact ⟨hne, hk⟩
      obtain ⟨g1, g2⟩ := h.done k m hm hk2 (by simp)
      refine ⟨?_, fun c hc => transOk_mono (g2 c hc) rfl List.prefix_rfl⟩
      simp only [hne, if_false]
      exact g1
  have i2 : Busy f { d with work := w, accepting := fun s => if s = i then (collect f l).2 else d.accepting s } i l
      (List.range 256) := by
    refine ⟨hlab, hnd.1, ?_, ?_, ?_⟩
    · simp only [if_true]
      exact c2
    · intro c _
      refine h.fresh i c (.inl ?_)
      rw [hw]
      simp
    · intro c hc hm
      exact absurd (List.mem_range.2 hc) hm
  obtain ⟨r1, r2, r3, r4⟩ := resolve_spec c1 hP (List.range 256) _ List.nodup_range i1 i2
  refine ⟨⟨r1.nodup, r1.sub, r1.distinct, r1.work, r1.workNodup, r1.fresh, ?_⟩, r3, r4⟩
  intro k m hm hk _
  by_cases e : k = i
  · subst e
    have hl := r2.label
    have : m = l := by
      have := hm.symm.trans hl
      simpa using this
    subst this
    exact ⟨r2.acc, fun c hc => r2.ok c hc (by simp)⟩
  · exact r1.done k m hm hk (by simp; omega)

/-- There are at most so many states. -/
theorem labels_le {f : Follow} {P : List Pos} {busy : Option Nat} {d : Dfa} (h : DInv f P busy d) :
    d.labels.length ≤ 2 ^ P.length := by
  have hn : (d.labels.map List.toFinset).Nodup := by
    rw [List.nodup_iff_pairwise_ne, List.pairwise_map]
    refine h.distinct.imp ?_
    intro a b hab e
    refine hab fun q => ?_
    rw [← List.mem_toFinset, e, List.mem_toFinset]
  have hs : (d.labels.map List.toFinset).toFinset ⊆ P.toFinset.powerset := by
    intro s hs
    simp only [List.mem_toFinset, List.mem_map] at hs
    obtain ⟨l, hl, rfl⟩ := hs
    rw [Finset.mem_powerset]
    intro p hp
    rw [List.mem_toFinset] at hp ⊢
    exact h.sub l hl p hp
  have hc := Finset.card_le_card hs
  rw [List.toFinset_card_of_nodup hn, List.length_map, Finset.card_powerset] at hc
  exact hc.trans (Nat.pow_le_pow_right (by omega) (List.toFinset_card_le P))

theorem build_spec {f : Follow} {P : List Pos} (hf : ∀ p, (f p).Nodup) (hP : ∀ p q, q ∈ f p → q ∈ P) :
    ∀ (n : Nat) (d : Dfa), DInv f P none d → 2 ^ P.length + d.work.length < n + d.labels.length →
    ∃ d', build f n d = some d' ∧ DInv f P none d' ∧ d'.work = [] ∧ d.labels <+: d'.labels
  | 0, d, h, hn => by
    have := labels_le h
    omega
  | n + 1, d, h, hn => by
    rw [build]
    cases hw : d.work with
    | nil => exact ⟨d, rfl, h, hw, List.prefix_rfl⟩
    | cons x w =>
      obtain ⟨i, l⟩ := x
      obtain ⟨v1, v2, v3⟩ := visit_spec hf hP h hw
      rw [hw, List.length_cons] at hn
      obtain ⟨d', b1, b2, b3, b4⟩ := build_spec hf hP n _ v1 (by omega)
      exact ⟨d', b1, b2, b3, v2.trans b4⟩

/-! ### Reading a string -/

theorem run_spec {q : Re} {a : Pos} {d : Dfa} (hd : (Re.cat q (.leaf a)).positions.Nodup) (ha : a.kind = .accept)
    (hq : ∀ p ∈ q.positions, p.kind ≠ .accept)
    (h : DInv ((Re.cat q (.leaf a)).init fun _ => []) (Re.cat q (.leaf a)).positions none d) (hw : d.work = []) :
    ∀ (w : List Nat) (s : Nat) (l : List Pos), (∀ c ∈ w, c < 256) → d.labels[s]? = some l →
    (run d s w = true ↔ Begins (Re.cat q (.leaf a)) (· ∈ l) (w.map some ++ [none]))
  | [], s, l, _, hl => by
    obtain ⟨h1, _⟩ := h.done s l hl (by rw [hw]; simp) (by simp)
    rw [run, h1]
    constructor
    · rintro ⟨p, hp, hk⟩
      have hpp := h.sub l (List.mem_of_getElem? hl) p hp
      have : p = a := by
        simp only [Re.positions, List.mem_append, List.mem_singleton] at hpp
        rcases hpp with hpp | hpp
        · exact absurd hk (hq p hpp)
        · exact hpp
      subst this
      exact ⟨p, hp, none, [], rfl, by simp [acc, ha], .inr ⟨rfl, rfl⟩⟩
    · rintro ⟨p, hp, x, v, he, h2, _⟩
      simp only [List.map_nil, List.nil_append, List.cons.injEq] at he
      rw [← he.1] at h2
      refine ⟨p, hp, ?_⟩
      unfold acc at h2
      cases hk : p.kind with
      | accept => rfl
      | sym c => simp [hk] at h2
      | set cs => simp [hk] at h2
  | c :: w, s, l, hc, hl => by
    obtain ⟨_, h1⟩ := h.done s l hl (by rw [hw]; simp) (by simp)
    have h2 := h1 c (hc c (by simp))
    have hb : Begins (Re.cat q (.leaf a)) (· ∈ l) ((c :: w).map some ++ [none]) ↔
        Begins (Re.cat q (.leaf a)) (fun x => ∃ p ∈ l, acc p (some c) ∧ fol (Re.cat q (.leaf a)) p x)
          (w.map some ++ [none]) := by
      constructor
      · rintro ⟨p, hp, x, v, he, h3, h4⟩
        simp only [List.map_cons, List.cons_append, List.cons.injEq] at he
        obtain ⟨rfl, rfl⟩ := he
        rcases (cont_eq _ hd p (h.sub l (List.mem_of_getElem? hl) p hp) _).1 h4 with ⟨h5, _⟩ | ⟨y, hy, h5⟩
        · exact absurd h5 (by simp)
        · exact ⟨y, ⟨p, hp, h3, hy⟩, h5⟩
      · rintro ⟨y, ⟨p, hp, h3, hy⟩, h5⟩
        exact ⟨p, hp, some c, _, rfl, h3, (cont_eq _ hd p (h.sub l (List.mem_of_getElem? hl) p hp) _).2 (.inr ⟨y, hy, h5⟩)⟩
    rw [hb, run]
    unfold TransOk at h2
    cases ht : d.trans s c with
    | none =>
      rw [ht] at h2
      simp only [Bool.false_eq_true, false_iff]
      rintro ⟨y, ⟨p, hp, h3, _⟩, _⟩
      exact h2 p hp h3
    | some j =>
      rw [ht] at h2
      obtain ⟨L, h3, h4⟩ := h2
      simp only
      rw [run_spec hd ha hq h hw w j L (fun x hx => hc x (by simp [hx])) h3]
      have : (fun x => x ∈ L) = fun x => ∃ p ∈ l, acc p (some c) ∧ fol (Re.cat q (.leaf a)) p x := by
        funext x
        rw [eq_iff_iff, h4]
        simp only [mem_init, List.not_mem_nil, false_or]
      rw [this]

/-- The automaton of a regular expression with an accepting node at its end. -/
theorem dfa_spec {q : Re} {a : Pos} (hd : (Re.cat q (.leaf a)).positions.Nodup) (ha : a.kind = .accept)
    (hq : ∀ p ∈ q.positions, p.kind ≠ .accept) {fuel : Nat} (hfuel : 2 ^ (Re.cat q (.leaf a)).positions.length < fuel) :
    ∃ m, dfa fuel (.cat q (.leaf a)) = some m ∧ ∀ w : List Nat, (∀ c ∈ w, c < 256) →
      (callMatcher m w = true ↔ Lang q (w.map some)) := by
  have hf := nodup_init (.cat q (.leaf a)) (fun _ => []) hd (by simp) (by simp)
  have hP : ∀ p x, x ∈ (Re.cat q (.leaf a)).init (fun _ => []) p → x ∈ (Re.cat q (.leaf a)).positions := by
    intro p x hx
    rcases (mem_init _ _ p x).1 hx with hx | hx
    · exact absurd hx (by simp)
    · exact (fol_sub _ hx).2
  have h0 : DInv ((Re.cat q (.leaf a)).init fun _ => []) (Re.cat q (.leaf a)).positions none
      ⟨[], [], fun _ _ => none, fun _ => false⟩ :=
    ⟨by simp, by simp, List.Pairwise.nil, by simp, by simp, by simp, by simp⟩
  obtain ⟨l1, ⟨L', l2, l3⟩, l4, _, _, l7, _⟩ := locate_spec h0 (by simp) (nodup_first _ hd) (fun p hp => first_sub _ hp)
  generalize hz : locate (Re.cat q (.leaf a)).first ⟨[], [], fun _ _ => none, fun _ => false⟩ = z at l1 l2 l7
  obtain ⟨d', b1, b2, b3, b4⟩ := build_spec hf hP fuel z.2 l1 (by
    simp only [List.length_nil, Nat.add_zero, Nat.zero_add] at l7; omega)
  refine ⟨(z.1, d'), ?_, ?_⟩
  · simp only [dfa, hz, b1, Option.map_some]
  · intro w hw
    have hl : d'.labels[z.1]? = some L' := by
      obtain ⟨s, hs⟩ := b4
      rw [← hs, List.getElem?_append_left (List.getElem?_eq_some_iff.1 l2).1]
      exact l2
    rw [callMatcher, run_spec hd ha hq b2 b3 w z.1 L' hw hl]
    have : (fun x => x ∈ L') = (· ∈ (Re.cat q (.leaf a)).first) := by
      funext x
      rw [eq_iff_iff, l3]
    rw [this]
    have hlang := lang_eq _ hd (w.map some ++ [none])
    have hne : ¬ (w.map some ++ [none] = [] ∧ (Re.cat q (.leaf a)).nullable = true) := fun h => absurd h.1 (by simp)
    rw [or_iff_right hne] at hlang
    rw [← hlang]
    constructor
    · rintro ⟨u, v, he, h1, x, rfl, h2⟩
      have := List.append_inj_left' he rfl
      rw [this]
      exact h1
    · intro h
      exact ⟨_, [none], rfl, h, none, rfl, by simp [acc, ha]⟩

end Verif.Glob
