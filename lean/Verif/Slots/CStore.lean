/-
The storage of class slots refines a table indexed by slot and home.
-/
import Verif.Slots.Offsets

namespace Verif.Slots

/-- The class slot at an offset of a class. -/
def At (ls : List Layout) (k off : Nat) (sd : Sd) : Prop :=
  ∃ l, ls[k]? = some l ∧ l.cvec[off]? = some (some sd)

/-- What the storage needs of the layouts. -/
structure COk (ls : List Layout) : Prop where
  uniq : ∀ {k o1 o2 sd}, At ls k o1 sd → At ls k o2 sd → o1 = o2
  offset : ∀ {k off sd}, At ls k off sd → ∃ l, ls[k]? = some l ∧ slotOffset sd l = .ok (some off)
  owner : ∀ {k off sd}, At ls k off sd → ∃ off', At ls sd.owner off' sd
  full : ∀ {k l off}, ls[k]? = some l → off < l.cvec.length → ∃ sd, At ls k off sd

theorem At.unique {ls : List Layout} {k off : Nat} {s t : Sd} (h1 : At ls k off s)
    (h2 : At ls k off t) : s = t := by
  obtain ⟨l, e1, g1⟩ := h1
  obtain ⟨l', e2, g2⟩ := h2
  rw [e1] at e2
  obtain rfl := Option.some.inj e2
  rw [g1] at g2
  exact Option.some.inj (Option.some.inj g2)

theorem layout_at {G : Graph} {n : Nat} (h : Hier G n) {ls : List Layout}
    (he : layoutAll G n = .ok ls) (T : ∀ c < n, Tame G c) {k : Nat} (hk : k < n) {sd : Sd} :
    ClassSlot G k sd ↔ ∃ off, At ls k off sd := by
  obtain ⟨l, st, X, Y, hl, hok⟩ := layout_ok h he k hk (T k hk)
  rw [← hok.yslot]
  constructor
  · intro hm
    obtain ⟨j, hj⟩ := List.getElem?_of_mem hm
    exact ⟨j, l, hl, by rw [hok.eq]; simp [hj]⟩
  · rintro ⟨j, l', e, g⟩
    rw [hl] at e
    obtain rfl := Option.some.inj e
    rw [hok.eq] at g
    simp only [List.getElem?_map, Option.map_eq_some_iff] at g
    obtain ⟨a, ha, e⟩ := g
    obtain rfl := Option.some.inj e
    exact List.mem_of_getElem? ha

theorem layout_cok {G : Graph} {n : Nat} (h : Hier G n) {ls : List Layout}
    (he : layoutAll G n = .ok ls) (T : ∀ c < n, Tame G c) : COk ls := by
  have hlen := (layoutAll_get n ls he).1
  have hget : ∀ {k l}, ls[k]? = some l → ∃ st X Y, LayoutOk G ls k l st X Y ∧ k < n := by
    intro k l hl
    have hk : k < n := by rw [← hlen]; exact (List.getElem?_eq_some_iff.mp hl).1
    obtain ⟨l', st, X, Y, hl', hok⟩ := layout_ok h he k hk (T k hk)
    rw [hl] at hl'
    obtain rfl := Option.some.inj hl'
    exact ⟨st, X, Y, hok, hk⟩
  have hY : ∀ {l : Layout} {ls k st X Y} {off : Nat} {sd : Sd}, LayoutOk G ls k l st X Y → l.cvec[off]? = some (some sd) →
      Y[off]? = some sd := by
    intro l ls k st X Y off sd hok g
    rw [hok.eq] at g
    simp only [List.getElem?_map, Option.map_eq_some_iff] at g
    obtain ⟨a, ha, e⟩ := g
    obtain rfl := Option.some.inj e
    exact ha
  refine ⟨?_, ?_, ?_, ?_⟩
  · rintro k o1 o2 sd ⟨l, e1, g1⟩ ⟨l', e2, g2⟩
    rw [e1] at e2
    obtain rfl := Option.some.inj e2
    obtain ⟨st, X, Y, hok, -⟩ := hget e1
    have y1 := hY hok g1
    have y2 := hY hok g2
    exact (List.getElem?_inj (List.getElem?_eq_some_iff.mp y1).1 hok.ynodup).mp (y1.trans y2.symm)
  · rintro k off sd ⟨l, e1, g1⟩
    obtain ⟨st, X, Y, hok, -⟩ := hget e1
    exact ⟨l, e1, hok.coffset (hY hok g1)⟩
  · rintro k off sd ⟨l, e1, g1⟩
    obtain ⟨st, X, Y, hok, hk⟩ := hget e1
    obtain ⟨a, d, ⟨ha, hd⟩, hal, rfl⟩ := (layout_at h he T hk).mpr ⟨off, l, e1, g1⟩
    have han : a < n := Nat.lt_of_le_of_lt (h.mem_lt hk ha) hk
    exact (layout_at h he T han).mp ⟨a, d, ⟨h.self_mem han, hd⟩, hal, rfl⟩
  · intro k l off hl hoff
    obtain ⟨st, X, Y, hok, -⟩ := hget hl
    rw [hok.eq] at hoff
    simp only [List.length_map] at hoff
    exact ⟨Y[off], l, hl, by rw [hok.eq]; simp [List.getElem?_eq_getElem hoff]⟩

/-! ### The invariant -/

abbrev Tab := Sd → Nat → Option Nat

/-- The storage represents the table. -/
structure CInv (ls : List Layout) (init : Tab) (s : Store) (t : Tab) : Prop where
  cell : ∀ {k off a}, s.cell k off = some a → ∃ sd, At ls k off sd ∧
    s.vals[a]? = some (t sd (home sd k)) ∧ ∃ off', At ls (home sd k) off' sd ∧ s.cell (home sd k) off' = some a
  inj : ∀ {k o a k' o' sd sd'}, s.cell k o = some a → s.cell k' o' = some a → At ls k o sd → At ls k' o' sd' →
    home sd k = k → home sd' k' = k' → sd = sd' ∧ k = k'
  fresh : ∀ {sd k off}, At ls k off sd → home sd k = k → s.cell k off = none → t sd k = init sd k

/-- Change one entry of a table. -/
def Tab.upd (t : Tab) (sd : Sd) (h : Nat) (v : Option Nat) : Tab :=
  fun sd' h' => if sd' = sd ∧ h' = h then v else t sd' h'

theorem home_home (sd : Sd) (k : Nat) : home sd (home sd k) = home sd k := by
  simp only [home]; split <;> simp_all

theorem CInv.create {ls : List Layout} (hl : COk ls) {init : Tab} {s : Store} {t : Tab}
    (h : CInv ls init s t) {k off : Nat} {sd : Sd} (ha : At ls k off sd) (hh : home sd k = k)
    (hc : s.cell k off = none) (v : Option Nat) :
    CInv ls init (({ s with vals := s.vals ++ [v] } : Store).put k off s.vals.length) (t.upd sd k v) := by
  have old : ∀ {k' off' a'}, (({ s with vals := s.vals ++ [v] } : Store).put k off s.vals.length).cell k' off' = some a' →
      (k' = k ∧ off' = off ∧ a' = s.vals.length) ∨ (s.cell k' off' = some a' ∧ a' < s.vals.length ∧ ¬ (k' = k ∧ off' = off)) := by
    intro k' off' a' e
    simp only [Store.put] at e
    split at e
    · rename_i he
      exact Or.inl ⟨he.1, he.2, (Option.some.inj e).symm⟩
    · rename_i he
      obtain ⟨sd', -, g, -⟩ := h.cell e
      exact Or.inr ⟨e, (List.getElem?_eq_some_iff.mp g).1, he⟩
  have put_old : ∀ {k' off' a'}, s.cell k' off' = some a' →
      (({ s with vals := s.vals ++ [v] } : Store).put k off s.vals.length).cell k' off' = some a' := by
    intro k' off' a' e
    simp only [Store.put]
    rw [if_neg]
    · exact e
    · rintro ⟨rfl, rfl⟩; rw [hc] at e; cases e
  refine ⟨?_, ?_, ?_⟩
  · intro k' off' a' e
    rcases old e with ⟨rfl, rfl, rfl⟩ | ⟨e', hlt, hne⟩
    · refine ⟨sd, ha, ?_, off', ?_, ?_⟩
      · simp [Store.put, Tab.upd, hh]
      · rw [hh]; exact ha
      · rw [hh]; exact e
    · obtain ⟨sd', h1, h2, off2, h3, h4⟩ := h.cell e'
      refine ⟨sd', h1, ?_, off2, h3, put_old h4⟩
      have : ¬ (sd' = sd ∧ home sd' k' = k) := by
        rintro ⟨rfl, e2⟩
        rw [e2] at h3 h4
        have := hl.uniq h3 ha
        subst this
        rw [hc] at h4; cases h4
      simp only [Store.put, Tab.upd, if_neg this]
      rw [List.getElem?_append_left hlt]
      exact h2
  · intro k1 o1 a1 k2 o2 sd1 sd2 e1 e2 a1' a2' p1 p2
    rcases old e1 with ⟨rfl, rfl, rfl⟩ | ⟨e1', l1, -⟩
    · rcases old e2 with ⟨rfl, rfl, -⟩ | ⟨e2', l2, -⟩
      · exact ⟨a1'.unique a2', rfl⟩
      · omega
    · rcases old e2 with ⟨rfl, rfl, rfl⟩ | ⟨e2', l2, -⟩
      · omega
      · exact h.inj e1' e2' a1' a2' p1 p2
  · intro sd' k' off' h1 h2 h3
    simp only [Store.put] at h3
    split at h3
    · cases h3
    · rename_i hne
      have : ¬ (sd' = sd ∧ k' = k) := by
        rintro ⟨rfl, rfl⟩
        exact hne ⟨rfl, hl.uniq h1 ha⟩
      simp only [Tab.upd, if_neg this]
      exact h.fresh h1 h2 h3

theorem CInv.alias {ls : List Layout} {init : Tab} {s : Store} {t : Tab}
    (h : CInv ls init s t) {k off off' a : Nat} {sd : Sd} (ha : At ls k off sd)
    (hh : home sd k ≠ k) (ha' : At ls (home sd k) off' sd) (hc : s.cell (home sd k) off' = some a) :
    CInv ls init (s.put k off a) t := by
  have hnone : ∀ {k' o' sd'}, At ls k' o' sd' → home sd' k' = k' → ¬ (k' = k ∧ o' = off) := by
    rintro k' o' sd' h1 h2 ⟨rfl, rfl⟩
    have := h1.unique ha
    subst this
    exact hh h2
  have hput : ∀ {k' o' sd'}, At ls k' o' sd' → home sd' k' = k' → (s.put k off a).cell k' o' = s.cell k' o' := by
    intro k' o' sd' h1 h2
    simp only [Store.put, if_neg (hnone h1 h2)]
  refine ⟨?_, ?_, ?_⟩
  · intro k1 o1 a1 e
    simp only [Store.put] at e
    split at e
    · rename_i he
      obtain ⟨rfl, rfl⟩ := he
      obtain rfl := Option.some.inj e
      refine ⟨sd, ha, ?_, off', ha', ?_⟩
      · obtain ⟨sd2, h1, h2, -⟩ := h.cell hc
        have := h1.unique ha'
        subst this
        rw [home_home] at h2
        exact h2
      · rw [hput ha' (home_home _ _)]; exact hc
    · obtain ⟨sd1, h1, h2, o2, h3, h4⟩ := h.cell e
      exact ⟨sd1, h1, h2, o2, h3, by rw [hput h3 (home_home _ _)]; exact h4⟩
  · intro k1 o1 a1 k2 o2 sd1 sd2 e1 e2 p1 p2 q1 q2
    rw [hput p1 q1] at e1
    rw [hput p2 q2] at e2
    exact h.inj e1 e2 p1 p2 q1 q2
  · intro sd' k' o' p q e
    rw [hput p q] at e
    exact h.fresh p q e

theorem CInv.write {ls : List Layout} (hl : COk ls) {init : Tab} {s : Store} {t : Tab}
    (h : CInv ls init s t) {k off a : Nat} {sd : Sd} (ha : At ls k off sd)
    (hc : s.cell k off = some a) (v : Nat) :
    CInv ls init { s with vals := s.vals.set a (some v) } (t.upd sd (home sd k) (some v)) := by
  obtain ⟨sd0, h1, h2, o1, h3, h4⟩ := h.cell hc
  have := h1.unique ha
  subst this
  have hlt := (List.getElem?_eq_some_iff.mp h2).1
  refine ⟨?_, h.inj, ?_⟩
  · intro k' off' a' e
    obtain ⟨sd', g1, g2, o2, g3, g4⟩ := h.cell e
    refine ⟨sd', g1, ?_, o2, g3, g4⟩
    by_cases haa : a = a'
    · subst haa
      obtain ⟨rfl, e2⟩ := h.inj h4 g4 h3 g3 (home_home _ _) (home_home _ _)
      simp [Tab.upd, e2, hlt]
    · have : ¬ (sd' = sd0 ∧ home sd' k' = home sd0 k) := by
        rintro ⟨rfl, e2⟩
        rw [e2] at g3 g4
        have := hl.uniq h3 g3
        subst this
        rw [h4] at g4
        exact haa (Option.some.inj g4)
      simp only [Tab.upd, if_neg this]
      rw [List.getElem?_set_ne haa]
      exact g2
  · intro sd' k' off' p q e
    have : ¬ (sd' = sd0 ∧ k' = home sd0 k) := by
      rintro ⟨rfl, rfl⟩
      have := hl.uniq h3 p
      subst this
      simp only at e
      rw [h4] at e; cases e
    simp only [Tab.upd, if_neg this]
    exact h.fresh p q e

theorem upd_self (t : Tab) (sd : Sd) (k : Nat) : t.upd sd k (t sd k) = t := by
  funext sd' k'
  simp only [Tab.upd]
  split
  · rename_i h; rw [h.1, h.2]
  · rfl

theorem upd_upd (t : Tab) (sd : Sd) (k : Nat) (v v' : Option Nat) :
    (t.upd sd k v).upd sd k v' = t.upd sd k v' := by
  funext sd' k'
  simp only [Tab.upd]
  split <;> simp_all

theorem findOrCreate_home {ls : List Layout} (hl : COk ls) {init : Tab} {s : Store} {t : Tab}
    (h : CInv ls init s t) {k off : Nat} {sd : Sd} (ha : At ls k off sd) (hh : home sd k = k)
    (n : Nat) (now : Bool) : ∃ a s' v, findOrCreate ls init (n + 1) k off now s = .ok (a, s') ∧
      CInv ls init s' (t.upd sd k v) ∧ s'.cell k off = some a ∧ (now = true → v = t sd k) := by
  obtain ⟨l, e1, g1⟩ := ha
  simp only [findOrCreate]
  cases hc : s.cell k off with
  | some a =>
    exact ⟨a, s, t sd k, rfl, by rw [upd_self]; exact h, hc, fun _ => rfl⟩
  | none =>
    simp only [e1, g1]
    have : sd.owner = k ∨ sd.alloc = .eachSubclass := by
      simp only [home] at hh
      split at hh
      · exact Or.inr ‹_›
      · exact Or.inl hh
    rw [if_pos this]
    refine ⟨_, _, _, rfl, h.create hl ⟨l, e1, g1⟩ hh hc _, ?_, ?_⟩
    · simp [Store.put]
    · intro hn
      rw [if_pos hn, h.fresh ⟨l, e1, g1⟩ hh hc]

theorem findOrCreate_ok {ls : List Layout} (hl : COk ls) {init : Tab} {s : Store} {t : Tab}
    (h : CInv ls init s t) {k off : Nat} {sd : Sd} (ha : At ls k off sd) (now : Bool) :
    ∃ a s' v, findOrCreate ls init 2 k off now s = .ok (a, s') ∧
      CInv ls init s' (t.upd sd (home sd k) v) ∧ s'.cell k off = some a ∧
      (now = true → v = t sd (home sd k)) := by
  by_cases hh : home sd k = k
  · rw [hh]
    exact findOrCreate_home hl h ha hh 1 now
  · obtain ⟨l, e1, g1⟩ := ha
    rw [findOrCreate]
    cases hc : s.cell k off with
    | some a =>
      exact ⟨a, s, t sd (home sd k), rfl, by rw [upd_self]; exact h, hc, fun _ => rfl⟩
    | none =>
      have hne : ¬ (sd.owner = k ∨ sd.alloc = .eachSubclass) := by
        intro hor
        apply hh
        simp only [home]
        split
        · rfl
        · rcases hor with hor | hor
          · exact hor
          · exact absurd hor ‹_›
      have ho : home sd k = sd.owner := by
        simp only [home]
        rw [if_neg (fun e => hne (Or.inr e))]
      obtain ⟨off', hao⟩ := hl.owner ⟨l, e1, g1⟩
      obtain ⟨lo, eo, go⟩ := hl.offset hao
      obtain ⟨a, s', v, h1, h2, h3, h4⟩ := findOrCreate_home hl h hao
        (by have := home_home sd k; rwa [ho] at this) 0 now
      simp only [e1, g1, if_neg hne, eo, go, h1]
      rw [ho]
      refine ⟨a, _, v, rfl, ?_, by simp [Store.put], h4⟩
      exact h2.alias ⟨l, e1, g1⟩ hh (by rw [ho]; exact hao) (by rw [ho]; exact h3)

theorem touchAll_ok {ls : List Layout} (hl : COk ls) {init : Tab} {t : Tab} {k : Nat} {l : Layout}
    (hk : ls[k]? = some l) : ∀ (n : Nat) (s : Store), CInv ls init s t → n ≤ l.cvec.length →
    ∃ s', touchAll ls init k n s = .ok s' ∧ CInv ls init s' t := by
  intro n
  induction n with
  | zero => intro s h _; exact ⟨s, rfl, h⟩
  | succ n ih =>
    intro s h hn
    obtain ⟨s1, e1, h1⟩ := ih s h (by omega)
    obtain ⟨sd, ha⟩ := hl.full hk (off := n) (by omega)
    obtain ⟨a, s2, v, e2, h2, -, h3⟩ := findOrCreate_ok hl h1 ha true
    refine ⟨s2, by simp only [touchAll, e1, e2], ?_⟩
    rw [h3 rfl, upd_self] at h2
    exact h2

/-- An operation names a class slot of the class. -/
def COp.valid (ls : List Layout) : COp → Prop
  | .get k sd => ∃ off, At ls k off sd
  | .set k sd _ => ∃ off, At ls k off sd
  | .new k => ∃ l, ls[k]? = some l

theorem crun_ideal {ls : List Layout} (hl : COk ls) {init : Tab} : ∀ (ops : List COp) (s : Store) (t : Tab),
    CInv ls init s t → (∀ op ∈ ops, op.valid ls) → ∃ s', crun ls init s ops = .ok (ideal t ops, s') := by
  intro ops
  induction ops with
  | nil => intro s t _ _; exact ⟨s, rfl⟩
  | cons op ops ih =>
    intro s t h hv
    have hop := hv op (by simp)
    have hv' := fun o ho => hv o (List.mem_cons_of_mem _ ho)
    cases op with
    | get k sd =>
      obtain ⟨off, ha⟩ := hop
      obtain ⟨l, e1, e2⟩ := hl.offset ha
      obtain ⟨a, s1, v, f1, f2, f3, f4⟩ := findOrCreate_ok hl h ha true
      rw [f4 rfl, upd_self] at f2
      obtain ⟨sd', g1, g2, -⟩ := f2.cell f3
      have := g1.unique ha
      subst this
      obtain ⟨s2, hs2⟩ := ih s1 t f2 hv'
      refine ⟨s2, ?_⟩
      simp only [crun, cstep, classSlotValue, classOffset, e1, e2, f1, g2, Except.map, hs2, ideal]
      rfl
    | set k sd v =>
      obtain ⟨off, ha⟩ := hop
      obtain ⟨l, e1, e2⟩ := hl.offset ha
      obtain ⟨a, s1, u, f1, f2, f3, -⟩ := findOrCreate_ok hl h ha false
      have f5 := f2.write hl ha f3 v
      rw [upd_upd] at f5
      obtain ⟨s2, hs2⟩ := ih _ _ f5 hv'
      refine ⟨s2, ?_⟩
      simp only [crun, cstep, classSlotSetter, classOffset, e1, e2, f1, Except.map, hs2, ideal]
      rfl
    | new k =>
      obtain ⟨l, e1⟩ := hop
      obtain ⟨s1, f1, f2⟩ := touchAll_ok hl e1 l.cvec.length s h (Nat.le_refl _)
      obtain ⟨s2, hs2⟩ := ih s1 t f2 hv'
      refine ⟨s2, ?_⟩
      simp only [crun, cstep, e1, f1, Except.map, hs2, ideal]
      rfl

theorem empty_inv (ls : List Layout) (init : Tab) : CInv ls init Store.empty init := by
  refine ⟨?_, ?_, ?_⟩
  · intro k off a e; cases e
  · intro k o a k' o' sd sd' e; cases e
  · intros; rfl

end Verif.Slots
