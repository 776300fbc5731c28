/-
The facts about precedence lists that hold in every world, by induction over class creation.
-/
import Verif.Class.Merge

namespace Verif.Class

/-- The precedence list recorded in the vector (the entries that are classes, downwards). -/
def Fixed.cpl (f : Fixed) : List Nat := ((f.rcpl.take (f.pos + 1)).reverse).filterMap id

theorem filterMap_map_some (l : List Nat) : (l.map some).filterMap id = l := by
  induction l with
  | nil => rfl
  | cons a l ih => simp [ih]

theorem cpl_of_rcplOf {f : Fixed} {L : List Nat} (h : f.rcpl = rcplOf L)
    (hl : L.length = f.pos + 1) : f.cpl = L := by
  unfold Fixed.cpl
  rw [h, rcplOf, ← hl, List.take_left' (by simp), ← List.map_reverse, List.reverse_reverse,
    filterMap_map_some]

theorem readUp_map : ∀ (R : List Nat) (rest : List (Option Nat)) (acc : List Nat),
    readUp (R.map some ++ rest) R.length acc = .ok (R.reverse ++ acc) := by
  intro R
  induction R with
  | nil => intro rest acc; simp [readUp]
  | cons a R ih => intro rest acc; simp [readUp, ih]

theorem allSuperclasses_eq {f : Fixed} (h : f.rcpl = rcplOf f.cpl)
    (hl : f.cpl.length = f.pos + 1) : f.allSuperclasses = .ok f.cpl := by
  unfold Fixed.allSuperclasses
  have := readUp_map f.cpl.reverse (List.replicate (minRcplSize - f.cpl.length) none) []
  rw [List.length_reverse, hl] at this
  rw [h, rcplOf, hl, this]
  simp

theorem rcplOf_get {L : List Nat} {p b : Nat} :
    (rcplOf L)[p]? = some (some b) ↔ L.reverse[p]? = some b := by
  unfold rcplOf
  by_cases hp : p < L.length
  · rw [List.getElem?_append_left (by simpa using hp), List.getElem?_map]
    cases L.reverse[p]? <;> simp
  · rw [List.getElem?_append_right (by simpa using Nat.le_of_not_lt hp),
      List.getElem?_eq_none (l := L.reverse) (by simpa using Nat.le_of_not_lt hp)]
    constructor
    · intro h
      have := List.mem_of_getElem? h
      simp [List.mem_replicate] at this
    · intro h; cases h

theorem rcplOf_length (L : List Nat) : (rcplOf L).length = max L.length minRcplSize := by
  simp only [rcplOf, List.length_append, List.length_map, List.length_reverse,
    List.length_replicate]
  omega

/-- What is known of one class. -/
structure FOk (fs : List Fixed) (k : Nat) (f : Fixed) : Prop where
  rcpl : f.rcpl = rcplOf f.cpl
  len : f.cpl.length = f.pos + 1
  head : ∃ M, f.cpl = k :: M ∧ ∀ x ∈ M, x < k
  nodup : f.cpl.Nodup
  sups : f.supers.Sublist f.cpl.tail
  inh : ∀ s ∈ f.supers, ∃ g, fs[s]? = some g ∧ g.cpl.Sublist f.cpl
  src : ∀ x ∈ f.cpl, x = k ∨ ∃ s ∈ f.supers, ∃ g, fs[s]? = some g ∧ x ∈ g.cpl
  prim : ∀ a ∈ f.cpl, ∀ b ∈ f.cpl, ∀ ga gb : Fixed, fs[a]? = some ga → fs[b]? = some gb →
    ga.primary = true → gb.primary = true → b ∈ ga.cpl ∨ a ∈ gb.cpl
  mask : ∀ i, f.mask.testBit i = true ↔
    ∃ x ∈ f.cpl, ∃ g : Fixed, fs[x]? = some g ∧ g.bit.testBit i = true

/-- What is known of all classes. -/
def FInv (fs : List Fixed) : Prop := ∀ k f, fs[k]? = some f → FOk fs k f

theorem lt_of_get {α : Type} {l : List α} {i : Nat} {a : α} (h : l[i]? = some a) : i < l.length := by
  by_contra hc
  rw [List.getElem?_eq_none (Nat.le_of_not_lt hc)] at h
  cases h

theorem get_append {fs : List Fixed} {f g : Fixed} {k : Nat} (h : fs[k]? = some g) :
    (fs ++ [f])[k]? = some g := by
  rw [List.getElem?_append_left (lt_of_get h)]
  exact h

theorem get_append_inv {fs : List Fixed} {f g : Fixed} {k : Nat} (h : (fs ++ [f])[k]? = some g) :
    fs[k]? = some g ∨ (k = fs.length ∧ g = f) := by
  by_cases hk : k < fs.length
  · rw [List.getElem?_append_left hk] at h
    exact Or.inl h
  · rw [List.getElem?_append_right (Nat.le_of_not_lt hk)] at h
    have hlt := lt_of_get h
    simp only [List.length_singleton] at hlt
    have hz : k - fs.length = 0 := by omega
    rw [hz] at h
    simp only [List.getElem?_cons_zero, Option.some.injEq] at h
    exact Or.inr ⟨by omega, h.symm⟩

theorem FOk.self_mem {fs : List Fixed} {k : Nat} {f : Fixed} (h : FOk fs k f) : k ∈ f.cpl := by
  obtain ⟨M, hM, -⟩ := h.head
  simp [hM]

theorem FOk.mem_le {fs : List Fixed} {k : Nat} {f : Fixed} (h : FOk fs k f) {x : Nat}
    (hx : x ∈ f.cpl) : x ≤ k := by
  obtain ⟨M, hM, hl⟩ := h.head
  rw [hM] at hx
  rcases List.mem_cons.mp hx with rfl | hx
  · exact Nat.le_refl _
  · exact Nat.le_of_lt (hl x hx)

theorem FOk.super_lt {fs : List Fixed} {k : Nat} {f : Fixed} (h : FOk fs k f) {s : Nat}
    (hs : s ∈ f.supers) : s < k := by
  obtain ⟨M, hM, hl⟩ := h.head
  have := h.sups.subset hs
  rw [hM] at this
  exact hl s this

theorem FOk.super_mem {fs : List Fixed} {k : Nat} {f : Fixed} (h : FOk fs k f) {s : Nat}
    (hs : s ∈ f.supers) : s ∈ f.cpl := List.mem_of_mem_tail (h.sups.subset hs)

/-- A superclass exists, and its precedence list keeps its order. -/
theorem FInv.trans {fs : List Fixed} (h : FInv fs) : ∀ (k : Nat) (f : Fixed), fs[k]? = some f →
    ∀ x ∈ f.cpl, ∃ g, fs[x]? = some g ∧ g.cpl.Sublist f.cpl := by
  intro k
  induction k using Nat.strongRecOn with
  | _ k ih =>
    intro f hf x hx
    rcases (h k f hf).src x hx with rfl | ⟨s, hs, g, hg, hxg⟩
    · exact ⟨f, hf, List.Sublist.refl _⟩
    · obtain ⟨g', hg', hsub⟩ := (h k f hf).inh s hs
      rw [hg] at hg'
      cases hg'
      obtain ⟨g2, hg2, hs2⟩ := ih s ((h k f hf).super_lt hs) g hg x hxg
      exact ⟨g2, hg2, hs2.trans hsub⟩

/-- A proper superclass is a direct superclass of a class listed before it. -/
theorem FInv.fed {fs : List Fixed} (h : FInv fs) : ∀ (k : Nat) (f : Fixed), fs[k]? = some f →
    ∀ x ∈ f.cpl, x ≠ k → ∃ y g, [y, x].Sublist f.cpl ∧ fs[y]? = some g ∧ x ∈ g.supers := by
  intro k
  induction k using Nat.strongRecOn with
  | _ k ih =>
    intro f hf x hx hxk
    rcases (h k f hf).src x hx with rfl | ⟨s, hs, g, hg, hxg⟩
    · exact absurd rfl hxk
    · by_cases hxs : x = s
      · subst hxs
        obtain ⟨M, hM, -⟩ := (h k f hf).head
        have h1 := (h k f hf).sups.subset hs
        rw [hM, List.tail_cons] at h1
        exact ⟨k, f, by rw [hM]; exact (List.singleton_sublist.mpr h1).cons_cons k, hf, hs⟩
      · obtain ⟨g', hg', hsub⟩ := (h k f hf).inh s hs
        rw [hg] at hg'
        cases hg'
        obtain ⟨y, g2, hy, hg2, hx2⟩ := ih s ((h k f hf).super_lt hs) g hg x hxg hxs
        exact ⟨y, g2, hy.trans hsub, hg2, hx2⟩

theorem before_mem : ∀ (a : List Nat) (x : Nat) (b : List Nat) (y : Nat), (a ++ x :: b).Nodup →
    [y, x].Sublist (a ++ x :: b) → y ∈ a := by
  intro a
  induction a with
  | nil =>
    intro x b y hn hs
    have hx := (List.nodup_cons.mp hn).1
    cases hs with
    | cons _ h => exact absurd (h.subset (by simp)) hx
    | cons_cons _ h => exact absurd (h.subset (by simp)) hx
  | cons c a ih =>
    intro x b y hn hs
    cases hs with
    | cons _ h => exact List.mem_cons_of_mem _ (ih x b y (List.nodup_cons.mp hn).2 h)
    | cons_cons _ h => exact List.mem_cons_self

theorem FInv.fedL {fs : List Fixed} (h : FInv fs) {k : Nat} {f : Fixed} (hf : fs[k]? = some f)
    {a : List Nat} {x : Nat} {b : List Nat} (he : f.cpl = a ++ x :: b) (hx : x ≠ k) :
    ∃ y g, y ∈ a ∧ fs[y]? = some g ∧ x ∈ g.supers := by
  obtain ⟨y, g, hy, hg, hxg⟩ := h.fed k f hf x (by rw [he]; simp) hx
  have hn := (h k f hf).nodup
  rw [he] at hn hy
  exact ⟨y, g, before_mem a x b y hn hy, hg, hxg⟩

/-! ### Positions -/

theorem reverse_split {L : List Nat} {p b : Nat} (h : L.reverse[p]? = some b) :
    ∃ a t, L = a ++ b :: t ∧ t.length = p := by
  have hlt := lt_of_get h
  have hb : L.reverse[p] = b := by
    have := List.getElem?_eq_getElem hlt
    rw [this] at h
    exact Option.some.inj h
  have h1 : L.reverse = L.reverse.take p ++ b :: L.reverse.drop (p + 1) := by
    rw [← hb]
    exact (List.take_append_drop p L.reverse).symm.trans
      (congrArg _ (List.drop_eq_getElem_cons hlt))
  refine ⟨(L.reverse.drop (p + 1)).reverse, (L.reverse.take p).reverse, ?_, ?_⟩
  · have h2 := congrArg List.reverse h1
    rw [List.reverse_reverse, List.reverse_append, List.reverse_cons] at h2
    simpa using h2
  · simp only [List.length_reverse, List.length_take]
    simp only [List.length_reverse] at hlt
    omega

theorem sublist_skip : ∀ (a : List Nat) (b : Nat) (tb t : List Nat), b ∉ a →
    (b :: tb).Sublist (a ++ b :: t) → tb.length ≤ t.length := by
  intro a
  induction a with
  | nil =>
    intro b tb t _ h
    have := h.length_le
    simpa using this
  | cons c a ih =>
    intro b tb t hb h
    simp only [List.mem_cons, not_or] at hb
    cases h with
    | cons _ h => exact ih b tb t hb.2 h
    | cons_cons _ h => exact absurd rfl hb.1

/-- The position of a class in the vector of a subclass is at least its own. -/
theorem FInv.pos_le {fs : List Fixed} (h : FInv fs) {k b p : Nat} {f g : Fixed}
    (hf : fs[k]? = some f) (hp : f.rcpl[p]? = some (some b)) (hg : fs[b]? = some g) :
    g.pos ≤ p := by
  rw [(h k f hf).rcpl, rcplOf_get] at hp
  obtain ⟨a, t, he, ht⟩ := reverse_split hp
  obtain ⟨g', hg', hs⟩ := h.trans k f hf b (by rw [he]; simp)
  rw [hg] at hg'
  cases hg'
  obtain ⟨M, hM, -⟩ := (h b g hg).head
  have hn := (h k f hf).nodup
  have hl := (h b g hg).len
  rw [he] at hn hs
  rw [hM] at hs hl
  have hba : b ∉ a := fun hm => (List.nodup_append.mp hn).2.2 b hm b (by simp) rfl
  have := sublist_skip a b M t hba hs
  simp only [List.length_cons] at hl
  omega

/-- The classes in the vector are those of the precedence list. -/
theorem FInv.mem_rcpl {fs : List Fixed} (h : FInv fs) {k b : Nat} {f : Fixed}
    (hf : fs[k]? = some f) : b ∈ f.cpl ↔ ∃ p : Nat, f.rcpl[p]? = some (some b) := by
  rw [(h k f hf).rcpl]
  constructor
  · intro hb
    obtain ⟨p, hp⟩ := List.getElem?_of_mem (List.mem_reverse.mpr hb)
    exact ⟨p, rcplOf_get.mpr hp⟩
  · rintro ⟨p, hp⟩
    rw [rcplOf_get] at hp
    exact List.mem_reverse.mp (List.mem_of_getElem? hp)

/-! ### Adding a class -/

theorem FOk.mono {fs : List Fixed} (h : FInv fs) {k : Nat} {f : Fixed} (hf : fs[k]? = some f)
    (n : Fixed) : FOk (fs ++ [n]) k f := by
  have hk := h k f hf
  refine ⟨hk.rcpl, hk.len, hk.head, hk.nodup, hk.sups, ?_, ?_, ?_, ?_⟩
  · intro s hs
    obtain ⟨g, hg, hsub⟩ := hk.inh s hs
    exact ⟨g, get_append hg, hsub⟩
  · intro x hx
    rcases hk.src x hx with e | ⟨s, hs, g, hg, hxg⟩
    · exact Or.inl e
    · exact Or.inr ⟨s, hs, g, get_append hg, hxg⟩
  · intro a ha b hb ga gb hga hgb pa pb
    obtain ⟨ga', hga', -⟩ := h.trans k f hf a ha
    obtain ⟨gb', hgb', -⟩ := h.trans k f hf b hb
    rw [get_append hga'] at hga
    rw [get_append hgb'] at hgb
    cases hga
    cases hgb
    exact hk.prim a ha b hb _ _ hga' hgb' pa pb
  · intro i
    rw [hk.mask i]
    constructor
    · rintro ⟨x, hx, g, hg, hb⟩
      exact ⟨x, hx, g, get_append hg, hb⟩
    · rintro ⟨x, hx, g, hg, hb⟩
      obtain ⟨g', hg', -⟩ := h.trans k f hf x hx
      rw [get_append hg'] at hg
      cases hg
      exact ⟨x, hx, _, hg', hb⟩

/-- The precedence lists of the direct superclasses. -/
abbrev CplsOf (fs : List Fixed) (sups : List Nat) (cpls : List (List Nat)) : Prop :=
  List.Forall₂ (fun s l => ∃ g, fs[s]? = some g ∧ g.cpl = l) sups cpls

theorem CplsOf.of_mem {fs : List Fixed} {sups : List Nat} {cpls : List (List Nat)}
    (h : CplsOf fs sups cpls) : (∀ s ∈ sups, ∃ g, fs[s]? = some g ∧ g.cpl ∈ cpls) ∧
      ∀ l ∈ cpls, ∃ s ∈ sups, ∃ g, fs[s]? = some g ∧ g.cpl = l := by
  induction h with
  | nil => simp
  | cons hd _ ih =>
    obtain ⟨g, hg, hl⟩ := hd
    constructor
    · intro s hs
      rcases List.mem_cons.mp hs with rfl | hs
      · exact ⟨g, hg, by simp [hl]⟩
      · obtain ⟨g', hg', hm⟩ := ih.1 s hs
        exact ⟨g', hg', List.mem_cons_of_mem _ hm⟩
    · intro l hl'
      rcases List.mem_cons.mp hl' with rfl | hl'
      · exact ⟨_, List.mem_cons_self, g, hg, hl⟩
      · obtain ⟨s, hs, r⟩ := ih.2 l hl'
        exact ⟨s, List.mem_cons_of_mem _ hs, r⟩

theorem FInv.append {fs : List Fixed} (h : FInv fs) {f : Fixed} {M : List Nat}
    {cpls : List (List Nat)} (hcpl : f.cpl = fs.length :: M) (hr : f.rcpl = rcplOf f.cpl)
    (hl : f.cpl.length = f.pos + 1) (hc : CplsOf fs f.supers cpls)
    (hM : Merged (cpls ++ [f.supers]) M)
    (hprim : ∀ a ∈ M, ∀ b ∈ M, ∀ ga gb : Fixed, fs[a]? = some ga → fs[b]? = some gb →
      ga.primary = true → gb.primary = true → b ∈ ga.cpl ∨ a ∈ gb.cpl)
    (hmask : ∀ i, f.mask.testBit i = true ↔
      f.bit.testBit i = true ∨ ∃ x ∈ M, ∃ g : Fixed, fs[x]? = some g ∧ g.mask.testBit i = true) :
    FInv (fs ++ [f]) := by
  have hMlt : ∀ x ∈ M, ∃ g, fs[x]? = some g ∧ g.cpl.Sublist M := by
    intro x hx
    have key : ∀ s ∈ f.supers, ∀ g, fs[s]? = some g → x ∈ g.cpl →
        ∃ g, fs[x]? = some g ∧ g.cpl.Sublist M := by
      intro s hs g hg hxg
      obtain ⟨g', hg', hmem⟩ := hc.of_mem.1 s hs
      rw [hg] at hg'
      cases hg'
      obtain ⟨g2, hg2, hs2⟩ := h.trans s g hg x hxg
      exact ⟨g2, hg2, hs2.trans (hM.sub _ (List.mem_append_left _ hmem))⟩
    obtain ⟨l, hl, hxl⟩ := hM.src x hx
    rcases List.mem_append.mp hl with hl | hl
    · obtain ⟨s, hs, g, hg, rfl⟩ := hc.of_mem.2 l hl
      exact key s hs g hg hxl
    · rw [List.mem_singleton] at hl
      subst hl
      obtain ⟨g, hg, -⟩ := hc.of_mem.1 x hxl
      exact key x hxl g hg (h x g hg).self_mem
  have hself : (fs ++ [f])[fs.length]? = some f := by simp
  have hlt : ∀ x ∈ M, x < fs.length := fun x hx => by
    obtain ⟨g, hg, -⟩ := hMlt x hx
    exact lt_of_get hg
  intro k f' hf'
  rcases get_append_inv hf' with hk | ⟨rfl, rfl⟩
  · exact FOk.mono h hk f
  · refine ⟨hr, hl, ⟨M, hcpl, hlt⟩, ?_, ?_, ?_, ?_, ?_, ?_⟩
    · rw [hcpl]
      exact List.nodup_cons.mpr ⟨fun hm => absurd (hlt _ hm) (Nat.lt_irrefl _), hM.nodup⟩
    · rw [hcpl]
      exact hM.sub _ (by simp)
    · intro s hs
      obtain ⟨g, hg, hmem⟩ := hc.of_mem.1 s hs
      refine ⟨g, get_append hg, ?_⟩
      rw [hcpl]
      exact (hM.sub _ (List.mem_append_left _ hmem)).cons _
    · intro x hx
      rw [hcpl] at hx
      rcases List.mem_cons.mp hx with rfl | hx
      · exact Or.inl rfl
      · obtain ⟨l, hl, hxl⟩ := hM.src x hx
        rcases List.mem_append.mp hl with hl | hl
        · obtain ⟨s, hs, g, hg, rfl⟩ := hc.of_mem.2 l hl
          exact Or.inr ⟨s, hs, g, get_append hg, hxl⟩
        · rw [List.mem_singleton] at hl
          subst hl
          obtain ⟨g, hg, -⟩ := hc.of_mem.1 x hxl
          exact Or.inr ⟨x, hxl, g, get_append hg, (h x g hg).self_mem⟩
    · intro a ha b hb ga gb hga hgb pa pb
      rw [hcpl] at ha hb
      rcases List.mem_cons.mp ha with rfl | ha
      · rw [hself] at hga
        cases hga
        exact Or.inl (by rw [hcpl]; exact hb)
      · rcases List.mem_cons.mp hb with rfl | hb
        · rw [hself] at hgb
          cases hgb
          exact Or.inr (by rw [hcpl]; exact List.mem_cons_of_mem _ ha)
        · obtain ⟨ga', hga', -⟩ := hMlt a ha
          obtain ⟨gb', hgb', -⟩ := hMlt b hb
          rw [get_append hga'] at hga
          rw [get_append hgb'] at hgb
          cases hga
          cases hgb
          exact hprim a ha b hb _ _ hga' hgb' pa pb
    · intro i
      rw [hmask i, hcpl]
      constructor
      · rintro (hb | ⟨x, hx, g, hg, hb⟩)
        · exact ⟨_, List.mem_cons_self, f', hself, hb⟩
        · obtain ⟨y, hy, g2, hg2, hb2⟩ := ((h x g hg).mask i).mp hb
          obtain ⟨g', hg', hsub⟩ := hMlt x hx
          rw [hg] at hg'
          cases hg'
          exact ⟨y, List.mem_cons_of_mem _ (hsub.subset hy), g2, get_append hg2, hb2⟩
      · rintro ⟨x, hx, g, hg, hb⟩
        rcases List.mem_cons.mp hx with rfl | hx
        · rw [hself] at hg
          cases hg
          exact Or.inl hb
        · obtain ⟨g', hg', -⟩ := hMlt x hx
          rw [get_append hg'] at hg
          cases hg
          exact Or.inr ⟨x, hx, _, hg', ((h x _ hg').mask i).mpr ⟨x, (h x _ hg').self_mem, _, hg', hb⟩⟩

end Verif.Class
