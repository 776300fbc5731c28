import Verif.Conc.Lin
import Verif.Table.Ops

/-! # Helper lemmas for concurrent tables: the entries of a vector, one step of a rehash -/

namespace Verif.Conc

open Verif.Table

variable {K V : Type} {W : World K}

/-- An entry as a whole. -/
def slotOf : KeyS K → ValS V → Slot K V
  | .empty, _ => .empty
  | .deleted, _ => .deleted none
  | .key k, .val v => .full k v
  | .key _, _ => .deleted none

/-- A key comes with a value. -/
def Paired (k : KeyS K) (x : ValS V) : Prop := ∀ a, k = .key a → ∃ v, x = .val v

/-- The entries. -/
def comb (keys : Nat → KeyS K) (vals : Nat → ValS V) (i : Nat) : Slot K V := slotOf (keys i) (vals i)

theorem slotOf_full {x : KeyS K} {y : ValS V} {k : K} {v : V} :
    slotOf x y = .full k v ↔ x = .key k ∧ y = .val v := by
  cases x <;> cases y <;> simp [slotOf]

theorem comb_full {keys : Nat → KeyS K} {vals : Nat → ValS V} {i : Nat} {k : K} {v : V} :
    comb keys vals i = .full k v ↔ keys i = .key k ∧ vals i = .val v := slotOf_full

theorem isFound_slotOf {x : KeyS K} {y : ValS V} : isFound (slotOf x y) = true ↔ x ≠ .empty := by
  cases x <;> cases y <;> simp [slotOf, isFound]

theorem comb_key_empty {keys : Nat → KeyS K} {vals : Nat → ValS V} {j : Nat} :
    comb (Function.update keys j .empty) vals = Function.update (comb keys vals) j .empty := by
  funext i
  by_cases h : i = j
  · subst h; simp [comb, slotOf]
  · simp [comb, Function.update_of_ne h]

theorem comb_key_deleted {keys : Nat → KeyS K} {vals : Nat → ValS V} {j : Nat} :
    comb (Function.update keys j .deleted) vals = Function.update (comb keys vals) j (.deleted none) := by
  funext i
  by_cases h : i = j
  · subst h; simp [comb, slotOf]
  · simp [comb, Function.update_of_ne h]

theorem comb_key {keys : Nat → KeyS K} {vals : Nat → ValS V} {j : Nat} {k : K} {v : V}
    (h : vals j = .val v) :
    comb (Function.update keys j (.key k)) vals = Function.update (comb keys vals) j (.full k v) := by
  funext i
  by_cases h : i = j
  · subst h; simp [comb, slotOf, h]
  · simp [comb, Function.update_of_ne h]

/-- A value whose entry has no key is not part of an entry. -/
theorem comb_val_nokey {keys : Nat → KeyS K} {vals : Nat → ValS V} {j : Nat} {x : ValS V}
    (h : ∀ k, keys j ≠ .key k) : comb keys (Function.update vals j x) = comb keys vals := by
  funext i
  by_cases hi : i = j
  · subst hi
    simp only [comb, Function.update_self]
    cases hk : keys i with
    | empty => rfl
    | deleted => rfl
    | key k => exact absurd hk (h k)
  · simp [comb, Function.update_of_ne hi]

theorem comb_val_key {keys : Nat → KeyS K} {vals : Nat → ValS V} {j : Nat} {k : K} {v : V}
    (h : keys j = .key k) :
    comb keys (Function.update vals j (.val v)) = Function.update (comb keys vals) j (.full k v) := by
  funext i
  by_cases hi : i = j
  · subst hi; simp [comb, slotOf, h]
  · simp [comb, Function.update_of_ne hi]

theorem comb_both {keys : Nat → KeyS K} {vals : Nat → ValS V} {j : Nat} {k : K} {v : V} :
    comb (Function.update keys j (.key k)) (Function.update vals j (.val v))
      = Function.update (comb keys vals) j (.full k v) := by
  funext i
  by_cases hi : i = j
  · subst hi; simp [comb, slotOf]
  · simp [comb, Function.update_of_ne hi]

/-! ### the entries of the current vector -/

/-- What the entries of the current vector satisfy when no rehash in place is going on. -/
structure Core (W : World K) (c : Nat) (slots : Nat → Slot K V) (deps : List (K × Nat)) (time : Nat)
    (m : K → Option V) : Prop where
  uniq : Uniq W slots c
  placed : ∀ i k v, i < c → slots i = .full k v →
    ∃ s, (Static W ∨ (k, s) ∈ deps) ∧ s < time ∧ Placed slots c (W.hash s k) i
  rep : ∀ k v, m k = some v ↔ ∃ k', Has slots c k' v ∧ W.eq k k' = true

theorem Core.later {c : Nat} {slots : Nat → Slot K V} {deps deps' : List (K × Nat)}
    {time time' : Nat} {m : K → Option V} (h : Core W c slots deps time m) (ht : time ≤ time')
    (hd : ∀ d ∈ deps, d ∈ deps') : Core W c slots deps' time' m := by
  refine ⟨h.uniq, ?_, h.rep⟩
  intro i k v hi e
  obtain ⟨s, h1, h2, h3⟩ := h.placed i k v hi e
  exact ⟨s, h1.imp id (hd _), by omega, h3⟩

theorem Core.add (hW : W.Lawful) {c : Nat} {slots : Nat → Slot K V} {deps : List (K × Nat)}
    {time : Nat} {m : K → Option V} (h : Core W c slots deps time m) {j : Nat} {key : K} {v : V}
    {s : Nat} (hj : j < c) (he : slots j = .empty) (hd : Static W ∨ (key, s) ∈ deps) (hs : s < time)
    (hp : Placed slots c (W.hash s key) j) (hab : m key = none) :
    Core W c (Function.update slots j (.full key v)) deps time (mapPut W.eq m key v) := by
  have hab' : ∀ i k v, i < c → slots i = .full k v → W.eq key k = false := by
    intro i k v hi e
    cases hq : W.eq key k with
    | false => rfl
    | true =>
      have := (h.rep key v).2 ⟨k, ⟨i, hi, e⟩, hq⟩
      rw [hab] at this; cases this
  refine ⟨upd_uniq hW h.uniq fun i k v' hi _ e => hab' i k v' hi e, ?_, ?_⟩
  · intro i k v' hi e
    by_cases hij : i = j
    · subst hij
      rw [Function.update_self] at e
      cases e
      exact ⟨s, hd, hs, hp.mono fun _ ha => isFound_update rfl ha⟩
    · rw [Function.update_of_ne hij] at e
      obtain ⟨s', a, b, d⟩ := h.placed i k v' hi e
      exact ⟨s', a, b, d.mono fun _ ha => isFound_update rfl ha⟩
  · intro k v'
    have hup := upd_has (slots := slots) hj (k0 := key) (v0 := v) (by rw [he]; rfl)
    unfold mapPut
    by_cases hk : W.eq k key = true
    · rw [if_pos hk]
      constructor
      · intro e; cases e
        exact ⟨key, (hup key v).2 (Or.inr ⟨rfl, rfl⟩), hk⟩
      · rintro ⟨k', a, b⟩
        rcases (hup k' v').1 a with ⟨i, hi, e⟩ | ⟨_, e⟩
        · have := hab' i k' v' hi e
          rw [hW.trans _ _ _ (hW.symm _ _ hk) b] at this
          cases this
        · rw [e]
    · rw [if_neg hk, h.rep k v']
      constructor
      · rintro ⟨k', a, b⟩
        exact ⟨k', (hup k' v').2 (Or.inl a), b⟩
      · rintro ⟨k', a, b⟩
        rcases (hup k' v').1 a with a | ⟨e, _⟩
        · exact ⟨k', a, b⟩
        · subst e; exact absurd b hk

theorem Core.set (hW : W.Lawful) {c : Nat} {slots : Nat → Slot K V} {deps : List (K × Nat)}
    {time : Nat} {m : K → Option V} (h : Core W c slots deps time m) {j : Nat} {key k : K} {v0 v : V}
    (hj : j < c) (he : slots j = .full k v0) (hk : W.eq key k = true) :
    Core W c (Function.update slots j (.full k v)) deps time (mapPut W.eq m key v) := by
  refine ⟨?_, ?_, ?_⟩
  · refine upd_uniq hW h.uniq fun i k' v' hi hij e => ?_
    cases hq : W.eq k k' with
    | false => rfl
    | true => exact absurd (h.uniq j i k v0 k' v' hj hi he e hq) (fun e => hij e.symm)
  · intro i k' v' hi e
    by_cases hij : i = j
    · subst hij
      rw [Function.update_self] at e
      cases e
      obtain ⟨s', a, b, d⟩ := h.placed i k v0 hi he
      exact ⟨s', a, b, d.mono fun _ ha => isFound_update rfl ha⟩
    · rw [Function.update_of_ne hij] at e
      obtain ⟨s', a, b, d⟩ := h.placed i k' v' hi e
      exact ⟨s', a, b, d.mono fun _ ha => isFound_update rfl ha⟩
  · have h0 : Rep W ({ (mkTV c : TV K V) with slots := slots }) m := h.rep
    exact Rep.set hW h0 h.uniq hj he hk (v := v)

theorem Core.remove (hW : W.Lawful) {c : Nat} {slots : Nat → Slot K V} {deps : List (K × Nat)}
    {time : Nat} {m : K → Option V} (h : Core W c slots deps time m) {j : Nat} {key k : K} {v0 : V}
    (hj : j < c) (he : slots j = .full k v0) (hk : W.eq key k = true) :
    Core W c (Function.update slots j (.deleted none)) deps time (mapRemove W.eq m key) := by
  refine ⟨upd_uniq' rfl h.uniq, ?_, ?_⟩
  · intro i k' v' hi e
    by_cases hij : i = j
    · subst hij
      rw [Function.update_self] at e
      cases e
    · rw [Function.update_of_ne hij] at e
      obtain ⟨s', a, b, d⟩ := h.placed i k' v' hi e
      exact ⟨s', a, b, d.mono fun _ ha => isFound_update rfl ha⟩
  · have h0 : Rep W ({ (mkTV c : TV K V) with slots := slots }) m := h.rep
    exact Rep.remove hW h0 h.uniq hj he hk

/-! ### one step of a rehash in place -/

theorem probe_reach {stop : Nat → Bool} {c : Nat} (hc : Good c) {id : Int} {j : Nat}
    (h : probe stop c (secondaryStride id) c (primaryIndex id c) = some j) :
    j < c ∧ stop j = true ∧ Reach (fun i => stop i = false) c id j := by
  obtain ⟨n, h1, h2, h3, h4⟩ := probe_some h
  refine ⟨?_, h3, n, h1, h2, h4⟩
  have : walk c id n = j := h2
  rw [← this]
  exact walk_lt hc id n

theorem iterNext_lt {c : Nat} (hc : Good c) {i : Nat} (hi : i < c) (id : Int) :
    nextIndex c (secondaryStride id) i < c := by
  have hs := stride_bounds (stride_mem id)
  have := hc.2
  have h1 := iter_eq (c := c) (s := secondaryStride id) (by omega) hi 1
  have h2 : (nextIndex c (secondaryStride id))^[1] i = nextIndex c (secondaryStride id) i := rfl
  rw [← h2, h1]
  exact Nat.mod_lt _ (by omega)

theorem probe_congr_from {f g : Nat → Bool} {c : Nat} (hc : Good c) {id : Int} (hfg : ∀ a, a < c → f a = g a) (n : Nat) :
    ∀ {i : Nat}, i < c → probe f c (secondaryStride id) n i = probe g c (secondaryStride id) n i := by
  induction n with
  | zero => intro i _; rfl
  | succ n ih =>
    intro i hi
    unfold probe
    rw [hfg i hi, ih (iterNext_lt hc hi id)]

theorem probe_congr {f g : Nat → Bool} {c : Nat} (hc : Good c) {id : Int} (hfg : ∀ a, a < c → f a = g a) {n : Nat} :
    probe f c (secondaryStride id) n (primaryIndex id c) = probe g c (secondaryStride id) n (primaryIndex id c) := by
  apply probe_congr_from hc hfg
  have := walk_lt hc id 0
  simpa [walk] using this

theorem insertAt_comb {keys : Nat → KeyS K} {vals : Nat → ValS V} {bits : Nat → Bool} {j : Nat}
    (h : Paired (keys j) (vals j)) :
    insertAt (bits j) (keys j) = insertStop (comb keys vals) bits j := by
  unfold insertStop comb
  cases hk : keys j with
  | empty => rfl
  | deleted => rfl
  | key k => obtain ⟨v, hv⟩ := h k hk; rw [hv]; rfl

theorem ip_later {c P n : Nat} {H : K → V → Prop} {w : Table.Work K V} {hand : Slot K V} {t : Nat}
    (h : IPInv W c 0 P H n w hand) (ht : w.now ≤ t) : IPInv W c 0 P H n { w with now := t } hand :=
  { h with
    time := fun d hd => ⟨Nat.zero_le _, Nat.lt_of_lt_of_le (h.time d hd).2 ht⟩
    later := Nat.zero_le _ }

/-- `storenext` stores the entry in hand at the insertion point. -/
theorem ip_store (hW : W.Lawful) {c : Nat} (hc : Good c) {P n : Nat} {H : K → V → Prop}
    {w : Table.Work K V} {k : K} {v : V} {j t : Nat} (h : IPInv W c 0 P H n w (.full k v))
    (h1 : probe (insertStop w.slots w.bits) c (secondaryStride (W.hash t k)) c
      (primaryIndex (W.hash t k) c) = some j) (ht : t < w.now) :
    j < c ∧ IPInv W c 0 P H n { slots := Function.update w.slots j (.full k v), bits := Function.update w.bits j true, deps := (k, t) :: w.deps, cnt := w.cnt + 1, now := w.now } (w.slots j) := by
  have htot := h.tot
  have e1 : isEntry (Slot.full k v) = true := rfl
  rw [e1, if_pos rfl] at htot
  obtain ⟨h2, h3, h4⟩ := probe_reach hc h1
  refine ⟨h2, ?_⟩
  have hjb : w.bits j = false := by
    cases hb : w.bits j with
    | false => rfl
    | true =>
      obtain ⟨k', v', s, e, _⟩ := h.bit j h2 hb
      unfold insertStop at h3
      rw [e] at h3
      simp [hb] at h3
  have hpath : Reach (fun i => w.bits i = true) c (W.hash t k) j := by
    apply h4.mono
    intro i hi
    unfold insertStop at hi
    cases hs : w.slots i with
    | empty => rw [hs] at hi; cases hi
    | deleted o => rw [hs] at hi; cases hi
    | full k' v' => rw [hs] at hi; simpa using hi
  have hmono : ∀ i, w.bits i = true → Function.update w.bits j true i = true := by
    intro i hi
    by_cases hij : i = j
    · rw [hij, Function.update_self]
    · rwa [Function.update_of_ne hij]
  have hcntb : cnt (Function.update w.bits j true) c = cnt w.bits c + 1 := by
    have := cnt_upd (p := Function.update w.bits j true) (q := w.bits) h2
      (fun i hi => Function.update_of_ne hi ..)
    rw [hjb, Function.update_self] at this
    simpa using this
  refine ⟨?_, ?_, ?_, ?_, ?_, ?_, ?_, ?_, ?_⟩
  · intro i hi hb
    by_cases hij : i = j
    · subst hij
      refine ⟨k, v, t, by simp, by simp, hpath.mono ?_⟩
      intro a ha
      exact hmono a ha
    · simp only [Function.update_of_ne hij] at hb ⊢
      obtain ⟨k', v', s, e, e2, e3⟩ := h.bit i hi hb
      exact ⟨k', v', s, e, by simp [e2], e3.mono hmono⟩
  · intro i hi hni hb
    by_cases hij : i = j
    · subst hij; simp at hb
    · simp only [Function.update_of_ne hij] at hb ⊢
      exact h.done i hi hni hb
  · simp only [hcntb, h.cntb]
  · intro k' v'
    rw [h.has]
    constructor
    · rintro (⟨i, hi, e⟩ | e)
      · by_cases hij : i = j
        · subst hij; exact Or.inr e
        · exact Or.inl ⟨i, hi, by simp only [Function.update_of_ne hij]; exact e⟩
      · cases e
        exact Or.inl ⟨j, h2, by simp⟩
    · rintro (⟨i, hi, e⟩ | e)
      · by_cases hij : i = j
        · subst hij
          simp only [Function.update_self] at e
          cases e
          exact Or.inr rfl
        · simp only [Function.update_of_ne hij] at e
          exact Or.inl ⟨i, hi, e⟩
      · exact Or.inl ⟨j, h2, e⟩
  · exact upd_uniq hW h.uniq (fun i k' v' hi _ e => h.huniq k v rfl i k' v' hi e)
  · intro k1 v1 e1 i k' v' hi e
    by_cases hij : i = j
    · subst hij
      simp only [Function.update_self] at e
      cases e
      cases hq : W.eq k1 k with
      | false => rfl
      | true =>
        have := h.huniq k v rfl i k1 v1 hi e1
        rw [hW.symm _ _ hq] at this
        cases this
    · simp only [Function.update_of_ne hij] at e
      cases hq : W.eq k1 k' with
      | false => rfl
      | true =>
        exact absurd (h.uniq j i k1 v1 k' v' h2 hi e1 e hq) (fun e => hij e.symm)
  · have := upd_cnt isEntry (slots := w.slots) h2 (.full k v)
    rw [e1, if_pos rfl] at this
    simp only
    omega
  · intro d hd
    rcases List.mem_cons.1 hd with e | e
    · subst e; exact ⟨Nat.zero_le _, ht⟩
    · exact h.time d e
  · exact Nat.zero_le _

/-- The loop of `rehash-in-place` passes over an entry that has been rehashed. -/
theorem ip_skip {c P n : Nat} {H : K → V → Prop} {w : Table.Work K V}
    (h : IPInv W c 0 P H (n + 1) w .empty) (hb : w.bits n = true) : IPInv W c 0 P H n w .empty := by
  refine { h with done := ?_ }
  intro i hi hni hbi
  by_cases e : i = n
  · subst e; rw [hb] at hbi; cases hbi
  · exact h.done i hi (by omega) hbi

/-- The loop of `rehash-in-place` takes an entry in hand. -/
theorem ip_take {c P n : Nat} {H : K → V → Prop} {w : Table.Work K V} (hn : n < c)
    (h : IPInv W c 0 P H (n + 1) w .empty) (hbf : w.bits n = false) :
    IPInv W c 0 P H n { w with slots := Function.update w.slots n .empty } (w.slots n) := by
  refine ⟨?_, ?_, h.cntb, ?_, ?_, ?_, ?_, h.time, h.later⟩
  · intro i hi hbi
    have hin : i ≠ n := by rintro rfl; rw [hbf] at hbi; cases hbi
    simp only [Function.update_of_ne hin]
    exact h.bit i hi hbi
  · intro i hi hni hbi
    by_cases e : i = n
    · subst e; simp
    · simp only [Function.update_of_ne e]
      exact h.done i hi (by omega) hbi
  · intro k v
    rw [h.has]
    constructor
    · rintro (⟨i, hi, e⟩ | e)
      · by_cases hin : i = n
        · subst hin; exact Or.inr e
        · exact Or.inl ⟨i, hi, by simp only [Function.update_of_ne hin]; exact e⟩
      · cases e
    · rintro (⟨i, hi, e⟩ | e)
      · by_cases hin : i = n
        · subst hin; simp at e
        · simp only [Function.update_of_ne hin] at e
          exact Or.inl ⟨i, hi, e⟩
      · exact Or.inl ⟨n, hn, e⟩
  · exact upd_uniq' rfl h.uniq
  · intro k v e i k' v' hi e'
    by_cases hin : i = n
    · subst hin; simp at e'
    · simp only [Function.update_of_ne hin] at e'
      cases hq : W.eq k k' with
      | false => rfl
      | true => exact absurd (h.uniq n i k v k' v' hn hi e e' hq) (fun e => hin e.symm)
  · have := upd_cnt isEntry (slots := w.slots) hn .empty
    have htot := h.tot
    have e1 : isEntry (Slot.empty : Slot K V) = false := rfl
    rw [e1] at this htot
    simp at this htot
    simp only
    omega

/-- A rehash in place begins. -/
theorem ip_init {c time : Nat} {slots : Nat → Slot K V} (hu : Uniq W slots c) :
    IPInv W c 0 (cnt (fun i => isEntry (slots i)) c) (fun k v => Has slots c k v) c
      { slots, bits := fun _ => false, deps := [], cnt := 0, now := time } .empty :=
  { bit := by intro i _ hb; cases hb
    done := by intro i h1 h2; omega
    cntb := by simp [cnt_false]
    has := by
      intro k v
      constructor
      · exact Or.inl
      · rintro (a | a)
        · exact a
        · cases a
    uniq := hu
    huniq := by intro k v e; cases e
    tot := by simp [isEntry]
    time := by intro d hd; cases hd
    later := Nat.zero_le _ }

/-- A rehash in place ends. -/
theorem ip_final {c P : Nat} (hc : Good c) {H : K → V → Prop} {w : Table.Work K V} {m : K → Option V}
    (h : IPInv W c 0 P H 0 w .empty) (hr : ∀ k v, m k = some v ↔ ∃ k', H k' v ∧ W.eq k k' = true) :
    Core W c w.slots w.deps w.now m ∧ ∀ i, i < c → isDeleted (w.slots i) = false := by
  have hslot : ∀ i, i < c → isEntry (w.slots i) = w.bits i ∧
      isFound (w.slots i) = w.bits i ∧ isDeleted (w.slots i) = false := by
    intro i hi
    cases hb : w.bits i with
    | true =>
      obtain ⟨k, v, s, e1, _⟩ := h.bit i hi hb
      rw [e1]
      exact ⟨rfl, rfl, rfl⟩
    | false =>
      rw [h.done i hi (by omega) hb]
      exact ⟨rfl, rfl, rfl⟩
  refine ⟨⟨h.uniq, ?_, ?_⟩, fun i hi => (hslot i hi).2.2⟩
  · intro i k v hi e1
    have hb : w.bits i = true := by rw [← (hslot i hi).1, e1]; rfl
    obtain ⟨k', v', s, e2, e3, e4⟩ := h.bit i hi hb
    rw [e1] at e2
    cases e2
    refine ⟨s, Or.inr e3, (h.time _ e3).2, ?_⟩
    obtain ⟨n, n1, n2, n3⟩ := e4
    refine ⟨n, n1, n2, fun m hm => ?_⟩
    show isFound (w.slots _) = true
    rw [(hslot _ (walk_lt hc _ _)).2.1]
    exact n3 m hm
  · intro k v
    rw [hr k v]
    constructor
    · rintro ⟨k', a, b⟩
      rcases (h.has k' v).1 a with a | a
      · exact ⟨k', a, b⟩
      · cases a
    · rintro ⟨k', a, b⟩
      exact ⟨k', (h.has k' v).2 (Or.inl a), b⟩

/-! ### one step of a rehash into a copy -/

theorem stopAt_comb {keys : Nat → KeyS K} {vals : Nat → ValS V} {key : K} {j : Nat}
    (h : Paired (keys j) (vals j)) : stopAt W key (keys j) = searchStop W (comb keys vals) key j := by
  unfold searchStop comb
  cases hk : keys j with
  | empty => rfl
  | deleted => rfl
  | key k => obtain ⟨v, hv⟩ := h k hk; rw [hv]; rfl

theorem cp_later {src : Nat → Slot K V} {sc dc n : Nat} {w : Table.Work K V} {t : Nat}
    (h : CPInv W src sc dc 0 n w) (ht : w.now ≤ t) : CPInv W src sc dc 0 n { w with now := t } :=
  { h with
    time := fun d hd => ⟨Nat.zero_le _, Nat.lt_of_lt_of_le (h.time d hd).2 ht⟩
    later := Nat.zero_le _ }

/-- `rehash-into-copy` passes over an entry without a key. -/
theorem cp_skip {src : Nat → Slot K V} {sc dc n : Nat} {w : Table.Work K V}
    (h : CPInv W src sc dc 0 (n + 1) w) (he : isEntry (src n) = false) : CPInv W src sc dc 0 n w := by
  have hb := h.bound
  simp only [cnt, he] at hb
  refine { h with has := ?_, bound := by simpa using hb }
  intro k v
  rw [h.has]
  constructor
  · rintro ⟨i, h1, h2, h3⟩; exact ⟨i, h1, by omega, h3⟩
  · rintro ⟨i, h1, h2, h3⟩
    refine ⟨i, h1, ?_, h3⟩
    have : i ≠ n := by rintro rfl; rw [h3] at he; cases he
    omega

/-- `rehash-into-copy` copies an entry. -/
theorem cp_store (hW : W.Lawful) {src : Nat → Slot K V} {sc dc n : Nat} (hdc : Good dc) {w : Table.Work K V}
    (hn : n < sc) (hsu : Uniq W src sc) {k : K} {v : V} {t j : Nat} (h : CPInv W src sc dc 0 (n + 1) w)
    (hs : src n = .full k v)
    (h1 : probe (searchStop W w.slots k) dc (secondaryStride (W.hash t k)) dc
      (primaryIndex (W.hash t k) dc) = some j) (ht : t < w.now) :
    CPInv W src sc dc 0 n { slots := Function.update w.slots j (.full k v), bits := w.bits, deps := (k, t) :: w.deps, cnt := w.cnt + 1, now := w.now } := by
  have hb := h.bound
  have he : isEntry (src n) = true := by rw [hs]; rfl
  simp only [cnt, he, if_true] at hb
  have hcnt := h.cnts
  obtain ⟨h2, h3, h4⟩ := probe_reach hdc h1
  have hnot : ∀ i k' v', i < dc → w.slots i = .full k' v' → W.eq k k' = false := by
    intro i k' v' hi e
    cases hq : W.eq k k' with
    | false => rfl
    | true =>
      obtain ⟨i', g1, g2, g3⟩ := (h.has k' v').1 ⟨i, hi, e⟩
      have := hsu n i' k v k' v' hn g1 hs g3 hq
      omega
  have hj : w.slots j = .empty := by
    unfold searchStop at h3
    cases hw : w.slots j with
    | empty => rfl
    | deleted o => rw [hw] at h3; cases h3
    | full k' v' => rw [hw] at h3; simp only at h3; rw [hnot j k' v' h2 hw] at h3; cases h3
  have hpl : Placed w.slots dc (W.hash t k) j := by
    apply h4.mono
    intro a ha
    unfold searchStop at ha
    cases hs : w.slots a with
    | empty => rw [hs] at ha; cases ha
    | deleted o => rfl
    | full k v => rfl
  have hfc := upd_cnt isFound (slots := w.slots) h2 (.full k v)
  rw [hj] at hfc
  refine ⟨?_, ?_, ?_, ?_, ?_, ?_, ?_, ?_⟩
  · intro k' v'
    simp only
    rw [upd_has h2 (by rw [hj]; rfl), h.has]
    constructor
    · rintro (⟨i, g1, g2, g3⟩ | ⟨e1, e2⟩)
      · exact ⟨i, g1, by omega, g3⟩
      · subst e1; subst e2; exact ⟨n, by omega, by omega, hs⟩
    · rintro ⟨i, g1, g2, g3⟩
      by_cases e : i = n
      · subst e
        rw [hs] at g3
        cases g3
        exact Or.inr ⟨rfl, rfl⟩
      · exact Or.inl ⟨i, g1, by omega, g3⟩
  · simp only
    have e0 : isFound (Slot.empty : Slot K V) = false := rfl
    have e1 : isFound (Slot.full k v) = true := rfl
    rw [e0, e1, if_pos rfl, if_neg (by decide)] at hfc
    omega
  · intro i
    simp only
    by_cases hij : i = j
    · rw [hij, Function.update_self]; rfl
    · rw [Function.update_of_ne hij]; exact h.nodel i
  · simp only; omega
  · exact upd_uniq hW h.uniq (fun i k' v' hi _ e => hnot i k' v' hi e)
  · intro i k' v' hi e
    simp only at e ⊢
    by_cases hij : i = j
    · subst hij
      rw [Function.update_self] at e
      cases e
      exact ⟨t, by simp, hpl.mono fun a ha => isFound_update rfl ha⟩
    · rw [Function.update_of_ne hij] at e
      obtain ⟨s, g1, g2⟩ := h.placed i k' v' hi e
      exact ⟨s, by simp [g1], g2.mono fun a ha => isFound_update rfl ha⟩
  · intro d hd
    rcases List.mem_cons.1 hd with e | e
    · subst e; exact ⟨Nat.zero_le _, ht⟩
    · exact h.time d e
  · exact Nat.zero_le _

/-- A rehash into a copy begins. -/
theorem cp_init {src : Nat → Slot K V} {sc dc time : Nat} :
    CPInv W src sc dc 0 sc { slots := fun _ => .empty, bits := fun _ => false, deps := [], cnt := 0, now := time } :=
  { has := by
      intro k v
      constructor
      · rintro ⟨i, _, e⟩; cases e
      · rintro ⟨i, h1, h2, _⟩; omega
    cnts := by simp [isFound, cnt_false]
    nodel := by intro i; rfl
    bound := by simp
    uniq := by intro i j k v k' v' _ _ e; cases e
    placed := by intro i k v _ e; cases e
    time := by intro d hd; cases hd
    later := Nat.zero_le _ }

/-- A rehash into a copy ends. -/
theorem cp_final {src : Nat → Slot K V} {sc dc time : Nat} {w : Table.Work K V}
    {deps : List (K × Nat)} {m : K → Option V} (h : CPInv W src sc dc 0 0 w)
    (hc : Core W sc src deps time m) : Core W dc w.slots w.deps w.now m := by
  refine ⟨h.uniq, ?_, ?_⟩
  · intro i k v hi e
    obtain ⟨s, h1, h2⟩ := h.placed i k v hi e
    exact ⟨s, Or.inr h1, (h.time _ h1).2, h2⟩
  · intro k v
    rw [hc.rep]
    constructor
    · rintro ⟨k', ⟨i, hi, e⟩, b⟩
      exact ⟨k', (h.has k' v).2 ⟨i, hi, by omega, e⟩, b⟩
    · rintro ⟨k', a, b⟩
      obtain ⟨i, hi, _, e⟩ := (h.has k' v).1 a
      exact ⟨k', ⟨i, hi, e⟩, b⟩

end Verif.Conc
