import Verif.Table.Lemmas

/-! # Helper lemmas for hash tables: the invariant of a table vector, searching and rehashing -/

namespace Verif.Table

variable {K V : Type} {W : World K}

/-- Is the entry a key with a value? -/
def isEntry : Slot K V → Bool
  | .full _ _ => true
  | _ => false

/-- No two entries have equal keys. -/
def Uniq (W : World K) (slots : Nat → Slot K V) (c : Nat) : Prop :=
  ∀ i j k v k' v', i < c → j < c → slots i = .full k v → slots j = .full k' v' →
    W.eq k k' = true → i = j

/-- The probe sequence for `id` reaches `i` before any empty entry. -/
def Placed (slots : Nat → Slot K V) (c : Nat) (id : Int) (i : Nat) : Prop :=
  Reach (fun j => isFound (slots j) = true) c id i

/-- There is an entry for the key with the value. -/
def Has (slots : Nat → Slot K V) (c : Nat) (k : K) (v : V) : Prop :=
  ∃ i, i < c ∧ slots i = .full k v

/-- The invariant of a table vector. -/
structure Inv (W : World K) (tv : TV K V) (now : Nat) : Prop where
  good : Good tv.count
  adds : tv.additions = cnt (fun i => isFound (tv.slots i)) tv.count
  dels : tv.deletions = cnt (fun i => isDeleted (tv.slots i)) tv.count
  lim : tv.additions ≤ limitOf tv.count
  uniq : Uniq W tv.slots tv.count
  placed : ∀ i k v, i < tv.count → tv.slots i = .full k v →
    ∃ s, (k, s) ∈ tv.deps ∧ Placed tv.slots tv.count (W.hash s k) i
  time : ∀ d ∈ tv.deps, d.2 < now

/-- The entries of the table vector represent the map. -/
def Rep (W : World K) (tv : TV K V) (m : K → Option V) : Prop :=
  ∀ k v, m k = some v ↔ ∃ k', Has tv.slots tv.count k' v ∧ W.eq k k' = true

theorem Reach.mono {p q : Nat → Prop} {c : Nat} {id : Int} {i : Nat} (h : Reach p c id i)
    (hpq : ∀ j, p j → q j) : Reach q c id i := by
  obtain ⟨n, h1, h2, h3⟩ := h
  exact ⟨n, h1, h2, fun m hm => hpq _ (h3 m hm)⟩

theorem search_ok {c : Nat} (hc : Good c) {slots : Nat → Slot K V} (key : K) (id : Int)
    (he : ∃ i, i < c ∧ isFound (slots i) = false) :
    ∃ j, search W c slots key id = some j ∧ j < c ∧ Placed slots c id j ∧
      (slots j = .empty ∨ ∃ k v, slots j = .full k v ∧ W.eq key k = true) := by
  obtain ⟨i, hi, hie⟩ := he
  obtain ⟨j, h1, h2, h3, h4⟩ := probe_ok (stop := searchStop W slots key) hc id
    ⟨i, hi, by
      unfold searchStop
      cases hs : slots i with
      | empty => rfl
      | deleted o => rw [hs] at hie; cases hie
      | full k v => rw [hs] at hie; cases hie⟩
  refine ⟨j, h1, h2, h4.mono ?_, ?_⟩
  · intro a ha
    unfold searchStop at ha
    cases hs : slots a with
    | empty => rw [hs] at ha; cases ha
    | deleted o => rfl
    | full k v => rfl
  · unfold searchStop at h3
    cases hs : slots j with
    | empty => exact Or.inl rfl
    | deleted o => rw [hs] at h3; cases h3
    | full k v => rw [hs] at h3; exact Or.inr ⟨k, v, rfl, h3⟩

theorem search_finds (hW : W.Lawful) {c : Nat} (hc : Good c) {slots : Nat → Slot K V} {key k : K}
    {v : V} {id : Int} {i : Nat} (hu : Uniq W slots c) (hi : i < c) (hs : slots i = .full k v)
    (hk : W.eq key k = true) (hp : Placed slots c id i) : search W c slots key id = some i := by
  have hstop : searchStop W slots key i = true := by unfold searchStop; rw [hs]; exact hk
  obtain ⟨j, h1, h2, h3, n, n1, n2, n3⟩ := probe_ok (stop := searchStop W slots key) hc id
    ⟨i, hi, hstop⟩
  obtain ⟨n', m1, m2, m3⟩ := hp
  unfold search
  rw [h1]
  congr 1
  rcases Nat.lt_trichotomy n n' with h | h | h
  · have := m3 n h
    rw [n2] at this
    unfold searchStop at h3
    cases hj : slots j with
    | empty => rw [hj] at this; cases this
    | deleted o => rw [hj] at h3; cases h3
    | full k' v' =>
      rw [hj] at h3
      exact hu _ _ _ _ _ _ h2 hi hj hs (hW.trans _ _ _ (hW.symm _ _ h3) hk)
  · subst h; rw [← n2, m2]
  · have := n3 n' h
    rw [m2, hstop] at this
    cases this

theorem Inv.emptySlot {tv : TV K V} {now : Nat} (h : Inv W tv now) :
    ∃ i, i < tv.count ∧ isFound (tv.slots i) = false := by
  have h1 := h.lim
  have h2 := h.good.limit_lt
  have h3 := h.adds
  exact cnt_lt_exists (p := fun i => isFound (tv.slots i)) (by omega)

theorem not_moved {now : Nat} {k : K} {s : Nat} (h : moved W now k s = false) {u : Nat}
    (h1 : s ≤ u) (h2 : u ≤ now) : W.hash u k = W.hash s k := by
  unfold moved at h
  rw [List.any_eq_false] at h
  have := h u (List.mem_range.2 (by omega))
  simpa [h1] using this

theorem not_stale {now : Nat} {deps : List (K × Nat)} (h : isStale W now deps = false) {k : K}
    {s u : Nat} (hd : (k, s) ∈ deps) (h1 : s ≤ u) (h2 : u ≤ now) : W.hash u k = W.hash s k := by
  unfold isStale at h
  rw [Bool.or_eq_false_iff] at h
  have := (List.any_eq_false.1 h.1) _ hd
  exact not_moved (by simpa using this) h1 h2

/-- A search that ends at an empty entry, when nothing is stale, shows that the key is absent. -/
theorem Inv.absent (hW : W.Lawful) {tv : TV K V} {now now' : Nat} (h : Inv W tv now) {key : K} {i : Nat}
    (hs : search W tv.count tv.slots key (W.hash now key) = some i) (he : tv.slots i = .empty)
    (hst : isStale W now' tv.deps = false) (hn : now ≤ now') :
    ∀ j k v, j < tv.count → tv.slots j = .full k v → W.eq key k = false := by
  intro j k v hj hk
  cases hq : W.eq key k with
  | false => rfl
  | true =>
    exfalso
    obtain ⟨s, hd, hp⟩ := h.placed j k v hj hk
    have ht := h.time _ hd
    have e1 := not_stale hst hd (u := now) (by omega) hn
    rw [← e1, ← hW.hash_eq now key k hq] at hp
    have := search_finds hW h.good h.uniq hj hk hq hp
    rw [hs] at this
    cases this
    rw [he] at hk
    cases hk

/-! ### updating a slot -/

theorem upd_has {slots : Nat → Slot K V} {c j : Nat} (hj : j < c) {k0 : K} {v0 : V}
    (hn : isEntry (slots j) = false) (k : K) (v : V) :
    Has (Function.update slots j (.full k0 v0)) c k v ↔ Has slots c k v ∨ (k = k0 ∧ v = v0) := by
  constructor
  · rintro ⟨i, hi, e⟩
    by_cases hij : i = j
    · subst hij
      rw [Function.update_self] at e
      cases e
      exact Or.inr ⟨rfl, rfl⟩
    · rw [Function.update_of_ne hij] at e
      exact Or.inl ⟨i, hi, e⟩
  · rintro (⟨i, hi, e⟩ | ⟨e1, e2⟩)
    · refine ⟨i, hi, ?_⟩
      have : i ≠ j := by rintro rfl; rw [e] at hn; cases hn
      rw [Function.update_of_ne this, e]
    · subst e1; subst e2
      exact ⟨j, hj, Function.update_self ..⟩

theorem upd_uniq (hW : W.Lawful) {slots : Nat → Slot K V} {c j : Nat} {k0 : K} {v0 : V}
    (hu : Uniq W slots c) (h0 : ∀ i k v, i < c → i ≠ j → slots i = .full k v → W.eq k0 k = false) :
    Uniq W (Function.update slots j (.full k0 v0)) c := by
  intro a b k v k' v' ha hb ea eb hk
  by_cases haj : a = j
  · by_cases hbj : b = j
    · rw [haj, hbj]
    · rw [haj, Function.update_self] at ea
      rw [Function.update_of_ne hbj] at eb
      cases ea
      rw [h0 b k' v' hb hbj eb] at hk
      cases hk
  · rw [Function.update_of_ne haj] at ea
    by_cases hbj : b = j
    · rw [hbj, Function.update_self] at eb
      cases eb
      have := h0 a k v ha haj ea
      rw [hW.symm _ _ hk] at this
      cases this
    · rw [Function.update_of_ne hbj] at eb
      exact hu _ _ _ _ _ _ ha hb ea eb hk

theorem upd_uniq' {slots : Nat → Slot K V} {c j : Nat} {x : Slot K V} (hx : isEntry x = false)
    (hu : Uniq W slots c) : Uniq W (Function.update slots j x) c := by
  intro a b k v k' v' ha hb ea eb hk
  by_cases haj : a = j
  · rw [haj, Function.update_self] at ea
    rw [ea] at hx; cases hx
  · rw [Function.update_of_ne haj] at ea
    by_cases hbj : b = j
    · rw [hbj, Function.update_self] at eb
      rw [eb] at hx; cases hx
    · rw [Function.update_of_ne hbj] at eb
      exact hu _ _ _ _ _ _ ha hb ea eb hk

theorem upd_cnt (p : Slot K V → Bool) {slots : Nat → Slot K V} {c j : Nat} (hj : j < c)
    (x : Slot K V) :
    cnt (fun i => p (Function.update slots j x i)) c + (if p (slots j) then 1 else 0)
      = cnt (fun i => p (slots i)) c + (if p x then 1 else 0) := by
  have := cnt_upd (p := fun i => p (Function.update slots j x i)) (q := fun i => p (slots i)) hj
    (fun i hi => by simp only [Function.update_of_ne hi])
  simpa only [Function.update_self] using this

theorem isFound_update {slots : Nat → Slot K V} {j i : Nat} {x : Slot K V} (hx : isFound x = true)
    (h : isFound (slots i) = true) : isFound (Function.update slots j x i) = true := by
  by_cases hij : i = j
  · rw [hij, Function.update_self]; exact hx
  · rwa [Function.update_of_ne hij]

/-! ### rehashing in place -/

/-- The invariant of `rehash-in-place` when the indices from `n` on have been visited and `hand`
    is the entry in hand.  `H` are the entries there were, `P` their number. -/
structure IPInv (W : World K) (c now0 P : Nat) (H : K → V → Prop) (n : Nat) (w : Work K V)
    (hand : Slot K V) : Prop where
  bit : ∀ i, i < c → w.bits i = true → ∃ k v s, w.slots i = .full k v ∧ (k, s) ∈ w.deps ∧
    Reach (fun j => w.bits j = true) c (W.hash s k) i
  done : ∀ i, i < c → n ≤ i → w.bits i = false → w.slots i = .empty
  cntb : w.cnt = cnt w.bits c
  has : ∀ k v, H k v ↔ Has w.slots c k v ∨ hand = .full k v
  uniq : Uniq W w.slots c
  huniq : ∀ k v, hand = .full k v → ∀ i k' v', i < c → w.slots i = .full k' v' → W.eq k k' = false
  tot : cnt (fun i => isEntry (w.slots i)) c + (if isEntry hand then 1 else 0) = P
  time : ∀ d ∈ w.deps, now0 ≤ d.2 ∧ d.2 < w.now
  later : now0 ≤ w.now

theorem IPInv.drop {c now0 P n : Nat} {H : K → V → Prop} {w : Work K V} {hand : Slot K V}
    (h : IPInv W c now0 P H n w hand) (he : isEntry hand = false) :
    IPInv W c now0 P H n w .empty := by
  refine ⟨h.bit, h.done, h.cntb, ?_, h.uniq, (fun k v e => by cases e), ?_, h.time, h.later⟩
  · intro k v
    rw [h.has]
    constructor
    · rintro (a | a)
      · exact Or.inl a
      · rw [a] at he; cases he
    · rintro (a | a)
      · exact Or.inl a
      · cases a
  · have := h.tot
    rw [he] at this
    simpa [isEntry] using this

theorem storeNext_spec (hW : W.Lawful) {c : Nat} (hc : Good c) {now0 P n : Nat}
    {H : K → V → Prop} (hP : P < c) (fuel : Nat) :
    ∀ (hand : Slot K V) (w : Work K V), IPInv W c now0 P H n w hand → c + 1 ≤ fuel + w.cnt →
      ∃ w', storeNext W c fuel hand w = some w' ∧ IPInv W c now0 P H n w' .empty := by
  induction fuel with
  | zero =>
    intro hand w h hf
    have h1 := h.cntb
    have h2 := cnt_le w.bits c
    omega
  | succ fuel ih =>
    intro hand w h hf
    cases hand with
    | empty => exact ⟨w, rfl, h⟩
    | deleted o => exact ⟨w, rfl, h.drop rfl⟩
    | full k v =>
      have hbits : cnt w.bits c ≤ cnt (fun i => isEntry (w.slots i)) c := by
        apply cnt_mono
        intro i hi hb
        obtain ⟨k', v', s, e, _⟩ := h.bit i hi hb
        rw [e]; rfl
      have htot := h.tot
      have e1 : isEntry (Slot.full k v) = true := rfl
      rw [e1, if_pos rfl] at htot
      have hex : ∃ i, i < c ∧ insertStop w.slots w.bits i = true := by
        obtain ⟨i, hi, hb⟩ := cnt_lt_exists (p := w.bits) (n := c) (by omega)
        refine ⟨i, hi, ?_⟩
        unfold insertStop
        cases w.slots i with
        | empty => rfl
        | deleted o => rfl
        | full k' v' => simp [hb]
      obtain ⟨j, h1, h2, h3, h4⟩ := probe_ok hc (W.hash w.now k) hex
      have hjb : w.bits j = false := by
        cases hb : w.bits j with
        | false => rfl
        | true =>
          obtain ⟨k', v', s, e, _⟩ := h.bit j h2 hb
          unfold insertStop at h3
          rw [e] at h3
          simp [hb] at h3
      have hpath : Reach (fun i => w.bits i = true) c (W.hash w.now k) j := by
        apply h4.mono
        intro i hi
        unfold insertStop at hi
        cases hs : w.slots i with
        | empty => rw [hs] at hi; cases hi
        | deleted o => rw [hs] at hi; cases hi
        | full k' v' => rw [hs] at hi; simpa using hi
      simp only [storeNext]
      unfold insertionPoint
      rw [h1]
      simp only
      have hmono : ∀ i, w.bits i = true → Function.update w.bits j true i = true := by
        intro i hi
        by_cases hij : i = j
        · rw [hij, Function.update_self]
        · rwa [Function.update_of_ne hij]
      have hcntb : cnt (Function.update w.bits j true) c = cnt w.bits c + 1 := by
        have := cnt_upd (p := Function.update w.bits j true) (q := w.bits) h2
          (fun i hi => Function.update_of_ne hi ..)
        rw [hjb, Function.update_self] at this
        simpa using this
      apply ih
      · refine ⟨?_, ?_, ?_, ?_, ?_, ?_, ?_, ?_, ?_⟩
        · intro i hi hb
          by_cases hij : i = j
          · subst hij
            refine ⟨k, v, w.now, by simp, by simp, hpath.mono ?_⟩
            intro a ha
            exact hmono a ha
          · simp only [Function.update_of_ne hij] at hb ⊢
            obtain ⟨k', v', s, e, e2, e3⟩ := h.bit i hi hb
            exact ⟨k', v', s, e, by simp [e2], e3.mono hmono⟩
        · intro i hi hni hb
          by_cases hij : i = j
          · subst hij; simp at hb
          · simp only [Function.update_of_ne hij] at hb ⊢
            exact h.done i hi hni hb
        · simp only [hcntb, h.cntb]
        · intro k' v'
          rw [h.has]
          constructor
          · rintro (⟨i, hi, e⟩ | e)
            · by_cases hij : i = j
              · subst hij; exact Or.inr e
              · exact Or.inl ⟨i, hi, by simp only [Function.update_of_ne hij]; exact e⟩
            · cases e
              exact Or.inl ⟨j, h2, by simp⟩
          · rintro (⟨i, hi, e⟩ | e)
            · by_cases hij : i = j
              · subst hij
                simp only [Function.update_self] at e
                cases e
                exact Or.inr rfl
              · simp only [Function.update_of_ne hij] at e
                exact Or.inl ⟨i, hi, e⟩
            · exact Or.inl ⟨j, h2, e⟩
        · exact upd_uniq hW h.uniq (fun i k' v' hi _ e => h.huniq k v rfl i k' v' hi e)
        · intro k1 v1 e1 i k' v' hi e
          by_cases hij : i = j
          · subst hij
            simp only [Function.update_self] at e
            cases e
            cases hq : W.eq k1 k with
            | false => rfl
            | true =>
              have := h.huniq k v rfl i k1 v1 hi e1
              rw [hW.symm _ _ hq] at this
              cases this
          · simp only [Function.update_of_ne hij] at e
            cases hq : W.eq k1 k' with
            | false => rfl
            | true =>
              exact absurd (h.uniq j i k1 v1 k' v' h2 hi e1 e hq) (fun e => hij e.symm)
        · have := upd_cnt isEntry (slots := w.slots) h2 (.full k v)
          rw [e1, if_pos rfl] at this
          simp only
          omega
        · intro d hd
          rcases List.mem_cons.1 hd with e | e
          · subst e; exact ⟨h.later, Nat.lt_succ_self _⟩
          · have := h.time d e
            simp only
            omega
        · have := h.later
          simp only
          omega
      · simp only
        omega

theorem inPlaceLoop_spec (hW : W.Lawful) {c : Nat} (hc : Good c) {now0 P : Nat}
    {H : K → V → Prop} (hP : P < c) (n : Nat) (hn : n ≤ c) :
    ∀ w : Work K V, IPInv W c now0 P H n w .empty →
      ∃ w', inPlaceLoop W c n w = some w' ∧ IPInv W c now0 P H 0 w' .empty := by
  induction n with
  | zero => intro w h; exact ⟨w, rfl, h⟩
  | succ n ih =>
    intro w h
    simp only [inPlaceLoop]
    by_cases hb : w.bits n = true
    · rw [if_pos hb]
      apply ih (by omega)
      refine { h with done := ?_ }
      intro i hi hni hbi
      by_cases e : i = n
      · subst e; rw [hb] at hbi; cases hbi
      · exact h.done i hi (by omega) hbi
    · rw [if_neg hb]
      have hbf : w.bits n = false := by simpa using hb
      have hst : IPInv W c now0 P H n { w with slots := Function.update w.slots n .empty }
          (w.slots n) := by
        refine ⟨?_, ?_, h.cntb, ?_, ?_, ?_, ?_, h.time, h.later⟩
        · intro i hi hbi
          have hin : i ≠ n := by rintro rfl; rw [hbf] at hbi; cases hbi
          simp only [Function.update_of_ne hin]
          exact h.bit i hi hbi
        · intro i hi hni hbi
          by_cases e : i = n
          · subst e; simp
          · simp only [Function.update_of_ne e]
            exact h.done i hi (by omega) hbi
        · intro k v
          rw [h.has]
          constructor
          · rintro (⟨i, hi, e⟩ | e)
            · by_cases hin : i = n
              · subst hin; exact Or.inr e
              · exact Or.inl ⟨i, hi, by simp only [Function.update_of_ne hin]; exact e⟩
            · cases e
          · rintro (⟨i, hi, e⟩ | e)
            · by_cases hin : i = n
              · subst hin; simp at e
              · simp only [Function.update_of_ne hin] at e
                exact Or.inl ⟨i, hi, e⟩
            · exact Or.inl ⟨n, by omega, e⟩
        · exact upd_uniq' rfl h.uniq
        · intro k v e i k' v' hi e'
          by_cases hin : i = n
          · subst hin; simp at e'
          · simp only [Function.update_of_ne hin] at e'
            cases hq : W.eq k k' with
            | false => rfl
            | true => exact absurd (h.uniq n i k v k' v' (by omega) hi e e' hq) (fun e => hin e.symm)
        · have := upd_cnt isEntry (slots := w.slots) (show n < c by omega) .empty
          have htot := h.tot
          have e1 : isEntry (Slot.empty : Slot K V) = false := rfl
          rw [e1] at this htot
          simp at this htot
          simp only
          omega
      obtain ⟨w1, e1, h1⟩ := storeNext_spec hW hc hP (c + 1) _ _ hst (by simp only; omega)
      rw [e1]
      exact ih (by omega) w1 h1

theorem cnt_entry {slots : Nat → Slot K V} {c : Nat} :
    cnt (fun i => isFound (slots i)) c
      = cnt (fun i => isEntry (slots i)) c + cnt (fun i => isDeleted (slots i)) c := by
  apply cnt_add
  intro i _
  cases slots i <;> rfl

/-- What `rehash-in-place` leaves behind. -/
theorem rehashInPlace_spec (hW : W.Lawful) {tv : TV K V} {now : Nat} (h : Inv W tv now) :
    ∃ w, inPlaceLoop W tv.count tv.count
        { slots := tv.slots, bits := fun _ => false, deps := [], cnt := 0, now } = some w ∧
      now ≤ w.now ∧ w.cnt + tv.deletions = tv.additions ∧
      (∀ d ∈ w.deps, now ≤ d.2) ∧
      (∀ k v, Has w.slots tv.count k v ↔ Has tv.slots tv.count k v) ∧
      ∀ token refs, Inv W { count := tv.count, slots := w.slots, additions := w.cnt, deletions := 0, deps := w.deps, refs := refs, token := token, rehashing := false } w.now := by
  have hlim := h.lim
  have hlt := h.good.limit_lt
  have hce := cnt_entry (slots := tv.slots) (c := tv.count)
  have ha := h.adds
  have hd := h.dels
  obtain ⟨w, e, hw⟩ := inPlaceLoop_spec hW h.good
    (P := cnt (fun i => isEntry (tv.slots i)) tv.count) (now0 := now)
    (H := fun k v => Has tv.slots tv.count k v) (by omega) tv.count (Nat.le_refl _)
    { slots := tv.slots, bits := fun _ => false, deps := [], cnt := 0, now }
    { bit := by intro i _ hb; cases hb
      done := by intro i h1 h2; omega
      cntb := by simp [cnt_false]
      has := by
        intro k v
        constructor
        · exact Or.inl
        · rintro (a | a)
          · exact a
          · cases a
      uniq := h.uniq
      huniq := by intro k v e; cases e
      tot := by simp [isEntry]
      time := by intro d hd; cases hd
      later := Nat.le_refl _ }
  have hslot : ∀ i, i < tv.count → isEntry (w.slots i) = w.bits i ∧
      isFound (w.slots i) = w.bits i ∧ isDeleted (w.slots i) = false := by
    intro i hi
    cases hb : w.bits i with
    | true =>
      obtain ⟨k, v, s, e1, _⟩ := hw.bit i hi hb
      rw [e1]
      exact ⟨rfl, rfl, rfl⟩
    | false =>
      rw [hw.done i hi (by omega) hb]
      exact ⟨rfl, rfl, rfl⟩
  have hF : cnt (fun i => isFound (w.slots i)) tv.count = w.cnt := by
    rw [hw.cntb]; exact cnt_congr fun i hi => (hslot i hi).2.1
  have hE : cnt (fun i => isEntry (w.slots i)) tv.count = w.cnt := by
    rw [hw.cntb]; exact cnt_congr fun i hi => (hslot i hi).1
  have hD : cnt (fun i => isDeleted (w.slots i)) tv.count = 0 := by
    rw [← cnt_false tv.count]; exact cnt_congr fun i hi => (hslot i hi).2.2
  have htot := hw.tot
  have e0 : isEntry (Slot.empty : Slot K V) = false := rfl
  rw [e0, hE] at htot
  simp at htot
  refine ⟨w, e, hw.later, by omega, fun d hd => (hw.time d hd).1, ?_, ?_⟩
  · intro k v
    rw [hw.has]
    constructor
    · exact Or.inl
    · rintro (a | a)
      · exact a
      · cases a
  · intro token refs
    refine ⟨h.good, hF.symm, hD.symm, by simp only; omega, hw.uniq, ?_, fun d hd => (hw.time d hd).2⟩
    intro i k v hi e1
    simp only at hi e1
    have hb : w.bits i = true := by rw [← (hslot i hi).1, e1]; rfl
    obtain ⟨k', v', s, e2, e3, e4⟩ := hw.bit i hi hb
    rw [e1] at e2
    cases e2
    refine ⟨s, e3, ?_⟩
    obtain ⟨n, n1, n2, n3⟩ := e4
    refine ⟨n, n1, n2, fun m hm => ?_⟩
    simp only
    rw [(hslot _ (walk_lt h.good _ _)).2.1]
    exact n3 m hm

/-! ### rehashing into a copy -/

/-- The invariant of `rehash-into-copy` when the source indices from `n` on have been copied. -/
structure CPInv (W : World K) (src : Nat → Slot K V) (sc dc now0 : Nat) (n : Nat) (w : Work K V) :
    Prop where
  has : ∀ k v, Has w.slots dc k v ↔ ∃ i, i < sc ∧ n ≤ i ∧ src i = .full k v
  cnts : w.cnt = cnt (fun i => isFound (w.slots i)) dc
  nodel : ∀ i, isDeleted (w.slots i) = false
  bound : w.cnt + cnt (fun i => isEntry (src i)) n = cnt (fun i => isEntry (src i)) sc
  uniq : Uniq W w.slots dc
  placed : ∀ i k v, i < dc → w.slots i = .full k v →
    ∃ s, (k, s) ∈ w.deps ∧ Placed w.slots dc (W.hash s k) i
  time : ∀ d ∈ w.deps, now0 ≤ d.2 ∧ d.2 < w.now
  later : now0 ≤ w.now

theorem copyLoop_spec (hW : W.Lawful) {src : Nat → Slot K V} {sc dc now0 : Nat} (hdc : Good dc)
    (hsu : Uniq W src sc) (hcap : cnt (fun i => isEntry (src i)) sc < dc) (n : Nat) (hn : n ≤ sc) :
    ∀ w : Work K V, CPInv W src sc dc now0 n w →
      ∃ w', copyLoop W src dc n w = some w' ∧ CPInv W src sc dc now0 0 w' := by
  induction n with
  | zero => intro w h; exact ⟨w, rfl, h⟩
  | succ n ih =>
    intro w h
    have hb := h.bound
    simp only [cnt] at hb
    have skip : isEntry (src n) = false →
        CPInv W src sc dc now0 n w := by
      intro he
      simp only [he] at hb
      refine { h with has := ?_, bound := by simpa using hb }
      intro k v
      rw [h.has]
      constructor
      · rintro ⟨i, h1, h2, h3⟩; exact ⟨i, h1, by omega, h3⟩
      · rintro ⟨i, h1, h2, h3⟩
        refine ⟨i, h1, ?_, h3⟩
        have : i ≠ n := by rintro rfl; rw [h3] at he; cases he
        omega
    cases hs : src n with
    | empty => simp only [copyLoop, hs]; exact ih (by omega) w (skip (by rw [hs]; rfl))
    | deleted o => simp only [copyLoop, hs]; exact ih (by omega) w (skip (by rw [hs]; rfl))
    | full k v =>
      have he : isEntry (src n) = true := by rw [hs]; rfl
      simp only [he, if_true] at hb
      have hcnt := h.cnts
      have hemp : ∃ i, i < dc ∧ isFound (w.slots i) = false :=
        cnt_lt_exists (p := fun i => isFound (w.slots i)) (by omega)
      obtain ⟨j, h1, h2, h3, h4⟩ := search_ok (W := W) hdc k (W.hash w.now k) hemp
      have hnot : ∀ i k' v', i < dc → w.slots i = .full k' v' → W.eq k k' = false := by
        intro i k' v' hi e
        cases hq : W.eq k k' with
        | false => rfl
        | true =>
          obtain ⟨i', g1, g2, g3⟩ := (h.has k' v').1 ⟨i, hi, e⟩
          have := hsu n i' k v k' v' (by omega) g1 hs g3 hq
          omega
      have hj : w.slots j = .empty := by
        rcases h4 with a | ⟨k', v', a, b⟩
        · exact a
        · rw [hnot j k' v' h2 a] at b; cases b
      simp only [copyLoop, hs, h1]
      apply ih (by omega)
      have hfc := upd_cnt isFound (slots := w.slots) h2 (.full k v)
      rw [hj] at hfc
      refine ⟨?_, ?_, ?_, ?_, ?_, ?_, ?_, ?_⟩
      · intro k' v'
        simp only
        rw [upd_has h2 (by rw [hj]; rfl), h.has]
        constructor
        · rintro (⟨i, g1, g2, g3⟩ | ⟨e1, e2⟩)
          · exact ⟨i, g1, by omega, g3⟩
          · subst e1; subst e2; exact ⟨n, by omega, by omega, hs⟩
        · rintro ⟨i, g1, g2, g3⟩
          by_cases e : i = n
          · subst e
            rw [hs] at g3
            cases g3
            exact Or.inr ⟨rfl, rfl⟩
          · exact Or.inl ⟨i, g1, by omega, g3⟩
      · simp only
        have e0 : isFound (Slot.empty : Slot K V) = false := rfl
        have e1 : isFound (Slot.full k v) = true := rfl
        rw [e0, e1, if_pos rfl, if_neg (by decide)] at hfc
        omega
      · intro i
        simp only
        by_cases hij : i = j
        · rw [hij, Function.update_self]; rfl
        · rw [Function.update_of_ne hij]; exact h.nodel i
      · simp only; omega
      · exact upd_uniq hW h.uniq (fun i k' v' hi _ e => hnot i k' v' hi e)
      · intro i k' v' hi e
        simp only at e ⊢
        by_cases hij : i = j
        · subst hij
          rw [Function.update_self] at e
          cases e
          exact ⟨w.now, by simp, h3.mono fun a ha => isFound_update rfl ha⟩
        · rw [Function.update_of_ne hij] at e
          obtain ⟨s, g1, g2⟩ := h.placed i k' v' hi e
          exact ⟨s, by simp [g1], g2.mono fun a ha => isFound_update rfl ha⟩
      · intro d hd
        rcases List.mem_cons.1 hd with e | e
        · subst e; exact ⟨h.later, Nat.lt_succ_self _⟩
        · have := h.time d e
          simp only
          omega
      · have := h.later
        simp only
        omega

/-- What `rehash-into-copy` produces. -/
theorem rehashIntoCopy_spec (hW : W.Lawful) {tv : TV K V} {now : Nat} (h : Inv W tv now) {c : Nat}
    (hc : Good c) (hcap : tv.additions < limitOf c + tv.deletions) :
    ∃ w, copyLoop W tv.slots c tv.count
        { slots := fun _ => .empty, bits := fun _ => false, deps := [], cnt := 0, now } = some w ∧
      now ≤ w.now ∧ w.cnt + tv.deletions = tv.additions ∧
      (∀ d ∈ w.deps, now ≤ d.2) ∧
      (∀ k v, Has w.slots c k v ↔ Has tv.slots tv.count k v) ∧
      ∀ token refs, Inv W { count := c, slots := w.slots, additions := w.cnt, deletions := 0, deps := w.deps, refs := refs, token := token, rehashing := false } w.now := by
  have hlt := hc.limit_lt
  have hce := cnt_entry (slots := tv.slots) (c := tv.count)
  have ha := h.adds
  have hd := h.dels
  obtain ⟨w, e, hw⟩ := copyLoop_spec hW hc h.uniq (by omega) tv.count (Nat.le_refl _)
    { slots := fun _ => .empty, bits := fun _ => false, deps := [], cnt := 0, now }
    { has := by
        intro k v
        constructor
        · rintro ⟨i, _, e⟩; cases e
        · rintro ⟨i, h1, h2, _⟩; omega
      cnts := by simp [isFound, cnt_false]
      nodel := by intro i; rfl
      bound := by simp
      uniq := by intro i j k v k' v' _ _ e; cases e
      placed := by intro i k v _ e; cases e
      time := by intro d hd; cases hd
      later := Nat.le_refl _ }
  have hb := hw.bound
  simp only [cnt] at hb
  refine ⟨w, e, hw.later, by omega, fun d hd => (hw.time d hd).1, ?_, ?_⟩
  · intro k v
    rw [hw.has]
    constructor
    · rintro ⟨i, h1, _, h3⟩; exact ⟨i, h1, h3⟩
    · rintro ⟨i, h1, h3⟩; exact ⟨i, h1, by omega, h3⟩
  · intro token refs
    refine ⟨hc, hw.cnts, ?_, by simp only; omega, hw.uniq, hw.placed, fun d hd => (hw.time d hd).2⟩
    simp only
    rw [← cnt_false c]
    exact cnt_congr fun i hi => (hw.nodel i).symm

end Verif.Table
