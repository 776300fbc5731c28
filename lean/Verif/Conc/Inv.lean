import Verif.Conc.Rehash

/-! # Helper lemmas for concurrent tables: what holds at every moment -/

namespace Verif.Conc

open Verif.Table

variable {K V : Type}

/-! ### threads -/

/-- The call a thread is in. -/
def Pc.callId : Pc K V → Option Nat
  | .idle => none
  | .start c => some c.id
  | .tv c _ => some c.id
  | .token c _ _ => some c.id
  | .probe c _ _ _ _ => some c.id
  | .found c _ _ _ => some c.id
  | .missed c _ _ _ _ => some c.id
  | .value c _ _ _ => some c.id
  | .value2 c _ _ _ => some c.id
  | .wait c => some c.id
  | .need1 c _ _ _ => some c.id
  | .need2 c _ _ _ => some c.id
  | .need3 c _ _ _ => some c.id
  | .full c _ _ => some c.id
  | .rehash c _ _ => some c.id
  | .done id _ => some id
  | .newVal c _ _ _ => some c.id
  | .newKey c _ _ _ => some c.id
  | .remVal c _ _ => some c.id
  | .ipLoop c _ _ _ => some c.id
  | .ipClear c _ _ _ _ _ => some c.id
  | .ipHand c _ _ _ _ _ => some c.id
  | .ipHashed c _ _ _ _ _ _ => some c.id
  | .ipVal c _ _ _ _ _ _ _ _ _ => some c.id
  | .ipToken c _ => some c.id
  | .cpLoop c _ _ _ _ => some c.id
  | .cpHashed c _ _ _ _ _ _ _ => some c.id
  | .raStart id => some id
  | .raAdds id _ => some id
  | .raLock id _ => some id
  | .raKeys id _ _ => some id
  | .raVals id _ _ => some id
  | .raToken id _ => some id
  | .raNew id => some id
  | .raSwap id _ => some id
  | .raInstall id => some id

/-- The thread is moving entries in place. -/
def Pc.moves : Pc K V → Bool
  | .ipLoop .. => true
  | .ipClear .. => true
  | .ipHand .. => true
  | .ipHashed .. => true
  | .ipVal .. => true
  | _ => false

/-- The thread holds the lock. -/
def Pc.holds : Pc K V → Bool
  | .newVal .. => true
  | .newKey .. => true
  | .remVal .. => true
  | .ipLoop .. => true
  | .ipClear .. => true
  | .ipHand .. => true
  | .ipHashed .. => true
  | .ipVal .. => true
  | .ipToken .. => true
  | .cpLoop .. => true
  | .cpHashed .. => true
  | _ => false

theorem Pc.holds_of_moves {pc : Pc K V} (h : pc.moves = true) : pc.holds = true := by
  cases pc <;> first | rfl | cases h

/-! ### what a thread knows -/

section
variable (W : World K) (H : List (Event K V)) (S : List (Entry K V)) (rid : Nat → Nat) (m : Mem K V)

/-- A call in progress that has not taken place yet. -/
structure Unc (c : Ctx K V) : Prop where
  called : Event.call c.id (.on c.called c.key) ∈ H
  ongoing : ¬ Returned H c.id
  fresh : ∀ x ∈ S, x.id ≠ c.id
  kind : c.kind = c.called ∨ ∃ v, c.called = .symbol v ∧ c.kind = .intern v

/-- The token was fetched from the vector: while it is valid, it is the token of the current
    vector. -/
structure Tok (n tok : Nat) : Prop where
  vec : n < m.nv
  made : tok < m.ntok
  live : m.marked tok = false → n = m.cur ∧ (m.vecs n).token = tok

/-- The search for the key hashed at time `t` has passed other entries up to entry `i`. -/
def Seen (n : Nat) (key : K) (t i : Nat) : Prop :=
  ∃ j, walk (m.vecs n).count (W.hash t key) j = i ∧ ∀ l, l < j →
    (m.vecs n).keys (walk (m.vecs n).count (W.hash t key) l) ≠ .empty ∧
    ∀ k, (m.vecs n).keys (walk (m.vecs n).count (W.hash t key) l) = .key k → W.eq key k = false

/-- The key was absent at some moment of the call. -/
def Absent (id : Nat) (key : K) : Prop := At W.eq H S id (fun f => f key = none)

/-- The key had been hashed before time `t` by one who stored it, or was absent at some moment. -/
def Known (n id : Nat) (key : K) (t : Nat) : Prop :=
  Static W ∨ Absent W H S id key ∨ ∃ k s, W.eq key k = true ∧ (k, s) ∈ (m.vecs n).deps ∧ s ≤ t

/-- A key on which the vector depends has got another hash code. -/
def Moved (n : Nat) : Prop := ∃ d ∈ (m.vecs n).deps, moved W m.now d.1 d.2 = true

/-- Entry `i` has the key, or had it until its removal by a call that had not returned before this
    one started. -/
def Hit (n id : Nat) (key : K) (i : Nat) : Prop :=
  i < (m.vecs n).count ∧
  ((∃ k, (m.vecs n).keys i = .key k ∧ W.eq key k = true) ∨
   ((m.vecs n).keys i = .deleted ∧ ∃ A r B kr, S = A ++ r :: B ∧ r.id = rid i ∧ r.op = .on .remove kr ∧ W.eq key kr = true ∧
      Fresh H id (r :: B)))

/-- The value fetched was that of the key at some moment of the call, or is the deletion mark. -/
def Fetched (id : Nat) (key : K) (x : ValS V) : Prop :=
  x = .deleted ∨ ∃ v, x = .val v ∧ At W.eq H S id (fun f => f key = some v)

/-- What is known when `needs-rehash?` is asked. -/
def Asked (c : Ctx K V) (n tok : Nat) (sure : Prop) : Why → Prop
  | .absent => (c.kind = .get ∨ c.kind = .remove) ∧ (sure → Absent W H S c.id c.key ∨ Moved W m n)
  | .fresh t i => (∃ v, c.kind = .symbol v) ∧ t < m.now ∧ (m.marked tok = false → Seen W m n c.key t i)
  | _ => True

/-- The kinds of calls that fetch values. -/
def Reads (k : Kind V) : Prop := k = .get ∨ ∃ v, k = .intern v ∨ k = .symbol v

/-- What a thread knows without the lock. -/
def View : Pc K V → Prop
  | .idle => True
  | .start c => Unc H S c
  | .tv c n => Unc H S c ∧ n < m.nv
  | .token c n tok => Unc H S c ∧ Tok m n tok
  | .probe c n tok t i => Unc H S c ∧ Tok m n tok ∧ t < m.now ∧
      (m.marked tok = false → Seen W m n c.key t i ∧ Known W H S m n c.id c.key t)
  | .found c n tok i => Unc H S c ∧ Tok m n tok ∧
      (m.marked tok = false → Hit W H S rid m n c.id c.key i)
  | .missed c n tok t i => Unc H S c ∧ Tok m n tok ∧ (∃ v, c.kind.stores = some v) ∧ t < m.now ∧
      (m.marked tok = false → Seen W m n c.key t i)
  | .value c n tok x => Unc H S c ∧ Tok m n tok ∧ Reads c.kind ∧
      (m.marked tok = false → Fetched W H S c.id c.key x)
  | .value2 c n tok x => Unc H S c ∧ Tok m n tok ∧ Reads c.kind ∧ Fetched W H S c.id c.key x
  | .wait c => Unc H S c
  | .need1 c n tok w => Unc H S c ∧ Tok m n tok ∧ Asked W H S m c n tok (m.marked tok = false) w
  | .need2 c n tok w => Unc H S c ∧ Tok m n tok ∧ Asked W H S m c n tok True w
  | .need3 c n tok w => Unc H S c ∧ Tok m n tok ∧ Asked W H S m c n tok True w
  | .full c n _ => Unc H S c ∧ n < m.nv
  | .rehash c n _ => Unc H S c ∧ n < m.nv
  | .done id out => ¬ Returned H id ∧ (∃ op, Event.call id op ∈ H) ∧
      ((out = .tooLarge ∧ ∀ x ∈ S, x.id ≠ id) ∨ ∃ e ∈ S, e.id = id ∧ e.out = out)
  | .newVal c _ _ _ => Unc H S c
  | .newKey c _ _ _ => Unc H S c
  | .remVal c _ _ => ¬ Returned H c.id ∧ (∃ op, Event.call c.id op ∈ H) ∧
      ∃ e ∈ S, e.id = c.id ∧ e.out = .removed true
  | .ipLoop c _ _ _ => Unc H S c
  | .ipClear c _ _ _ _ _ => Unc H S c
  | .ipHand c _ _ _ _ _ => Unc H S c
  | .ipHashed c _ _ _ _ _ _ => Unc H S c
  | .ipVal c _ _ _ _ _ _ _ _ _ => Unc H S c
  | .ipToken c _ => Unc H S c
  | .cpLoop c _ _ _ _ => Unc H S c
  | .cpHashed c _ _ _ _ _ _ _ => Unc H S c
  | _ => False

end

section
variable (W : World K) (inPlace : Bool) (f : K → Option V) (m : Mem K V)

/-- What a thread about to store a new entry knows. -/
structure Storing (c : Ctx K V) (n t i : Nat) : Prop where
  cur : n = m.cur
  live : m.marked (m.vecs n).token = false
  bound : i < (m.vecs n).count
  empty : (m.vecs n).keys i = .empty
  seen : Seen W m n c.key t i
  time : t < m.now
  dep : Static W ∨ (c.key, t) ∈ (m.vecs n).deps
  absent : f c.key = none

/-- A rehash in place with a hand: `IPInv` of the entries, for what the table holds. -/
structure Moving (n i : Nat) (keys : Nat → KeyS K) (vals : Nat → ValS V) (w : Work K V)
    (hand : Slot K V) : Prop where
  cur : n = m.cur
  inPlace : inPlace = true
  marked : m.marked (m.vecs n).token = true
  bound : i ≤ (m.vecs n).count
  paired : ∀ i, i < (m.vecs n).count → Paired (keys i) (vals i)
  inv : ∃ P Hs, (∀ k v, f k = some v ↔ ∃ k', Hs k' v ∧ W.eq k k' = true) ∧
    IPInv W (m.vecs n).count 0 P Hs i { slots := comb keys vals, bits := w.bits, deps := w.deps, cnt := w.cnt, now := m.now } hand

/-- A rehash into a copy. -/
structure Copying (n dc i : Nat) (w : Work K V) : Prop where
  cur : n = m.cur
  marked : m.marked (m.vecs n).token = true
  good : Good dc
  bound : i ≤ (m.vecs n).count
  paired : ∀ i, Paired (w.keys i) (w.vals i)
  inv : CPInv W (comb (m.vecs n).keys (m.vecs n).vals) (m.vecs n).count dc 0 i
    { slots := comb w.keys w.vals, bits := w.bits, deps := w.deps, cnt := w.cnt, now := m.now }

/-- What the holder of the lock knows. -/
def Held : Pc K V → Prop
  | .newVal c n t i => Storing W f m c n t i ∧ ∃ v, c.kind.stores = some v
  | .newKey c n t i => Storing W f m c n t i ∧ ∃ v, c.kind.stores = some v ∧ (m.vecs n).vals i = .val v
  | .remVal _ n i => n = m.cur ∧ i < (m.vecs n).count ∧ (m.vecs n).keys i = .deleted
  | .ipLoop _ n w i => Moving W inPlace f m n i (m.vecs n).keys (m.vecs n).vals w .empty
  | .ipClear _ n w i hk hv => Moving W inPlace f m n i (m.vecs n).keys (m.vecs n).vals w (slotOf hk hv) ∧
      Paired hk hv ∧ i < (m.vecs n).count ∧ (m.vecs n).keys i = .empty
  | .ipHand _ n w i hk hv => Moving W inPlace f m n i (m.vecs n).keys (m.vecs n).vals w (slotOf hk hv) ∧
      Paired hk hv
  | .ipHashed _ n w i k hv t => Moving W inPlace f m n i (m.vecs n).keys (m.vecs n).vals w (slotOf (.key k) hv) ∧
      Paired (.key k) hv ∧ t < m.now
  | .ipVal _ n w i j k hv t nk nv =>
      Moving W inPlace f m n i (m.vecs n).keys (Function.update (m.vecs n).vals j hv)
        { w with bits := Function.update w.bits j true, deps := (k, t) :: w.deps, cnt := w.cnt + 1 } (slotOf nk nv) ∧
      Paired nk nv
  | .ipToken _ n => n = m.cur ∧ m.marked (m.vecs n).token = true
  | .cpLoop _ n dc w i => Copying W m n dc i w
  | .cpHashed _ n dc w i k x t => Copying W m n dc (i + 1) w ∧ (m.vecs n).keys i = .key k ∧
      (m.vecs n).vals i = x ∧ t < m.now
  | _ => True

end

/-! ### the table -/

/-- Call `id` removed a key whose value was `x` then, or is the deletion mark now. -/
def Removal (eq : K → K → Bool) (S : List (Entry K V)) (id : Nat) (x : ValS V) : Prop :=
  ∃ A r B kr v, S = A ++ r :: B ∧ r.id = id ∧ r.op = .on .remove kr ∧ now eq A kr = some v ∧
    (x = .deleted ∨ x = .val v)

/-- The current vector, when no entries are being moved in place. -/
structure Quiet (W : World K) (S : List (Entry K V)) (rid : Nat → Nat) (m : Mem K V) : Prop where
  core : Core W (m.vecs m.cur).count (comb (m.vecs m.cur).keys (m.vecs m.cur).vals) (m.vecs m.cur).deps m.now (now W.eq S)
  paired : ∀ i, i < (m.vecs m.cur).count → Paired ((m.vecs m.cur).keys i) ((m.vecs m.cur).vals i)
  removal : ∀ i, i < (m.vecs m.cur).count → (m.vecs m.cur).keys i = .deleted →
    Removal W.eq S (rid i) ((m.vecs m.cur).vals i)
  inj : ∀ i j, i < (m.vecs m.cur).count → j < (m.vecs m.cur).count →
    (m.vecs m.cur).keys i = .deleted → (m.vecs m.cur).keys j = .deleted → rid i = rid j → i = j

/-- Vectors and tokens. -/
structure Wf (m : Mem K V) : Prop where
  cur : m.cur < m.nv
  tok : ∀ n, n < m.nv → (m.vecs n).token < m.ntok
  retired : ∀ n, n < m.nv → n ≠ m.cur → m.marked (m.vecs n).token = true
  unmade : ∀ t, m.ntok ≤ t → m.marked t = false
  good : ∀ n, n < m.nv → Good (m.vecs n).count

/-- The order of calls `S` explains the history, and the memory and the threads fit it. -/
structure Sim (cfg : Cfg K V) (H : List (Event K V)) (S : List (Entry K V)) (rid : Nat → Nat)
    (s : State K V) : Prop where
  ex : Explains cfg.W.eq H S
  wf : Wf s.mem
  ids : ∀ id op, Event.call id op ∈ H → id < s.next
  rets : ∀ id, Returned H id → id < s.next
  uniq : ∀ p q id, (s.pc p).callId = some id → (s.pc q).callId = some id → p = q
  lock : ∀ p, (s.pc p).holds = true → s.mem.lock = some p
  view : ∀ p, View cfg.W H S rid s.mem (s.pc p)
  held : ∀ p, Held cfg.W cfg.inPlace (now cfg.W.eq S) s.mem (s.pc p)
  quiet : (∀ p, (s.pc p).moves = false) → Quiet cfg.W S rid s.mem

/-- The histories for which the table is shown to be linearizable. -/
def Fair (cfg : Cfg K V) (H : List (Event K V)) : Prop :=
  (∀ id, Event.call id .removeAll ∉ H) ∧
  (Static cfg.W ∨ (cfg.inPlace = false ∧ ∀ id op, Event.call id op ∈ H → ¬ op.interns))

/-! ### how the memory changes -/

/-- How the key of an entry changes while the token is valid. -/
def KeyStep (a b : KeyS K) : Prop :=
  a = .empty ∨ a = b ∨ ((∃ k, a = .key k) ∧ b = .deleted)

/-- How the memory changes, as seen by other threads. -/
structure Evol (W : World K) (m m' : Mem K V) : Prop where
  nv : m.nv ≤ m'.nv
  now : m.now ≤ m'.now
  marked : ∀ t, m.marked t = true → m'.marked t = true
  tok : ∀ n t, Tok m n t → Tok m' n t
  count : ∀ n, n < m.nv → (m'.vecs n).count = (m.vecs n).count
  keys : m'.marked (m.vecs m.cur).token = false → ∀ i, KeyStep ((m.vecs m.cur).keys i) ((m'.vecs m.cur).keys i)
  deps : ¬ Static W → ∀ n, n < m.nv → ∀ d ∈ (m.vecs n).deps, d ∈ (m'.vecs n).deps

/-- The marks of removals. -/
structure Marks (W : World K) (H : List (Event K V)) (S' : List (Entry K V)) (rid rid' : Nat → Nat)
    (m m' : Mem K V) : Prop where
  old : ∀ i, (m.vecs m.cur).keys i = .deleted → rid' i = rid i
  new : ∀ i k, (m.vecs m.cur).keys i = .key k → (m'.vecs m.cur).keys i = .deleted →
    ∃ A r kr, S' = A ++ [r] ∧ r.id = rid' i ∧ r.op = .on .remove kr ∧ W.eq k kr = true ∧ ¬ Returned H r.id

variable {W : World K} {H : List (Event K V)} {S S' : List (Entry K V)} {rid rid' : Nat → Nat}
  {m m' : Mem K V}

theorem Evol.live (h : Evol W m m') {t : Nat} (ht : m'.marked t = false) : m.marked t = false := by
  cases hm : m.marked t with
  | false => rfl
  | true => rw [h.marked t hm] at ht; cases ht

theorem Seen.evol (hE : Evol W m m') {n tok : Nat} (hT : Tok m n tok) (hl : m'.marked tok = false) {key : K} {t i : Nat}
    (h : Seen W m n key t i) : Seen W m' n key t i := by
  obtain ⟨h1, h2⟩ := hT.live (hE.live hl)
  obtain ⟨j, h3, h4⟩ := h
  have hc := hE.count n hT.vec
  have hk := hE.keys (by rw [← h1, h2]; exact hl)
  rw [← h1] at hk
  refine ⟨j, by rw [hc]; exact h3, fun l hlj => ?_⟩
  rw [hc]
  obtain ⟨h5, h6⟩ := h4 l hlj
  rcases hk (walk (m.vecs n).count (W.hash t key) l) with h7 | h7 | ⟨_, h7⟩
  · exact absurd h7 h5
  · rw [← h7]; exact ⟨h5, h6⟩
  · rw [h7]; exact ⟨by simp, fun k hk => by simp at hk⟩

theorem moved_static (hs : Static W) (u : Nat) (k : K) (s : Nat) : moved W u k s = false := by
  unfold moved
  rw [List.any_eq_false]
  intro x _
  simp [hs x s k]

theorem moved_mono {u u' : Nat} (hu : u ≤ u') {k : K} {s : Nat} (h : moved W u k s = true) :
    moved W u' k s = true := by
  unfold moved at h ⊢
  rw [List.any_eq_true] at h ⊢
  obtain ⟨x, h1, h2⟩ := h
  exact ⟨x, by rw [List.mem_range] at h1 ⊢; omega, h2⟩

theorem moved_false {u : Nat} {k : K} {s : Nat} (h : moved W u k s = false) {x : Nat}
    (h1 : s ≤ x) (h2 : x ≤ u) : W.hash x k = W.hash s k := by
  unfold moved at h
  rw [List.any_eq_false] at h
  have := h x (by rw [List.mem_range]; omega)
  simp only [h1, decide_true, Bool.true_and, decide_eq_true_eq] at this
  exact Classical.not_not.1 this

theorem Moved.evol (hE : Evol W m m') {n : Nat} (hn : n < m.nv) (h : Moved W m n) : Moved W m' n := by
  obtain ⟨d, h1, h2⟩ := h
  have hs : ¬ Static W := fun hs => by rw [moved_static hs] at h2; cases h2
  exact ⟨d, hE.deps hs n hn d h1, moved_mono hE.now h2⟩

theorem Known.evol (hE : Evol W m m') {id : Nat} {r0 : Option Nat} (hG : Grow W.eq S S' id r0)
    (hid : ¬ Returned H id) {n c : Nat} (hn : n < m.nv) {key : K} {t : Nat}
    (h : Known W H S m n c key t) : Known W H S' m' n c key t := by
  by_cases hs : Static W
  · exact Or.inl hs
  rcases h with h | h | ⟨k, s, h1, h2, h3⟩
  · exact Or.inl h
  · exact Or.inr (Or.inl (At.grow h hG hid))
  · exact Or.inr (Or.inr ⟨k, s, h1, hE.deps hs n hn _ h2, h3⟩)

theorem Hit.evol (hE : Evol W m m') {id : Nat} {r0 : Option Nat} (hG : Grow W.eq S S' id r0)
    (hW : W.Lawful)
    (hid : ¬ Returned H id) {n tok c : Nat} (hT : Tok m n tok) (hl : m'.marked tok = false)
    (hM : Marks W H S' rid rid' m m') {key : K} {i : Nat} (h : Hit W H S rid m n c key i) :
    Hit W H S' rid' m' n c key i := by
  obtain ⟨h1, h2⟩ := hT.live (hE.live hl)
  obtain ⟨h3, h4⟩ := h
  have hc := hE.count n hT.vec
  have hk := hE.keys (by rw [← h1, h2]; exact hl) i
  rw [← h1] at hk
  refine ⟨by rw [hc]; exact h3, ?_⟩
  rcases h4 with ⟨k, h4, h5⟩ | ⟨h4, A, r, B, kr, h5, h6, h7, h8, h9⟩
  · rw [h4] at hk
    rcases hk with hk | hk | ⟨_, hk⟩
    · cases hk
    · exact Or.inl ⟨k, hk.symm, h5⟩
    · rw [h1] at h4 hk
      obtain ⟨A, r, kr, g1, g2, g3, g4, g5⟩ := hM.new i k h4 hk
      rw [← h1] at hk
      refine Or.inr ⟨hk, A, r, [], kr, g1, g2, g3, hW.trans _ _ _ h5 g4, ?_⟩
      intro e he
      rw [List.mem_singleton.1 he]
      exact fun h => g5 h.returned
  · rw [h4] at hk
    have hk' : (m'.vecs n).keys i = .deleted := by
      rcases hk with hk | hk | ⟨⟨k, hk⟩, _⟩
      · cases hk
      · exact hk.symm
      · cases hk
    rw [h1] at h4
    have := hM.old i h4
    obtain ⟨A', B', g1, _, g3⟩ := hG.splitR A r B h5
    refine Or.inr ⟨hk', A', r, B', kr, g1, by rw [this]; exact h6, h7, h8, ?_⟩
    refine h9.grow hid ?_
    intro x hx
    rcases List.mem_cons.1 hx with hx | hx
    · exact Or.inl (by simp [hx])
    · rcases g3 x hx with h | h
      · exact Or.inl (by simp [h])
      · exact Or.inr h

theorem Unc.grow {id : Nat} {r0 : Option Nat} (hG : Grow W.eq S S' id r0) {c : Ctx K V}
    (hc : c.id ≠ id) (h : Unc H S c) : Unc H S' c := by
  refine ⟨h.called, h.ongoing, ?_, h.kind⟩
  intro x hx
  rcases hG.new x hx with h1 | h1
  · exact h.fresh x h1
  · rw [h1]; exact fun e => hc e.symm

theorem Fetched.grow {id : Nat} {r0 : Option Nat} (hG : Grow W.eq S S' id r0)
    (hid : ¬ Returned H id) {c : Nat} {key : K} {x : ValS V} (h : Fetched W H S c key x) :
    Fetched W H S' c key x := by
  rcases h with h | ⟨v, h1, h2⟩
  · exact Or.inl h
  · exact Or.inr ⟨v, h1, h2.grow hG hid⟩

theorem Asked.evol (hE : Evol W m m') {id : Nat} {r0 : Option Nat} (hG : Grow W.eq S S' id r0)
    (hid : ¬ Returned H id) {n tok : Nat} (hT : Tok m n tok) {c : Ctx K V} {su su' : Prop}
    (hs : su' → su) {w : Why} (h : Asked W H S m c n tok su w) : Asked W H S' m' c n tok su' w := by
  cases w with
  | absent =>
    refine ⟨h.1, fun h' => ?_⟩
    rcases h.2 (hs h') with h1 | h1
    · exact Or.inl (At.grow h1 hG hid)
    · exact Or.inr (h1.evol hE hT.vec)
  | found => trivial
  | store => trivial
  | fresh t i =>
    obtain ⟨h1, h2, h3⟩ := h
    exact ⟨h1, Nat.lt_of_lt_of_le h2 hE.now, fun hl => (h3 (hE.live hl)).evol hE hT hl⟩

/-- What a thread knows stays true when others do something. -/
theorem View.evol (hW : W.Lawful) (hE : Evol W m m') {id : Nat} {r0 : Option Nat} (hG : Grow W.eq S S' id r0)
    (hid : ¬ Returned H id)
    (hM : m'.marked (m.vecs m.cur).token = false → Marks W H S' rid rid' m m') {pc : Pc K V}
    (hc : pc.callId ≠ some id) (h : View W H S rid m pc) : View W H S' rid' m' pc := by
  have hu : ∀ {c : Ctx K V}, some c.id ≠ some id → Unc H S c → Unc H S' c :=
    fun hc h => h.grow hG (fun e => hc (by rw [e]))
  have hnow := hE.now
  cases pc with
  | idle => trivial
  | start c => exact hu hc h
  | tv c n => exact ⟨hu hc h.1, Nat.lt_of_lt_of_le h.2 hE.nv⟩
  | token c n tok => exact ⟨hu hc h.1, hE.tok _ _ h.2⟩
  | probe c n tok t i =>
    obtain ⟨h1, h2, h3, h4⟩ := h
    exact ⟨hu hc h1, hE.tok _ _ h2, by omega, fun hl => ⟨(h4 (hE.live hl)).1.evol hE h2 hl,
      (h4 (hE.live hl)).2.evol hE hG hid h2.vec⟩⟩
  | found c n tok i =>
    obtain ⟨h1, h2, h3⟩ := h
    refine ⟨hu hc h1, hE.tok _ _ h2, fun hl => (h3 (hE.live hl)).evol hE hG hW hid h2 hl (hM ?_)⟩
    obtain ⟨g1, g2⟩ := h2.live (hE.live hl)
    rw [← g1, g2]; exact hl
  | missed c n tok t i =>
    obtain ⟨h1, h2, h3, h4, h5⟩ := h
    exact ⟨hu hc h1, hE.tok _ _ h2, h3, by omega, fun hl => (h5 (hE.live hl)).evol hE h2 hl⟩
  | value c n tok x =>
    obtain ⟨h1, h2, h3, h4⟩ := h
    exact ⟨hu hc h1, hE.tok _ _ h2, h3, fun hl => (h4 (hE.live hl)).grow hG hid⟩
  | value2 c n tok x =>
    obtain ⟨h1, h2, h3, h4⟩ := h
    exact ⟨hu hc h1, hE.tok _ _ h2, h3, h4.grow hG hid⟩
  | wait c => exact hu hc h
  | need1 c n tok w =>
    obtain ⟨h1, h2, h3⟩ := h
    exact ⟨hu hc h1, hE.tok _ _ h2, h3.evol hE hG hid h2 hE.live⟩
  | need2 c n tok w =>
    obtain ⟨h1, h2, h3⟩ := h
    exact ⟨hu hc h1, hE.tok _ _ h2, h3.evol hE hG hid h2 (fun h => h)⟩
  | need3 c n tok w =>
    obtain ⟨h1, h2, h3⟩ := h
    exact ⟨hu hc h1, hE.tok _ _ h2, h3.evol hE hG hid h2 (fun h => h)⟩
  | full c n b => exact ⟨hu hc h.1, Nat.lt_of_lt_of_le h.2 hE.nv⟩
  | rehash c n b => exact ⟨hu hc h.1, Nat.lt_of_lt_of_le h.2 hE.nv⟩
  | done i out =>
    obtain ⟨h1, h2, h3⟩ := h
    refine ⟨h1, h2, ?_⟩
    rcases h3 with ⟨h3, h4⟩ | ⟨e, h3, h4⟩
    · refine Or.inl ⟨h3, fun x hx => ?_⟩
      rcases hG.new x hx with g | g
      · exact h4 x g
      · rw [g]; rintro rfl; exact hc rfl
    · exact Or.inr ⟨e, hG.old e h3, h4⟩
  | newVal c n t i => exact hu hc h
  | newKey c n t i => exact hu hc h
  | remVal c n i =>
    obtain ⟨h1, h2, e, h3, h4⟩ := h
    exact ⟨h1, h2, e, hG.old e h3, h4⟩
  | ipLoop c n w i => exact hu hc h
  | ipClear c n w i hk hv => exact hu hc h
  | ipHand c n w i hk hv => exact hu hc h
  | ipHashed c n w i k hv t => exact hu hc h
  | ipVal c n w i j k hv t nk nv => exact hu hc h
  | ipToken c n => exact hu hc h
  | cpLoop c n dc w i => exact hu hc h
  | cpHashed c n dc w i k x t => exact hu hc h
  | raStart => exact h
  | raAdds => exact h
  | raLock => exact h
  | raKeys => exact h
  | raVals => exact h
  | raToken => exact h
  | raNew => exact h
  | raSwap => exact h
  | raInstall => exact h

end Verif.Conc
