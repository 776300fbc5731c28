import Verif.Conc.Inv

/-! # Helper lemmas for concurrent tables: putting a step together -/

namespace Verif.Conc

open Verif.Table

variable {K V : Type} {cfg : Cfg K V} {W : World K} {H : List (Event K V)} {S S' : List (Entry K V)}
  {rid rid' : Nat → Nat} {m m' : Mem K V} {s : State K V}

theorem View.ongoing {pc : Pc K V} (h : View W H S rid m pc) {id : Nat} (hid : pc.callId = some id) :
    ¬ Returned H id := by
  cases pc with
  | idle => cases hid
  | start c => cases hid; exact Unc.ongoing h
  | tv c n => cases hid; exact h.1.ongoing
  | token c n tok => cases hid; exact h.1.ongoing
  | probe c n tok t i => cases hid; exact h.1.ongoing
  | found c n tok i => cases hid; exact h.1.ongoing
  | missed c n tok t i => cases hid; exact h.1.ongoing
  | value c n tok x => cases hid; exact h.1.ongoing
  | value2 c n tok x => cases hid; exact h.1.ongoing
  | wait c => cases hid; exact Unc.ongoing h
  | need1 c n tok w => cases hid; exact h.1.ongoing
  | need2 c n tok w => cases hid; exact h.1.ongoing
  | need3 c n tok w => cases hid; exact h.1.ongoing
  | full c n b => cases hid; exact h.1.ongoing
  | rehash c n b => cases hid; exact h.1.ongoing
  | done i out => cases hid; exact h.1
  | newVal c n t i => cases hid; exact Unc.ongoing h
  | newKey c n t i => cases hid; exact Unc.ongoing h
  | remVal c n i => cases hid; exact h.1
  | ipLoop c n w i => cases hid; exact Unc.ongoing h
  | ipClear c n w i hk hv => cases hid; exact Unc.ongoing h
  | ipHand c n w i hk hv => cases hid; exact Unc.ongoing h
  | ipHashed c n w i k hv t => cases hid; exact Unc.ongoing h
  | ipVal c n w i j k hv t nk nv => cases hid; exact Unc.ongoing h
  | ipToken c n => cases hid; exact Unc.ongoing h
  | cpLoop c n dc w i => cases hid; exact Unc.ongoing h
  | cpHashed c n dc w i k x t => cases hid; exact Unc.ongoing h
  | raStart => exact h.elim
  | raAdds => exact h.elim
  | raLock => exact h.elim
  | raKeys => exact h.elim
  | raVals => exact h.elim
  | raToken => exact h.elim
  | raNew => exact h.elim
  | raSwap => exact h.elim
  | raInstall => exact h.elim

theorem View.called {pc : Pc K V} (h : View W H S rid m pc) {id : Nat} (hid : pc.callId = some id) :
    ∃ op, Event.call id op ∈ H := by
  cases pc with
  | idle => cases hid
  | start c => cases hid; exact ⟨_, Unc.called h⟩
  | tv c n => cases hid; exact ⟨_, h.1.called⟩
  | token c n tok => cases hid; exact ⟨_, h.1.called⟩
  | probe c n tok t i => cases hid; exact ⟨_, h.1.called⟩
  | found c n tok i => cases hid; exact ⟨_, h.1.called⟩
  | missed c n tok t i => cases hid; exact ⟨_, h.1.called⟩
  | value c n tok x => cases hid; exact ⟨_, h.1.called⟩
  | value2 c n tok x => cases hid; exact ⟨_, h.1.called⟩
  | wait c => cases hid; exact ⟨_, Unc.called h⟩
  | need1 c n tok w => cases hid; exact ⟨_, h.1.called⟩
  | need2 c n tok w => cases hid; exact ⟨_, h.1.called⟩
  | need3 c n tok w => cases hid; exact ⟨_, h.1.called⟩
  | full c n b => cases hid; exact ⟨_, h.1.called⟩
  | rehash c n b => cases hid; exact ⟨_, h.1.called⟩
  | done i out => cases hid; exact h.2.1
  | newVal c n t i => cases hid; exact ⟨_, Unc.called h⟩
  | newKey c n t i => cases hid; exact ⟨_, Unc.called h⟩
  | remVal c n i => cases hid; exact h.2.1
  | ipLoop c n w i => cases hid; exact ⟨_, Unc.called h⟩
  | ipClear c n w i hk hv => cases hid; exact ⟨_, Unc.called h⟩
  | ipHand c n w i hk hv => cases hid; exact ⟨_, Unc.called h⟩
  | ipHashed c n w i k hv t => cases hid; exact ⟨_, Unc.called h⟩
  | ipVal c n w i j k hv t nk nv => cases hid; exact ⟨_, Unc.called h⟩
  | ipToken c n => cases hid; exact ⟨_, Unc.called h⟩
  | cpLoop c n dc w i => cases hid; exact ⟨_, Unc.called h⟩
  | cpHashed c n dc w i k x t => cases hid; exact ⟨_, Unc.called h⟩
  | raStart => exact h.elim
  | raAdds => exact h.elim
  | raLock => exact h.elim
  | raKeys => exact h.elim
  | raVals => exact h.elim
  | raToken => exact h.elim
  | raNew => exact h.elim
  | raSwap => exact h.elim
  | raInstall => exact h.elim

theorem held_of_free {b : Bool} {f : K → Option V} {pc : Pc K V} (h : pc.holds = false) :
    Held W b f m pc := by
  cases pc <;> first | trivial | cases h

/-! ### time passes -/

theorem Evol.tick {t : Nat} (ht : m.now ≤ t) : Evol W m { m with now := t } where
  nv := Nat.le_refl _
  now := ht
  marked _ h := h
  tok _ _ h := ⟨h.vec, h.made, h.live⟩
  count _ _ := rfl
  keys _ _ := Or.inr (Or.inl rfl)
  deps _ _ _ _ h := h

theorem Evol.refl : Evol W m m := Evol.tick (t := m.now) (Nat.le_refl _)

theorem Marks.same {t : Nat} : Marks W H S' rid rid m { m with now := t } where
  old _ _ := rfl
  new i k h1 h2 := by simp only at h2; rw [h1] at h2; cases h2

theorem Moving.tick {b : Bool} {f : K → Option V} {n i : Nat} {keys : Nat → KeyS K} {vals : Nat → ValS V}
    {w : Work K V} {hand : Slot K V} {t : Nat} (ht : m.now ≤ t)
    (h : Moving W b f m n i keys vals w hand) : Moving W b f { m with now := t } n i keys vals w hand := by
  refine ⟨h.cur, h.inPlace, h.marked, h.bound, h.paired, ?_⟩
  obtain ⟨P, Hs, h1, h2⟩ := h.inv
  exact ⟨P, Hs, h1, ip_later h2 ht⟩

theorem Copying.tick {n dc i : Nat} {w : Work K V} {t : Nat} (ht : m.now ≤ t)
    (h : Copying W m n dc i w) : Copying W { m with now := t } n dc i w :=
  ⟨h.cur, h.marked, h.good, h.bound, h.paired, cp_later h.inv ht⟩

theorem Storing.tick {f : K → Option V} {c : Ctx K V} {n u i t : Nat} (ht : m.now ≤ t)
    (h : Storing W f m c n u i) : Storing W f { m with now := t } c n u i :=
  ⟨h.cur, h.live, h.bound, h.empty, h.seen, Nat.lt_of_lt_of_le h.time ht, h.dep, h.absent⟩

theorem Held.tick {b : Bool} {f : K → Option V} {pc : Pc K V} {t : Nat} (ht : m.now ≤ t)
    (h : Held W b f m pc) : Held W b f { m with now := t } pc := by
  cases pc with
  | newVal c n u i => exact ⟨h.1.tick ht, h.2⟩
  | newKey c n u i => exact ⟨h.1.tick ht, h.2⟩
  | remVal c n i => exact h
  | ipLoop c n w i => exact Moving.tick ht h
  | ipClear c n w i hk hv => exact ⟨h.1.tick ht, h.2⟩
  | ipHand c n w i hk hv => exact ⟨h.1.tick ht, h.2⟩
  | ipHashed c n w i k hv u => exact ⟨h.1.tick ht, h.2.1, Nat.lt_of_lt_of_le h.2.2 ht⟩
  | ipVal c n w i j k hv u nk nv => exact ⟨h.1.tick ht, h.2⟩
  | ipToken c n => exact h
  | cpLoop c n dc w i => exact Copying.tick ht h
  | cpHashed c n dc w i k x u => exact ⟨h.1.tick ht, h.2.1, h.2.2.1, Nat.lt_of_lt_of_le h.2.2.2 ht⟩
  | _ => trivial

theorem Wf.tick {t : Nat} (h : Wf m) : Wf { m with now := t } := ⟨h.cur, h.tok, h.retired, h.unmade, h.good⟩

theorem Quiet.tick {t : Nat} (ht : m.now ≤ t) (h : Quiet W S rid m) : Quiet W S rid { m with now := t } :=
  ⟨h.core.later ht (fun _ h => h), h.paired, h.removal, h.inj⟩

/-- No call has the number of the next one. -/
theorem Sim.unused (h : Sim cfg H S rid s) (p : Nat) : (s.pc p).callId ≠ some s.next := by
  intro e
  obtain ⟨op, h1⟩ := (h.view p).called e
  exact absurd (h.ids _ _ h1) (Nat.lt_irrefl _)

theorem Sim.unreturned (h : Sim cfg H S rid s) : ¬ Returned H s.next :=
  fun h1 => absurd (h.rets _ h1) (Nat.lt_irrefl _)

theorem Sim.tick (hW : cfg.W.Lawful) (h : Sim cfg H S rid s) {t : Nat} (ht : s.mem.now ≤ t) :
    Sim cfg H S rid { s with mem := { s.mem with now := t } } :=
  ⟨h.ex, h.wf.tick, h.ids, h.rets, h.uniq, h.lock,
    fun p => View.evol hW (Evol.tick ht) (Grow.refl S s.next none) h.unreturned (fun _ => Marks.same)
      (h.unused p) (h.view p),
    fun p => (h.held p).tick ht, fun hm => (h.quiet hm).tick ht⟩

/-! ### a thread goes on -/

theorem update_uniq {pc : Nat → Pc K V} (h : ∀ p q id, (pc p).callId = some id → (pc q).callId = some id → p = q)
    {p : Nat} {pc' : Pc K V} {i : Nat} (h1 : (pc p).callId = some i) (h2 : pc'.callId = some i) :
    ∀ a b id, (Function.update pc p pc' a).callId = some id → (Function.update pc p pc' b).callId = some id → a = b := by
  intro a b id ha hb
  apply h a b id
  · by_cases e : a = p
    · subst e; rw [Function.update_self, h2] at ha; rw [h1, ha]
    · rwa [Function.update_of_ne e] at ha
  · by_cases e : b = p
    · subst e; rw [Function.update_self, h2] at hb; rw [h1, hb]
    · rwa [Function.update_of_ne e] at hb

theorem Quiet.grow (h : Quiet W S rid m) {id : Nat} (hG : Grow W.eq S S' id none)
    (hN : now W.eq S' = now W.eq S) : Quiet W S' rid m := by
  refine ⟨by rw [hN]; exact h.core, h.paired, ?_, h.inj⟩
  intro i hi hd
  obtain ⟨A, r, B, kr, v, h1, h2, h3, h4, h5⟩ := h.removal i hi hd
  obtain ⟨A', B', g1, g2, _⟩ := hG.splitR A r B h1
  exact ⟨A', r, B', kr, v, g1, h2, h3, by rw [g2 (by simp)]; exact h4, h5⟩

/-- Thread `p` goes on without a change of the memory; perhaps its call takes place, without a
    change of the map. -/
theorem Sim.move (hW : cfg.W.Lawful) (h : Sim cfg H S rid s) {p : Nat} {pc' : Pc K V} {id : Nat}
    (hid : (s.pc p).callId = some id) (hid' : pc'.callId = some id) (hx : Explains cfg.W.eq H S')
    (hG : Grow cfg.W.eq S S' id none) (hN : now cfg.W.eq S' = now cfg.W.eq S)
    (hv : View cfg.W H S' rid s.mem pc') (hl : pc'.holds = true → s.mem.lock = some p)
    (hh : Held cfg.W cfg.inPlace (now cfg.W.eq S) s.mem pc') (hm : (s.pc p).moves = pc'.moves) :
    Sim cfg H S' rid { s with mem := s.mem, pc := Function.update s.pc p pc' } := by
  refine ⟨hx, h.wf, h.ids, h.rets, update_uniq h.uniq hid hid', ?_, ?_, ?_, ?_⟩
  · intro q hq
    by_cases e : q = p
    · subst e; simp only [Function.update_self] at hq; exact hl hq
    · simp only [Function.update_of_ne e] at hq; exact h.lock q hq
  · intro q
    by_cases e : q = p
    · subst e; simp only [Function.update_self]; exact hv
    · simp only [Function.update_of_ne e]
      exact View.evol hW Evol.refl hG ((h.view p).ongoing hid) (fun _ => Marks.same (t := s.mem.now))
        (fun e' => e (h.uniq q p id e' hid)) (h.view q)
  · intro q
    by_cases e : q = p
    · subst e; simp only [Function.update_self, hN]; exact hh
    · simp only [Function.update_of_ne e, hN]; exact h.held q
  · intro hq
    refine (h.quiet fun q => ?_).grow hG hN
    by_cases e : q = p
    · subst e; rw [hm]; have := hq q; simpa using this
    · have := hq q; simpa [Function.update_of_ne e] using this

/-- Thread `p` goes on and its call has not taken place yet. -/
theorem Sim.goes (hW : cfg.W.Lawful) (h : Sim cfg H S rid s) {p : Nat} {pc' : Pc K V} {id : Nat}
    (hid : (s.pc p).callId = some id) (hid' : pc'.callId = some id)
    (hv : View cfg.W H S rid s.mem pc') (hh : pc'.holds = false) (hm : (s.pc p).moves = false) :
    Sim cfg H S rid { s with mem := s.mem, pc := Function.update s.pc p pc' } := by
  refine h.move hW hid hid' h.ex (Grow.refl _ _ _) rfl hv (by simp [hh]) (held_of_free hh) ?_
  rw [hm]
  cases hb : pc'.moves with
  | false => rfl
  | true => rw [Pc.holds_of_moves hb] at hh; cases hh

/-- The call of thread `p` takes place at a moment when it did not change the map. -/
theorem Sim.commit (hW : cfg.W.Lawful) (h : Sim cfg H S rid s) {p : Nat} {c : Ctx K V}
    (hu : Unc H S c) (hp : (s.pc p).callId = some c.id) (hm : (s.pc p).moves = false)
    {P : (K → Option V) → Prop} (ha : At cfg.W.eq H S c.id P) {out : Out V}
    (hP : ∀ f, Respects cfg.W.eq f → P f → perform cfg.W.eq f (.on c.called c.key) = (f, out)) :
    ∃ S', Sim cfg H S' rid { s with mem := s.mem, pc := Function.update s.pc p (.done c.id out) } := by
  obtain ⟨A, B, h1, h2, h3⟩ := ha
  subst h1
  let e : Entry K V := { id := c.id, op := .on c.called c.key, out := out }
  have hpe := hP _ (now_respects hW A) h2
  have hleg : Legal cfg.W.eq (now cfg.W.eq A) (e :: B) := by
    refine ⟨by show (perform cfg.W.eq _ (.on c.called c.key)).2 = out; rw [hpe], ?_⟩
    show Legal cfg.W.eq (perform cfg.W.eq _ (.on c.called c.key)).1 B
    rw [hpe]
    exact h.ex.legal_from
  have hx : Explains cfg.W.eq H (A ++ e :: B) :=
    h.ex.insert hu.fresh hu.called hu.ongoing h3 hleg
  have hG : Grow cfg.W.eq (A ++ B) (A ++ e :: B) c.id none :=
    Grow.insert (e := e) none (by show (perform cfg.W.eq _ (.on c.called c.key)).1 = _; rw [hpe])
  refine ⟨A ++ e :: B, h.move hW hp rfl hx hG ?_ ⟨hu.ongoing, ⟨_, hu.called⟩,
    Or.inr ⟨e, by simp, rfl, rfl⟩⟩ (by intro h; cases h) trivial (by rw [hm]; rfl)⟩
  rw [now_append, now_append]
  show after cfg.W.eq (perform cfg.W.eq _ (.on c.called c.key)).1 B = _
  rw [hpe]

/-- Thread `p`, with the lock, changes the memory. -/
theorem Sim.write (hW : cfg.W.Lawful) (h : Sim cfg H S rid s) {p : Nat} {pc' : Pc K V} {id : Nat}
    {r0 : Option Nat} (hlk : s.mem.lock = none ∨ s.mem.lock = some p)
    (hid : (s.pc p).callId = some id) (hid' : pc'.callId = some id) (hx : Explains cfg.W.eq H S')
    (hG : Grow cfg.W.eq S S' id r0) (hE : Evol cfg.W s.mem m')
    (hM : m'.marked (s.mem.vecs s.mem.cur).token = false → Marks cfg.W H S' rid rid' s.mem m')
    (hwf : Wf m') (hl : pc'.holds = true → m'.lock = some p) (hv : View cfg.W H S' rid' m' pc')
    (hh : Held cfg.W cfg.inPlace (now cfg.W.eq S') m' pc')
    (hq : pc'.moves = false → Quiet cfg.W S' rid' m') :
    Sim cfg H S' rid' { s with mem := m', pc := Function.update s.pc p pc' } := by
  have hfree : ∀ q, q ≠ p → (s.pc q).holds = false := by
    intro q hqp
    cases hb : (s.pc q).holds with
    | false => rfl
    | true =>
      have := h.lock q hb
      rcases hlk with h1 | h1
      · rw [h1] at this; cases this
      · rw [h1] at this; exact absurd (Option.some.inj this).symm hqp
  refine ⟨hx, hwf, h.ids, h.rets, update_uniq h.uniq hid hid', ?_, ?_, ?_, ?_⟩
  · intro q hq
    by_cases e : q = p
    · subst e; simp only [Function.update_self] at hq; exact hl hq
    · simp only [Function.update_of_ne e] at hq; rw [hfree q e] at hq; cases hq
  · intro q
    by_cases e : q = p
    · subst e; simp only [Function.update_self]; exact hv
    · simp only [Function.update_of_ne e]
      exact View.evol hW hE hG ((h.view p).ongoing hid) hM
        (fun e' => e (h.uniq q p id e' hid)) (h.view q)
  · intro q
    by_cases e : q = p
    · subst e; simp only [Function.update_self]; exact hh
    · simp only [Function.update_of_ne e]; exact held_of_free (hfree q e)
  · intro hqs
    apply hq
    have := hqs p
    simpa using this

/-- When no thread holds the lock, or thread `p` does and moves no entries, the vector is quiet. -/
theorem Sim.quiet' (h : Sim cfg H S rid s) {p : Nat}
    (hlk : s.mem.lock = none ∨ s.mem.lock = some p) (hp : (s.pc p).moves = false) :
    Quiet cfg.W S rid s.mem := by
  refine h.quiet fun q => ?_
  by_cases e : q = p
  · rw [e]; exact hp
  · cases hb : (s.pc q).moves with
    | false => rfl
    | true =>
      have := h.lock q (Pc.holds_of_moves hb)
      rcases hlk with h1 | h1
      · rw [h1] at this; cases this
      · rw [h1] at this; exact absurd (Option.some.inj this).symm e

/-- While the token of the current vector is valid, no entries are moved. -/
theorem Sim.live (h : Sim cfg H S rid s) (hl : s.mem.marked (s.mem.vecs s.mem.cur).token = false) :
    Quiet cfg.W S rid s.mem := by
  refine h.quiet fun q => ?_
  cases hb : (s.pc q).moves with
  | false => rfl
  | true =>
    exfalso
    have hh := h.held q
    have key : ∀ {n i : Nat} {keys : Nat → KeyS K} {vals : Nat → ValS V} {w : Work K V} {hand : Slot K V},
        Moving cfg.W cfg.inPlace (now cfg.W.eq S) s.mem n i keys vals w hand → False := by
      intro n i keys vals w hand hm
      have := hm.marked
      rw [hm.cur, hl] at this
      cases this
    cases hpc : s.pc q with
    | ipLoop c n w i => rw [hpc] at hh; exact key hh
    | ipClear c n w i hk hv => rw [hpc] at hh; exact key hh.1
    | ipHand c n w i hk hv => rw [hpc] at hh; exact key hh.1
    | ipHashed c n w i k hv t => rw [hpc] at hh; exact key hh.1
    | ipVal c n w i j k hv t nk nv => rw [hpc] at hh; exact key hh.1
    | _ => rw [hpc] at hb; cases hb

theorem Sim.live' (h : Sim cfg H S rid s) {n tok : Nat} (hT : Tok s.mem n tok)
    (hl : s.mem.marked tok = false) : n = s.mem.cur ∧ (s.mem.vecs n).token = tok ∧ Quiet cfg.W S rid s.mem := by
  obtain ⟨h1, h2⟩ := hT.live hl
  exact ⟨h1, h2, h.live (by rw [← h1, h2]; exact hl)⟩

/-! ### searches -/

/-- A search that has ended at an empty entry with the right hash code shows that the key is
    absent. -/
theorem Seen.absent (hq : Quiet W S rid m) {key : K} {t i : Nat} (hs : Seen W m m.cur key t i)
    (he : (m.vecs m.cur).keys i = .empty)
    (hh : ∀ k s, W.eq key k = true → (Static W ∨ (k, s) ∈ (m.vecs m.cur).deps) → s < m.now →
      W.hash s k = W.hash t key) : now W.eq S key = none := by
  cases hn : now W.eq S key with
  | none => rfl
  | some v =>
    exfalso
    obtain ⟨k, ⟨i', h1, h2⟩, h3⟩ := (hq.core.rep key v).1 hn
    obtain ⟨s, h4, h5, l, h6, h7, h8⟩ := hq.core.placed i' k v h1 h2
    rw [hh k s h3 h4 h5] at h7 h8
    obtain ⟨j, g1, g2⟩ := hs
    have hk := (comb_full.1 h2).1
    rcases Nat.lt_trichotomy j l with hlt | rfl | hlt
    · have := h8 j hlt
      simp only [comb] at this
      rw [isFound_slotOf, g1] at this
      exact this he
    · rw [h7] at g1
      rw [← g1, hk] at he; cases he
    · have := (g2 l hlt).2 k (by rw [h7]; exact hk)
      rw [h3] at this; cases this

/-- A search that has ended at an empty entry has made fewer steps than there are entries. -/
theorem Seen.placed (hg : Good (m.vecs m.cur).count) {key : K} {t i : Nat}
    (hs : Seen W m m.cur key t i) (he : (m.vecs m.cur).keys i = .empty) :
    Placed (comb (m.vecs m.cur).keys (m.vecs m.cur).vals) (m.vecs m.cur).count (W.hash t key) i := by
  obtain ⟨j, g1, g2⟩ := hs
  refine ⟨j, ?_, g1, fun l hl => ?_⟩
  · rcases Nat.lt_or_ge j (m.vecs m.cur).count with h | h
    · exact h
    · exfalso
      have hc := hg.2
      have hp : walk (m.vecs m.cur).count (W.hash t key) (j - (m.vecs m.cur).count)
          = walk (m.vecs m.cur).count (W.hash t key) j := by
        have hs := stride_bounds (stride_mem (W.hash t key))
        have hpi : primaryIndex (W.hash t key) (m.vecs m.cur).count < (m.vecs m.cur).count := by
          have := walk_lt hg (W.hash t key) 0
          simpa [walk] using this
        unfold walk
        rw [iter_eq (by omega) hpi, iter_eq (by omega) hpi]
        have : j * ((m.vecs m.cur).count - secondaryStride (W.hash t key)) =
            (j - (m.vecs m.cur).count) * ((m.vecs m.cur).count - secondaryStride (W.hash t key))
              + (m.vecs m.cur).count * ((m.vecs m.cur).count - secondaryStride (W.hash t key)) := by
          rw [← Nat.add_mul, Nat.sub_add_cancel h]
        rw [this, ← Nat.add_assoc, Nat.add_mul_mod_self_left]
      have := (g2 (j - (m.vecs m.cur).count) (by omega)).1
      rw [hp, g1] at this
      exact this he
  · show isFound (comb _ _ _) = true
    unfold comb
    rw [isFound_slotOf]
    exact (g2 l hl).1

end Verif.Conc
