import Verif.Conc.Reads

/-! # Helper lemmas for concurrent tables: stores and removals -/

namespace Verif.Conc

open Verif.Table

variable {K V : Type} {cfg : Cfg K V} {W : World K} {H : List (Event K V)} {S S' : List (Entry K V)}
  {rid : Nat → Nat} {s : State K V} {p : Nat} {m m' : Mem K V}

/-! ### changes of one vector -/

theorem modify_same {n : Nat} {f : Vec K V → Vec K V} : (m.modify n f).vecs n = f (m.vecs n) := by
  simp [Mem.modify]

theorem modify_other {n k : Nat} {f : Vec K V → Vec K V} (h : k ≠ n) :
    (m.modify n f).vecs k = m.vecs k := by
  simp [Mem.modify, Function.update_of_ne h]

theorem modify_count {n k : Nat} {f : Vec K V → Vec K V}
    (hc : (f (m.vecs n)).count = (m.vecs n).count) :
    ((m.modify n f).vecs k).count = (m.vecs k).count := by
  by_cases e : k = n
  · subst e; rw [modify_same, hc]
  · rw [modify_other e]

theorem modify_token {n k : Nat} {f : Vec K V → Vec K V}
    (hc : (f (m.vecs n)).token = (m.vecs n).token) :
    ((m.modify n f).vecs k).token = (m.vecs k).token := by
  by_cases e : k = n
  · subst e; rw [modify_same, hc]
  · rw [modify_other e]

theorem Evol.modify {n : Nat} {f : Vec K V → Vec K V} {l : Option Nat}
    (hc : (f (m.vecs n)).count = (m.vecs n).count) (ht : (f (m.vecs n)).token = (m.vecs n).token)
    (hk : n = m.cur → m.marked (m.vecs m.cur).token = false → ∀ i, KeyStep ((m.vecs n).keys i) ((f (m.vecs n)).keys i))
    (hd : ¬ Static W → ∀ d ∈ (m.vecs n).deps, d ∈ (f (m.vecs n)).deps) :
    Evol W m { m.modify n f with lock := l } where
  nv := Nat.le_refl _
  now := Nat.le_refl _
  marked _ h := h
  tok k t h := ⟨h.vec, h.made, fun hl => by
    have := h.live hl
    exact ⟨this.1, by simp only [modify_token ht]; exact this.2⟩⟩
  count k _ := modify_count hc
  keys hl i := by
    by_cases e : m.cur = n
    · have := hk e.symm hl i
      simp only [e, modify_same]
      exact this
    · simp only [modify_other e]
      exact Or.inr (Or.inl rfl)
  deps hs k _ d h := by
    by_cases e : k = n
    · subst e; simp only [modify_same]; exact hd hs d h
    · simp only [modify_other e]; exact h

theorem Wf.modify (h : Wf m) {n : Nat} {f : Vec K V → Vec K V} {l : Option Nat}
    (hc : (f (m.vecs n)).count = (m.vecs n).count) (ht : (f (m.vecs n)).token = (m.vecs n).token) :
    Wf { m.modify n f with lock := l } where
  cur := h.cur
  tok k hk := by simp only [modify_token ht]; exact h.tok k hk
  retired k hk e := by simp only [modify_token ht]; exact h.retired k hk e
  unmade := h.unmade
  good k hk := by simp only [modify_count hc]; exact h.good k hk

/-- `Quiet`, for a vector and a time. -/
structure QuietV (W : World K) (S : List (Entry K V)) (rid : Nat → Nat) (time : Nat) (v : Vec K V) : Prop where
  core : Core W v.count (comb v.keys v.vals) v.deps time (now W.eq S)
  paired : ∀ i, i < v.count → Paired (v.keys i) (v.vals i)
  removal : ∀ i, i < v.count → v.keys i = .deleted → Removal W.eq S (rid i) (v.vals i)
  inj : ∀ i j, i < v.count → j < v.count → v.keys i = .deleted → v.keys j = .deleted → rid i = rid j → i = j

theorem quiet_iff : Quiet W S rid m ↔ QuietV W S rid m.now (m.vecs m.cur) :=
  ⟨fun h => ⟨h.core, h.paired, h.removal, h.inj⟩, fun h => ⟨h.core, h.paired, h.removal, h.inj⟩⟩

theorem quiet_modify {f : Vec K V → Vec K V} {l : Option Nat}
    (h : QuietV W S rid m.now (f (m.vecs m.cur))) : Quiet W S rid { m.modify m.cur f with lock := l } := by
  rw [quiet_iff]
  show QuietV W S rid m.now ((m.modify m.cur f).vecs m.cur)
  rw [modify_same]
  exact h

theorem Removal.grow {eq : K → K → Bool} {id rd : Nat} {r0 : Option Nat} (hG : Grow eq S S' id r0) (hr : some rd ≠ r0)
    {x : ValS V} (h : Removal eq S rd x) : Removal eq S' rd x := by
  obtain ⟨A, r, B, kr, v, h1, h2, h3, h4, h5⟩ := h
  obtain ⟨A', B', g1, g2, _⟩ := hG.splitR A r B h1
  exact ⟨A', r, B', kr, v, g1, h2, h3, by rw [g2 (by rw [h2]; exact hr)]; exact h4, h5⟩

theorem marks_same {rid : Nat → Nat} (hk : (m'.vecs m.cur).keys = (m.vecs m.cur).keys) :
    Marks W H S' rid rid m m' where
  old _ _ := rfl
  new i k h1 h2 := by rw [hk, h1] at h2; cases h2

/-! ### stores under an old key -/

theorem Unc.put {c : Ctx K V} (hu : Unc H S c) {v : V} (hk : c.kind = .put v) : c.called = .put v := by
  rcases hu.kind with h1 | ⟨u, _, h1⟩
  · rw [← h1, hk]
  · rw [hk] at h1; cases h1

theorem Unc.remove {c : Ctx K V} (hu : Unc H S c) (hk : c.kind = .remove) : c.called = .remove := by
  rcases hu.kind with h1 | ⟨u, _, h1⟩
  · rw [← h1, hk]
  · rw [hk] at h1; cases h1

theorem valid_iff {n tok : Nat} : m.valid n tok = true ↔ m.marked tok = false ∧ (m.vecs n).token = tok := by
  simp [Mem.valid]

theorem Sim.putOld (hW : cfg.W.Lawful) (h : Sim cfg H S rid s) {c : Ctx K V} {n tok i : Nat} {v : V}
    (hpc : s.pc p = .found c n tok i) (hk : c.kind = .put v) (hlk : s.mem.lock = none)
    (hval : s.mem.valid n tok = true) :
    ∃ S', Sim cfg H S' rid { s with mem := s.mem.modify n (Vec.setVal i (.val v)), pc := Function.update s.pc p (.done c.id .stored) } := by
  have hv := h.view p
  rw [hpc] at hv
  obtain ⟨hu, hT, hv⟩ := hv
  have hid : (s.pc p).callId = some c.id := by rw [hpc]; rfl
  obtain ⟨hl, _⟩ := valid_iff.1 hval
  obtain ⟨g1, g2, hq⟩ := h.live' hT hl
  obtain ⟨h1, h2⟩ := hv hl
  subst g1
  rw [quiet_iff] at hq
  have hcalled := hu.put hk
  have hEv : Evol cfg.W s.mem { s.mem.modify s.mem.cur (Vec.setVal i (.val v)) with lock := s.mem.lock } :=
    Evol.modify rfl rfl (fun _ _ _ => Or.inr (Or.inl rfl)) (fun _ d hd => hd)
  have hWf : Wf { s.mem.modify s.mem.cur (Vec.setVal i (.val v)) with lock := s.mem.lock } :=
    h.wf.modify rfl rfl
  let e : Entry K V := { id := c.id, op := .on c.called c.key, out := .stored }
  rcases h2 with ⟨k, h2, h3⟩ | ⟨h2, A, r, B, kr, h3, h4, h5, h6, h7⟩
  · -- the key is present
    obtain ⟨v0, h4⟩ := hq.paired i h1 k h2
    have hN : now cfg.W.eq (S ++ [e]) = mapPut cfg.W.eq (now cfg.W.eq S) c.key v := by
      rw [now_append]
      show (perform cfg.W.eq _ (.on c.called c.key)).1 = _
      rw [hcalled]; rfl
    have hx : Explains cfg.W.eq H (S ++ [e]) := by
      refine h.ex.append hu.fresh hu.called hu.ongoing ?_
      show (perform cfg.W.eq _ (.on c.called c.key)).2 = _
      rw [hcalled]; rfl
    have hG := Grow.append (eq := cfg.W.eq) S e none
    refine ⟨S ++ [e], h.write hW (Or.inl hlk) hid rfl hx hG hEv
      (fun _ => marks_same (by simp [modify_same, Vec.setVal])) hWf (by intro h; cases h)
      ⟨hu.ongoing, ⟨_, hu.called⟩, Or.inr ⟨e, by simp, rfl, rfl⟩⟩ trivial (fun _ => ?_)⟩
    rw [quiet_iff]
    show QuietV cfg.W (S ++ [e]) rid s.mem.now ((s.mem.modify s.mem.cur (Vec.setVal i (.val v))).vecs s.mem.cur)
    rw [modify_same]
    refine ⟨?_, ?_, ?_, hq.inj⟩
    · rw [hN]
      simp only [Vec.setVal, comb_val_key h2]
      exact hq.core.set hW h1 (comb_full.2 ⟨h2, h4⟩) h3
    · intro j hj a ha
      by_cases e : j = i
      · subst e; exact ⟨v, by simp [Vec.setVal]⟩
      · simp only [Vec.setVal, Function.update_of_ne e]
        exact hq.paired j hj a ha
    · intro j hj hd
      have e : j ≠ i := by rintro rfl; simp only [Vec.setVal] at hd; rw [h2] at hd; cases hd
      simp only [Vec.setVal, Function.update_of_ne e]
      exact (hq.removal j hj hd).grow hG (by simp)
  · -- the key has been removed
    obtain ⟨A', r', B', kr', v0, f1, f2, f3, f4, f5⟩ := hq.removal i h1 h2
    obtain ⟨rfl, rfl, rfl⟩ := h.ex.unique h3 f1 (by rw [h4, f2])
    rw [h5] at f3
    cases f3
    subst h3
    have hG : Grow cfg.W.eq (A ++ r :: B) (A ++ e :: r :: B) c.id (some r.id) :=
      Grow.insertPut hW (e := e) (by show Op.on c.called c.key = _; rw [hcalled]) h5 h6
    have hpr : ∀ C, after cfg.W.eq (now cfg.W.eq A) (e :: r :: C) = after cfg.W.eq (now cfg.W.eq A) (r :: C) := by
      intro C
      show after cfg.W.eq (perform cfg.W.eq (perform cfg.W.eq _ (.on c.called c.key)).1 r.op).1 C =
        after cfg.W.eq (perform cfg.W.eq _ r.op).1 C
      rw [hcalled, h5]
      simp only [perform, put_remove hW _ v h6]
    have hN : now cfg.W.eq (A ++ e :: r :: B) = now cfg.W.eq (A ++ r :: B) := by
      rw [now_append, now_append, hpr]
    have hkr : mapPut cfg.W.eq (now cfg.W.eq A) c.key v kr = some v := by
      unfold mapPut
      rw [if_pos (hW.symm _ _ h6)]
    have hleg : Legal cfg.W.eq (now cfg.W.eq A) (e :: r :: B) := by
      have hlf := h.ex.legal_from
      refine ⟨by show (perform cfg.W.eq _ (.on c.called c.key)).2 = _; rw [hcalled]; rfl, ?_⟩
      show Legal cfg.W.eq (perform cfg.W.eq _ (.on c.called c.key)).1 (r :: B)
      rw [hcalled]
      obtain ⟨l1, l2⟩ := hlf
      rw [h5] at l1 l2
      refine ⟨?_, ?_⟩
      · rw [h5]
        simp only [perform] at l1 ⊢
        rw [hkr, ← l1, f4]; rfl
      · rw [h5]
        simp only [perform] at l2 ⊢
        rw [put_remove hW _ v h6]
        exact l2
    have hx : Explains cfg.W.eq H (A ++ e :: r :: B) :=
      h.ex.insert hu.fresh hu.called hu.ongoing h7 hleg
    refine ⟨A ++ e :: r :: B, h.write hW (Or.inl hlk) hid rfl hx hG hEv
      (fun _ => marks_same (by simp [modify_same, Vec.setVal])) hWf (by intro h; cases h)
      ⟨hu.ongoing, ⟨_, hu.called⟩, Or.inr ⟨e, by simp, rfl, rfl⟩⟩ trivial (fun _ => ?_)⟩
    rw [quiet_iff]
    show QuietV cfg.W (A ++ e :: r :: B) rid s.mem.now ((s.mem.modify s.mem.cur (Vec.setVal i (.val v))).vecs s.mem.cur)
    rw [modify_same]
    refine ⟨?_, ?_, ?_, hq.inj⟩
    · rw [hN]
      have : comb (s.mem.vecs s.mem.cur).keys (Function.update (s.mem.vecs s.mem.cur).vals i (.val v)) =
          comb (s.mem.vecs s.mem.cur).keys (s.mem.vecs s.mem.cur).vals :=
        comb_val_nokey (by rw [h2]; intro k hk; cases hk)
      simp only [Vec.setVal, this]
      exact hq.core
    · intro j hj a ha
      by_cases e : j = i
      · subst e; exact ⟨v, by simp [Vec.setVal]⟩
      · simp only [Vec.setVal, Function.update_of_ne e]
        exact hq.paired j hj a ha
    · intro j hj hd
      by_cases e' : j = i
      · subst e'
        simp only [Vec.setVal, Function.update_self]
        refine ⟨A ++ [e], r, B, kr, v, by simp, h4, h5, ?_, Or.inr rfl⟩
        rw [now_append]
        show (perform cfg.W.eq _ (.on c.called c.key)).1 kr = some v
        rw [hcalled]
        exact hkr
      · simp only [Vec.setVal, Function.update_of_ne e']
        refine (hq.removal j hj hd).grow hG ?_
        rw [h4]
        intro h8
        exact e' (hq.inj j i hj h1 hd h2 (Option.some.inj h8))

/-! ### removals -/

theorem Sim.remKey (hW : cfg.W.Lawful) (h : Sim cfg H S rid s) {c : Ctx K V} {n tok i : Nat}
    (hpc : s.pc p = .found c n tok i) (hk : c.kind = .remove) (hlk : s.mem.lock = none)
    (hnd : (s.mem.vecs n).keys i ≠ .deleted) (hval : s.mem.valid n tok = true) :
    ∃ S' rid', Sim cfg H S' rid' { s with mem := { s.mem.modify n (Vec.setKey i .deleted) with lock := some p }, pc := Function.update s.pc p (.remVal c n i) } := by
  have hv := h.view p
  rw [hpc] at hv
  obtain ⟨hu, hT, hv⟩ := hv
  have hid : (s.pc p).callId = some c.id := by rw [hpc]; rfl
  obtain ⟨hl, _⟩ := valid_iff.1 hval
  obtain ⟨g1, g2, hq⟩ := h.live' hT hl
  obtain ⟨h1, h2⟩ := hv hl
  subst g1
  rw [quiet_iff] at hq
  have hcalled := hu.remove hk
  obtain ⟨k, h2, h3⟩ : ∃ k, (s.mem.vecs s.mem.cur).keys i = .key k ∧ cfg.W.eq c.key k = true := by
    rcases h2 with h2 | h2
    · exact h2
    · exact absurd h2.1 hnd
  obtain ⟨v0, h4⟩ := hq.paired i h1 k h2
  have hpres : now cfg.W.eq S c.key = some v0 :=
    (hq.core.rep c.key v0).2 ⟨k, ⟨i, h1, comb_full.2 ⟨h2, h4⟩⟩, h3⟩
  let e : Entry K V := { id := c.id, op := .on c.called c.key, out := .removed true }
  have hN : now cfg.W.eq (S ++ [e]) = mapRemove cfg.W.eq (now cfg.W.eq S) c.key := by
    rw [now_append]
    show (perform cfg.W.eq _ (.on c.called c.key)).1 = _
    rw [hcalled]; rfl
  have hx : Explains cfg.W.eq H (S ++ [e]) := by
    refine h.ex.append hu.fresh hu.called hu.ongoing ?_
    show (perform cfg.W.eq _ (.on c.called c.key)).2 = _
    rw [hcalled]
    simp only [perform, hpres]; rfl
  have hG := Grow.append (eq := cfg.W.eq) S e none
  -- other removals have other numbers
  have hne : ∀ j, j < (s.mem.vecs s.mem.cur).count → (s.mem.vecs s.mem.cur).keys j = .deleted → rid j ≠ c.id := by
    intro j hj hd
    obtain ⟨A, r, B, kr, v, f1, f2, _⟩ := hq.removal j hj hd
    rw [← f2]
    exact hu.fresh r (by rw [f1]; simp)
  refine ⟨S ++ [e], Function.update rid i c.id, h.write hW (Or.inl hlk) hid rfl hx hG ?_ (fun _ => ?_) (h.wf.modify rfl rfl) (fun _ => rfl)
      ⟨hu.ongoing, ⟨_, hu.called⟩, e, by simp, rfl, rfl⟩ ?_ (fun _ => ?_)⟩
  · refine Evol.modify rfl rfl (fun _ _ j => ?_) (fun _ d hd => hd)
    by_cases e : j = i
    · subst e; exact Or.inr (Or.inr ⟨⟨k, h2⟩, by simp [Vec.setKey]⟩)
    · exact Or.inr (Or.inl (by simp [Vec.setKey, Function.update_of_ne e]))
  · refine ⟨fun j hj => ?_, fun j k' hj hj' => ?_⟩
    · have : j ≠ i := by rintro rfl; rw [h2] at hj; cases hj
      rw [Function.update_of_ne this]
    · have : j = i := by
        refine Classical.byContradiction fun e => ?_
        simp only [modify_same, Vec.setKey, Function.update_of_ne e] at hj'
        rw [hj] at hj'; cases hj'
      subst this
      rw [h2] at hj
      cases hj
      refine ⟨S, e, c.key, rfl, by simp [e], ?_, hW.symm _ _ h3, hu.ongoing⟩
      show Op.on c.called c.key = _
      rw [hcalled]
  · simp only [Held, modify_same, Vec.setKey, Function.update_self]
    exact ⟨rfl, h1, trivial⟩
  · rw [quiet_iff]
    show QuietV cfg.W (S ++ [e]) _ s.mem.now ((s.mem.modify s.mem.cur (Vec.setKey i .deleted)).vecs s.mem.cur)
    rw [modify_same]
    refine ⟨?_, ?_, ?_, ?_⟩
    · rw [hN]
      simp only [Vec.setKey, comb_key_deleted]
      exact hq.core.remove hW h1 (comb_full.2 ⟨h2, h4⟩) h3
    · intro j hj a ha
      have e : j ≠ i := by rintro rfl; simp [Vec.setKey] at ha
      simp only [Vec.setKey, Function.update_of_ne e] at ha
      exact hq.paired j hj a ha
    · intro j hj hd
      by_cases e' : j = i
      · subst e'
        rw [Function.update_self]
        refine ⟨S, e, [], c.key, v0, rfl, rfl, ?_, hpres, Or.inr h4⟩
        show Op.on c.called c.key = _
        rw [hcalled]
      · simp only [Vec.setKey, Function.update_of_ne e'] at hd ⊢
        exact (hq.removal j hj hd).grow hG (by simp)
    · intro a b ha hb hda hdb hab
      simp only [Vec.setKey] at ha hb hda hdb
      by_cases ea : a = i
      · by_cases eb : b = i
        · rw [ea, eb]
        · exfalso
          subst ea
          rw [Function.update_of_ne eb] at hdb
          rw [Function.update_self, Function.update_of_ne eb] at hab
          exact hne b hb hdb hab.symm
      · by_cases eb : b = i
        · exfalso
          subst eb
          rw [Function.update_of_ne ea] at hda
          rw [Function.update_self, Function.update_of_ne ea] at hab
          exact hne a ha hda hab
        · rw [Function.update_of_ne ea] at hda
          rw [Function.update_of_ne eb] at hdb
          rw [Function.update_of_ne ea, Function.update_of_ne eb] at hab
          exact hq.inj a b ha hb hda hdb hab

theorem Sim.remVal_ (hW : cfg.W.Lawful) (h : Sim cfg H S rid s) {c : Ctx K V} {n i : Nat}
    (hpc : s.pc p = .remVal c n i) :
    Sim cfg H S rid { s with mem := { s.mem.modify n (fun v => { v.setVal i .deleted with deletions := v.deletions + 1 }) with lock := none }, pc := Function.update s.pc p (.done c.id (.removed true)) } := by
  have hv := h.view p
  have hh := h.held p
  rw [hpc] at hv hh
  obtain ⟨h1, h2, h3⟩ := hv
  obtain ⟨rfl, g2, g3⟩ := hh
  have hid : (s.pc p).callId = some c.id := by rw [hpc]; rfl
  have hlk := h.lock p (by rw [hpc]; rfl)
  have hq := h.quiet' (Or.inr hlk) (by rw [hpc]; rfl)
  rw [quiet_iff] at hq
  refine h.write hW (Or.inr hlk) hid rfl h.ex (Grow.refl S c.id none)
    (Evol.modify rfl rfl (fun _ _ _ => Or.inr (Or.inl rfl)) (fun _ d hd => hd))
    (fun _ => marks_same (by simp [modify_same, Vec.setVal])) (h.wf.modify rfl rfl) (by intro h; cases h)
    ⟨h1, h2, Or.inr h3⟩ trivial (fun _ => ?_)
  apply quiet_modify
  refine ⟨?_, ?_, ?_, hq.inj⟩
  · have : comb (s.mem.vecs s.mem.cur).keys (Function.update (s.mem.vecs s.mem.cur).vals i .deleted) =
        comb (s.mem.vecs s.mem.cur).keys (s.mem.vecs s.mem.cur).vals :=
      comb_val_nokey (by rw [g3]; intro k hk; cases hk)
    simp only [Vec.setVal, this]
    exact hq.core
  · intro j hj a ha
    have e : j ≠ i := by rintro rfl; simp only [Vec.setVal] at ha; rw [g3] at ha; cases ha
    simp only [Vec.setVal, Function.update_of_ne e]
    exact hq.paired j hj a ha
  · intro j hj hd
    by_cases e' : j = i
    · subst e'
      simp only [Vec.setVal, Function.update_self]
      obtain ⟨A, r, B, kr, v, f1, f2, f3, f4, _⟩ := hq.removal j hj hd
      exact ⟨A, r, B, kr, v, f1, f2, f3, f4, Or.inl rfl⟩
    · simp only [Vec.setVal, Function.update_of_ne e']
      exact hq.removal j hj hd

/-! ### stores under a new key -/

theorem mergeDeps_old {c : Ctx K V} {t : Nat} {deps : List (K × Nat)} :
    ∀ d ∈ deps, d ∈ mergeDeps c t deps := by
  intro d hd
  unfold mergeDeps
  cases c.kind <;> simp [hd]

theorem QuietV.deps {time : Nat} {v : Vec K V} (h : QuietV W S rid time v) {deps : List (K × Nat)} {a : Nat}
    (hd : ∀ d ∈ v.deps, d ∈ deps) : QuietV W S rid time { v with deps := deps, additions := a } :=
  ⟨h.core.later (Nat.le_refl _) hd, h.paired, h.removal, h.inj⟩

/-- The vector of a table whose hash state has been merged is still quiet. -/
theorem Quiet.merge (h : Quiet W S rid m) {n a : Nat} {deps : List (K × Nat)} {l : Option Nat}
    (hd : ∀ d ∈ (m.vecs n).deps, d ∈ deps) :
    Quiet W S rid { m.modify n (fun v => { v with deps := deps, additions := a }) with lock := l } := by
  rw [quiet_iff] at h
  by_cases e : m.cur = n
  · subst e
    apply quiet_modify
    exact h.deps hd
  · rw [quiet_iff]
    simp only [modify_other e, Mem.modify] at h ⊢
    rw [Function.update_of_ne e]
    exact h

theorem Sim.missFail (hW : cfg.W.Lawful) (h : Sim cfg H S rid s) {c : Ctx K V} {n tok t i : Nat}
    (hpc : s.pc p = .missed c n tok t i) (hlk : s.mem.lock = none) :
    Sim cfg H S rid { s with mem := s.mem.modify n (fun v => { v with deps := mergeDeps c t (s.mem.vecs n).deps }), pc := Function.update s.pc p (newFailed c n tok) } := by
  have hv := h.view p
  rw [hpc] at hv
  obtain ⟨hu, hT, hst, ht, hv⟩ := hv
  have hid : (s.pc p).callId = some c.id := by rw [hpc]; rfl
  have hq := h.quiet' (Or.inl hlk) (by rw [hpc]; rfl)
  have hE : Evol cfg.W s.mem { s.mem.modify n (fun v => { v with deps := mergeDeps c t (s.mem.vecs n).deps }) with lock := s.mem.lock } :=
    Evol.modify rfl rfl (fun _ _ _ => Or.inr (Or.inl rfl)) (fun _ d hd => mergeDeps_old d hd)
  have hWf : Wf { s.mem.modify n (fun v => { v with deps := mergeDeps c t (s.mem.vecs n).deps }) with lock := s.mem.lock } :=
    h.wf.modify rfl rfl
  have hmk : ∀ S', Marks cfg.W H S' rid rid s.mem { s.mem.modify n (fun v => { v with deps := mergeDeps c t (s.mem.vecs n).deps }) with lock := s.mem.lock } := by
    intro S'
    apply marks_same
    by_cases e : s.mem.cur = n
    · subst e; simp [modify_same]
    · simp [modify_other e]
  have hqq : Quiet cfg.W S rid { s.mem.modify n (fun v => { v with deps := mergeDeps c t (s.mem.vecs n).deps }) with lock := s.mem.lock } := by
    have := hq.merge (n := n) (a := (s.mem.vecs n).additions) (l := s.mem.lock) (deps := mergeDeps c t (s.mem.vecs n).deps)
      mergeDeps_old
    exact this
  have hd : newFailed c n tok = .need1 c n tok .store ∨ ∃ v, c.kind = .symbol v ∧ newFailed c n tok = .start { c with kind := .intern v } := by
    unfold newFailed
    cases c.kind <;> simp
  rcases hd with hd | ⟨v, hk, hd⟩
  · rw [hd]
    exact h.write hW (Or.inl hlk) hid rfl h.ex (Grow.refl S c.id none) hE (fun _ => hmk S) hWf
      (by intro h; cases h) ⟨hu, hE.tok _ _ hT, trivial⟩ trivial (fun _ => hqq)
  · rw [hd]
    refine h.write hW (Or.inl hlk) hid rfl h.ex (Grow.refl S c.id none) hE (fun _ => hmk S) hWf
      (by intro h; cases h) ⟨hu.called, hu.ongoing, hu.fresh, Or.inr ⟨v, ?_, rfl⟩⟩ trivial (fun _ => hqq)
    rcases hu.kind with h1 | ⟨u, _, h1⟩
    · rw [← h1]; exact hk
    · rw [hk] at h1; cases h1

theorem Sim.missAdd (hW : cfg.W.Lawful) (hF : Fair cfg H) (h : Sim cfg H S rid s) {c : Ctx K V} {n tok t i : Nat}
    (hpc : s.pc p = .missed c n tok t i) (hlk : s.mem.lock = none)
    (hcan : canAdd cfg.W s.mem n tok i (mergeDeps c t (s.mem.vecs n).deps) = true) :
    Sim cfg H S rid { s with mem := { s.mem.modify n (fun v => { v with deps := mergeDeps c t (s.mem.vecs n).deps, additions := v.additions + 1 }) with lock := some p }, pc := Function.update s.pc p (.newVal c n t i) } := by
  have hv := h.view p
  rw [hpc] at hv
  obtain ⟨hu, hT, hst, ht, hv⟩ := hv
  have hid : (s.pc p).callId = some c.id := by rw [hpc]; rfl
  unfold canAdd at hcan
  simp only [Bool.and_eq_true, Bool.not_eq_true'] at hcan
  obtain ⟨⟨⟨c1, _⟩, c2⟩, c3⟩ := hcan
  obtain ⟨hl, _⟩ := valid_iff.1 c2
  obtain ⟨g1, g2, hq⟩ := h.live' hT hl
  subst g1
  have hemp : (s.mem.vecs s.mem.cur).keys i = .empty := by
    cases hk : (s.mem.vecs s.mem.cur).keys i with
    | empty => rfl
    | deleted => rw [hk] at c1; cases c1
    | key k => rw [hk] at c1; cases c1
  have hseen := hv hl
  -- the key is absent
  have hdep : Static cfg.W ∨ (c.key, t) ∈ mergeDeps c t (s.mem.vecs s.mem.cur).deps := by
    by_cases hs : Static cfg.W
    · exact Or.inl hs
    · right
      obtain ⟨v, hstv⟩ := hst
      rcases hF.kind hs hu with hk | hk | ⟨v, hk⟩
      · rw [hk] at hstv; cases hstv
      · rw [hk] at hstv; cases hstv
      · unfold mergeDeps; rw [hk]; simp
  have habs : now cfg.W.eq S c.key = none := by
    refine Seen.absent hq hseen hemp ?_
    intro k u h1 h2 h3
    by_cases hs : Static cfg.W
    · rw [hs u t k, hW.hash_eq t _ _ h1]
    · rcases h2 with h2 | h2
      · exact absurd h2 hs
      rcases hdep with h4 | h4
      · exact absurd h4 hs
      have e1 := isStale_dep c3 (mergeDeps_old _ h2) (x := s.mem.now) (by omega) (Nat.le_refl _)
      have e2 := isStale_dep c3 h4 (x := s.mem.now) (by omega) (Nat.le_refl _)
      rw [← e1, ← e2, hW.hash_eq _ _ _ h1]
  have hbound : i < (s.mem.vecs s.mem.cur).count := by
    obtain ⟨j, g1, _⟩ := hseen
    rw [← g1]; exact walk_lt (h.wf.good _ h.wf.cur) _ _
  refine h.write hW (Or.inl hlk) hid rfl h.ex (Grow.refl S c.id none)
    (Evol.modify rfl rfl (fun _ _ _ => Or.inr (Or.inl rfl)) (fun _ d hd => mergeDeps_old d hd))
    (fun _ => marks_same (by simp [modify_same])) (h.wf.modify rfl rfl) (fun _ => rfl)
    hu ⟨⟨rfl, ?_, ?_, ?_, ?_, ht, ?_, habs⟩, hst⟩ (fun _ => ?_)
  · simp only [modify_same]
    rw [g2]; exact hl
  · simp only [modify_same]; exact hbound
  · simp only [modify_same]; exact hemp
  · obtain ⟨j, f1, f2⟩ := hseen
    exact ⟨j, by simp only [modify_same]; exact f1, by simp only [modify_same]; exact f2⟩
  · simp only [modify_same]; exact hdep
  · exact hq.merge mergeDeps_old

theorem Sim.newVal_ (hW : cfg.W.Lawful) (h : Sim cfg H S rid s) {c : Ctx K V} {n t i : Nat} {v : V}
    (hpc : s.pc p = .newVal c n t i) (hst : c.kind.stores = some v) :
    Sim cfg H S rid { s with mem := s.mem.modify n (Vec.setVal i (.val v)), pc := Function.update s.pc p (.newKey c n t i) } := by
  have hv := h.view p
  have hh := h.held p
  rw [hpc] at hv hh
  obtain ⟨hs, _⟩ := hh
  have hid : (s.pc p).callId = some c.id := by rw [hpc]; rfl
  have hlk := h.lock p (by rw [hpc]; rfl)
  have hq := h.quiet' (Or.inr hlk) (by rw [hpc]; rfl)
  rw [quiet_iff] at hq
  have hn := hs.cur
  subst hn
  have hEv : Evol cfg.W s.mem { s.mem.modify s.mem.cur (Vec.setVal i (.val v)) with lock := s.mem.lock } :=
    Evol.modify rfl rfl (fun _ _ _ => Or.inr (Or.inl rfl)) (fun _ d hd => hd)
  refine h.write hW (Or.inr hlk) hid rfl h.ex (Grow.refl S c.id none) hEv
    (fun _ => marks_same (by simp [modify_same, Vec.setVal])) (h.wf.modify (l := s.mem.lock) rfl rfl) (fun _ => hlk)
    hv ⟨⟨rfl, ?_, ?_, ?_, ?_, hs.time, ?_, hs.absent⟩, v, hst, ?_⟩ (fun _ => ?_)
  · simp only [modify_same]; exact hs.live
  · simp only [modify_same]; exact hs.bound
  · simp only [modify_same]; exact hs.empty
  · obtain ⟨j, f1, f2⟩ := hs.seen
    exact ⟨j, by simp only [modify_same]; exact f1, by simp only [modify_same]; exact f2⟩
  · simp only [modify_same]; exact hs.dep
  · simp [modify_same, Vec.setVal]
  · rw [quiet_iff]
    show QuietV cfg.W S rid s.mem.now ((s.mem.modify s.mem.cur _).vecs s.mem.cur)
    rw [modify_same]
    have hne : ∀ j, (s.mem.vecs s.mem.cur).keys j ≠ .empty → j ≠ i := by
      rintro j hj rfl; exact hj hs.empty
    refine ⟨?_, ?_, ?_, hq.inj⟩
    · have : comb (s.mem.vecs s.mem.cur).keys (Function.update (s.mem.vecs s.mem.cur).vals i (.val v)) =
          comb (s.mem.vecs s.mem.cur).keys (s.mem.vecs s.mem.cur).vals :=
        comb_val_nokey (by rw [hs.empty]; intro k hk; cases hk)
      simp only [Vec.setVal, this]
      exact hq.core
    · intro j hj a ha
      have ha' : (s.mem.vecs s.mem.cur).keys j = .key a := ha
      have e := hne j (by rw [ha']; simp)
      simp only [Vec.setVal, Function.update_of_ne e]
      exact hq.paired j hj a ha
    · intro j hj hd
      have hd' : (s.mem.vecs s.mem.cur).keys j = .deleted := hd
      have e := hne j (by rw [hd']; simp)
      simp only [Vec.setVal, Function.update_of_ne e]
      exact hq.removal j hj hd

theorem perform_missing {eq : K → K → Bool} {f : K → Option V} {c : Ctx K V} {v : V}
    (hs : c.kind.stores = some v) (hu : Unc H S c) (hf : f c.key = none) :
    perform eq f (.on c.called c.key) = (mapPut eq f c.key v, storedOut c.kind) := by
  rcases hu.kind with h1 | ⟨u, h1, h2⟩
  · rw [← h1]
    cases hk : c.kind with
    | get => rw [hk] at hs; cases hs
    | remove => rw [hk] at hs; cases hs
    | put u => rw [hk] at hs; cases hs; rfl
    | intern u => rw [hk] at hs; cases hs; simp only [perform, hf, storedOut]
    | symbol u => rw [hk] at hs; cases hs; simp only [perform, hf, storedOut]
  · rw [h2] at hs ⊢
    cases hs
    rw [h1]
    simp only [perform, hf, storedOut]

theorem Sim.newKey_ (hW : cfg.W.Lawful) (h : Sim cfg H S rid s) {c : Ctx K V} {n t i : Nat}
    (hpc : s.pc p = .newKey c n t i) :
    ∃ S', Sim cfg H S' rid { s with mem := { s.mem.modify n (Vec.setKey i (.key c.key)) with lock := none }, pc := Function.update s.pc p (.done c.id (storedOut c.kind)) } := by
  have hu := h.view p
  have hh := h.held p
  rw [hpc] at hu hh
  obtain ⟨hs, v, hst, hval⟩ := hh
  have hid : (s.pc p).callId = some c.id := by rw [hpc]; rfl
  have hlk := h.lock p (by rw [hpc]; rfl)
  have hQ := h.quiet' (Or.inr hlk) (by rw [hpc]; rfl)
  have hq := hQ
  rw [quiet_iff] at hq
  have hn := hs.cur
  subst hn
  have hpf := perform_missing (eq := cfg.W.eq) hst hu hs.absent
  let e : Entry K V := { id := c.id, op := .on c.called c.key, out := storedOut c.kind }
  have hN : now cfg.W.eq (S ++ [e]) = mapPut cfg.W.eq (now cfg.W.eq S) c.key v := by
    rw [now_append]
    show (perform cfg.W.eq _ (.on c.called c.key)).1 = _
    rw [hpf]
  have hx : Explains cfg.W.eq H (S ++ [e]) := by
    refine h.ex.append (Unc.fresh hu) (Unc.called hu) (Unc.ongoing hu) ?_
    show (perform cfg.W.eq _ (.on c.called c.key)).2 = _
    rw [hpf]
  have hG := Grow.append (eq := cfg.W.eq) S e none
  have hne : ∀ j, (s.mem.vecs s.mem.cur).keys j ≠ .empty → j ≠ i := by
    rintro j hj rfl; exact hj hs.empty
  refine ⟨S ++ [e], h.write hW (Or.inr hlk) hid rfl hx hG ?_ (fun _ => ?_) (h.wf.modify rfl rfl) (by intro h; cases h)
      ⟨Unc.ongoing hu, ⟨_, Unc.called hu⟩, Or.inr ⟨e, by simp, rfl, rfl⟩⟩ trivial (fun _ => ?_)⟩
  · refine Evol.modify rfl rfl (fun _ _ j => ?_) (fun _ d hd => hd)
    by_cases e : j = i
    · subst e; exact Or.inl hs.empty
    · exact Or.inr (Or.inl (by simp [Vec.setKey, Function.update_of_ne e]))
  · refine ⟨fun j hj => rfl, fun j k' hj hj' => ?_⟩
    have e := hne j (by rw [hj]; simp)
    simp only [modify_same, Vec.setKey, Function.update_of_ne e] at hj'
    rw [hj] at hj'; cases hj'
  · apply quiet_modify
    have hnd : ∀ j, Function.update (s.mem.vecs s.mem.cur).keys i (.key c.key) j = .deleted → (s.mem.vecs s.mem.cur).keys j = .deleted := by
      intro j hj
      by_cases e : j = i
      · subst e; simp at hj
      · rwa [Function.update_of_ne e] at hj
    refine ⟨?_, ?_, ?_, ?_⟩
    · rw [hN]
      simp only [Vec.setKey, comb_key hval]
      refine hq.core.add hW hs.bound ?_ hs.dep hs.time (hs.seen.placed (h.wf.good _ h.wf.cur) hs.empty) hs.absent
      simp [comb, hs.empty, slotOf]
    · intro j hj a ha
      simp only [Vec.setKey] at ha ⊢
      by_cases e : j = i
      · subst e; exact ⟨v, hval⟩
      · rw [Function.update_of_ne e] at ha
        exact hq.paired j hj a ha
    · intro j hj hd
      exact (hq.removal j hj (hnd j hd)).grow hG (by simp)
    · intro a b ha hb hda hdb hab
      exact hq.inj a b ha hb (hnd a hda) (hnd b hdb) hab

end Verif.Conc
