import Verif.Conc.Moves

/-! # Helper lemmas for concurrent tables: every step -/

namespace Verif.Conc

open Verif.Table

variable {K V : Type} {cfg : Cfg K V} {W : World K} {H : List (Event K V)} {S S' : List (Entry K V)}
  {rid : Nat → Nat} {s s' : State K V} {p : Nat} {m m' : Mem K V}

theorem Sim.found_ (hW : cfg.W.Lawful) (h : Sim cfg H S rid s) {c : Ctx K V} {n tok i : Nat}
    (hpc : s.pc p = .found c n tok i) {m' : Mem K V} {pc' : Pc K V}
    (hs : stepFound p s.mem c n tok i = some (m', pc')) :
    ∃ S' rid', Sim cfg H S' rid' { s with mem := m', pc := Function.update s.pc p pc' } := by
  have hv := h.view p
  rw [hpc] at hv
  have hid : (s.pc p).callId = some c.id := by rw [hpc]; rfl
  have hm : (s.pc p).moves = false := by rw [hpc]; rfl
  unfold stepFound at hs
  cases hk : c.kind with
  | get => rw [hk] at hs; cases hs; exact ⟨S, rid, h.fetch hW hpc (Or.inl hk)⟩
  | intern v => rw [hk] at hs; cases hs; exact ⟨S, rid, h.fetch hW hpc (Or.inr ⟨v, Or.inl hk⟩)⟩
  | symbol v => rw [hk] at hs; cases hs; exact ⟨S, rid, h.fetch hW hpc (Or.inr ⟨v, Or.inr hk⟩)⟩
  | put v =>
    rw [hk] at hs
    dsimp only at hs
    by_cases hlk : s.mem.lock = none
    swap
    · rw [if_neg hlk] at hs; cases hs
    rw [if_pos hlk] at hs
    cases hval : s.mem.valid n tok with
    | true =>
      rw [hval, if_pos rfl] at hs
      cases hs
      obtain ⟨S', h'⟩ := h.putOld hW hpc hk hlk hval
      exact ⟨S', rid, h'⟩
    | false =>
      rw [hval, if_neg (by simp)] at hs
      cases hs
      exact ⟨S, rid, h.goes hW hid rfl ⟨hv.1, hv.2.1, trivial⟩ rfl hm⟩
  | remove =>
    rw [hk] at hs
    dsimp only at hs
    by_cases hlk : s.mem.lock = none
    swap
    · rw [if_neg hlk] at hs; cases hs
    rw [if_pos hlk] at hs
    have hfail : Sim cfg H S rid { s with mem := s.mem, pc := Function.update s.pc p (.need1 c n tok .found) } :=
      h.goes hW hid rfl ⟨hv.1, hv.2.1, trivial⟩ rfl hm
    have hgo : (s.mem.vecs n).keys i ≠ .deleted →
        (if s.mem.valid n tok then
          some ({ s.mem.modify n (Vec.setKey i .deleted) with lock := some p }, Pc.remVal c n i)
        else some (s.mem, .need1 c n tok .found)) = some (m', pc') →
        ∃ S' rid', Sim cfg H S' rid' { s with mem := m', pc := Function.update s.pc p pc' } := by
      intro hnd hs
      cases hval : s.mem.valid n tok with
      | true =>
        rw [hval, if_pos rfl] at hs
        cases hs
        exact h.remKey hW hpc hk hlk hnd hval
      | false =>
        rw [hval, if_neg (by simp)] at hs
        cases hs
        exact ⟨S, rid, hfail⟩
    cases hkey : (s.mem.vecs n).keys i with
    | deleted => rw [hkey] at hs; cases hs; exact ⟨S, rid, hfail⟩
    | empty => rw [hkey] at hs; exact hgo (by rw [hkey]; simp) hs
    | key k => rw [hkey] at hs; exact hgo (by rw [hkey]; simp) hs

theorem Sim.missed_ (hW : cfg.W.Lawful) (hF : Fair cfg H) (h : Sim cfg H S rid s) {c : Ctx K V} {n tok t i : Nat}
    (hpc : s.pc p = .missed c n tok t i) {m' : Mem K V} {pc' : Pc K V}
    (hs : stepMissed cfg.W p s.mem c n tok t i = some (m', pc')) :
    Sim cfg H S rid { s with mem := m', pc := Function.update s.pc p pc' } := by
  unfold stepMissed at hs
  by_cases hlk : s.mem.lock = none
  swap
  · rw [if_neg hlk] at hs; cases hs
  rw [if_pos hlk] at hs
  dsimp only at hs
  cases hcan : canAdd cfg.W s.mem n tok i (mergeDeps c t (s.mem.vecs n).deps) with
  | true =>
    rw [hcan, if_pos rfl] at hs
    cases hs
    exact h.missAdd hW hF hpc hlk hcan
  | false =>
    rw [hcan, if_neg (by simp)] at hs
    cases hs
    exact h.missFail hW hpc hlk

/-- One step of a thread. -/
theorem Sim.step1 (hW : cfg.W.Lawful) (hF : Fair cfg H) (h : Sim cfg H S rid s) {b : Bool} {m' : Mem K V} {pc' : Pc K V}
    (hs : step1 cfg p b s.mem (s.pc p) = some (m', pc')) :
    ∃ S' rid', Sim cfg H S' rid' { s with mem := m', pc := Function.update s.pc p pc' } := by
  have hv := h.view p
  cases hpc : s.pc p with
  | idle => rw [hpc] at hs; cases hs
  | done id out => rw [hpc] at hs; cases hs
  | start c => rw [hpc] at hs; cases hs; exact ⟨S, rid, h.start_ hW hpc⟩
  | tv c n => rw [hpc] at hs; cases hs; exact ⟨S, rid, h.tv_ hW hpc⟩
  | token c n tok => rw [hpc] at hs; cases hs; exact ⟨S, rid, h.token_ hW hpc⟩
  | probe c n tok t i => rw [hpc] at hs; exact ⟨S, rid, h.probe_ hW hpc hs⟩
  | found c n tok i => rw [hpc] at hs; exact h.found_ hW hpc hs
  | missed c n tok t i => rw [hpc] at hs; exact ⟨S, rid, h.missed_ hW hF hpc hs⟩
  | value c n tok x => rw [hpc] at hs; cases hs; exact ⟨S, rid, h.value_ hW hpc⟩
  | value2 c n tok x =>
    rw [hpc] at hs
    cases x <;> (cases hs; obtain ⟨S', h'⟩ := h.value2_ hW hpc; exact ⟨S', rid, h'⟩)
  | wait c =>
    rw [hpc] at hs hv
    unfold Conc.step1 at hs
    dsimp only at hs
    by_cases hlk : s.mem.lock = none
    · rw [if_pos hlk] at hs
      cases hs
      exact ⟨S, rid, h.goes hW (by rw [hpc]; rfl) rfl hv rfl (by rw [hpc]; rfl)⟩
    · rw [if_neg hlk] at hs; cases hs
  | need1 c n tok w => rw [hpc] at hs; cases hs; exact ⟨S, rid, h.need1_ hW hpc⟩
  | need2 c n tok w => rw [hpc] at hs; cases hs; exact ⟨S, rid, h.need2_ hW hpc⟩
  | need3 c n tok w =>
    rw [hpc] at hs; cases hs
    obtain ⟨S', h'⟩ := h.need3_ hW hpc
    exact ⟨S', rid, h'⟩
  | full c n must => rw [hpc] at hs; cases hs; exact ⟨S, rid, h.full_ hW hpc⟩
  | rehash c n g => rw [hpc] at hs; exact ⟨S, rid, h.rehash_ hW hpc hs⟩
  | newVal c n t i =>
    rw [hpc] at hs
    unfold Conc.step1 at hs
    dsimp only at hs
    cases hst : c.kind.stores with
    | none => rw [hst] at hs; cases hs
    | some v => rw [hst] at hs; cases hs; exact ⟨S, rid, h.newVal_ hW hpc hst⟩
  | newKey c n t i =>
    rw [hpc] at hs; cases hs
    obtain ⟨S', h'⟩ := h.newKey_ hW hpc
    exact ⟨S', rid, h'⟩
  | remVal c n i => rw [hpc] at hs; cases hs; exact ⟨S, rid, h.remVal_ hW hpc⟩
  | ipLoop c n w i =>
    rw [hpc] at hs
    simp only [Conc.step1, Option.some.injEq] at hs
    exact ⟨S, rid, h.ipLoop_ hW hF hpc hs⟩
  | ipClear c n w i hk hv => rw [hpc] at hs; cases hs; exact ⟨S, rid, h.ipClear_ hW hF hpc⟩
  | ipHand c n w i hk hv => rw [hpc] at hs; exact ⟨S, rid, h.ipHand_ hW hpc hs⟩
  | ipHashed c n w i k hv t =>
    rw [hpc] at hs
    unfold Conc.step1 at hs
    dsimp only at hs
    split at hs
    · cases hs
    · rename_i j hj
      cases hs
      exact ⟨S, rid, h.ipHashed_ hW hF hpc hj⟩
  | ipVal c n w i j k hv t nk nv => rw [hpc] at hs; cases hs; exact ⟨S, rid, h.ipVal_ hW hF hpc⟩
  | ipToken c n => rw [hpc] at hs; cases hs; exact ⟨S, rid, h.ipToken_ hW hpc⟩
  | cpLoop c n dc w i =>
    rw [hpc] at hs
    simp only [Conc.step1, Option.some.injEq] at hs
    exact ⟨S, rid, h.cpLoop_ hW hpc hs⟩
  | cpHashed c n dc w i k x t =>
    rw [hpc] at hs
    unfold Conc.step1 at hs
    dsimp only at hs
    split at hs
    · cases hs
    · rename_i j hj
      cases hs
      exact ⟨S, rid, h.cpHashed_ hW hpc hj⟩
  | raStart => rw [hpc] at hv; exact hv.elim
  | raAdds => rw [hpc] at hv; exact hv.elim
  | raLock => rw [hpc] at hv; exact hv.elim
  | raKeys => rw [hpc] at hv; exact hv.elim
  | raVals => rw [hpc] at hv; exact hv.elim
  | raToken => rw [hpc] at hv; exact hv.elim
  | raNew => rw [hpc] at hv; exact hv.elim
  | raSwap => rw [hpc] at hv; exact hv.elim
  | raInstall => rw [hpc] at hv; exact hv.elim

/-! ### calls and returns -/

/-- What a thread knows stays true when the history grows. -/
theorem View.event {e : Event K V} {pc : Pc K V} (hr : ∀ id, pc.callId = some id → (Returned (e :: H) id → Returned H id))
    (hp : ∀ id, pc.callId = some id → ∀ a, Precedes (e :: H) a id → Precedes H a id)
    (h : View W H S rid m pc) : View W (e :: H) S rid m pc := by
  have hu : ∀ {c : Ctx K V}, (Returned (e :: H) c.id → Returned H c.id) → Unc H S c → Unc (e :: H) S c :=
    fun hc h => ⟨by simp [h.called], fun h1 => h.ongoing (hc h1), h.fresh, h.kind⟩
  have hat : ∀ {id : Nat} {P : (K → Option V) → Prop}, (∀ a, Precedes (e :: H) a id → Precedes H a id) →
      At W.eq H S id P → At W.eq (e :: H) S id P := by
    rintro id P hp ⟨A, B, h1, h2, h3⟩
    exact ⟨A, B, h1, h2, fun x hx h4 => h3 x hx (hp _ h4)⟩
  have hask : ∀ {c : Ctx K V} {n tok : Nat} {su : Prop} {w : Why}, (∀ a, Precedes (e :: H) a c.id → Precedes H a c.id) →
      Asked W H S m c n tok su w → Asked W (e :: H) S m c n tok su w := by
    intro c n tok su w hp h
    cases w with
    | absent => exact ⟨h.1, fun h1 => (h.2 h1).imp (fun h => hat hp h) id⟩
    | found => trivial
    | store => trivial
    | fresh t i => exact h
  have hfet : ∀ {c : Nat} {k : K} {x : ValS V}, (∀ a, Precedes (e :: H) a c → Precedes H a c) →
      Fetched W H S c k x → Fetched W (e :: H) S c k x := by
    intro c k x hp h
    rcases h with h | ⟨v, h1, h2⟩
    · exact Or.inl h
    · exact Or.inr ⟨v, h1, hat hp h2⟩
  cases pc with
  | idle => trivial
  | start c => exact hu (hr _ rfl) h
  | tv c n => exact ⟨hu (hr _ rfl) h.1, h.2⟩
  | token c n tok => exact ⟨hu (hr _ rfl) h.1, h.2⟩
  | probe c n tok t i =>
    obtain ⟨h1, h2, h3, h4⟩ := h
    refine ⟨hu (hr _ rfl) h1, h2, h3, fun hl => ⟨(h4 hl).1, ?_⟩⟩
    rcases (h4 hl).2 with h5 | h5 | h5
    · exact Or.inl h5
    · exact Or.inr (Or.inl (hat (hp _ rfl) h5))
    · exact Or.inr (Or.inr h5)
  | found c n tok i =>
    obtain ⟨h1, h2, h3⟩ := h
    refine ⟨hu (hr _ rfl) h1, h2, fun hl => ?_⟩
    obtain ⟨h4, h5⟩ := h3 hl
    refine ⟨h4, h5.imp id ?_⟩
    rintro ⟨g1, A, r, B, kr, g2, g3, g4, g5, g6⟩
    exact ⟨g1, A, r, B, kr, g2, g3, g4, g5, fun x hx h4 => g6 x hx (hp _ rfl _ h4)⟩
  | missed c n tok t i => exact ⟨hu (hr _ rfl) h.1, h.2⟩
  | value c n tok x =>
    obtain ⟨h1, h2, h3, h4⟩ := h
    exact ⟨hu (hr _ rfl) h1, h2, h3, fun hl => hfet (hp _ rfl) (h4 hl)⟩
  | value2 c n tok x =>
    obtain ⟨h1, h2, h3, h4⟩ := h
    exact ⟨hu (hr _ rfl) h1, h2, h3, hfet (hp _ rfl) h4⟩
  | wait c => exact hu (hr _ rfl) h
  | need1 c n tok w => exact ⟨hu (hr _ rfl) h.1, h.2.1, hask (hp _ rfl) h.2.2⟩
  | need2 c n tok w => exact ⟨hu (hr _ rfl) h.1, h.2.1, hask (hp _ rfl) h.2.2⟩
  | need3 c n tok w => exact ⟨hu (hr _ rfl) h.1, h.2.1, hask (hp _ rfl) h.2.2⟩
  | full c n b => exact ⟨hu (hr _ rfl) h.1, h.2⟩
  | rehash c n b => exact ⟨hu (hr _ rfl) h.1, h.2⟩
  | done i out =>
    obtain ⟨h1, ⟨op, h2⟩, h3⟩ := h
    exact ⟨fun h4 => h1 (hr _ rfl h4), ⟨op, by simp [h2]⟩, h3⟩
  | newVal c n t i => exact hu (hr _ rfl) h
  | newKey c n t i => exact hu (hr _ rfl) h
  | remVal c n i =>
    obtain ⟨h1, ⟨op, h2⟩, h3⟩ := h
    exact ⟨fun h4 => h1 (hr _ rfl h4), ⟨op, by simp [h2]⟩, h3⟩
  | ipLoop c n w i => exact hu (hr _ rfl) h
  | ipClear c n w i hk hv => exact hu (hr _ rfl) h
  | ipHand c n w i hk hv => exact hu (hr _ rfl) h
  | ipHashed c n w i k hv t => exact hu (hr _ rfl) h
  | ipVal c n w i j k hv t nk nv => exact hu (hr _ rfl) h
  | ipToken c n => exact hu (hr _ rfl) h
  | cpLoop c n dc w i => exact hu (hr _ rfl) h
  | cpHashed c n dc w i k x t => exact hu (hr _ rfl) h
  | raStart => exact h
  | raAdds => exact h
  | raLock => exact h
  | raKeys => exact h
  | raVals => exact h
  | raToken => exact h
  | raNew => exact h
  | raSwap => exact h
  | raInstall => exact h

theorem returned_call {id i : Nat} {op : Op K V} : Returned (.call i op :: H) id ↔ Returned H id := by
  unfold Returned; simp

theorem returned_ret {id i : Nat} {out : Out V} : Returned (.ret i out :: H) id ↔ id = i ∨ Returned H id := by
  unfold Returned
  constructor
  · rintro ⟨o, h⟩
    rcases List.mem_cons.1 h with h | h
    · cases h; exact Or.inl rfl
    · exact Or.inr ⟨o, h⟩
  · rintro (rfl | ⟨o, h⟩)
    · exact ⟨out, by simp⟩
    · exact ⟨o, by simp [h]⟩

theorem Sim.call_ (h : Sim cfg H S rid s) {kind : Kind V} {key : K} (hpc : s.pc p = .idle) :
    Sim cfg (.call s.next (.on kind key) :: H) S rid { s with pc := Function.update s.pc p (begin_ s.next (.on kind key)), next := s.next + 1 } := by
  have hnS : ∀ x ∈ S, x.id ≠ s.next := by
    intro x hx e
    have := h.ids _ _ (h.ex.called x hx)
    omega
  refine ⟨h.ex.call hnS, h.wf, ?_, ?_, ?_, ?_, ?_, ?_, ?_⟩
  · intro id op ho
    rcases List.mem_cons.1 ho with ho | ho
    · cases ho; exact Nat.lt_succ_self _
    · exact Nat.lt_succ_of_lt (h.ids id op ho)
  · intro id hr
    exact Nat.lt_succ_of_lt (h.rets id (returned_call.1 hr))
  · intro a b id ha hb
    by_cases ea : a = p <;> by_cases eb : b = p
    · rw [ea, eb]
    · subst ea
      simp only [Function.update_self, Function.update_of_ne eb] at ha hb
      cases ha
      exact absurd hb (h.unused b)
    · subst eb
      simp only [Function.update_self, Function.update_of_ne ea] at ha hb
      cases hb
      exact absurd ha (h.unused a)
    · simp only [Function.update_of_ne ea, Function.update_of_ne eb] at ha hb
      exact h.uniq a b id ha hb
  · intro q hq
    by_cases e : q = p
    · subst e; simp [begin_, Pc.holds] at hq
    · simp only [Function.update_of_ne e] at hq; exact h.lock q hq
  · intro q
    by_cases e : q = p
    · subst e
      simp only [Function.update_self]
      exact ⟨by simp, fun hr => h.unreturned (returned_call.1 hr), hnS, Or.inl rfl⟩
    · simp only [Function.update_of_ne e]
      refine View.event (fun id _ => returned_call.1) (fun id hid a => ?_) (h.view q)
      have : id ≠ s.next := by rintro rfl; exact h.unused q hid
      exact (precedes_call this).1
  · intro q
    by_cases e : q = p
    · subst e; simp only [Function.update_self]; trivial
    · simp only [Function.update_of_ne e]; exact h.held q
  · intro hq
    refine h.quiet fun q => ?_
    by_cases e : q = p
    · rw [e, hpc]; rfl
    · have := hq q; simpa only [Function.update_of_ne e] using this

theorem Sim.ret_ (h : Sim cfg H S rid s) {id : Nat} {out : Out V} (hpc : s.pc p = .done id out) :
    Sim cfg (.ret id out :: H) S rid { s with pc := Function.update s.pc p .idle } := by
  have hv := h.view p
  rw [hpc] at hv
  obtain ⟨h1, ⟨op, h2⟩, h3⟩ := hv
  have hid : (s.pc p).callId = some id := by rw [hpc]; rfl
  refine ⟨h.ex.ret h3, h.wf, ?_, ?_, ?_, ?_, ?_, ?_, ?_⟩
  · intro i op ho
    simp only [List.mem_cons, reduceCtorEq, false_or] at ho
    exact h.ids i op ho
  · intro i hr
    rcases returned_ret.1 hr with rfl | hr
    · exact h.ids _ _ h2
    · exact h.rets i hr
  · intro a b i ha hb
    by_cases ea : a = p
    · subst ea; simp [Pc.callId] at ha
    · by_cases eb : b = p
      · subst eb; simp [Pc.callId] at hb
      · simp only [Function.update_of_ne ea, Function.update_of_ne eb] at ha hb
        exact h.uniq a b i ha hb
  · intro q hq
    by_cases e : q = p
    · subst e; simp [Pc.holds] at hq
    · simp only [Function.update_of_ne e] at hq; exact h.lock q hq
  · intro q
    by_cases e : q = p
    · subst e; simp only [Function.update_self]; trivial
    · simp only [Function.update_of_ne e]
      refine View.event (fun i hi hr => ?_) (fun i _ a => precedes_ret.1) (h.view q)
      rcases returned_ret.1 hr with rfl | hr
      · exact absurd (h.uniq q p i hi hid) e
      · exact hr
  · intro q
    by_cases e : q = p
    · subst e; simp only [Function.update_self]; trivial
    · simp only [Function.update_of_ne e]; exact h.held q
  · intro hq
    refine h.quiet fun q => ?_
    by_cases e : q = p
    · rw [e, hpc]; rfl
    · have := hq q; simpa only [Function.update_of_ne e] using this

/-! ### runs -/

theorem sim_init (h : Init cfg s) : Sim cfg [] ([] : List (Entry K V)) (fun _ => 0) s := by
  obtain ⟨c, hc, rfl⟩ := h
  have hg := (computeEntryCount_spec hc).1
  refine ⟨⟨by simp, by simp, by simp, by simp, by simp, trivial⟩, ⟨by simp, ?_, ?_, ?_, ?_⟩, by simp, ?_, ?_, ?_, fun _ => trivial, fun _ => trivial, fun _ => ?_⟩
  · intro n hn; simp [mkVec]
  · intro n hn e; simp at hn e; omega
  · intro t ht; rfl
  · intro n hn; exact hg
  · rintro id ⟨out, h⟩; cases h
  · intro p q id h; cases h
  · intro p h; cases h
  · refine ⟨⟨?_, ?_, ?_⟩, ?_, ?_, ?_⟩
    · intro i j k v k' v' _ _ e; cases e
    · intro i k v _ e; cases e
    · intro k v
      constructor
      · intro e; cases e
      · rintro ⟨k', ⟨i, _, e⟩, _⟩; cases e
    · intro i _ k e; cases e
    · intro i _ e; cases e
    · intro i j _ _ e; cases e

theorem Fair.tail {e : Event K V} (h : Fair cfg (e :: H)) : Fair cfg H := by
  refine ⟨fun id hm => h.1 id (by simp [hm]), ?_⟩
  rcases h.2 with h1 | ⟨h1, h2⟩
  · exact Or.inl h1
  · exact Or.inr ⟨h1, fun id op hm => h2 id op (by simp [hm])⟩

theorem sim_run (hW : cfg.W.Lawful) (hr : Verif.Threads.Run (Init cfg) (Step cfg) H s) (hF : Fair cfg H) :
    ∃ S rid, Sim cfg H S rid s := by
  induction hr with
  | start h => exact ⟨[], fun _ => 0, sim_init h⟩
  | tau hr hs ih =>
    obtain ⟨S, rid, h⟩ := ih hF
    obtain ⟨a, ha⟩ := hs
    cases a with
    | call p op =>
      simp only [exec] at ha
      split at ha <;> simp at ha
    | ret p =>
      simp only [exec] at ha
      split at ha <;> simp at ha
    | go p b =>
      simp only [exec] at ha
      split at ha
      · rename_i m pc' hst
        simp only [Option.some.injEq, Prod.mk.injEq, and_true] at ha
        subst ha
        exact h.step1 hW hF hst
      · cases ha
    | collect =>
      simp only [exec, Option.some.injEq, Prod.mk.injEq, and_true] at ha
      subst ha
      exact ⟨S, rid, h.tick hW (Nat.le_succ _)⟩
  | emit hr hs ih =>
    obtain ⟨S, rid, h⟩ := ih hF.tail
    obtain ⟨a, ha⟩ := hs
    cases a with
    | call p op =>
      simp only [exec] at ha
      split at ha
      · rename_i hpc
        simp only [Option.some.injEq, Prod.mk.injEq] at ha
        obtain ⟨rfl, rfl⟩ := ha
        cases op with
        | removeAll => exact absurd List.mem_cons_self (hF.1 _)
        | on kind key => exact ⟨S, rid, h.call_ hpc⟩
      · cases ha
    | ret p =>
      simp only [exec] at ha
      split at ha
      · rename_i hpc
        simp only [Option.some.injEq, Prod.mk.injEq] at ha
        obtain ⟨rfl, rfl⟩ := ha
        exact ⟨S, rid, h.ret_ hpc⟩
      · cases ha
    | go p b =>
      simp only [exec] at ha
      split at ha <;> simp at ha
    | collect => simp [exec] at ha

/-- Calls are numbered. -/
theorem calls_below (hr : Verif.Threads.Run (Init cfg) (Step cfg) H s) :
    (∀ id op, .call id op ∈ H → id < s.next) ∧
      ∀ id op op', .call id op ∈ H → .call id op' ∈ H → op = op' := by
  induction hr with
  | start h => simp
  | tau hr hs ih =>
    obtain ⟨a, ha⟩ := hs
    refine ⟨fun id op h => Nat.lt_of_lt_of_le (ih.1 id op h) ?_, ih.2⟩
    cases a <;> simp only [exec] at ha <;> (try split at ha) <;> simp at ha <;> subst ha <;> exact Nat.le_refl _
  | emit hr hs ih =>
    obtain ⟨a, ha⟩ := hs
    cases a with
    | call p op =>
      simp only [exec] at ha
      split at ha
      · simp only [Option.some.injEq, Prod.mk.injEq] at ha
        obtain ⟨rfl, rfl⟩ := ha
        refine ⟨fun id op h => ?_, fun id op1 op2 h1 h2 => ?_⟩
        · rcases List.mem_cons.1 h with h | h
          · cases h; exact Nat.lt_succ_self _
          · exact Nat.lt_succ_of_lt (ih.1 id op h)
        · rcases List.mem_cons.1 h1 with h1 | h1 <;> rcases List.mem_cons.1 h2 with h2 | h2
          · cases h1; cases h2; rfl
          · cases h1; exact absurd (ih.1 _ _ h2) (Nat.lt_irrefl _)
          · cases h2; exact absurd (ih.1 _ _ h1) (Nat.lt_irrefl _)
          · exact ih.2 _ _ _ h1 h2
      · cases ha
    | ret p =>
      simp only [exec] at ha
      split at ha
      · simp only [Option.some.injEq, Prod.mk.injEq] at ha
        obtain ⟨rfl, rfl⟩ := ha
        simpa using ih
      · cases ha
    | go p b =>
      simp only [exec] at ha
      split at ha <;> simp at ha
    | collect => simp [exec] at ha

theorem calls_unique (hr : Verif.Threads.Run (Init cfg) (Step cfg) H s) {id : Nat} {op op' : Op K V}
    (h : .call id op ∈ H) (h' : .call id op' ∈ H) : op = op' := (calls_below hr).2 _ _ _ h h'

end Verif.Conc
