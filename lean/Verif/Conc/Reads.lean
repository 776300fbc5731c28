import Verif.Conc.Frame

/-! # Helper lemmas for concurrent tables: steps without the lock -/

namespace Verif.Conc

open Verif.Table

variable {K V : Type} {cfg : Cfg K V} {H : List (Event K V)} {S : List (Entry K V)}
  {rid : Nat → Nat} {s : State K V} {p : Nat}

theorem Sim.start_ (hW : cfg.W.Lawful) (h : Sim cfg H S rid s) {c : Ctx K V} (hpc : s.pc p = .start c) :
    Sim cfg H S rid { s with mem := s.mem, pc := Function.update s.pc p (.tv c s.mem.cur) } := by
  have hv := h.view p
  rw [hpc] at hv
  exact h.goes hW (by rw [hpc]; rfl) rfl ⟨hv, h.wf.cur⟩ rfl (by rw [hpc]; rfl)

theorem Sim.tv_ (hW : cfg.W.Lawful) (h : Sim cfg H S rid s) {c : Ctx K V} {n : Nat}
    (hpc : s.pc p = .tv c n) :
    Sim cfg H S rid { s with mem := s.mem, pc := Function.update s.pc p (.token c n (s.mem.vecs n).token) } := by
  have hv := h.view p
  rw [hpc] at hv
  refine h.goes hW (by rw [hpc]; rfl) rfl ⟨hv.1, hv.2, h.wf.tok n hv.2, fun hl => ⟨?_, rfl⟩⟩ rfl
    (by rw [hpc]; rfl)
  by_cases e : n = s.mem.cur
  · exact e
  · rw [h.wf.retired n hv.2 e] at hl; cases hl

theorem Sim.token_ (hW : cfg.W.Lawful) (h : Sim cfg H S rid s) {c : Ctx K V} {n tok : Nat}
    (hpc : s.pc p = .token c n tok) :
    Sim cfg H S rid { s with
      mem := { s.mem with now := s.mem.now + 1 }
      pc := Function.update s.pc p (.probe c n tok s.mem.now (primaryIndex (cfg.W.hash s.mem.now c.key) (s.mem.vecs n).count)) } := by
  have h' := h.tick hW (Nat.le_succ s.mem.now)
  have hv := h'.view p
  simp only [hpc] at hv
  refine h'.goes hW (by simp only [hpc]; rfl) rfl ⟨hv.1, hv.2, Nat.lt_succ_self _, fun hl => ?_⟩ rfl
    (by simp only [hpc]; rfl)
  refine ⟨⟨0, rfl, by intro l hl; omega⟩, ?_⟩
  by_cases hs : Static cfg.W
  · exact Or.inl hs
  right
  cases hn : now cfg.W.eq S c.key with
  | none => exact Or.inl (At.here hn)
  | some v =>
    right
    have hT := (h.view p)
    rw [hpc] at hT
    obtain ⟨g1, g2, g3⟩ := h.live' hT.2 hl
    obtain ⟨k, ⟨i, h1, h2⟩, h3⟩ := (g3.core.rep c.key v).1 hn
    obtain ⟨t, h4, h5, _⟩ := g3.core.placed i k v h1 h2
    refine ⟨k, t, h3, ?_, by omega⟩
    rcases h4 with h4 | h4
    · exact absurd h4 hs
    · rw [← g1] at h4; exact h4

/-- A call that does not intern, in a table whose hash codes change. -/
theorem Fair.kind (hF : Fair cfg H) (hs : ¬ Static cfg.W) {c : Ctx K V} (hu : Unc H S c) :
    c.kind = .get ∨ c.kind = .remove ∨ ∃ v, c.kind = .put v := by
  rcases hF.2 with h1 | h1
  · exact absurd h1 hs
  · have := h1.2 _ _ hu.called
    rcases hu.kind with h2 | ⟨v, h2, _⟩
    · rw [h2]
      cases hc : c.called with
      | get => exact Or.inl rfl
      | remove => exact Or.inr (Or.inl rfl)
      | put v => exact Or.inr (Or.inr ⟨v, rfl⟩)
      | intern v => rw [hc] at this; exact absurd trivial this
      | symbol v => rw [hc] at this; exact absurd trivial this
    · rw [h2] at this; exact absurd trivial this

theorem isStale_dep {W : World K} {u : Nat} {deps : List (K × Nat)} (h : isStale W u deps = false) {k : K} {s : Nat}
    (hd : (k, s) ∈ deps) {x : Nat} (h1 : s ≤ x) (h2 : x ≤ u) : W.hash x k = W.hash s k := by
  unfold isStale at h
  rw [Bool.or_eq_false_iff, List.any_eq_false] at h
  exact moved_false (by simpa using h.1 _ hd) h1 h2

theorem Sim.miss (hW : cfg.W.Lawful) (h : Sim cfg H S rid s) {c : Ctx K V}
    {n tok t i : Nat} (hpc : s.pc p = .probe c n tok t i) (he : (s.mem.vecs n).keys i = .empty)
    (hl : s.mem.marked tok = false) :
    Absent cfg.W H S c.id c.key ∨ Moved cfg.W s.mem n := by
  have hv := h.view p
  rw [hpc] at hv
  obtain ⟨_, hT, ht, hv⟩ := hv
  obtain ⟨hs, hk⟩ := hv hl
  obtain ⟨g1, g2, hq⟩ := h.live' hT hl
  subst g1
  by_cases hst : Static cfg.W
  · left
    refine At.here (Seen.absent hq hs he ?_)
    intro k u h1 _ _
    rw [hst u t k, hW.hash_eq t _ _ h1]
  rcases hk with hk | hk | ⟨k', s', h1, h2, h3⟩
  · exact absurd hk hst
  · exact Or.inl hk
  by_cases hm : Moved cfg.W s.mem s.mem.cur
  · exact Or.inr hm
  left
  have hnm : ∀ k u, (k, u) ∈ (s.mem.vecs s.mem.cur).deps → moved cfg.W s.mem.now k u = false := by
    intro k u hd
    cases hb : moved cfg.W s.mem.now k u with
    | false => rfl
    | true => exact absurd ⟨(k, u), hd, hb⟩ hm
  refine At.here (Seen.absent hq hs he ?_)
  intro k u h4 h5 h6
  rcases h5 with h5 | h5
  · exact absurd h5 hst
  have e1 := moved_false (hnm k u h5) (x := s.mem.now) (by omega) (Nat.le_refl _)
  have e2 := moved_false (hnm k' s' h2) (x := s.mem.now) (by omega) (Nat.le_refl _)
  have e3 := moved_false (hnm k' s' h2) (x := t) (by omega) (by omega)
  rw [← e1, hW.hash_eq _ k k' (hW.trans _ _ _ (hW.symm _ _ h4) h1), e2, ← e3,
    hW.hash_eq t _ _ h1]

theorem Sim.probe_ (hW : cfg.W.Lawful) (h : Sim cfg H S rid s) {c : Ctx K V}
    {n tok t i : Nat} (hpc : s.pc p = .probe c n tok t i) {b : Bool} {m' : Mem K V} {pc' : Pc K V}
    (hs : step1 cfg p b s.mem (.probe c n tok t i) = some (m', pc')) :
    Sim cfg H S rid { s with mem := m', pc := Function.update s.pc p pc' } := by
  have hv := h.view p
  rw [hpc] at hv
  have hvv := hv
  obtain ⟨hu, hT, ht, hv⟩ := hv
  have hm : (s.pc p).moves = false := by rw [hpc]; rfl
  have hid : (s.pc p).callId = some c.id := by rw [hpc]; rfl
  -- the search goes on
  have hnext : ((s.mem.vecs n).keys i ≠ .empty ∧ ∀ k, (s.mem.vecs n).keys i = .key k → cfg.W.eq c.key k = false) →
      Sim cfg H S rid { s with mem := s.mem, pc := Function.update s.pc p (.probe c n tok t (nextIndex (s.mem.vecs n).count (secondaryStride (cfg.W.hash t c.key)) i)) } := by
    intro hk
    refine h.goes hW hid rfl ⟨hu, hT, ht, fun hl => ⟨?_, (hv hl).2⟩⟩ rfl hm
    obtain ⟨j, g1, g2⟩ := (hv hl).1
    refine ⟨j + 1, ?_, fun l hlj => ?_⟩
    · unfold walk at g1 ⊢
      rw [Function.iterate_succ_apply', g1]
    · rcases Nat.lt_or_ge l j with h1 | h1
      · exact g2 l h1
      · have : l = j := by omega
        subst this
        rw [g1]
        exact hk
  unfold step1 at hs
  dsimp only at hs
  cases hk : (s.mem.vecs n).keys i with
  | empty =>
    rw [hk] at hs
    simp only [Option.some.injEq, Prod.mk.injEq] at hs
    obtain ⟨rfl, rfl⟩ := hs
    have hmiss := h.miss hW hpc hk
    unfold afterMiss
    cases hkind : c.kind with
    | get => exact h.goes hW hid rfl ⟨hu, hT, Or.inl hkind, hmiss⟩ rfl hm
    | remove => exact h.goes hW hid rfl ⟨hu, hT, Or.inr hkind, hmiss⟩ rfl hm
    | put v => exact h.goes hW hid rfl ⟨hu, hT, ⟨v, by rw [hkind]; rfl⟩, ht, fun hl => (hv hl).1⟩ rfl hm
    | intern v => exact h.goes hW hid rfl ⟨hu, hT, ⟨v, by rw [hkind]; rfl⟩, ht, fun hl => (hv hl).1⟩ rfl hm
    | symbol v => exact h.goes hW hid rfl ⟨hu, hT, ⟨v, hkind⟩, ht, fun hl => (hv hl).1⟩ rfl hm
  | deleted =>
    rw [hk] at hs
    simp only [Option.some.injEq, Prod.mk.injEq] at hs
    obtain ⟨rfl, rfl⟩ := hs
    exact hnext ⟨by rw [hk]; simp, by rw [hk]; intro k hk; cases hk⟩
  | key k =>
    rw [hk] at hs
    dsimp only at hs
    by_cases he : cfg.W.eq c.key k = true
    · rw [if_pos he] at hs
      simp only [Option.some.injEq, Prod.mk.injEq] at hs
      obtain ⟨rfl, rfl⟩ := hs
      refine h.goes hW hid rfl ⟨hu, hT, fun hl => ⟨?_, Or.inl ⟨k, hk, he⟩⟩⟩ rfl hm
      obtain ⟨j, g1, g2⟩ := (hv hl).1
      rw [← g1]
      exact walk_lt (h.wf.good n hT.vec) _ _
    · rw [if_neg he] at hs
      simp only [Option.some.injEq, Prod.mk.injEq] at hs
      obtain ⟨rfl, rfl⟩ := hs
      refine hnext ⟨by rw [hk]; simp, ?_⟩
      rw [hk]
      intro k' e
      cases e
      simpa using he

/-- The value fetched by a call. -/
theorem Sim.fetch (hW : cfg.W.Lawful) (h : Sim cfg H S rid s) {c : Ctx K V} {n tok i : Nat}
    (hpc : s.pc p = .found c n tok i) (hr : Reads c.kind) :
    Sim cfg H S rid { s with mem := s.mem, pc := Function.update s.pc p (.value c n tok ((s.mem.vecs n).vals i)) } := by
  have hv := h.view p
  rw [hpc] at hv
  obtain ⟨hu, hT, hv⟩ := hv
  refine h.goes hW (by rw [hpc]; rfl) rfl ⟨hu, hT, hr, fun hl => ?_⟩ rfl (by rw [hpc]; rfl)
  obtain ⟨g1, g2, hq⟩ := h.live' hT hl
  subst g1
  obtain ⟨h1, h2⟩ := hv hl
  rcases h2 with ⟨k, h2, h3⟩ | ⟨h2, A, r, B, kr, h3, h4, h5, h6, h7⟩
  · obtain ⟨v, h4⟩ := hq.paired i h1 k h2
    refine Or.inr ⟨v, h4, At.here ?_⟩
    exact (hq.core.rep c.key v).2 ⟨k, ⟨i, h1, comb_full.2 ⟨h2, h4⟩⟩, h3⟩
  · obtain ⟨A', r', B', kr', v, g1, g2, g3, g4, g5⟩ := hq.removal i h1 h2
    obtain ⟨rfl, rfl, rfl⟩ := h.ex.unique h3 g1 (by rw [h4, g2])
    rw [h5] at g3
    cases g3
    rcases g5 with g5 | g5
    · exact Or.inl g5
    · refine Or.inr ⟨v, g5, A, r :: B, h3, ?_, h7⟩
      show now cfg.W.eq A c.key = some v
      rw [now_respects hW A c.key kr h6, g4]

theorem Sim.bad (hW : cfg.W.Lawful) (h : Sim cfg H S rid s) {c : Ctx K V} {n tok : Nat}
    (hid : (s.pc p).callId = some c.id) (hm : (s.pc p).moves = false)
    (hu : Unc H S c) (hT : Tok s.mem n tok) :
    Sim cfg H S rid { s with mem := s.mem, pc := Function.update s.pc p (badValue c n tok) } := by
  have hd : badValue c n tok = .wait c ∨ badValue c n tok = .need1 c n tok .store := by
    unfold badValue
    cases c.kind <;> simp
  rcases hd with hd | hd
  · rw [hd]; exact h.goes hW hid rfl hu rfl hm
  · rw [hd]; exact h.goes hW hid rfl ⟨hu, hT, trivial⟩ rfl hm

theorem Sim.value_ (hW : cfg.W.Lawful) (h : Sim cfg H S rid s) {c : Ctx K V} {n tok : Nat} {x : ValS V}
    (hpc : s.pc p = .value c n tok x) :
    Sim cfg H S rid { s with mem := s.mem, pc := Function.update s.pc p (if s.mem.marked tok then badValue c n tok else .value2 c n tok x) } := by
  have hv := h.view p
  rw [hpc] at hv
  obtain ⟨hu, hT, hr, hv⟩ := hv
  have hm : (s.pc p).moves = false := by rw [hpc]; rfl
  have hid : (s.pc p).callId = some c.id := by rw [hpc]; rfl
  cases hk : s.mem.marked tok with
  | true => rw [if_pos rfl]; exact h.bad hW hid hm hu hT
  | false =>
    rw [if_neg (by simp)]
    exact h.goes hW hid rfl ⟨hu, hT, hr, hv hk⟩ rfl hm

theorem perform_found {eq : K → K → Bool} {f : K → Option V} {c : Ctx K V} {v : V}
    (hr : Reads c.kind) (hu : Unc H S c) (hf : f c.key = some v) :
    perform eq f (.on c.called c.key) = (f, .value v) := by
  have hcase : c.called = .get ∨ (∃ v, c.called = .intern v) ∨ ∃ v, c.called = .symbol v := by
    rcases hu.kind with h1 | ⟨u, h1, _⟩
    · rw [← h1]
      rcases hr with hr | ⟨u, hr | hr⟩
      · exact Or.inl hr
      · exact Or.inr (Or.inl ⟨u, hr⟩)
      · exact Or.inr (Or.inr ⟨u, hr⟩)
    · exact Or.inr (Or.inr ⟨u, h1⟩)
  rcases hcase with h1 | ⟨u, h1⟩ | ⟨u, h1⟩ <;> simp only [h1, perform, hf]

theorem Sim.value2_ (hW : cfg.W.Lawful) (h : Sim cfg H S rid s) {c : Ctx K V} {n tok : Nat} {x : ValS V}
    (hpc : s.pc p = .value2 c n tok x) :
    ∃ S', Sim cfg H S' rid { s with
      mem := s.mem
      pc := Function.update s.pc p (match x with
        | .deleted => badValue c n tok
        | _ => if (s.mem.vecs n).token = tok then .done c.id x.out else badValue c n tok) } := by
  have hv := h.view p
  rw [hpc] at hv
  obtain ⟨hu, hT, hr, hv⟩ := hv
  have hm : (s.pc p).moves = false := by rw [hpc]; rfl
  have hid : (s.pc p).callId = some c.id := by rw [hpc]; rfl
  rcases hv with rfl | ⟨v, rfl, ha⟩
  · exact ⟨S, h.bad hW hid hm hu hT⟩
  · dsimp only
    by_cases e : (s.mem.vecs n).token = tok
    · rw [if_pos e]
      exact h.commit hW hu hid hm ha (fun f _ hf => perform_found hr hu hf)
    · rw [if_neg e]
      exact ⟨S, h.bad hW hid hm hu hT⟩

theorem Sim.yes (hW : cfg.W.Lawful) (h : Sim cfg H S rid s) {c : Ctx K V} {n : Nat} (w : Why)
    (hid : (s.pc p).callId = some c.id) (hm : (s.pc p).moves = false)
    (hu : Unc H S c) (hn : n < s.mem.nv) :
    Sim cfg H S rid { s with mem := s.mem, pc := Function.update s.pc p (needYes c n w) } := by
  have hd : needYes c n w = .full c n true ∨ needYes c n w = .rehash c n false := by
    unfold needYes
    cases w <;> simp
  rcases hd with hd | hd <;> rw [hd] <;> exact h.goes hW hid rfl ⟨hu, hn⟩ rfl hm

theorem Asked.weaken {W : World K} {m : Mem K V} {c : Ctx K V} {n tok : Nat} {a b : Prop} (hab : b → a) {w : Why}
    (h : Asked W H S m c n tok a w) : Asked W H S m c n tok b w := by
  cases w with
  | absent => exact ⟨h.1, fun hb => h.2 (hab hb)⟩
  | found => trivial
  | store => trivial
  | fresh t i => exact h

theorem Sim.need1_ (hW : cfg.W.Lawful) (h : Sim cfg H S rid s) {c : Ctx K V} {n tok : Nat} {w : Why}
    (hpc : s.pc p = .need1 c n tok w) :
    Sim cfg H S rid { s with mem := s.mem, pc := Function.update s.pc p (if s.mem.marked tok then needYes c n w else .need2 c n tok w) } := by
  have hv := h.view p
  rw [hpc] at hv
  obtain ⟨hu, hT, hv⟩ := hv
  have hm : (s.pc p).moves = false := by rw [hpc]; rfl
  have hid : (s.pc p).callId = some c.id := by rw [hpc]; rfl
  cases hk : s.mem.marked tok with
  | true => rw [if_pos rfl]; exact h.yes hW w hid hm hu hT.vec
  | false =>
    rw [if_neg (by simp)]
    exact h.goes hW hid rfl ⟨hu, hT, hv.weaken fun _ => hk⟩ rfl hm

theorem Sim.need2_ (hW : cfg.W.Lawful) (h : Sim cfg H S rid s) {c : Ctx K V} {n tok : Nat} {w : Why}
    (hpc : s.pc p = .need2 c n tok w) :
    Sim cfg H S rid { s with mem := s.mem, pc := Function.update s.pc p (if (s.mem.vecs n).token = tok then .need3 c n tok w else needYes c n w) } := by
  have hv := h.view p
  rw [hpc] at hv
  obtain ⟨hu, hT, hv⟩ := hv
  have hm : (s.pc p).moves = false := by rw [hpc]; rfl
  have hid : (s.pc p).callId = some c.id := by rw [hpc]; rfl
  by_cases hk : (s.mem.vecs n).token = tok
  · rw [if_pos hk]; exact h.goes hW hid rfl ⟨hu, hT, hv⟩ rfl hm
  · rw [if_neg hk]; exact h.yes hW w hid hm hu hT.vec

theorem Sim.need3_ (hW : cfg.W.Lawful) (h : Sim cfg H S rid s) {c : Ctx K V} {n tok : Nat} {w : Why}
    (hpc : s.pc p = .need3 c n tok w) :
    ∃ S', Sim cfg H S' rid { s with mem := s.mem, pc := Function.update s.pc p (if isStale cfg.W s.mem.now (s.mem.vecs n).deps then needYes c n w else needNo c n tok w) } := by
  have hv := h.view p
  rw [hpc] at hv
  obtain ⟨hu, hT, hv⟩ := hv
  have hm : (s.pc p).moves = false := by rw [hpc]; rfl
  have hid : (s.pc p).callId = some c.id := by rw [hpc]; rfl
  cases hk : isStale cfg.W s.mem.now (s.mem.vecs n).deps with
  | true => rw [if_pos rfl]; exact ⟨S, h.yes hW w hid hm hu hT.vec⟩
  | false =>
    rw [if_neg (by simp)]
    cases w with
    | absent =>
      obtain ⟨h1, h2⟩ := hv
      have ha : Absent cfg.W H S c.id c.key := by
        rcases h2 trivial with h2 | ⟨d, h2, h3⟩
        · exact h2
        · unfold isStale at hk
          rw [Bool.or_eq_false_iff, List.any_eq_false] at hk
          exact absurd h3 (hk.1 d h2)
      refine h.commit hW hu hid hm ha (fun f hres hf => ?_)
      have hcase : c.called = c.kind := by
        rcases hu.kind with h3 | ⟨v, _, h4⟩
        · exact h3.symm
        · rw [h4] at h1; rcases h1 with h1 | h1 <;> cases h1
      rw [hcase]
      rcases h1 with h1 | h1
      · simp only [h1, perform, hf, absentOut]
      · simp only [h1, perform, hf, absentOut, Option.isSome_none, Prod.mk.injEq, and_true]
        funext a
        unfold mapRemove
        by_cases e : cfg.W.eq a c.key = true
        · rw [if_pos e, hres a c.key e, hf]
        · rw [if_neg e]
    | found => exact ⟨S, h.goes hW hid rfl hu rfl hm⟩
    | store => exact ⟨S, h.goes hW hid rfl ⟨hu, hT.vec⟩ rfl hm⟩
    | fresh t i =>
      obtain ⟨⟨v, h1⟩, h2, h3⟩ := hv
      exact ⟨S, h.goes hW hid rfl ⟨hu, hT, ⟨v, by rw [h1]; rfl⟩, h2, h3⟩ rfl hm⟩

theorem Sim.full_ (hW : cfg.W.Lawful) (h : Sim cfg H S rid s) {c : Ctx K V} {n : Nat} {b : Bool}
    (hpc : s.pc p = .full c n b) :
    Sim cfg H S rid { s with mem := s.mem, pc := Function.update s.pc p (if b then .rehash c n (s.mem.vecs n).full else if (s.mem.vecs n).full then .rehash c n true else .start c) } := by
  have hv := h.view p
  rw [hpc] at hv
  have hm : (s.pc p).moves = false := by rw [hpc]; rfl
  have hid : (s.pc p).callId = some c.id := by rw [hpc]; rfl
  cases b with
  | true => exact h.goes hW hid rfl hv rfl hm
  | false =>
    rw [if_neg (by simp)]
    cases (s.mem.vecs n).full with
    | true => exact h.goes hW hid rfl hv rfl hm
    | false => exact h.goes hW hid rfl hv.1 rfl hm

end Verif.Conc
