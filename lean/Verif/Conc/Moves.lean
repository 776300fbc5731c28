import Verif.Conc.Writes

/-! # Helper lemmas for concurrent tables: rehashing -/

namespace Verif.Conc

open Verif.Table

variable {K V : Type} {cfg : Cfg K V} {W : World K} {H : List (Event K V)} {S S' : List (Entry K V)}
  {rid : Nat → Nat} {s : State K V} {p : Nat} {m m' : Mem K V}

/-! ### a rehash begins -/

theorem mark_self {n : Nat} : (m.mark n).marked (m.vecs n).token = true := by simp [Mem.mark]

theorem mark_mono {n t : Nat} (h : m.marked t = true) : (m.mark n).marked t = true := by
  unfold Mem.mark
  by_cases e : t = (m.vecs n).token
  · simp [e]
  · simp only [Function.update_of_ne e]; exact h

theorem mark_false {n t : Nat} (h : (m.mark n).marked t = false) : m.marked t = false := by
  cases hm : m.marked t with
  | false => rfl
  | true => rw [mark_mono hm] at h; cases h

theorem Evol.mark {l : Option Nat} : Evol W m { m.mark m.cur with lock := l } where
  nv := Nat.le_refl _
  now := Nat.le_refl _
  marked _ h := mark_mono h
  tok _ _ h := ⟨h.vec, h.made, fun hl => h.live (mark_false hl)⟩
  count _ _ := rfl
  keys hl := by simp only [mark_self] at hl; cases hl
  deps _ _ _ _ h := h

theorem Wf.mark (h : Wf m) {l : Option Nat} : Wf { m.mark m.cur with lock := l } where
  cur := h.cur
  tok := h.tok
  retired n hn e := mark_mono (h.retired n hn e)
  unmade t ht := by
    have h1 : m.ntok ≤ t := ht
    have : t ≠ (m.vecs m.cur).token := by have := h.tok _ h.cur; omega
    simp only [Mem.mark, Function.update_of_ne this]
    exact h.unmade t h1
  good := h.good

theorem quiet_mark {l : Option Nat} (h : Quiet W S rid m) : Quiet W S rid { m.mark m.cur with lock := l } :=
  ⟨h.core, h.paired, h.removal, h.inj⟩

theorem Sim.rehash_ (hW : cfg.W.Lawful) (h : Sim cfg H S rid s) {c : Ctx K V} {n : Nat} {g b : Bool}
    (hpc : s.pc p = .rehash c n g) {m' : Mem K V} {pc' : Pc K V}
    (hs : stepRehash cfg p b s.mem c n g = some (m', pc')) :
    Sim cfg H S rid { s with mem := m', pc := Function.update s.pc p pc' } := by
  have hv := h.view p
  rw [hpc] at hv
  obtain ⟨hu, hn⟩ := hv
  have hid : (s.pc p).callId = some c.id := by rw [hpc]; rfl
  have hm : (s.pc p).moves = false := by rw [hpc]; rfl
  unfold stepRehash at hs
  by_cases hlk : s.mem.lock = none
  swap
  · rw [if_neg hlk] at hs; cases hs
  rw [if_pos hlk] at hs
  have hq := h.quiet' (Or.inl hlk) hm
  by_cases hcur : n = s.mem.cur
  swap
  · rw [if_neg hcur] at hs
    cases hs
    exact h.goes hW hid rfl hu rfl hm
  rw [if_pos hcur] at hs
  subst hcur
  dsimp only at hs
  have hvac : ∀ {P : Prop} {l : Option Nat}, { s.mem.mark s.mem.cur with lock := l }.marked (s.mem.vecs s.mem.cur).token = false → P := by
    intro P l h; simp only [mark_self] at h; cases h
  have hhm : ∀ {l : Option Nat}, Quiet cfg.W S rid { s.mem.mark s.mem.cur with lock := l } := quiet_mark hq
  by_cases hip : (!g && cfg.inPlace && b) = true
  · rw [if_pos hip] at hs
    cases hs
    have hi : cfg.inPlace = true := by simp at hip; exact hip.1.2
    refine h.write hW (Or.inl hlk) hid rfl h.ex (Grow.refl S c.id none) Evol.mark hvac h.wf.mark
      (fun _ => rfl) hu ?_ (fun h => by cases h)
    exact ⟨rfl, hi, mark_self (m := s.mem) (n := s.mem.cur), Nat.le_refl _, hq.paired, _, _, hq.core.rep, ip_init hq.core.uniq⟩
  · rw [if_neg hip] at hs
    cases hcc : computeEntryCount (rehashCount cfg (s.mem.vecs s.mem.cur) g) with
    | none =>
      rw [hcc] at hs
      cases hs
      exact h.write hW (Or.inl hlk) hid rfl h.ex (Grow.refl S c.id none) (Evol.mark (l := s.mem.lock)) (hvac (l := s.mem.lock))
        (h.wf.mark (l := s.mem.lock)) (by intro h; cases h) ⟨hu.ongoing, ⟨_, hu.called⟩, Or.inl ⟨rfl, hu.fresh⟩⟩ trivial
        (fun _ => hhm (l := s.mem.lock))
    | some dc =>
      rw [hcc] at hs
      cases hs
      refine h.write hW (Or.inl hlk) hid rfl h.ex (Grow.refl S c.id none) Evol.mark hvac h.wf.mark
        (fun _ => rfl) hu ?_ (fun _ => hhm)
      exact ⟨rfl, mark_self (m := s.mem) (n := s.mem.cur), (computeEntryCount_spec hcc).1, Nat.le_refl _, fun i a ha => (by simp at ha), cp_init⟩

/-! ### rehashing in place -/

theorem Fair.static (hF : Fair cfg H) (h : cfg.inPlace = true) : Static cfg.W := by
  rcases hF.2 with h1 | ⟨h1, _⟩
  · exact h1
  · rw [h] at h1; cases h1

/-- A step of a thread that moves entries in place. -/
theorem Sim.moving (hW : cfg.W.Lawful) (hF : Fair cfg H) (h : Sim cfg H S rid s) {c : Ctx K V} {pc' : Pc K V}
    {f : Vec K V → Vec K V} (hid : (s.pc p).callId = some c.id) (hid' : pc'.callId = some c.id)
    (hold : (s.pc p).holds = true) (hin : cfg.inPlace = true)
    (hmk : s.mem.marked (s.mem.vecs s.mem.cur).token = true)
    (hc : (f (s.mem.vecs s.mem.cur)).count = (s.mem.vecs s.mem.cur).count)
    (ht : (f (s.mem.vecs s.mem.cur)).token = (s.mem.vecs s.mem.cur).token)
    (hv : View cfg.W H S rid { s.mem.modify s.mem.cur f with lock := s.mem.lock } pc')
    (hh : Held cfg.W cfg.inPlace (now cfg.W.eq S) { s.mem.modify s.mem.cur f with lock := s.mem.lock } pc')
    (hq : pc'.moves = false → QuietV cfg.W S rid s.mem.now (f (s.mem.vecs s.mem.cur))) :
    Sim cfg H S rid { s with mem := s.mem.modify s.mem.cur f, pc := Function.update s.pc p pc' } := by
  have hlk := h.lock p hold
  have hst := hF.static hin
  have hE : Evol cfg.W s.mem { s.mem.modify s.mem.cur f with lock := s.mem.lock } :=
    Evol.modify hc ht (fun _ hl => by rw [hmk] at hl; cases hl) (fun h => absurd hst h)
  have hwf : Wf { s.mem.modify s.mem.cur f with lock := s.mem.lock } := h.wf.modify hc ht
  refine h.write hW (Or.inr hlk) hid hid' h.ex (Grow.refl S c.id none) hE
    (fun hl => ?_) hwf (fun _ => hlk) hv hh (fun hm => quiet_modify (l := s.mem.lock) (hq hm))
  have hl' : s.mem.marked (s.mem.vecs s.mem.cur).token = false := hl
  rw [hmk] at hl'; cases hl'

theorem slotOf_nokey {x : KeyS K} {y : ValS V} (h : ∀ k, x ≠ .key k) : isEntry (slotOf x y) = false := by
  cases x with
  | empty => rfl
  | deleted => rfl
  | key k => exact absurd rfl (h k)

/-- What is in hand is dropped when it is no entry. -/
theorem ip_drop {c P n : Nat} {Hs : K → V → Prop} {w : Table.Work K V} {hand : Slot K V}
    (h : IPInv W c 0 P Hs n w hand) (he : isEntry hand = false) : IPInv W c 0 P Hs n w .empty := by
  refine { h with has := ?_, huniq := ?_, tot := ?_ }
  · intro k v
    rw [h.has]
    constructor
    · rintro (a | a)
      · exact Or.inl a
      · rw [a] at he; cases he
    · rintro (a | a)
      · exact Or.inl a
      · cases a
  · intro k v e; cases e
  · have := h.tot
    rw [he] at this
    simpa [isEntry] using this

theorem Sim.ipLoop_ (hW : cfg.W.Lawful) (hF : Fair cfg H) (h : Sim cfg H S rid s) {c : Ctx K V} {n i : Nat} {w : Work K V}
    (hpc : s.pc p = .ipLoop c n w i) {m' : Mem K V} {pc' : Pc K V} (hs : stepIpLoop s.mem c n w i = (m', pc')) :
    Sim cfg H S rid { s with mem := m', pc := Function.update s.pc p pc' } := by
  have hu := h.view p
  have hh := h.held p
  rw [hpc] at hu hh
  have hid : (s.pc p).callId = some c.id := by rw [hpc]; rfl
  have hho : (s.pc p).holds = true := by rw [hpc]; rfl
  obtain ⟨rfl, hin, hmk, hb, hpa, P, Hs, hrep, hinv⟩ := hh
  have hg := h.wf.good _ h.wf.cur
  cases i with
  | zero =>
    cases hs
    obtain ⟨hcore, hnd⟩ := ip_final hg hinv hrep
    have hnd' : ∀ i, i < (s.mem.vecs s.mem.cur).count → (s.mem.vecs s.mem.cur).keys i ≠ .deleted := by
      intro i hi e
      have := hnd i hi
      simp [comb, e, slotOf, isDeleted] at this
    refine h.moving hW hF hid rfl hho hin hmk rfl rfl hu ⟨rfl, ?_⟩ (fun _ => ⟨hcore, hpa, ?_, ?_⟩)
    · simp only [modify_same]; exact hmk
    · intro i hi hd; exact absurd hd (hnd' i hi)
    · intro i j hi _ hd; exact absurd hd (hnd' i hi)
  | succ i =>
    unfold stepIpLoop at hs
    dsimp only at hs
    cases hbit : w.bits i with
    | true =>
      rw [hbit, if_pos rfl] at hs
      cases hs
      refine h.move hW hid rfl h.ex (Grow.refl S c.id none) rfl hu (fun _ => h.lock p hho) ?_ (by rw [hpc]; rfl)
      exact ⟨rfl, hin, hmk, by omega, hpa, P, Hs, hrep, ip_skip hinv hbit⟩
    | false =>
      rw [hbit, if_neg (by simp)] at hs
      cases hs
      refine h.moving hW hF hid rfl hho hin hmk rfl rfl hu ?_ (fun h => by cases h)
      have hi : i < (s.mem.vecs s.mem.cur).count := by omega
      have htake := ip_take hi hinv hbit
      refine ⟨⟨rfl, hin, ?_, ?_, ?_, P, Hs, hrep, ?_⟩, hpa i hi, ?_, ?_⟩
      · simp only [modify_same]; exact hmk
      · simp only [modify_same]
        exact Nat.le_of_lt hi
      · simp only [modify_same, Vec.setKey]
        intro j hj a ha
        by_cases e : j = i
        · subst e; simp at ha
        · rw [Function.update_of_ne e] at ha
          exact hpa j hj a ha
      · simp only [modify_same, Vec.setKey, comb_key_empty]
        exact htake
      · simp only [modify_same]; exact hi
      · simp [modify_same, Vec.setKey]

theorem Sim.ipClear_ (hW : cfg.W.Lawful) (hF : Fair cfg H) (h : Sim cfg H S rid s) {c : Ctx K V} {n i : Nat} {w : Work K V}
    {hk : KeyS K} {hv : ValS V} (hpc : s.pc p = .ipClear c n w i hk hv) :
    Sim cfg H S rid { s with mem := s.mem.modify n (Vec.setVal i .empty), pc := Function.update s.pc p (.ipHand c n w i hk hv) } := by
  have hu := h.view p
  have hh := h.held p
  rw [hpc] at hu hh
  have hid : (s.pc p).callId = some c.id := by rw [hpc]; rfl
  have hho : (s.pc p).holds = true := by rw [hpc]; rfl
  obtain ⟨⟨rfl, hin, hmk, hb, hpa, P, Hs, hrep, hinv⟩, hp1, hi, hke⟩ := hh
  refine h.moving hW hF hid rfl hho hin hmk rfl rfl hu ?_ (fun h => by cases h)
  refine ⟨⟨rfl, hin, ?_, ?_, ?_, P, Hs, hrep, ?_⟩, hp1⟩
  · simp only [modify_same]; exact hmk
  · simp only [modify_same]; exact hb
  · simp only [modify_same, Vec.setVal]
    intro j hj a ha
    have e : j ≠ i := by rintro rfl; rw [hke] at ha; cases ha
    rw [Function.update_of_ne e]
    exact hpa j hj a ha
  · have : comb (s.mem.vecs s.mem.cur).keys (Function.update (s.mem.vecs s.mem.cur).vals i .empty) =
        comb (s.mem.vecs s.mem.cur).keys (s.mem.vecs s.mem.cur).vals :=
      comb_val_nokey (by rw [hke]; intro k hk; cases hk)
    simp only [modify_same, Vec.setVal, this]
    exact hinv

theorem Sim.ipHand_ (hW : cfg.W.Lawful) (h : Sim cfg H S rid s) {c : Ctx K V} {n i : Nat} {w : Work K V}
    {hk : KeyS K} {hv : ValS V} (hpc : s.pc p = .ipHand c n w i hk hv) {b : Bool} {m' : Mem K V} {pc' : Pc K V}
    (hs : step1 cfg p b s.mem (.ipHand c n w i hk hv) = some (m', pc')) :
    Sim cfg H S rid { s with mem := m', pc := Function.update s.pc p pc' } := by
  have hho : (s.pc p).holds = true := by rw [hpc]; rfl
  unfold step1 at hs
  dsimp only at hs
  have hdrop : (∀ k, hk ≠ .key k) →
      Sim cfg H S rid { s with mem := s.mem, pc := Function.update s.pc p (.ipLoop c n w i) } := by
    intro hne
    have hu := h.view p
    have hh := h.held p
    rw [hpc] at hu hh
    obtain ⟨⟨e1, hin, hmk, hb, hpa, P, Hs, hrep, hinv⟩, hp1⟩ := hh
    refine h.move hW (by rw [hpc]; rfl) rfl h.ex (Grow.refl S c.id none) rfl hu (fun _ => h.lock p hho) ?_ (by rw [hpc]; rfl)
    exact ⟨e1, hin, hmk, hb, hpa, P, Hs, hrep, ip_drop hinv (slotOf_nokey hne)⟩
  cases hk with
  | empty => cases hs; exact hdrop (by intro k e; cases e)
  | deleted => cases hs; exact hdrop (by intro k e; cases e)
  | key k =>
    cases hs
    have h' := h.tick hW (Nat.le_succ s.mem.now)
    have hu := h'.view p
    have hh := h'.held p
    simp only [hpc] at hu hh
    exact h'.move hW (by simp only [hpc]; rfl) rfl h'.ex (Grow.refl S c.id none) rfl hu (fun _ => h'.lock p hho)
      ⟨hh.1, hh.2, Nat.lt_succ_self _⟩ (by simp only [hpc]; rfl)

theorem Sim.ipHashed_ (hW : cfg.W.Lawful) (hF : Fair cfg H) (h : Sim cfg H S rid s) {c : Ctx K V} {n i : Nat} {w : Work K V}
    {k : K} {hv : ValS V} {t : Nat} (hpc : s.pc p = .ipHashed c n w i k hv t) {j : Nat}
    (hs : probe (fun j => insertAt (w.bits j) ((s.mem.vecs n).keys j)) (s.mem.vecs n).count
      (secondaryStride (cfg.W.hash t k)) (s.mem.vecs n).count
      (primaryIndex (cfg.W.hash t k) (s.mem.vecs n).count) = some j) :
    Sim cfg H S rid { s with mem := s.mem.modify n (Vec.setKey j (.key k)), pc := Function.update s.pc p (.ipVal c n w i j k hv t ((s.mem.vecs n).keys j) ((s.mem.vecs n).vals j)) } := by
  have hu := h.view p
  have hh := h.held p
  rw [hpc] at hu hh
  have hid : (s.pc p).callId = some c.id := by rw [hpc]; rfl
  have hho : (s.pc p).holds = true := by rw [hpc]; rfl
  obtain ⟨⟨rfl, hin, hmk, hb, hpa, P, Hs, hrep, hinv⟩, hp1, ht⟩ := hh
  obtain ⟨v, rfl⟩ := hp1 k rfl
  have hg := h.wf.good _ h.wf.cur
  obtain ⟨hjc, _, _⟩ := probe_reach hg hs
  have hs' : probe (insertStop (comb (s.mem.vecs s.mem.cur).keys (s.mem.vecs s.mem.cur).vals) w.bits) (s.mem.vecs s.mem.cur).count
      (secondaryStride (cfg.W.hash t k)) (s.mem.vecs s.mem.cur).count
      (primaryIndex (cfg.W.hash t k) (s.mem.vecs s.mem.cur).count) = some j := by
    rw [← hs]
    apply probe_congr hg
    intro a ha
    exact (insertAt_comb (hpa a ha)).symm
  obtain ⟨_, hst⟩ := ip_store hW hg hinv hs' ht
  refine h.moving hW hF hid rfl hho hin hmk rfl rfl hu ?_ (fun h => by cases h)
  refine ⟨⟨rfl, hin, ?_, ?_, ?_, P, Hs, hrep, ?_⟩, hpa j hjc⟩
  · simp only [modify_same]; exact hmk
  · simp only [modify_same]; exact hb
  · simp only [modify_same, Vec.setKey]
    intro a hac x hx
    by_cases e : a = j
    · subst e; exact ⟨v, by simp⟩
    · rw [Function.update_of_ne e] at hx ⊢
      exact hpa a hac x hx
  · simp only [modify_same, Vec.setKey, comb_both]
    exact hst

theorem Sim.ipVal_ (hW : cfg.W.Lawful) (hF : Fair cfg H) (h : Sim cfg H S rid s) {c : Ctx K V} {n i j : Nat} {w : Work K V}
    {k : K} {hv : ValS V} {t : Nat} {nk : KeyS K} {nv : ValS V} (hpc : s.pc p = .ipVal c n w i j k hv t nk nv) :
    Sim cfg H S rid { s with mem := s.mem.modify n (Vec.setVal j hv), pc := Function.update s.pc p (.ipHand c n { w with bits := Function.update w.bits j true, deps := (k, t) :: w.deps, cnt := w.cnt + 1 } i nk nv) } := by
  have hu := h.view p
  have hh := h.held p
  rw [hpc] at hu hh
  have hid : (s.pc p).callId = some c.id := by rw [hpc]; rfl
  have hho : (s.pc p).holds = true := by rw [hpc]; rfl
  obtain ⟨⟨rfl, hin, hmk, hb, hpa, P, Hs, hrep, hinv⟩, hp1⟩ := hh
  refine h.moving hW hF hid rfl hho hin hmk rfl rfl hu ?_ (fun h => by cases h)
  refine ⟨⟨rfl, hin, ?_, ?_, ?_, P, Hs, hrep, ?_⟩, hp1⟩
  · simp only [modify_same]; exact hmk
  · simp only [modify_same]; exact hb
  · simp only [modify_same]; exact hpa
  · simp only [modify_same]; exact hinv

theorem Sim.ipToken_ (hW : cfg.W.Lawful) (h : Sim cfg H S rid s) {c : Ctx K V} {n : Nat}
    (hpc : s.pc p = .ipToken c n) :
    Sim cfg H S rid { s with mem := { s.mem.modify n (fun v => { v with token := s.mem.ntok }) with lock := none, ntok := s.mem.ntok + 1 }, pc := Function.update s.pc p (.start c) } := by
  have hu := h.view p
  have hh := h.held p
  rw [hpc] at hu hh
  obtain ⟨rfl, hmk⟩ := hh
  have hid : (s.pc p).callId = some c.id := by rw [hpc]; rfl
  have hlk := h.lock p (by rw [hpc]; rfl)
  have hq := h.quiet' (Or.inr hlk) (by rw [hpc]; rfl)
  refine h.write hW (Or.inr hlk) hid rfl h.ex (Grow.refl S c.id none) ?_
    (fun hl => by have hl' : s.mem.marked (s.mem.vecs s.mem.cur).token = false := hl
                  rw [hmk] at hl'; cases hl') ?_ (by intro h; cases h) hu trivial (fun _ => ?_)
  · refine ⟨Nat.le_refl _, Nat.le_refl _, fun _ h => h, fun a t hT => ⟨hT.vec, Nat.lt_succ_of_lt hT.made, fun hl => ?_⟩,
      fun a _ => ?_, fun hl => ?_, fun _ a _ d hd => ?_⟩
    · obtain ⟨h1, h2⟩ := hT.live hl
      have hl' : s.mem.marked t = false := hl
      subst h1
      rw [h2, hl'] at hmk; cases hmk
    · exact modify_count (m := s.mem) (n := s.mem.cur) (f := fun v => { v with token := s.mem.ntok }) rfl
    · have hl' : s.mem.marked (s.mem.vecs s.mem.cur).token = false := hl
      rw [hmk] at hl'; cases hl'
    · by_cases e : a = s.mem.cur
      · subst e; simp only [modify_same]; exact hd
      · simp only [modify_other e]; exact hd
  · refine ⟨h.wf.cur, fun a ha => ?_, fun a ha e => ?_, fun t ht => h.wf.unmade t (Nat.le_of_succ_le ht), fun a ha => ?_⟩
    · by_cases e : a = s.mem.cur
      · subst e; simp only [modify_same]; exact Nat.lt_succ_self _
      · simp only [modify_other e]; exact Nat.lt_succ_of_lt (h.wf.tok a ha)
    · have e' : a ≠ s.mem.cur := e
      simp only [modify_other e']
      exact h.wf.retired a ha e'
    · by_cases e : a = s.mem.cur
      · subst e; simp only [modify_same]; exact h.wf.good _ ha
      · simp only [modify_other e]; exact h.wf.good a ha
  · rw [quiet_iff] at hq ⊢
    show QuietV cfg.W S rid s.mem.now ((s.mem.modify s.mem.cur (fun v => { v with token := s.mem.ntok })).vecs s.mem.cur)
    rw [modify_same]
    exact ⟨hq.core, hq.paired, hq.removal, hq.inj⟩

/-! ### rehashing into a copy -/

theorem Sim.cpLoop_ (hW : cfg.W.Lawful) (h : Sim cfg H S rid s) {c : Ctx K V} {n dc i : Nat} {w : Work K V}
    (hpc : s.pc p = .cpLoop c n dc w i) {m' : Mem K V} {pc' : Pc K V} (hs : stepCpLoop s.mem c n dc w i = (m', pc')) :
    Sim cfg H S rid { s with mem := m', pc := Function.update s.pc p pc' } := by
  have hid : (s.pc p).callId = some c.id := by rw [hpc]; rfl
  have hho : (s.pc p).holds = true := by rw [hpc]; rfl
  have hlk := h.lock p hho
  have hq := h.quiet' (Or.inr hlk) (by rw [hpc]; rfl)
  cases i with
  | zero =>
    have hu := h.view p
    have hh := h.held p
    rw [hpc] at hu hh
    obtain ⟨rfl, hmk, hgd, hb, hpa, hinv⟩ := hh
    cases hs
    have hvac : ∀ {P : Prop}, s.mem.marked (s.mem.vecs s.mem.cur).token = false → P := by
      intro P hl; rw [hmk] at hl; cases hl
    have hnd : ∀ i, w.keys i ≠ .deleted := by
      intro i e
      have := hinv.nodel i
      simp [comb, e, slotOf, isDeleted] at this
    refine h.write hW (Or.inr hlk) hid rfl h.ex (Grow.refl S c.id none) ?_ (fun hl => hvac hl) ?_ (by intro h; cases h) hu trivial (fun _ => ?_)
    · refine ⟨Nat.le_succ _, Nat.le_refl _, fun _ h => h, fun a t hT => ⟨Nat.lt_succ_of_lt hT.vec, Nat.lt_succ_of_lt hT.made, fun hl => ?_⟩,
        fun a ha => ?_, fun hl => hvac hl, fun _ a ha d hd => ?_⟩
      · obtain ⟨h1, h2⟩ := hT.live hl
        have hl' : s.mem.marked t = false := hl
        subst h1
        rw [h2, hl'] at hmk; cases hmk
      · have e : a ≠ s.mem.nv := by omega
        simp [Mem.install, Function.update_of_ne e]
      · have e : a ≠ s.mem.nv := by omega
        simp only [Mem.install, Function.update_of_ne e]
        exact hd
    · refine ⟨Nat.lt_succ_self _, fun a ha => ?_, fun a ha e => ?_, fun t ht => h.wf.unmade t (Nat.le_of_succ_le ht), fun a ha => ?_⟩
      · by_cases e : a = s.mem.nv
        · subst e; simp [Mem.install]
        · simp only [Mem.install, Function.update_of_ne e] at ha ⊢
          exact Nat.lt_succ_of_lt (h.wf.tok a (by omega))
      · have e' : a ≠ s.mem.nv := e
        simp only [Mem.install, Function.update_of_ne e'] at ha ⊢
        by_cases e2 : a = s.mem.cur
        · subst e2; exact hmk
        · exact h.wf.retired a (by omega) e2
      · by_cases e : a = s.mem.nv
        · subst e; simp only [Mem.install, Function.update_self]; exact hgd
        · simp only [Mem.install, Function.update_of_ne e] at ha ⊢
          exact h.wf.good a (by omega)
    · rw [quiet_iff]
      simp only [Mem.install, Function.update_self]
      refine ⟨cp_final hinv hq.core, fun i _ => hpa i, fun i _ hd => absurd hd (hnd i), fun i _ _ _ hd => absurd hd (hnd i)⟩
  | succ i =>
    unfold stepCpLoop at hs
    dsimp only at hs
    have hskip : (∀ k, (s.mem.vecs n).keys i ≠ .key k) →
        Sim cfg H S rid { s with mem := s.mem, pc := Function.update s.pc p (.cpLoop c n dc w i) } := by
      intro hne
      have hu := h.view p
      have hh := h.held p
      rw [hpc] at hu hh
      obtain ⟨e1, hmk, hgd, hb, hpa, hinv⟩ := hh
      refine h.move hW hid rfl h.ex (Grow.refl S c.id none) rfl hu (fun _ => hlk) ?_ (by rw [hpc]; rfl)
      exact ⟨e1, hmk, hgd, by omega, hpa, cp_skip hinv (slotOf_nokey hne)⟩
    cases hk : (s.mem.vecs n).keys i with
    | empty => rw [hk] at hs; cases hs; exact hskip (by rw [hk]; intro k e; cases e)
    | deleted => rw [hk] at hs; cases hs; exact hskip (by rw [hk]; intro k e; cases e)
    | key k =>
      rw [hk] at hs
      cases hs
      have h' := h.tick hW (Nat.le_succ s.mem.now)
      have hu := h'.view p
      have hh := h'.held p
      simp only [hpc] at hu hh
      exact h'.move hW (by simp only [hpc]; rfl) rfl h'.ex (Grow.refl S c.id none) rfl hu (fun _ => h'.lock p hho)
        ⟨hh, hk, rfl, Nat.lt_succ_self _⟩ (by simp only [hpc]; rfl)

theorem Sim.cpHashed_ (hW : cfg.W.Lawful) (h : Sim cfg H S rid s) {c : Ctx K V} {n dc i : Nat} {w : Work K V}
    {k : K} {x : ValS V} {t : Nat} (hpc : s.pc p = .cpHashed c n dc w i k x t) {j : Nat}
    (hs : probe (fun j => stopAt cfg.W k (w.keys j)) dc (secondaryStride (cfg.W.hash t k)) dc
      (primaryIndex (cfg.W.hash t k) dc) = some j) :
    Sim cfg H S rid { s with mem := s.mem, pc := Function.update s.pc p (.cpLoop c n dc { w with keys := Function.update w.keys j (.key k), vals := Function.update w.vals j x, deps := (k, t) :: w.deps, cnt := w.cnt + 1 } i) } := by
  have hu := h.view p
  have hh := h.held p
  rw [hpc] at hu hh
  have hid : (s.pc p).callId = some c.id := by rw [hpc]; rfl
  have hho : (s.pc p).holds = true := by rw [hpc]; rfl
  have hlk := h.lock p hho
  have hq := h.quiet' (Or.inr hlk) (by rw [hpc]; rfl)
  obtain ⟨⟨rfl, hmk, hgd, hb, hpa, hinv⟩, hk, rfl, ht⟩ := hh
  obtain ⟨v, hv⟩ := hq.paired i (by omega) k hk
  have hs' : probe (searchStop cfg.W (comb w.keys w.vals) k) dc
      (secondaryStride (cfg.W.hash t k)) dc (primaryIndex (cfg.W.hash t k) dc) = some j := by
    rw [← hs]
    apply probe_congr hgd
    intro a ha
    exact (stopAt_comb (hpa a)).symm
  have hst := cp_store hW hgd (by omega) hq.core.uniq hinv (comb_full.2 ⟨hk, hv⟩) hs' ht
  refine h.move hW hid rfl h.ex (Grow.refl S c.id none) rfl hu (fun _ => hlk) ?_ (by rw [hpc]; rfl)
  refine ⟨rfl, hmk, hgd, by omega, ?_, ?_⟩
  · intro a y hy
    by_cases e : a = j
    · subst e; exact ⟨v, by simp [hv]⟩
    · simp only [Function.update_of_ne e] at hy ⊢
      exact hpa a y hy
  · simp only [hv, comb_both]
    exact hst

end Verif.Conc
