import Verif.Bits.Fill

/-! # Helper lemmas for bit sets -/

namespace Verif.Bits

/-- What the calls keep true. -/
structure Inv (s : State) : Prop where
  good : s.heap.Good
  vecs : ∀ x, x < s.next → (s.set x).vec < s.heap.next
  own : ∀ x y, x < s.next → y < s.next → x ≠ y → (s.set x).vec = (s.set y).vec → (s.heap.vec (s.set x).vec).size = 0
  sized : ∀ x, x < s.next → (s.heap.vec (s.set x).vec).size ≠ 62 ∧ (s.heap.vec (s.set x).vec).size ≠ 63

/-- The sets stand for sets of numbers. -/
structure Sim (s : State) (S : Sets) : Prop where
  inv : Inv s
  next : s.next = S.next
  elems : ∀ x, x < s.next → members s x = S.elems x

/-- What stays true of another set. -/
theorem other_same {s : State} (inv : Inv s) {h' : Heap} {r y : Nat} (k : Keeps s.heap h' r) (hy : y < s.next)
    (hr : (s.set y).vec = r → (s.heap.vec r).size = 0 ∧ (h'.vec r).size = 0) :
    (h'.vec (s.set y).vec).size = (s.heap.vec (s.set y).vec).size ∧
    ∀ p i, padded (h'.vec (s.set y).vec) p i = padded (s.heap.vec (s.set y).vec) p i := by
  by_cases e : (s.set y).vec = r
  · obtain ⟨h1, h2⟩ := hr e
    rw [e]
    refine ⟨by rw [h1, h2], fun p i => ?_⟩
    rw [padded_ge (by omega), padded_ge (by omega)]
  · rw [k.old _ (inv.vecs y hy) e]
    exact ⟨rfl, fun _ _ => rfl⟩

theorem Sim.put {s : State} {S : Sets} (sim : Sim s S) {h' : Heap} {x : Nat} {t : BSet} {m : Nat → Bool} (hx : x < s.next)
    (k : Keeps s.heap h' t.vec)
    (hr : t.vec = (s.set x).vec ∧ (h'.vec t.vec).size = (s.heap.vec t.vec).size ∨ t.vec = 0 ∨ t.vec = s.heap.next)
    (hs : (h'.vec t.vec).size ≠ 62 ∧ (h'.vec t.vec).size ≠ 63) (hm : ∀ i, padded (h'.vec t.vec) t.pad i = m i) :
    Sim (s.put h' x t) (S.put x m) := by
  have inv := sim.inv
  have same : ∀ y, y < s.next → y ≠ x → ((s.set y).vec = t.vec → (s.heap.vec t.vec).size = 0 ∧ (h'.vec t.vec).size = 0) := by
    intro y hy hne e
    rcases hr with ⟨h1, h2⟩ | h1 | h1
    · have := inv.own y x hy hx hne (by rw [e, h1])
      rw [e] at this
      exact ⟨this, by rw [h2, this]⟩
    · rw [h1]
      exact ⟨inv.good.empty, k.good.empty⟩
    · have := inv.vecs y hy
      omega
  have hset : ∀ y, y ≠ x → (s.put h' x t).set y = s.set y := fun y hne => by simp [State.put, hne]
  have hsetx : (s.put h' x t).set x = t := by simp [State.put]
  refine ⟨⟨k.good, fun y hy => ?_, fun y z hy hz hne e => ?_, fun y hy => ?_⟩, sim.next, fun y hy => ?_⟩
  · by_cases hyx : y = x
    · subst hyx; rw [hsetx]; exact k.lt
    · rw [hset y hyx]
      exact Nat.lt_of_lt_of_le (inv.vecs y hy) k.le
  · show (h'.vec _).size = 0
    by_cases hyx : y = x
    · subst hyx
      rw [hsetx] at e ⊢
      rw [hset z (by omega)] at e
      exact (same z hz (by omega) e.symm).2
    · by_cases hzx : z = x
      · subst hzx
        rw [hsetx, hset y hyx] at e
        rw [hset y hyx, e]
        exact (same y hy hyx e).2
      · rw [hset y hyx, hset z hzx] at e
        rw [hset y hyx, (other_same inv k hy (same y hy hyx)).1]
        exact inv.own y z hy hz hne e
  · show (h'.vec _).size ≠ 62 ∧ (h'.vec _).size ≠ 63
    by_cases hyx : y = x
    · subst hyx; rw [hsetx]; exact hs
    · rw [hset y hyx, (other_same inv k hy (same y hy hyx)).1]
      exact inv.sized y hy
  · funext i
    unfold members
    show padded (h'.vec _) _ i = _
    by_cases hyx : y = x
    · subst hyx; rw [hsetx, hm]; simp [Sets.put]
    · rw [hset y hyx, (other_same inv k hy (same y hy hyx)).2]
      have := congrFun (sim.elems y hy) i
      unfold members at this
      rw [this]
      simp [Sets.put, hyx]

theorem Sim.new {s : State} {S : Sets} (sim : Sim s S) {h' : Heap} {t : BSet} {m : Nat → Bool}
    (k : Keeps s.heap h' t.vec) (hr : t.vec = 0 ∨ t.vec = s.heap.next)
    (hs : (h'.vec t.vec).size ≠ 62 ∧ (h'.vec t.vec).size ≠ 63) (hm : ∀ i, padded (h'.vec t.vec) t.pad i = m i) :
    Sim (s.new h' t).1 (S.new m) := by
  have inv := sim.inv
  have same : ∀ y, y < s.next → ((s.set y).vec = t.vec → (s.heap.vec t.vec).size = 0 ∧ (h'.vec t.vec).size = 0) := by
    intro y hy e
    rcases hr with h1 | h1
    · rw [h1]
      exact ⟨inv.good.empty, k.good.empty⟩
    · have := inv.vecs y hy
      omega
  have hset : ∀ y, y ≠ s.next → (s.new h' t).1.set y = s.set y := fun y hne => by simp [State.new, hne]
  have hsetx : (s.new h' t).1.set s.next = t := by simp [State.new]
  have lt : ∀ y, y < (s.new h' t).1.next → y ≠ s.next → y < s.next := by
    intro y hy hne
    have : y < s.next + 1 := hy
    omega
  refine ⟨⟨k.good, fun y hy => ?_, fun y z hy hz hne e => ?_, fun y hy => ?_⟩, by simp [State.new, Sets.new, sim.next], fun y hy => ?_⟩
  · by_cases hyx : y = s.next
    · subst hyx; rw [hsetx]; exact k.lt
    · rw [hset y hyx]
      exact Nat.lt_of_lt_of_le (inv.vecs y (lt y hy hyx)) k.le
  · show (h'.vec _).size = 0
    by_cases hyx : y = s.next
    · subst hyx
      have hzx : z ≠ s.next := by omega
      rw [hsetx] at e ⊢
      rw [hset z hzx] at e
      exact (same z (lt z hz hzx) e.symm).2
    · have hy' := lt y hy hyx
      by_cases hzx : z = s.next
      · subst hzx
        rw [hsetx, hset y hyx] at e
        rw [hset y hyx, e]
        exact (same y hy' e).2
      · rw [hset y hyx, hset z hzx] at e
        rw [hset y hyx, (other_same inv k hy' (same y hy')).1]
        exact inv.own y z hy' (lt z hz hzx) hne e
  · show (h'.vec _).size ≠ 62 ∧ (h'.vec _).size ≠ 63
    by_cases hyx : y = s.next
    · subst hyx; rw [hsetx]; exact hs
    · rw [hset y hyx, (other_same inv k (lt y hy hyx) (same y (lt y hy hyx))).1]
      exact inv.sized y (lt y hy hyx)
  · funext i
    unfold members
    show padded (h'.vec _) _ i = _
    by_cases hyx : y = s.next
    · subst hyx; rw [hsetx, hm]; simp [Sets.new, sim.next]
    · have hy' := lt y hy hyx
      rw [hset y hyx, (other_same inv k hy' (same y hy')).2]
      have := congrFun (sim.elems y hy') i
      unfold members at this
      rw [this]
      have : y ≠ S.next := by rw [← sim.next]; exact hyx
      simp [Sets.new, this]

theorem keeps_refl {h : Heap} (g : h.Good) {r : Nat} (hr : r < h.next) : Keeps h h r :=
  ⟨g, Nat.le_refl _, hr, fun _ _ _ => rfl⟩

/-- Store a bit in a vector that may be changed. -/
theorem keeps_setBit {h h1 : Heap} {r i : Nat} (k : Keeps h h1 r) (hi : i < (h1.vec r).size) (v : Bool) :
    ∃ h2, setBit h1 r i v = .ok h2 ∧ Keeps h h2 r ∧ (h2.vec r).size = (h1.vec r).size ∧
      ∀ p j, padded (h2.vec r) p j = Function.update (padded (h1.vec r) p) i v j := by
  obtain ⟨h2, e, n, g, sz, o, b⟩ := setBit_spec k.good k.lt hi v
  refine ⟨h2, e, ⟨g, by rw [n]; exact k.le, by rw [n]; exact k.lt, fun v hv hne => by rw [o v hne, k.old v hv hne]⟩, sz r, fun p j => ?_⟩
  by_cases hj : j < (h1.vec r).size
  · rw [padded_lt (by rw [sz]; exact hj), b]
    by_cases e : j = i
    · subst e; simp
    · rw [if_neg e, Function.update_of_ne e, padded_lt hj]
  · have : j ≠ i := by omega
    rw [padded_ge (by rw [sz]; omega), Function.update_of_ne this, padded_ge (by omega)]

/-- The larger vector of `set-add` and `set-add!`. -/
theorem larger_spec {h : Heap} (g : h.Good) {c i : Nat} (hc : c < h.next) {pad : Bool} (hi : (h.vec c).size ≤ i) :
    ∃ h1 v, make h (i + 1) true pad c = .ok (h1, v) ∧ Keeps h h1 v ∧ v = h.next ∧ i < (h1.vec v).size ∧
      ((h1.vec v).size ≠ 62 ∧ (h1.vec v).size ≠ 63) ∧ ∀ j, padded (h1.vec v) pad j = padded (h.vec c) pad j := by
  obtain ⟨h1, v, e, k, hr, hsz, hb⟩ := make_spec g (size := i + 1) (roundUp := true) (f := pad) hc
  rw [if_neg (by omega), if_pos rfl, Nat.add_sub_cancel] at hsz
  refine ⟨h1, v, e, k, ?_, by omega, by omega, fun j => ?_⟩
  · rcases hr with ⟨rfl, rfl⟩ | hr
    · have := g.empty; omega
    · exact hr
  · by_cases hj : j < (h1.vec v).size
    · rw [padded_lt hj, hb j hj]
    · rw [padded_ge (by omega), padded_ge (by omega)]

theorem members_def (s : State) (x : Nat) : members s x = padded (s.heap.vec (s.set x).vec) (s.set x).pad := rfl

theorem Sim.withBit {s : State} {S : Sets} (sim : Sim s S) {x : Nat} {i : Int} (hx : x < s.next) (hi : 0 ≤ i) (bit : Bool) :
    ∃ s', call s (.withBit x i bit) = .ok s' ∧ Sim s' (S.call (.withBit x i bit)) := by
  obtain ⟨n, rfl⟩ := Int.eq_ofNat_of_zero_le hi
  have inv := sim.inv
  have hv := inv.vecs x hx
  have em := sim.elems x hx
  rw [members_def] at em
  show ∃ s', (Verif.Bits.withBit s x (n : Int) bit).bind _ = _ ∧ _
  unfold Verif.Bits.withBit
  rw [if_neg (by omega)]
  simp only [Int.toNat_natCast, Sets.call]
  rw [← em]
  unfold extended
  by_cases hc : (s.heap.vec (s.set x).vec).size ≤ n ∧ (s.set x).pad = !bit
  · rw [if_pos hc]
    obtain ⟨h1, v, e, k, hvn, hlt, hsz, hb⟩ := larger_spec inv.good hv (pad := !bit) hc.1
    obtain ⟨h2, e2, k2, sz2, b2⟩ := keeps_setBit k hlt bit
    rw [e, bind_ok]
    dsimp only
    rw [if_pos (by omega), e2, bind_ok, bind_ok]
    refine ⟨_, rfl, sim.new (t := { pad := (s.set x).pad, vec := v }) k2 (Or.inr hvn) (by rw [sz2]; exact hsz) (fun j => ?_)⟩
    rw [b2, hc.2]
    congr 1
    funext j
    exact hb j
  · rw [if_neg hc]
    obtain ⟨h1, v, e, hn, k, -, hb⟩ := copySequence_spec inv.good hv
    have hsz : (h1.vec v).size = (s.heap.vec (s.set x).vec).size := by
      rcases hn.2 with h | h <;> exact h
    rw [e, bind_ok]
    dsimp only
    by_cases hlt : (n : Int) < (h1.vec v).size
    · obtain ⟨h2, e2, k2, sz2, b2⟩ := keeps_setBit k (i := n) (by omega) bit
      rw [if_pos hlt, e2, bind_ok, bind_ok]
      refine ⟨_, rfl, sim.new (t := { pad := (s.set x).pad, vec := v }) k2 hn.1
        (by rw [sz2, hsz]; exact inv.sized x hx) (fun j => ?_)⟩
      rw [b2]
      congr 1
      funext j
      exact hb _ j
    · rw [if_neg hlt, bind_ok, bind_ok]
      refine ⟨_, rfl, sim.new (t := { pad := (s.set x).pad, vec := v }) k hn.1
        (by rw [hsz]; exact inv.sized x hx) (fun j => ?_)⟩
      rw [hb]
      by_cases hj : j = n
      · subst hj
        rw [Function.update_self, padded_ge (by omega)]
        have : ¬ (s.set x).pad = !bit := fun hp => hc ⟨by omega, hp⟩
        revert this
        cases (s.set x).pad <;> cases bit <;> simp
      · rw [Function.update_of_ne hj]

theorem Sim.withBitX {s : State} {S : Sets} (sim : Sim s S) {x : Nat} {i : Int} (hx : x < s.next) (hi : 0 ≤ i) (bit : Bool) :
    ∃ s', call s (.withBitX x i bit) = .ok s' ∧ Sim s' (S.call (.withBitX x i bit)) := by
  obtain ⟨n, rfl⟩ := Int.eq_ofNat_of_zero_le hi
  have inv := sim.inv
  have hv := inv.vecs x hx
  have em := sim.elems x hx
  rw [members_def] at em
  show ∃ s', Verif.Bits.withBitX s x (n : Int) bit = _ ∧ _
  unfold Verif.Bits.withBitX
  rw [if_neg (by omega)]
  simp only [Int.toNat_natCast, Sets.call]
  rw [← em]
  by_cases hc : (s.heap.vec (s.set x).vec).size ≤ n
  · rw [if_pos hc]
    by_cases hp : (s.set x).pad = !bit
    · rw [if_pos hp]
      obtain ⟨h1, v, e, k, hvn, hlt, hsz, hb⟩ := larger_spec inv.good hv (pad := !bit) hc
      obtain ⟨h2, e2, k2, sz2, b2⟩ := keeps_setBit k hlt bit
      rw [e, bind_ok]
      dsimp only
      rw [e2, bind_ok]
      refine ⟨_, rfl, sim.put (t := { pad := (s.set x).pad, vec := v }) hx k2 (Or.inr (Or.inr hvn)) (by rw [sz2]; exact hsz) (fun j => ?_)⟩
      rw [b2, hp]
      congr 1
      funext j
      exact hb j
    · rw [if_neg hp]
      refine ⟨s, rfl, ?_⟩
      have := sim.put (t := s.set x) (h' := s.heap) hx (keeps_refl inv.good hv) (Or.inl ⟨rfl, rfl⟩) (inv.sized x hx)
        (m := Function.update (padded (s.heap.vec (s.set x).vec) (s.set x).pad) n bit) (fun j => by
          by_cases hj : j = n
          · subst hj
            rw [Function.update_self, padded_ge hc]
            revert hp
            cases (s.set x).pad <;> cases bit <;> simp
          · rw [Function.update_of_ne hj])
      have e : s.put s.heap x (s.set x) = s := by simp [State.put]
      rwa [e] at this
  · rw [if_neg hc]
    obtain ⟨h2, e2, k2, sz2, b2⟩ := keeps_setBit (keeps_refl inv.good hv) (i := n) (by omega) bit
    rw [e2, bind_ok]
    have := sim.put (t := s.set x) hx k2 (Or.inl ⟨rfl, sz2⟩) (by rw [sz2]; exact inv.sized x hx) (fun j => b2 _ j)
    have e : s.put h2 x (s.set x) = { s with heap := h2 } := by simp [State.put]
    rw [e] at this
    exact ⟨_, rfl, this⟩

theorem Sim.make {s : State} {S : Sets} (sim : Sim s S) {hint allFrom : Option Nat}
    (hs : ∀ n, hint = some n ∨ allFrom = some n → n ≠ 62 ∧ n ≠ 63) :
    ∃ s', call s (.make hint allFrom) = .ok s' ∧ Sim s' (S.call (.make hint allFrom)) := by
  have inv := sim.inv
  show ∃ s', (makeSet s hint allFrom).bind _ = _ ∧ _
  have key : ∀ n pad, n ≠ 62 ∧ n ≠ 63 → ∃ h v, Verif.Bits.make s.heap n false false 0 = .ok (h, v) ∧
      Sim (s.new h { pad, vec := v }).1 (S.new fun i => decide (n ≤ i) && pad) := by
    intro n pad hn
    obtain ⟨h1, v, e, k, hr, hsz, hb⟩ := make_spec inv.good (size := n) (roundUp := false) (f := false) inv.good.pos
    have hsz' : (h1.vec v).size = n := by rw [hsz]; split <;> simp_all
    refine ⟨h1, v, e, sim.new k (hr.imp And.left id) (by rw [hsz']; exact hn) (fun i => ?_)⟩
    dsimp only
    by_cases hi : i < (h1.vec v).size
    · rw [padded_lt hi, hb i hi, padded_ge (by rw [inv.good.empty]; omega)]
      have : ¬ n ≤ i := by omega
      simp [this]
    · rw [padded_ge (by omega)]
      have : n ≤ i := by omega
      simp [this]
  unfold makeSet
  cases allFrom with
  | some n =>
    obtain ⟨h1, v, e, hsim⟩ := key n true (hs n (Or.inr rfl))
    simp only [Option.isSome_some]
    rw [e]
    refine ⟨_, rfl, ?_⟩
    show Sim _ (S.new fun i => decide (n ≤ i))
    simpa only [Bool.and_true] using hsim
  | none =>
    cases hint with
    | some n =>
      obtain ⟨h1, v, e, hsim⟩ := key n false (hs n (Or.inl rfl))
      simp only [Option.isSome_none]
      rw [e]
      refine ⟨_, rfl, ?_⟩
      show Sim _ (S.new fun _ => false)
      simpa only [Bool.and_false] using hsim
    | none =>
      refine ⟨_, rfl, sim.new (t := { pad := false, vec := 0 }) (keeps_refl inv.good inv.good.pos) (Or.inl rfl)
        (by rw [inv.good.empty]; omega) (fun i => padded_ge (by rw [inv.good.empty]; omega))⟩

theorem Sim.combine {s : State} {S : Sets} (sim : Sim s S) {x y : Nat} (hx : x < s.next) (hy : y < s.next) (o : Binary) :
    ∃ s', call s (.combine o x y) = .ok s' ∧ Sim s' (S.call (.combine o x y)) := by
  have inv := sim.inv
  have ex := sim.elems x hx
  have ey := sim.elems y hy
  rw [members_def] at ex ey
  have fin : ∀ {h' : Heap} {r : Nat} {p : Bool} {m : Nat → Bool}, New s.heap h' r (s.set x).vec (s.set y).vec →
      Result s.heap h' r p m → Sim (s.new h' { pad := p, vec := r }).1 (S.new m) := by
    intro h' r p m hn res
    refine sim.new (t := { pad := p, vec := r }) res.keeps hn.1 ?_ res.bits
    rcases hn.2 with e | e <;> simp only [e]
    · exact inv.sized x hx
    · exact inv.sized y hy
  simp only [Sets.call]
  rw [← ex, ← ey]
  cases o
  · obtain ⟨h', r, e, hn, res⟩ := bitOr_spec (p1 := (s.set x).pad) (p2 := (s.set y).pad) inv.good (inv.vecs x hx) (inv.vecs y hy)
    refine ⟨_, ?_, fin hn res⟩
    simp only [call, Verif.Bits.combine, e, bind_ok]
  · obtain ⟨h', r, e, hn, res⟩ := bitAnd_spec (p1 := (s.set x).pad) (p2 := (s.set y).pad) inv.good (inv.vecs x hx) (inv.vecs y hy)
    refine ⟨_, ?_, fin hn res⟩
    simp only [call, Verif.Bits.combine, e, bind_ok]
  · obtain ⟨h', r, e, hn, res⟩ := bitAndc2_spec (p1 := (s.set x).pad) (p2 := (s.set y).pad) inv.good (inv.vecs x hx) (inv.vecs y hy)
    refine ⟨_, ?_, fin hn res⟩
    simp only [call, Verif.Bits.combine, e, bind_ok]

theorem Sim.combineX {s : State} {S : Sets} (sim : Sim s S) {x y : Nat} (hx : x < s.next) (hy : y < s.next) (o : Binary) :
    ∃ s', call s (.combineX o x y) = .ok s' ∧ Sim s' (S.call (.combineX o x y)) := by
  have inv := sim.inv
  have ex := sim.elems x hx
  have ey := sim.elems y hy
  rw [members_def] at ex ey
  have fin : ∀ {h' : Heap} {r : Nat} {p : Bool} {m : Nat → Bool}, Same s.heap h' r (s.set x).vec (s.set y).vec →
      Result s.heap h' r p m → Sim (s.put h' x { pad := p, vec := r }) (S.put x m) := by
    intro h' r p m hn res
    refine sim.put (t := { pad := p, vec := r }) hx res.keeps ?_ ?_ res.bits
    · rcases hn with ⟨rfl, e⟩ | ⟨e, -⟩
      · exact Or.inl ⟨rfl, e⟩
      · exact Or.inr (Or.inr e)
    · rcases hn with ⟨-, e⟩ | ⟨-, e⟩ <;> simp only [e]
      · exact inv.sized x hx
      · exact inv.sized y hy
  simp only [Sets.call]
  rw [← ex, ← ey]
  cases o
  · obtain ⟨h', r, e, hn, res⟩ := bitOrX_spec (p1 := (s.set x).pad) (p2 := (s.set y).pad) inv.good (inv.vecs x hx) (inv.vecs y hy)
    refine ⟨_, ?_, fin hn res⟩
    simp only [call, Verif.Bits.combineX, e, bind_ok]
  · obtain ⟨h', r, e, hn, res⟩ := bitAndX_spec (p1 := (s.set x).pad) (p2 := (s.set y).pad) inv.good (inv.vecs x hx) (inv.vecs y hy)
    refine ⟨_, ?_, fin hn res⟩
    simp only [call, Verif.Bits.combineX, e, bind_ok]
  · obtain ⟨h', r, e, hn, res⟩ := bitAndc2X_spec (p1 := (s.set x).pad) (p2 := (s.set y).pad) inv.good (inv.vecs x hx) (inv.vecs y hy)
    refine ⟨_, ?_, fin hn res⟩
    simp only [call, Verif.Bits.combineX, e, bind_ok]

theorem Sim.complement {s : State} {S : Sets} (sim : Sim s S) {x : Nat} (hx : x < s.next) :
    ∃ s', call s (.complement x) = .ok s' ∧ Sim s' (S.call (.complement x)) := by
  have inv := sim.inv
  have ex := sim.elems x hx
  rw [members_def] at ex
  obtain ⟨h', r, e, hn, res⟩ := bitNot_spec (p1 := (s.set x).pad) inv.good (inv.vecs x hx)
  have hsz : (h'.vec r).size = (s.heap.vec (s.set x).vec).size := by
    rcases hn.2 with h | h <;> exact h
  simp only [Sets.call]
  rw [← ex]
  refine ⟨_, ?_, sim.new (t := { pad := !(s.set x).pad, vec := r }) res.keeps hn.1 (by rw [hsz]; exact inv.sized x hx) res.bits⟩
  simp only [call, Verif.Bits.complement, e, bind_ok]

theorem Sim.complementX {s : State} {S : Sets} (sim : Sim s S) {x : Nat} (hx : x < s.next) :
    ∃ s', call s (.complementX x) = .ok s' ∧ Sim s' (S.call (.complementX x)) := by
  have inv := sim.inv
  have ex := sim.elems x hx
  rw [members_def] at ex
  obtain ⟨h', e, hn, hsz, res⟩ := bitNotX_spec (p1 := (s.set x).pad) inv.good (inv.vecs x hx)
  simp only [Sets.call]
  rw [← ex]
  refine ⟨_, ?_, sim.put (t := { pad := !(s.set x).pad, vec := (s.set x).vec }) hx res.keeps (Or.inl ⟨rfl, hsz⟩)
    (by rw [hsz]; exact inv.sized x hx) res.bits⟩
  simp only [call, Verif.Bits.complementX, e, bind_ok]

theorem Sim.copyX {s : State} {S : Sets} (sim : Sim s S) {x y : Nat} (hx : x < s.next) (hy : y < s.next) :
    ∃ s', call s (.copyX x y) = .ok s' ∧ Sim s' (S.call (.copyX x y)) := by
  have inv := sim.inv
  have ey := sim.elems y hy
  rw [members_def] at ey
  obtain ⟨h', r, e, hn, k, -, hb⟩ := copySequence_spec inv.good (inv.vecs y hy)
  have hsz : (h'.vec r).size = (s.heap.vec (s.set y).vec).size := by
    rcases hn.2 with h | h <;> exact h
  simp only [Sets.call]
  rw [← ey]
  refine ⟨_, ?_, sim.put (t := { pad := (s.set y).pad, vec := r }) hx k (Or.inr hn.1)
    (by rw [hsz]; exact inv.sized y hy) (hb _)⟩
  simp only [call, Verif.Bits.copyX, e, bind_ok]

theorem Sim.setAllX {s : State} {S : Sets} (sim : Sim s S) {x : Nat} (hx : x < s.next) (bit : Bool) :
    ∃ s', call s (.setAllX x bit) = .ok s' ∧ Sim s' (S.call (.setAllX x bit)) := by
  have inv := sim.inv
  have hsz := inv.sized x hx
  obtain ⟨h', e, c⟩ := fill_spec (v := bit) (start := 0) (last := none) (inv.good.vecs _ (inv.vecs x hx)) (by omega) (by omega)
    (Nat.le_refl _) (by
      intro hw
      simp only [Option.getD_none] at hw ⊢
      omega)
  refine ⟨_, ?_, sim.put (t := { pad := bit, vec := (s.set x).vec }) hx (h' := h') ?_ (Or.inl ⟨rfl, c.sizes _⟩)
    (by rw [c.sizes]; exact hsz) (fun i => ?_)⟩
  · simp only [call, Verif.Bits.setAllX, e, bind_ok]
  · exact ⟨c.good inv.good, by rw [c.next]; exact Nat.le_refl _, by rw [c.next]; exact inv.vecs x hx, fun v _ hne => c.old v hne⟩
  · dsimp only
    by_cases hi : i < (s.heap.vec (s.set x).vec).size
    · rw [padded_lt (by rw [c.sizes]; exact hi), c.bits i hi, if_pos ⟨Nat.zero_le _, hi⟩]
    · rw [padded_ge (by rw [c.sizes]; omega)]

/-- All calls. -/
theorem Sim.calls : ∀ (ops : List Op) (s : State) (S : Sets), Sim s S → Proper s.next ops → Sized ops →
    ∃ s', Verif.Bits.calls s ops = .ok s' ∧ Sim s' (ops.foldl Sets.call S)
  | [], s, S, sim, _, _ => ⟨s, rfl, sim⟩
  | op :: r, s, S, sim, hp, hz => by
    have hzr : Sized r := fun hint allFrom n hm => hz hint allFrom n (List.mem_cons_of_mem _ hm)
    have step : ∃ s', call s op = .ok s' ∧ Sim s' (S.call op) ∧ Proper s'.next r := by
      have fin : ∀ {n : Nat}, (∃ s', call s op = .ok s' ∧ Sim s' (S.call op)) → (S.call op).next = n → Proper n r →
          ∃ s', call s op = .ok s' ∧ Sim s' (S.call op) ∧ Proper s'.next r := by
        rintro n ⟨s', e, hs⟩ hn hpr
        exact ⟨s', e, hs, by rw [hs.next, hn]; exact hpr⟩
      have hn := sim.next
      cases op with
      | make hint allFrom =>
        refine fin (n := s.next + 1) (sim.make fun n => hz hint allFrom n List.mem_cons_self) ?_ hp
        cases allFrom <;> simp [Sets.call, Sets.new, hn]
      | withBit x i bit => exact fin (n := s.next + 1) (sim.withBit hp.1 hp.2.1 bit) (by simp [Sets.call, Sets.new, hn]) hp.2.2
      | withBitX x i bit => exact fin (n := s.next) (sim.withBitX hp.1 hp.2.1 bit) (by simp [Sets.call, Sets.put, hn]) hp.2.2
      | combine o x y => exact fin (n := s.next + 1) (sim.combine hp.1 hp.2.1 o) (by simp [Sets.call, Sets.new, hn]) hp.2.2
      | combineX o x y => exact fin (n := s.next) (sim.combineX hp.1 hp.2.1 o) (by simp [Sets.call, Sets.put, hn]) hp.2.2
      | complement x => exact fin (n := s.next + 1) (sim.complement hp.1) (by simp [Sets.call, Sets.new, hn]) hp.2
      | complementX x => exact fin (n := s.next) (sim.complementX hp.1) (by simp [Sets.call, Sets.put, hn]) hp.2
      | copyX x y => exact fin (n := s.next) (sim.copyX hp.1 hp.2.1) (by simp [Sets.call, Sets.put, hn]) hp.2.2
      | setAllX x bit => exact fin (n := s.next) (sim.setAllX hp.1 bit) (by simp [Sets.call, Sets.put, hn]) hp.2
    obtain ⟨s1, e1, sim1, hp1⟩ := step
    obtain ⟨s2, e2, sim2⟩ := Sim.calls r s1 _ sim1 hp1 hzr
    exact ⟨s2, by rw [Verif.Bits.calls, e1, bind_ok, e2], sim2⟩

theorem sim_start : Sim start Sets.none := by
  refine ⟨⟨⟨by decide, rfl, fun r _ => by simp [BV.Good, start]⟩, fun x hx => ?_, fun x y hx => ?_, fun x hx => ?_⟩, rfl, fun x hx => ?_⟩ <;>
    exact absurd hx (Nat.not_lt_zero _)

/-! ### questions -/

theorem member_spec {s : State} (inv : Inv s) {x : Nat} (hx : x < s.next) (i : Nat) : member s x i = .ok (members s x i) := by
  unfold member members
  rw [if_neg (by omega)]
  by_cases hi : i < (s.heap.vec (s.set x).vec).size
  · rw [if_pos (by omega), padded_lt hi]
    exact getBit_spec (inv.good.vecs _ (inv.vecs x hx)) hi
  · rw [if_neg (by omega), padded_ge (by omega)]

theorem infinite_spec {s : State} {x : Nat} : isInfinite s x = true ↔ ∀ n, ∃ i, n ≤ i ∧ members s x i = true := by
  unfold isInfinite members
  constructor
  · intro h n
    refine ⟨n + (s.heap.vec (s.set x).vec).size, by omega, ?_⟩
    rw [padded_ge (by omega), h]
  · intro h
    obtain ⟨i, hi, hm⟩ := h (s.heap.vec (s.set x).vec).size
    rwa [padded_ge hi] at hm

theorem setSize_spec {s : State} (inv : Inv s) {x : Nat} (hx : x < s.next) : ∃ n, setSize s x = .ok n ∧ SizeOf (members s x) n := by
  unfold setSize
  by_cases hp : (s.set x).pad = true
  · rw [if_pos hp]
    exact ⟨none, rfl, infinite_spec.mp hp⟩
  · rw [if_neg hp, bitCount_spec (inv.good.vecs _ (inv.vecs x hx)), bind_ok]
    refine ⟨_, rfl, (List.range (s.heap.vec (s.set x).vec).size).filter fun i => bit (s.heap.vec (s.set x).vec) i == true, ?_, ?_, ?_⟩
    · exact List.Pairwise.filter _ List.nodup_range
    · rw [← List.countP_eq_length_filter]
    · intro i
      rw [List.mem_filter, List.mem_range]
      unfold members
      by_cases hi : i < (s.heap.vec (s.set x).vec).size
      · rw [padded_lt hi]; simp [hi]
      · rw [padded_ge (by omega)]; simp [hi, hp]

theorem isEmpty_spec {s : State} (inv : Inv s) {x : Nat} (hx : x < s.next) :
    ∃ b, isEmpty s x = .ok b ∧ (b = true ↔ ∀ i, members s x i = false) := by
  obtain ⟨n, e, hn⟩ := setSize_spec inv hx
  refine ⟨_, by unfold isEmpty; rw [e, bind_ok], ?_⟩
  rw [decide_eq_true_iff]
  cases n with
  | none =>
    obtain ⟨i, -, hi⟩ := hn 0
    simp only [reduceCtorEq, false_iff, not_forall]
    exact ⟨i, by simp [hi]⟩
  | some n =>
    obtain ⟨l, -, hl, hm⟩ := hn
    rw [Option.some.injEq]
    constructor
    · intro h0 i
      have : l = [] := List.eq_nil_of_length_eq_zero (by omega)
      subst this
      have := hm i
      simpa using this
    · intro h
      have : l = [] := by
        apply List.eq_nil_iff_forall_not_mem.mpr
        intro i hi
        have := (hm i).mp hi
        rw [h i] at this
        exact absurd this (by simp)
      subst this
      simpa using hl.symm

theorem loop_all {body : Nat → Bool → Out Bool} {f : Nat → Bool} (hfalse : ∀ i, body i false = .ok false) :
    ∀ (n i : Nat) (res : Bool), (∀ j, i ≤ j → j < i + n → body j true = .ok (f j)) →
    ∃ b, loop body n i res = .ok b ∧ (b = true ↔ res = true ∧ ∀ j, i ≤ j → j < i + n → f j = true)
  | 0, i, res, _ => ⟨res, rfl, ⟨fun h => ⟨h, fun j h1 h2 => by omega⟩, fun h => h.1⟩⟩
  | n + 1, i, res, hb => by
    cases res with
    | false =>
      obtain ⟨b, e, hbb⟩ := loop_all (f := f) hfalse n (i + 1) false (fun j h1 h2 => hb j (by omega) (by omega))
      refine ⟨b, by rw [loop, hfalse, bind_ok, e], ?_⟩
      rw [hbb]
      simp
    | true =>
      obtain ⟨b, e, hbb⟩ := loop_all (f := f) hfalse n (i + 1) (f i) (fun j h1 h2 => hb j (by omega) (by omega))
      refine ⟨b, by rw [loop, hb i (Nat.le_refl _) (by omega), bind_ok, e], ?_⟩
      rw [hbb]
      constructor
      · rintro ⟨h1, h2⟩
        refine ⟨rfl, fun j hj1 hj2 => ?_⟩
        by_cases hji : j = i
        · rw [hji]; exact h1
        · exact h2 j (by omega) (by omega)
      · rintro ⟨-, h⟩
        exact ⟨h i (Nat.le_refl _) (by omega), fun j h1 h2 => h j (by omega) (by omega)⟩

theorem equal_spec {s : State} (inv : Inv s) {x y : Nat} (hx : x < s.next) (hy : y < s.next) :
    ∃ b, equal s x y = .ok b ∧ (b = true ↔ ∀ i, members s x i = members s y i) := by
  unfold equal
  by_cases hxy : x = y
  · subst hxy
    rw [if_pos rfl]
    exact ⟨true, rfl, by simp⟩
  · rw [if_neg hxy]
    have g1 := inv.good.vecs _ (inv.vecs x hx)
    have g2 := inv.good.vecs _ (inv.vecs y hy)
    unfold members
    generalize hs1 : (s.heap.vec (s.set x).vec).size = n1
    generalize hs2 : (s.heap.vec (s.set y).vec).size = n2
    by_cases hp : (s.set x).pad = (s.set y).pad
    · rw [if_neg (by simp [hp])]
      simp only [hs1, hs2]
      obtain ⟨b1, e1, h1⟩ := loop_all (f := fun i => bit (s.heap.vec (s.set x).vec) i == bit (s.heap.vec (s.set y).vec) i)
        (body := fun i (result : Bool) => if result then
          (element s.heap (s.set x).vec i).bind fun a => (element s.heap (s.set y).vec i).bind fun b => .ok (a == b)
          else .ok false) (fun i => by simp) (min n1 n2) 0 true (fun j h1 h2 => by
            rw [if_pos rfl, element_spec g1 (by omega), bind_ok, element_spec g2 (by omega), bind_ok])
      obtain ⟨b2, e2, h2⟩ := loop_all (f := fun i => bit (s.heap.vec (s.set x).vec) i == (s.set x).pad)
        (body := fun i (result : Bool) => if result then
          (element s.heap (s.set x).vec i).bind fun a => .ok (a == (s.set x).pad)
          else .ok false) (fun i => by simp) (n1 - min n1 n2) (min n1 n2) b1 (fun j h1 h2 => by
            rw [if_pos rfl, element_spec g1 (by omega), bind_ok])
      obtain ⟨b3, e3, h3⟩ := loop_all (f := fun i => bit (s.heap.vec (s.set y).vec) i == (s.set y).pad)
        (body := fun i (result : Bool) => if result then
          (element s.heap (s.set y).vec i).bind fun b => .ok (b == (s.set y).pad)
          else .ok false) (fun i => by simp) (n2 - min n1 n2) (min n1 n2) b2 (fun j h1 h2 => by
            rw [if_pos rfl, element_spec g2 (by omega), bind_ok])
      refine ⟨b3, by rw [e1, bind_ok, e2, bind_ok, e3], ?_⟩
      rw [h3, h2, h1]
      simp only [beq_iff_eq]
      constructor
      · rintro ⟨⟨⟨-, k1⟩, k2⟩, k3⟩ i
        by_cases i1 : i < n1 <;> by_cases i2 : i < n2
        · rw [padded_lt (by omega), padded_lt (by omega)]; exact k1 i (by omega) (by omega)
        · rw [padded_lt (by omega), padded_ge (by omega), ← hp]; exact k2 i (by omega) (by omega)
        · rw [padded_ge (by omega), padded_lt (by omega), hp]; exact (k3 i (by omega) (by omega)).symm
        · rw [padded_ge (by omega), padded_ge (by omega), hp]
      · intro h
        refine ⟨⟨⟨trivial, fun j h1 h2 => ?_⟩, fun j h1 h2 => ?_⟩, fun j h1 h2 => ?_⟩
        · have := h j
          rwa [padded_lt (by omega), padded_lt (by omega)] at this
        · have := h j
          rwa [padded_lt (by omega), padded_ge (by omega), ← hp] at this
        · have := h j
          rw [padded_ge (by omega), padded_lt (by omega), hp] at this
          exact this.symm
    · rw [if_pos hp]
      refine ⟨false, rfl, ?_⟩
      simp only [Bool.false_eq_true, false_iff, not_forall]
      refine ⟨n1 + n2, ?_⟩
      rw [padded_ge (by omega), padded_ge (by omega)]
      exact hp

end Verif.Bits
