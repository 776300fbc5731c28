import Verif.Bits.Iterate

/-!
# Properties of bit vectors and bit sets

* C71: `bit-vector-and`, `-andc2`, `-or`, `-xor`, `-not` and their `!` versions
* C72: bit sets are sets of natural numbers
* C73: iteration over bit sets
* C74: `fill!` and `bit-count`
-/

namespace Verif.Bits

/-- A heap with the empty vector, a vector of 70 bits and one of 3. -/
def demo : Heap where
  vec := fun
    | 1 => { size := 70, wsize := 2, word := fun j => if j = 0 then 5#64 else 2#64 }
    | 2 => { size := 3, wsize := 1, word := fun _ => 6#64 }
    | _ => { size := 0, wsize := 0, word := fun _ => 0#64 }
  next := 3

theorem demo_good : demo.Good := by
  refine ⟨by decide, rfl, fun r hr => ?_⟩
  have : r < 3 := hr
  rcases r with _ | _ | _ | r
  · rfl
  · rfl
  · rfl
  · omega

/-! ## C71 -/

/-- A function that returns a new vector: at every index its bit is `g` of the bits of the vectors, where
    a vector is continued beyond its end by its pad; the vectors made before are as they were. -/
def Pointwise (f : Heap → Nat → Nat → Bool → Bool → Out (Heap × Nat × Bool)) (g : Bool → Bool → Bool) : Prop :=
  ∀ (h : Heap) (a b : Nat) (p1 p2 : Bool), h.Good → a < h.next → b < h.next →
    ∃ h' r, f h a b p1 p2 = .ok (h', r, g p1 p2) ∧ h'.Good ∧ r < h'.next ∧ (r = 0 ∨ r = h.next) ∧
      (∀ v, v < h.next → v ≠ 0 → h'.vec v = h.vec v) ∧
      ∀ i, padded (h'.vec r) (g p1 p2) i = g (padded (h.vec a) p1 i) (padded (h.vec b) p2 i)

/-- A function that may use the first vector for its result. -/
def PointwiseX (f : Heap → Nat → Nat → Bool → Bool → Out (Heap × Nat × Bool)) (g : Bool → Bool → Bool) : Prop :=
  ∀ (h : Heap) (a b : Nat) (p1 p2 : Bool), h.Good → a < h.next → b < h.next →
    ∃ h' r, f h a b p1 p2 = .ok (h', r, g p1 p2) ∧ h'.Good ∧ r < h'.next ∧ (r = a ∨ r = h.next) ∧
      (∀ v, v < h.next → v ≠ r → h'.vec v = h.vec v) ∧
      ∀ i, padded (h'.vec r) (g p1 p2) i = g (padded (h.vec a) p1 i) (padded (h.vec b) p2 i)

theorem pointwise_of {f : Heap → Nat → Nat → Bool → Bool → Out (Heap × Nat × Bool)} {g : Bool → Bool → Bool}
    (hf : ∀ (h : Heap) (a b : Nat) (p1 p2 : Bool), h.Good → a < h.next → b < h.next →
      ∃ h' r, f h a b p1 p2 = .ok (h', r, g p1 p2) ∧ New h h' r a b ∧
        Result h h' r (g p1 p2) fun i => g (padded (h.vec a) p1 i) (padded (h.vec b) p2 i)) : Pointwise f g := by
  intro h a b p1 p2 gh ha hb
  obtain ⟨h', r, e, hn, res⟩ := hf h a b p1 p2 gh ha hb
  refine ⟨h', r, e, res.keeps.good, res.keeps.lt, hn.1, fun v hv hne => res.keeps.old v hv ?_, res.bits⟩
  rcases hn.1 with h0 | h0 <;> omega

theorem pointwiseX_of {f : Heap → Nat → Nat → Bool → Bool → Out (Heap × Nat × Bool)} {g : Bool → Bool → Bool}
    (hf : ∀ (h : Heap) (a b : Nat) (p1 p2 : Bool), h.Good → a < h.next → b < h.next →
      ∃ h' r, f h a b p1 p2 = .ok (h', r, g p1 p2) ∧ Same h h' r a b ∧
        Result h h' r (g p1 p2) fun i => g (padded (h.vec a) p1 i) (padded (h.vec b) p2 i)) : PointwiseX f g := by
  intro h a b p1 p2 gh ha hb
  obtain ⟨h', r, e, hn, res⟩ := hf h a b p1 p2 gh ha hb
  exact ⟨h', r, e, res.keeps.good, res.keeps.lt, hn.imp And.left And.left, res.keeps.old, res.bits⟩

/-- **C71.** The logical operations on bit vectors work bit by bit, for vectors of any sizes and all pads,
    and leave their arguments alone. -/
theorem logic_is_pointwise : Pointwise bitAnd (fun a b => a && b) ∧ Pointwise bitAndc2 (fun a b => a && !b) ∧
    Pointwise bitOr (fun a b => a || b) ∧ Pointwise bitXor (fun a b => xor a b) :=
  ⟨pointwise_of fun _ _ _ _ _ gh ha hb => bitAnd_spec gh ha hb, pointwise_of fun _ _ _ _ _ gh ha hb => bitAndc2_spec gh ha hb,
    pointwise_of fun _ _ _ _ _ gh ha hb => bitOr_spec gh ha hb, pointwise_of fun _ _ _ _ _ gh ha hb => bitXor_spec gh ha hb⟩

/-- **C71.** So do the destructive ones, which change no vector but the first; the two vectors may be the
    same. -/
theorem logic_in_place_is_pointwise : PointwiseX bitAndX (fun a b => a && b) ∧ PointwiseX bitAndc2X (fun a b => a && !b) ∧
    PointwiseX bitOrX (fun a b => a || b) ∧ PointwiseX bitXorX (fun a b => xor a b) :=
  ⟨pointwiseX_of fun _ _ _ _ _ gh ha hb => bitAndX_spec gh ha hb, pointwiseX_of fun _ _ _ _ _ gh ha hb => bitAndc2X_spec gh ha hb,
    pointwiseX_of fun _ _ _ _ _ gh ha hb => bitOrX_spec gh ha hb, pointwiseX_of fun _ _ _ _ _ gh ha hb => bitXorX_spec gh ha hb⟩

/-- **C71.** `bit-vector-not` and `bit-vector-not!`. -/
theorem not_is_pointwise {h : Heap} {a : Nat} (p : Bool) (gh : h.Good) (ha : a < h.next) :
    (∃ h' r, bitNot h a p = .ok (h', r, !p) ∧ h'.Good ∧ r < h'.next ∧ (r = 0 ∨ r = h.next) ∧
      (∀ v, v < h.next → v ≠ 0 → h'.vec v = h.vec v) ∧ ∀ i, padded (h'.vec r) (!p) i = !padded (h.vec a) p i) ∧
    ∃ h', bitNotX h a p = .ok (h', a, !p) ∧ h'.Good ∧ (∀ v, v < h.next → v ≠ a → h'.vec v = h.vec v) ∧
      ∀ i, padded (h'.vec a) (!p) i = !padded (h.vec a) p i := by
  constructor
  · obtain ⟨h', r, e, hn, res⟩ := bitNot_spec (p1 := p) gh ha
    refine ⟨h', r, e, res.keeps.good, res.keeps.lt, hn.1, fun v hv hne => res.keeps.old v hv ?_, res.bits⟩
    rcases hn.1 with h0 | h0 <;> omega
  · obtain ⟨h', e, -, -, res⟩ := bitNotX_spec (p1 := p) gh ha
    exact ⟨h', e, res.keeps.good, res.keeps.old, res.bits⟩

-- `bit-vector-or` of bits 0, 2, 65 and of bits 1, 2 with the pad 1
example : ∃ h' r, bitOr demo 1 2 false true = .ok (h', r, true) ∧ (∀ i, padded (h'.vec r) true i =
    (padded (demo.vec 1) false i || padded (demo.vec 2) true i)) ∧ padded (h'.vec r) true 65 = true ∧ (h'.vec r).size = 3 := by
  obtain ⟨h', r, e, -, -, -, -, hb⟩ := logic_is_pointwise.2.2.1 demo 1 2 false true demo_good (by decide) (by decide)
  have hb : ∀ i, padded (h'.vec r) true i = (padded (demo.vec 1) false i || padded (demo.vec 2) true i) := hb
  refine ⟨h', r, e, hb, by rw [hb]; decide, ?_⟩
  have : (match bitOr demo 1 2 false true with | .ok (h', r, _) => (h'.vec r).size | _ => 0) = 3 := by decide +kernel
  rw [e] at this
  exact this

/-! ## C72 -/

/-- **C72 (partial).** Whatever sets are made and changed by whatever calls, each of them is the set of
    natural numbers it is supposed to be, infinite ones included, and the questions are answered
    accordingly.  Missing: sets made for 62 or 63 numbers; see `bit_sets_violated`. -/
theorem bit_sets_partial (ops : List Op) (hp : Proper 0 ops) (hz : Sized ops) :
    ∃ s, calls start ops = .ok s ∧ s.heap.Good ∧ s.next = (ops.foldl Sets.call Sets.none).next ∧
      ∀ x, x < s.next → (s.set x).vec < s.heap.next ∧
        (∀ i : Nat, member s x i = .ok ((ops.foldl Sets.call Sets.none).elems x i)) ∧
        (isInfinite s x = true ↔ ∀ n, ∃ i, n ≤ i ∧ (ops.foldl Sets.call Sets.none).elems x i = true) ∧
        (∃ n, setSize s x = .ok n ∧ SizeOf ((ops.foldl Sets.call Sets.none).elems x) n) ∧
        (∃ b, isEmpty s x = .ok b ∧ (b = true ↔ ∀ i, (ops.foldl Sets.call Sets.none).elems x i = false)) ∧
        ∀ y, y < s.next → ∃ b, equal s x y = .ok b ∧
          (b = true ↔ ∀ i, (ops.foldl Sets.call Sets.none).elems x i = (ops.foldl Sets.call Sets.none).elems y i) := by
  obtain ⟨s, e, sim⟩ := Sim.calls ops start Sets.none sim_start hp hz
  refine ⟨s, e, sim.inv.good, sim.next, fun x hx => ?_⟩
  have ex := sim.elems x hx
  rw [← ex]
  refine ⟨sim.inv.vecs x hx, member_spec sim.inv hx, infinite_spec, setSize_spec sim.inv hx, isEmpty_spec sim.inv hx, fun y hy => ?_⟩
  rw [← sim.elems y hy]
  exact equal_spec sim.inv hx hy

/-- **C72.** There are no negative members, and they cannot be added or removed. -/
theorem negative_members (s : State) (x : Nat) (i : Int) (bit : Bool) (hi : i < 0) :
    member s x i = .range ∧ withBit s x i bit = .range ∧ withBitX s x i bit = .range := by
  unfold member withBit withBitX
  simp only [hi, if_true, and_self]

/-- A history with finite and infinite sets and shared arguments. -/
def demoOps : List Op :=
  [.make none none, .withBitX 0 3 true, .withBit 0 100 true, .make none (some 5), .withBitX 2 70 false,
    .combine .intersection 1 2, .complement 3, .combineX .difference 4 4, .copyX 0 1, .setAllX 1 true]

theorem demoOps_proper : Proper 0 demoOps ∧ Sized demoOps := by
  refine ⟨by simp [demoOps, Proper], fun hint allFrom n hm h => ?_⟩
  have : hint = none ∧ (allFrom = none ∨ allFrom = some 5) := by
    simp only [demoOps, List.mem_cons, Op.make.injEq, reduceCtorEq, List.not_mem_nil, or_false, false_or] at hm
    rcases hm with ⟨rfl, rfl⟩ | ⟨rfl, rfl⟩ <;> simp
  obtain ⟨rfl, rfl | rfl⟩ := this
  · simp at h
  · simp only [reduceCtorEq, Option.some.injEq, false_or] at h
    omega

-- set 3 is the intersection of {3, 100} and {5, 6, ...} without 70
example : (∀ i, (demoOps.foldl Sets.call Sets.none).elems 3 i = decide (i = 100)) ∧
    ∃ s, calls start demoOps = .ok s ∧ ∀ i : Nat, member s 3 i = .ok (decide (i = 100)) := by
  have key : ∀ i, (demoOps.foldl Sets.call Sets.none).elems 3 i = decide (i = 100) := by
    intro i
    simp only [demoOps, List.foldl, Sets.call, Sets.none, Sets.new, Sets.put, Binary.on, Function.update]
    by_cases h1 : i = 100
    · subst h1; simp
    · by_cases h2 : i = 3 <;> simp [h1, h2]
  obtain ⟨s, e, -, hn, h⟩ := bit_sets_partial demoOps demoOps_proper.1 demoOps_proper.2
  refine ⟨key, s, e, fun i => ?_⟩
  rw [(h 3 (by rw [hn]; decide)).2.1 i, key]

/-- **C72.** `empty-bit-set!` signals an overflow on a set made for 62 numbers. -/
theorem bit_sets_violated : calls start [.make (some 62) none, .setAllX 0 false] = .overflow ∧
    calls start [.make none (some 63), .setAllX 0 true] = .overflow := by
  constructor <;> rfl

/-! ## C73 -/

/-- **C73.** A forward iteration over a finite set ends and visits exactly the members, each once and in
    ascending order. -/
theorem forward_iteration {s : State} {x : Nat} (gh : s.heap.Good) (hx : (s.set x).vec < s.heap.next)
    (hfin : isInfinite s x = false) :
    ∃ t, fipInitial s x = .ok t ∧ ∃ n l, forward s x n t = some l ∧ l.Pairwise (· < ·) ∧
      ∀ i : Int, i ∈ l ↔ 0 ≤ i ∧ members s x i.toNat = true := by
  have g := gh.vecs _ hx
  obtain ⟨t, e, hr⟩ := ready_initial (s := s) (x := x) rfl g
  obtain ⟨n, l, f1, f2, f3⟩ := forward_spec (s := s) (x := x) rfl g hfin _ 0 t (Nat.le_of_eq (Nat.zero_add _).symm) hr
  refine ⟨t, e, n, l, f1, f2, fun i => ?_⟩
  rw [f3]
  unfold members
  unfold isInfinite at hfin
  constructor
  · rintro ⟨h1, h2, h3⟩
    exact ⟨by omega, by rw [padded_lt (by omega)]; exact h3⟩
  · rintro ⟨h1, h2⟩
    by_cases hi : i.toNat < (s.heap.vec (s.set x).vec).size
    · rw [padded_lt hi] at h2
      exact ⟨by omega, by omega, h2⟩
    · rw [padded_ge (by omega), hfin] at h2
      exact absurd h2 (by simp)

/-- **C73 (partial).** A forward iteration over an infinite set never ends and visits all members in
    ascending order.  Missing: sets with a size that is not a multiple of 64 and with a bit 0 beyond the
    size in the last word; see `forward_infinite_violated`. -/
theorem forward_infinite_partial {s : State} {x : Nat} (gh : s.heap.Good) (hx : (s.set x).vec < s.heap.next)
    (hinf : isInfinite s x = true)
    (ht : (s.heap.vec (s.set x).vec).size % 64 = 0 ∨ (s.heap.vec (s.set x).vec).Tail true) :
    (∀ k, ∃ t t', forwardState s x k = .ok t ∧ forwardState s x (k + 1) = .ok t' ∧ fipFinished s x t = false ∧ t.element < t'.element) ∧
    ∀ i : Int, (0 ≤ i ∧ members s x i.toNat = true) ↔ ∃ k t, forwardState s x k = .ok t ∧ t.element = i := by
  have g := gh.vecs _ hx
  unfold isInfinite at hinf
  have spec := forwardState_spec (s := s) (x := x) rfl g ht
  constructor
  · intro k
    obtain ⟨t, lo, e, hp, -, -⟩ := spec k
    obtain ⟨n, hn⟩ : ∃ n : Nat, t.element = n := by obtain ⟨e', h1, -⟩ := hp; exact ⟨e', h1⟩
    obtain ⟨t', e', hp'⟩ := pos_next (s := s) (x := x) rfl g ht hn hp
    refine ⟨t, t', e, by rw [forwardState, e, bind_ok, e'], ?_, ?_⟩
    · unfold fipFinished
      rw [hinf]
      rfl
    · obtain ⟨e2, h1, h2, -⟩ := hp'
      omega
  · intro i
    unfold members
    rw [hinf]
    constructor
    · rintro ⟨h1, h2⟩
      obtain ⟨t, lo, e, hp, hk, hall⟩ := spec (i.toNat + 1)
      obtain ⟨k', t', -, q2, q3⟩ := hall i.toNat h2 (by omega)
      exact ⟨k', t', q2, by omega⟩
    · rintro ⟨k, t, e, rfl⟩
      obtain ⟨t2, lo, e2, hp, -, -⟩ := spec k
      rw [e2] at e
      injection e with e
      subst e
      obtain ⟨n, h1, -, -, h4, -⟩ := hp
      rw [h1]
      exact ⟨by omega, by simpa using h4⟩

/-- **C73 (partial).** A backward iteration over a finite set ends and visits exactly the members, in
    descending order.  Missing: sets with a bit 1 beyond the size in the last word; see
    `backward_violated`. -/
theorem backward_iteration_partial {s : State} {x : Nat} (gh : s.heap.Good) (hx : (s.set x).vec < s.heap.next)
    (hfin : isInfinite s x = false) (ht : (s.heap.vec (s.set x).vec).Tail false) :
    ∃ t, bipInitial s x = .ok t ∧ ∃ n l, backward s x n t = some l ∧ l.Pairwise (· > ·) ∧
      ∀ i : Int, i ∈ l ↔ 0 ≤ i ∧ members s x i.toNat = true := by
  have g : (s.heap.vec (s.set x).vec).wsize = _ := gh.vecs _ hx
  unfold isInfinite at hfin
  obtain ⟨t, e, hr⟩ := readyB_initial (s := s) (x := x) rfl hfin
  obtain ⟨n, l, f1, f2, f3⟩ := backward_spec (s := s) (x := x) rfl _ t (Nat.le_refl _) hr
  refine ⟨t, e, n, l, f1, f2, fun i => ?_⟩
  rw [f3]
  unfold members
  constructor
  · rintro ⟨h1, h2, h3⟩
    refine ⟨h1, ?_⟩
    by_cases hi : i.toNat < (s.heap.vec (s.set x).vec).size
    · rw [padded_lt hi]; exact h3
    · have := ht i.toNat (by omega) (by omega)
      unfold bit at h3
      rw [h3] at this
      exact absurd this (by simp)
  · rintro ⟨h1, h2⟩
    by_cases hi : i.toNat < (s.heap.vec (s.set x).vec).size
    · rw [padded_lt hi] at h2
      exact ⟨h1, by omega, h2⟩
    · rw [padded_ge (by omega), hfin] at h2
      exact absurd h2 (by simp)

/-- **C73.** A backward iteration over an infinite set is an error. -/
theorem backward_infinite {s : State} {x : Nat} (hinf : isInfinite s x = true) : bipInitial s x = .infinite := by
  unfold bipInitial
  unfold isInfinite at hinf
  rw [if_pos hinf]

/-- The elements of the backward iteration over set `x` after some calls. -/
def runBackward (ops : List Op) (x n : Nat) : Option (List Int) :=
  match calls start ops with
  | .ok s => match bipInitial s x with
    | .ok t => backward s x n t
    | _ => none
  | _ => none

/-- The elements of the forward iteration over set `x` after some calls. -/
def runForward (ops : List Op) (x n : Nat) : Option (List Int) :=
  match calls start ops with
  | .ok s => match fipInitial s x with
    | .ok t => forward s x n t
    | _ => none
  | _ => none

-- both iterations over {3, 70, 100}
example : runForward [.make none none, .withBitX 0 3 true, .withBitX 0 100 true, .withBitX 0 70 true] 0 5 = some [3, 70, 100] ∧
    runBackward [.make none none, .withBitX 0 3 true, .withBitX 0 100 true, .withBitX 0 70 true] 0 5 = some [100, 70, 3] := by
  decide +kernel

/-- A finite and an infinite set with bits in two words and none beyond their sizes. -/
def demoState : State where
  heap := demo
  set := fun
    | 0 => { pad := false, vec := 1 }
    | _ => { pad := true, vec := 3 }
  next := 2

example : demoState.heap.Good ∧ isInfinite demoState 0 = false ∧ (demoState.heap.vec (demoState.set 0).vec).Tail false := by
  refine ⟨demo_good, rfl, fun i h1 h2 => ?_⟩
  have h1' : 70 ≤ i := h1
  have h2' : i < 2 * 64 := h2
  obtain ⟨k, rfl⟩ : ∃ k, i = 64 + k := ⟨i - 64, by omega⟩
  have e1 : (64 + k) / 64 = 1 := by omega
  have e2 : (64 + k) % 64 = k := by omega
  rw [e1, e2]
  show (2#64).getLsbD k = false
  have h3 : k < 64 := by omega
  have h4 : 6 ≤ k := by omega
  have all : ∀ k, k < 64 → 6 ≤ k → (2#64).getLsbD k = false := by decide
  exact all k h3 h4

-- an infinite set with a size that is a multiple of 64: the numbers from 5 on without 70
example : ∃ s, calls start [.make none (some 5), .withBitX 0 70 false] = .ok s ∧ isInfinite s 0 = true ∧
    (s.set 0).vec < s.heap.next ∧ (s.heap.vec (s.set 0).vec).size % 64 = 0 ∧
    (forwardState s 0 0).bind (fun t => .ok t.element) = .ok 5 ∧ (forwardState s 0 65).bind (fun t => .ok t.element) = .ok 71 := by
  refine ⟨_, rfl, rfl, by decide, rfl, rfl, ?_⟩
  decide +kernel

/-- **C73.** The complement of the numbers from 5 on is {0, ..., 4}, but the backward iteration visits
    the 59 numbers from 63 to 5 as well. -/
theorem backward_violated :
    (∃ s, calls start [.make none (some 5), .complement 0] = .ok s ∧ isInfinite s 1 = false ∧ member s 1 63 = .ok false) ∧
    runBackward [.make none (some 5), .complement 0] 1 65 = some ((List.range 64).reverse.map Int.ofNat) := by
  constructor
  · exact ⟨_, rfl, rfl, rfl⟩
  · decide +kernel

/-- **C73.** A forward iteration over the numbers from 5 on starts with 64. -/
theorem forward_infinite_violated : ∃ s t, calls start [.make none (some 5)] = .ok s ∧ fipInitial s 0 = .ok t ∧
    t.element = 64 ∧ member s 0 5 = .ok true := by
  exact ⟨_, _, rfl, rfl, rfl, rfl⟩

/-! ## C74 -/

/-- **C74 (partial).** `fill!` stores the value in exactly the bits from `start` below `end`.  Missing: an
    `end` at the last two bits of the word `start` is in, and bounds outside the vector; see the
    theorems below. -/
theorem fill_partial {h : Heap} {r : Nat} (gh : h.Good) (hr : r < h.next) (value : Bool) (start : Nat) (last : Option Nat)
    (hs : start < (h.vec r).size ∨ (h.vec r).size = 0) (hle : start ≤ last.getD (h.vec r).size)
    (hl : last.getD (h.vec r).size ≤ (h.vec r).size)
    (hash : start / 64 = last.getD (h.vec r).size / 64 → last.getD (h.vec r).size % 64 ≤ 61) :
    ∃ h', fill h r value start last = .ok h' ∧ h'.Good ∧ h'.next = h.next ∧ (∀ v, v ≠ r → h'.vec v = h.vec v) ∧
      (h'.vec r).size = (h.vec r).size ∧ ∀ i p, padded (h'.vec r) p i =
        if start ≤ i ∧ i < last.getD (h.vec r).size then value else padded (h.vec r) p i := by
  obtain ⟨h', e, c⟩ := fill_spec (v := value) (gh.vecs r hr) hs hle hl hash
  refine ⟨h', e, c.good gh, c.next, c.old, c.sizes r, fun i p => ?_⟩
  by_cases hi : i < (h.vec r).size
  · rw [padded_lt (by rw [c.sizes]; exact hi), c.bits i hi, padded_lt hi]
  · rw [padded_ge (by rw [c.sizes]; omega), padded_ge (by omega), if_neg (by omega)]

/-- **C74.** `bit-count` counts the bits with the value. -/
theorem bit_count_counts {h : Heap} {r : Nat} (gh : h.Good) (hr : r < h.next) (value p : Bool) :
    bitCount h r value = .ok ((List.range (h.vec r).size).countP fun i => padded (h.vec r) p i == value) := by
  rw [bitCount_spec (gh.vecs r hr)]
  congr 1
  apply countP_congr_range
  intro i hi
  rw [padded_lt hi]

/-- **C74.** `element` reads, and `element-setter` writes, exactly one bit; outside the vector both signal
    an error. -/
theorem element_and_setter {h : Heap} {r : Nat} (gh : h.Good) (hr : r < h.next) (i : Int) (value : Bool) :
    (0 ≤ i ∧ i < (h.vec r).size → element h r i = .ok (padded (h.vec r) false i.toNat) ∧
      ∃ h', setElement h r i value = .ok h' ∧ h'.Good ∧ h'.next = h.next ∧ (∀ v, v ≠ r → h'.vec v = h.vec v) ∧
        ∀ j p, padded (h'.vec r) p j = if (j : Int) = i then value else padded (h.vec r) p j) ∧
    (¬ (0 ≤ i ∧ i < (h.vec r).size) → element h r i = .range ∧ setElement h r i value = .range) := by
  constructor
  · intro hi
    obtain ⟨n, rfl⟩ := Int.eq_ofNat_of_zero_le hi.1
    have hn : n < (h.vec r).size := by omega
    constructor
    · rw [element_spec (gh.vecs r hr) hn, Int.toNat_natCast, padded_lt hn]
    · obtain ⟨h', e, nx, g, sz, o, b⟩ := setBit_spec gh hr hn value
      refine ⟨h', ?_, g, nx, o, fun j p => ?_⟩
      · unfold setElement
        rw [if_pos hi]
        exact e
      · by_cases hj : j < (h.vec r).size
        · rw [padded_lt (by rw [sz]; exact hj), b, padded_lt hj]
          by_cases e : j = n
          · rw [if_pos e, if_pos (by omega)]
          · rw [if_neg e, if_neg (by omega)]
        · have : (j : Int) ≠ n := by omega
          rw [padded_ge (by rw [sz]; omega), if_neg this, padded_ge (by omega)]
  · intro hi
    unfold element setElement
    rw [if_neg hi, if_neg hi]
    exact ⟨rfl, rfl⟩

/-- A vector of 64 bits that are 0. -/
def demo64 : Heap where
  vec := fun
    | 1 => { size := 64, wsize := 1, word := fun _ => 0#64 }
    | _ => { size := 0, wsize := 0, word := fun _ => 0#64 }
  next := 2

-- bits 60 to 65 of a vector of 70
example : ∃ h', fill demo 1 true 60 (some 66) = .ok h' ∧ padded (h'.vec 1) false 59 = false ∧ padded (h'.vec 1) false 60 = true ∧
    padded (h'.vec 1) false 64 = true ∧ padded (h'.vec 1) false 66 = false := by
  obtain ⟨h', e, -, -, -, -, hb⟩ := fill_partial demo_good (r := 1) (by decide) true 60 (some 66) (by decide) (by decide) (by decide) (by decide)
  refine ⟨h', e, ?_, ?_, ?_, ?_⟩ <;> rw [hb] <;> decide

/-- **C74.** `fill!` to the bit before the last of a word is an overflow error. -/
theorem fill_overflow_violated : fill demo64 1 true 0 (some 63) = .overflow ∧ fill demo64 1 true 0 (some 62) = .overflow := by
  constructor <;> rfl

/-- **C74.** `fill!` does not check its bounds: it accesses words outside the vector, and with an `end`
    before `start` it fills the bits between them. -/
theorem fill_bounds_violated : fill demo64 1 true 64 none = .outside ∧ fill demo64 1 true 0 (some 200) = .outside ∧
    ∃ h', fill demo64 1 true 9 (some 5) = .ok h' ∧ padded (h'.vec 1) false 7 = true := by
  refine ⟨rfl, rfl, _, rfl, by decide⟩

end Verif.Bits
