import Verif.Bits.Vectors

/-! # Helper lemmas for bit vectors: each function -/

namespace Verif.Bits

/-- The vector a logical operation returns: a new one (or the empty one), and how large it can be. -/
def New (h h' : Heap) (r a b : Nat) : Prop :=
  (r = 0 ∨ r = h.next) ∧ ((h'.vec r).size = (h.vec a).size ∨ (h'.vec r).size = (h.vec b).size)

/-- The vector an operation in place returns: the first one or a new one. -/
def Same (h h' : Heap) (r a b : Nat) : Prop :=
  r = a ∧ (h'.vec r).size = (h.vec a).size ∨ r = h.next ∧ (h'.vec r).size = (h.vec b).size

section
variable {h : Heap} {a b : Nat} {p1 p2 : Bool}

theorem bitAnd_spec (gh : h.Good) (ha : a < h.next) (hb : b < h.next) :
    ∃ h' r, bitAnd h a b p1 p2 = .ok (h', r, p1 && p2) ∧ New h h' r a b ∧
      Result h h' r (p1 && p2) fun i => padded (h.vec a) p1 i && padded (h.vec b) p2 i := by
  unfold bitAnd
  dsimp only
  generalize hn : (if p1 = false then if p2 = false then min (h.vec a).size (h.vec b).size else (h.vec a).size
    else if p2 = false then (h.vec b).size else max (h.vec a).size (h.vec b).size) = n
  have hn2 : n = (h.vec a).size ∨ n = (h.vec b).size := by
    rw [← hn]; cases p1 <;> cases p2 <;> simp <;> omega
  obtain ⟨h', r, e, hr, hs, res⟩ := fresh_sorted (p1 := p1) (p2 := p2) andOp_is (fun a b => Bool.and_comm a b) gh ha hb hn2 (by
    intro i hi
    rw [← hn] at hi
    cases p1 <;> cases p2 <;> simp only [Bool.true_eq_false, if_true, if_false] at hi ⊢
    · by_cases h1 : (h.vec a).size ≤ i
      · simp [padded_ge h1]
      · simp [padded_ge (v := h.vec b) (p := false) (i := i) (by omega)]
    · simp [padded_ge hi]
    · simp [padded_ge hi]
    · rw [padded_ge (by omega), padded_ge (by omega)]) rfl
  exact ⟨h', r, e, ⟨hr, by rw [hs]; exact hn2⟩, res⟩

theorem bitOr_spec (gh : h.Good) (ha : a < h.next) (hb : b < h.next) :
    ∃ h' r, bitOr h a b p1 p2 = .ok (h', r, p1 || p2) ∧ New h h' r a b ∧
      Result h h' r (p1 || p2) fun i => padded (h.vec a) p1 i || padded (h.vec b) p2 i := by
  unfold bitOr
  dsimp only
  generalize hn : (if p1 = false then if p2 = false then max (h.vec a).size (h.vec b).size else (h.vec b).size
    else if p2 = false then (h.vec a).size else min (h.vec a).size (h.vec b).size) = n
  have hn2 : n = (h.vec a).size ∨ n = (h.vec b).size := by
    rw [← hn]; cases p1 <;> cases p2 <;> simp <;> omega
  obtain ⟨h', r, e, hr, hs, res⟩ := fresh_sorted (p1 := p1) (p2 := p2) orOp_is (fun a b => Bool.or_comm a b) gh ha hb hn2 (by
    intro i hi
    rw [← hn] at hi
    cases p1 <;> cases p2 <;> simp only [Bool.true_eq_false, if_true, if_false] at hi ⊢
    · rw [padded_ge (by omega), padded_ge (by omega)]
    · simp [padded_ge hi]
    · simp [padded_ge hi]
    · by_cases h1 : (h.vec a).size ≤ i
      · simp [padded_ge h1]
      · simp [padded_ge (v := h.vec b) (p := true) (i := i) (by omega)]) rfl
  exact ⟨h', r, e, ⟨hr, by rw [hs]; exact hn2⟩, res⟩

theorem bitXor_spec (gh : h.Good) (ha : a < h.next) (hb : b < h.next) :
    ∃ h' r, bitXor h a b p1 p2 = .ok (h', r, xor p1 p2) ∧ New h h' r a b ∧
      Result h h' r (xor p1 p2) fun i => xor (padded (h.vec a) p1 i) (padded (h.vec b) p2 i) := by
  unfold bitXor
  dsimp only
  generalize hn : max (h.vec a).size (h.vec b).size = n
  have hn2 : n = (h.vec a).size ∨ n = (h.vec b).size := by omega
  obtain ⟨h', r, e, hr, hs, res⟩ := fresh_sorted (p1 := p1) (p2 := p2) xorOp_is (fun a b => Bool.xor_comm a b) gh ha hb hn2 (by
    intro i hi
    rw [padded_ge (by omega), padded_ge (by omega)]) rfl
  exact ⟨h', r, e, ⟨hr, by rw [hs]; exact hn2⟩, res⟩

theorem bitAndc2_spec (gh : h.Good) (ha : a < h.next) (hb : b < h.next) :
    ∃ h' r, bitAndc2 h a b p1 p2 = .ok (h', r, p1 && !p2) ∧ New h h' r a b ∧
      Result h h' r (p1 && !p2) fun i => padded (h.vec a) p1 i && !padded (h.vec b) p2 i := by
  unfold bitAndc2
  dsimp only
  generalize hn : (if p1 = false then if p2 = false then (h.vec a).size else min (h.vec a).size (h.vec b).size
    else if p2 = false then max (h.vec a).size (h.vec b).size else (h.vec b).size) = n
  have hn2 : n = (h.vec a).size ∨ n = (h.vec b).size := by
    rw [← hn]; cases p1 <;> cases p2 <;> simp <;> omega
  obtain ⟨h', h'', r, e, hs', e2, hr, hs, res⟩ := fresh_spec (p1 := p1) (p2 := p2) (g := fun a b => a && !b) andc2Op_is andc2SwappedOp_is
      gh ha hb hn2 (by
    intro i hi
    rw [← hn] at hi
    cases p1 <;> cases p2 <;> simp only [Bool.true_eq_false, if_true, if_false] at hi ⊢
    · simp [padded_ge hi]
    · by_cases h1 : (h.vec a).size ≤ i
      · simp [padded_ge h1]
      · simp [padded_ge (v := h.vec b) (p := true) (i := i) (by omega)]
    · rw [padded_ge (by omega), padded_ge (by omega)]
    · simp [padded_ge hi])
  refine ⟨h'', r, ?_, ⟨hr, by rw [hs]; exact hn2⟩, res⟩
  rw [e, bind_ok]
  unfold sorted2
  dsimp only
  rw [e2, bind_ok]

theorem bitAndX_spec (gh : h.Good) (ha : a < h.next) (hb : b < h.next) :
    ∃ h' r, bitAndX h a b p1 p2 = .ok (h', r, p1 && p2) ∧ Same h h' r a b ∧
      Result h h' r (p1 && p2) fun i => padded (h.vec a) p1 i && padded (h.vec b) p2 i := by
  obtain ⟨h', r, e, hr, res⟩ := inPlace_spec (g := fun a b => a && b) (p1 := p1) (p2 := p2) (q := p1 && p2)
    (c := (h.vec b).size ≤ (h.vec a).size ∨ p1 = false) (S := fun h r => sorted andOp h r a b p1 p2)
    andOp_is (by simpa only [Bool.and_comm] using andOp_is) gh ha hb
    (by
      rintro (hc | rfl) i hi
      · rw [padded_ge (by omega)]
      · simp)
    (by intro hc; omega) rfl (fun _ _ => rfl)
  exact ⟨h', r, e, hr.imp And.right And.right, res⟩

theorem bitOrX_spec (gh : h.Good) (ha : a < h.next) (hb : b < h.next) :
    ∃ h' r, bitOrX h a b p1 p2 = .ok (h', r, p1 || p2) ∧ Same h h' r a b ∧
      Result h h' r (p1 || p2) fun i => padded (h.vec a) p1 i || padded (h.vec b) p2 i := by
  obtain ⟨h', r, e, hr, res⟩ := inPlace_spec (g := fun a b => a || b) (p1 := p1) (p2 := p2) (q := p1 || p2)
    (c := (h.vec b).size ≤ (h.vec a).size ∨ p1 = true) (S := fun h r => sorted orOp h r a b p1 p2)
    orOp_is (by simpa only [Bool.or_comm] using orOp_is) gh ha hb
    (by
      rintro (hc | rfl) i hi
      · rw [padded_ge (by omega)]
      · simp)
    (by intro hc; omega) rfl (fun _ _ => rfl)
  exact ⟨h', r, e, hr.imp And.right And.right, res⟩

theorem bitXorX_spec (gh : h.Good) (ha : a < h.next) (hb : b < h.next) :
    ∃ h' r, bitXorX h a b p1 p2 = .ok (h', r, xor p1 p2) ∧ Same h h' r a b ∧
      Result h h' r (xor p1 p2) fun i => xor (padded (h.vec a) p1 i) (padded (h.vec b) p2 i) := by
  obtain ⟨h', r, e, hr, res⟩ := inPlace_spec (g := fun a b => xor a b) (p1 := p1) (p2 := p2) (q := xor p1 p2)
    (c := (h.vec b).size ≤ (h.vec a).size) (S := fun h r => sorted xorOp h r a b p1 p2)
    xorOp_is (by simpa only [Bool.xor_comm] using xorOp_is) gh ha hb
    (by
      intro hc i hi
      rw [padded_ge (by omega)])
    (by intro hc; omega) rfl (fun _ _ => rfl)
  exact ⟨h', r, e, hr.imp And.right And.right, res⟩

theorem bitAndc2X_spec (gh : h.Good) (ha : a < h.next) (hb : b < h.next) :
    ∃ h' r, bitAndc2X h a b p1 p2 = .ok (h', r, p1 && !p2) ∧ Same h h' r a b ∧
      Result h h' r (p1 && !p2) fun i => padded (h.vec a) p1 i && !padded (h.vec b) p2 i := by
  obtain ⟨h', r, e, hr, res⟩ := inPlace_spec (g := fun a b => a && !b) (p1 := p1) (p2 := p2) (q := p1 && !p2)
    (c := (h.vec b).size ≤ (h.vec a).size ∨ p1 = false) (S := fun h r => sorted2 h r a b p1 p2)
    andc2Op_is andc2SwappedOp_is gh ha hb
    (by
      rintro (hc | rfl) i hi
      · rw [padded_ge (by omega)]
      · simp)
    (by intro hc; omega) rfl (fun _ _ => rfl)
  exact ⟨h', r, e, hr.imp And.right And.right, res⟩

theorem bitNot_spec (gh : h.Good) (ha : a < h.next) :
    ∃ h' r, bitNot h a p1 = .ok (h', r, !p1) ∧ New h h' r a a ∧
      Result h h' r (!p1) fun i => !padded (h.vec a) p1 i := by
  obtain ⟨h', r, e, k, hr, hsz, -⟩ := make_spec gh (size := (h.vec a).size) (roundUp := false) (f := false) gh.pos
  have hs : (h'.vec r).size = (h.vec a).size := by
    rw [hsz]; split <;> simp_all
  have old : ∀ v, v < h.next → h'.vec v = h.vec v := by
    intro v hv
    rcases hr with ⟨rfl, rfl⟩ | rfl
    · rfl
    · exact k.old v hv (by omega)
  have g1 := k.good.vecs r k.lt
  have g2 := gh.vecs a ha
  have hw : (h'.vec r).wsize = (h.vec a).wsize := by unfold BV.Good at g1 g2; omega
  unfold bitNot
  rw [e, bind_ok]
  dsimp only
  rw [old a ha, loop_wr' (h := h') (r := r) (a := 0) (fun j => ~~~ (h.vec a).word j) (by omega)
    (fun j h1 h2 => by
      rw [getW_wr (by omega) (by rw [old a ha]; omega), bind_ok]
      exact setW_wr h1 (by omega) (by rw [old a ha])), bind_ok, Nat.zero_add]
  refine ⟨_, r, rfl, ⟨hr.imp And.left id, Or.inl (by rw [wr_size, hs])⟩,
    ⟨k.good.wr, k.le, k.lt, fun v hv hne => by rw [wr_other hne, k.old v hv hne]⟩, fun i => ?_⟩
  by_cases hi : i < (h.vec a).size
  · rw [padded_lt (by rw [wr_size]; omega), padded_lt hi, bit_wr (Nat.zero_le _) (g2.lt hi), BitVec.getLsbD_not]
    simp [bit, Nat.mod_lt]
  · rw [padded_ge (by rw [wr_size]; omega), padded_ge (by omega)]

theorem bitNotX_spec (gh : h.Good) (ha : a < h.next) :
    ∃ h', bitNotX h a p1 = .ok (h', a, !p1) ∧ h'.next = h.next ∧ (h'.vec a).size = (h.vec a).size ∧
      Result h h' a (!p1) fun i => !padded (h.vec a) p1 i := by
  have g2 := gh.vecs a ha
  unfold bitNotX
  rw [loop_wr' (h := h) (r := a) (a := 0) (fun j => ~~~ (h.vec a).word j) (by omega)
    (fun j h1 h2 => by
      rw [getW_wr (by omega) (by omega), bind_ok]
      exact setW_wr h1 (by omega) rfl), bind_ok, Nat.zero_add]
  refine ⟨_, rfl, rfl, by simp, ⟨gh.wr, Nat.le_refl _, ha, fun v hv hne => wr_other hne⟩, fun i => ?_⟩
  by_cases hi : i < (h.vec a).size
  · rw [padded_lt (by rw [wr_size]; omega), padded_lt hi, bit_wr (Nat.zero_le _) (g2.lt hi), BitVec.getLsbD_not]
    simp [bit, Nat.mod_lt]
  · rw [padded_ge (by rw [wr_size]; omega), padded_ge (by omega)]

/-! ### elements -/

theorem getBit_spec (g : (h.vec a).Good) {i : Nat} (hi : i < (h.vec a).size) : getBit h a i = .ok (bit (h.vec a) i) := by
  unfold getBit wordOffset bitOffset
  rw [getW_ok (g.lt hi), bind_ok]
  rfl

theorem element_spec (g : (h.vec a).Good) {i : Nat} (hi : i < (h.vec a).size) :
    element h a i = .ok (bit (h.vec a) i) := by
  unfold element
  rw [if_pos (by omega)]
  exact getBit_spec g hi

theorem setBit_spec (gh : h.Good) (ha : a < h.next) {i : Nat} (hi : i < (h.vec a).size) (v : Bool) :
    ∃ h', setBit h a i v = .ok h' ∧ h'.next = h.next ∧ h'.Good ∧ (∀ x, (h'.vec x).size = (h.vec x).size) ∧
      (∀ x, x ≠ a → h'.vec x = h.vec x) ∧ ∀ j, bit (h'.vec a) j = if j = i then v else bit (h.vec a) j := by
  have g := gh.vecs a ha
  have hw := g.lt hi
  unfold setBit wordOffset bitOffset
  rw [getW_ok hw, bind_ok]
  rw [setW_one hw (fun _ => if v = false then (h.vec a).word (i / 64) &&& ~~~ (1#64 <<< (i % 64))
    else (h.vec a).word (i / 64) ||| (1#64 <<< (i % 64))) rfl]
  refine ⟨_, rfl, rfl, gh.wr, fun x => by simp, fun x hx => wr_other hx, fun j => ?_⟩
  have h64 : j % 64 < 64 := Nat.mod_lt _ (by omega)
  have hi64 : i % 64 < 64 := Nat.mod_lt _ (by omega)
  by_cases hj : j / 64 = i / 64
  · rw [bit_wr (by omega) (by omega)]
    have hji : j = i ↔ j % 64 = i % 64 := by omega
    unfold bit
    cases v
    · rw [if_pos rfl, BitVec.getLsbD_and, BitVec.getLsbD_not, one_bit h64 hi64]
      by_cases e : j = i
      · simp [e]
      · have : ¬ j % 64 = i % 64 := by omega
        simp [e, this, hj, h64]
    · rw [if_neg (by simp), BitVec.getLsbD_or, one_bit h64 hi64]
      by_cases e : j = i
      · simp [e]
      · have : ¬ j % 64 = i % 64 := by omega
        simp [e, this, hj]
  · have : j ≠ i := by rintro rfl; exact hj rfl
    rw [if_neg this]
    unfold bit
    rw [wr_word (by omega)]

/-- The loop of `copy-sequence`. -/
theorem copy_loop {h0 : Heap} {r v n : Nat} (g0 : (h0.vec r).Good) (hn : n ≤ (h0.vec r).size) (hne : r ≠ v) :
    ∀ (k i : Nat) (h : Heap), i + k = n → h.Good → v < h.next → (h.vec v).size = n → h.vec r = h0.vec r →
    ∃ h', loop (fun i h => (getBit h r i).bind (setBit h v i)) k i h = .ok h' ∧ h'.next = h.next ∧ h'.Good ∧
      (∀ x, (h'.vec x).size = (h.vec x).size) ∧ (∀ x, x ≠ v → h'.vec x = h.vec x) ∧
      ∀ j, bit (h'.vec v) j = if i ≤ j ∧ j < i + k then bit (h0.vec r) j else bit (h.vec v) j
  | 0, i, h, hik, g, hv, hs, hr => ⟨h, rfl, rfl, g, fun _ => rfl, fun _ _ => rfl, fun j => by
      rw [if_neg (by omega)]⟩
  | k + 1, i, h, hik, g, hv, hs, hr => by
    obtain ⟨h1, e1, n1, g1, s1, o1, b1⟩ := setBit_spec g hv (i := i) (by omega) (bit (h0.vec r) i)
    obtain ⟨h2, e2, n2, g2, s2, o2, b2⟩ := copy_loop g0 hn hne k (i + 1) h1 (by omega) g1 (by omega) (by rw [s1, hs])
      (by rw [o1 r hne, hr])
    have hb : getBit h r i = .ok (bit (h0.vec r) i) := by
      rw [getBit_spec (by rw [hr]; exact g0) (by rw [hr]; omega), hr]
    refine ⟨h2, by rw [loop, hb, bind_ok, e1, bind_ok, e2], by omega, g2, fun x => by rw [s2, s1],
      fun x hx => by rw [o2 x hx, o1 x hx], fun j => ?_⟩
    rw [b2, b1]
    by_cases hj : j = i
    · subst hj
      rw [if_neg (by omega), if_pos rfl, if_pos (by omega)]
    · rw [if_neg hj]
      by_cases hj2 : i + 1 ≤ j ∧ j < i + 1 + k
      · rw [if_pos hj2, if_pos (by omega)]
      · rw [if_neg hj2, if_neg (by omega)]

theorem copySequence_spec (gh : h.Good) (ha : a < h.next) :
    ∃ h' r, copySequence h a = .ok (h', r) ∧ New h h' r a a ∧ Keeps h h' r ∧
      (r = 0 → h' = h) ∧ ∀ p i, padded (h'.vec r) p i = padded (h.vec a) p i := by
  unfold copySequence
  by_cases h0 : (h.vec a).size = 0
  · rw [if_pos h0]
    refine ⟨h, 0, rfl, ⟨Or.inl rfl, Or.inl (by rw [gh.empty, h0])⟩, ⟨gh, Nat.le_refl _, gh.pos, fun _ _ _ => rfl⟩,
      fun _ => rfl, fun p i => ?_⟩
    rw [padded_ge (by rw [gh.empty]; omega), padded_ge (by omega)]
  · rw [if_neg h0]
    have := element_spec (gh.vecs a ha) (i := 0) (by omega)
    rw [show element h a 0 = .ok (bit (h.vec a) 0) from this, bind_ok]
    obtain ⟨h1, r, e, k, hr, hsz, -⟩ := make_spec gh (size := (h.vec a).size) (roundUp := false) (f := bit (h.vec a) 0) gh.pos
    rw [if_neg h0] at hsz
    simp only [Bool.false_eq_true, if_false] at hsz
    have hrn : r = h.next := by
      rcases hr with ⟨rfl, rfl⟩ | hr
      · have := gh.empty; omega
      · exact hr
    have hra : a ≠ r := by omega
    have ha1 : h1.vec a = h.vec a := k.old a ha hra
    obtain ⟨h2, e2, n2, g2, s2, o2, b2⟩ := copy_loop (h0 := h) (r := a) (v := r) (gh.vecs a ha) (Nat.le_refl _) hra
      (h.vec a).size 0 h1 (by omega) k.good k.lt hsz ha1
    rw [e, bind_ok]
    dsimp only
    rw [ha1, e2, bind_ok]
    refine ⟨h2, r, rfl, ⟨Or.inr hrn, Or.inl (by rw [s2, hsz])⟩,
      ⟨g2, by rw [n2]; exact k.le, by rw [n2]; exact k.lt, fun v hv hne => by rw [o2 v hne, k.old v hv hne]⟩,
      fun hz => ?_, fun p i => ?_⟩
    · have := gh.pos; omega
    · by_cases hi : i < (h.vec a).size
      · rw [padded_lt (by rw [s2, hsz]; exact hi), padded_lt hi, b2, if_pos (by omega)]
      · rw [padded_ge (by rw [s2, hsz]; omega), padded_ge (by omega)]

end
end Verif.Bits
