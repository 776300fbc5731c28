import Verif.Bits.Vectors2

/-! # Helper lemmas for bit vectors: `fill!` and `bit-count` -/

namespace Verif.Bits

section
variable {h : Heap} {r : Nat}

theorem bit_wr_ite {F : Nat → W} {a b i : Nat} :
    bit ((wr h r F a b).vec r) i = if a ≤ i / 64 ∧ i / 64 < b then (F (i / 64)).getLsbD (i % 64) else bit (h.vec r) i := by
  unfold bit
  rw [wr_self]
  simp only
  split <;> rfl

/-- What a change of some bits of vector `r` leaves alone. -/
structure Changed (h h' : Heap) (r : Nat) (m : Nat → Bool) : Prop where
  next : h'.next = h.next
  sizes : ∀ x, (h'.vec x).size = (h.vec x).size
  wsizes : ∀ x, (h'.vec x).wsize = (h.vec x).wsize
  old : ∀ x, x ≠ r → h'.vec x = h.vec x
  bits : ∀ i, i < (h.vec r).size → bit (h'.vec r) i = m i

theorem Changed.good {h' : Heap} {m : Nat → Bool} (c : Changed h h' r m) (g : h.Good) : h'.Good := by
  refine ⟨by rw [c.next]; exact g.pos, by rw [c.sizes, g.empty], fun v hv => ?_⟩
  have := g.vecs v (by rw [← c.next]; exact hv)
  unfold BV.Good at this ⊢
  rw [c.sizes, c.wsizes, this]

theorem changed_wr {F : Nat → W} {a b : Nat} {m : Nat → Bool}
    (hb : ∀ i, i < (h.vec r).size → (if a ≤ i / 64 ∧ i / 64 < b then (F (i / 64)).getLsbD (i % 64) else bit (h.vec r) i) = m i) :
    Changed h (wr h r F a b) r m :=
  ⟨rfl, fun _ => wr_size, fun _ => wr_wsize, fun _ hx => wr_other hx, fun i hi => by rw [bit_wr_ite]; exact hb i hi⟩

theorem Changed.trans {h' h'' : Heap} {m m' : Nat → Bool} (c : Changed h h' r m) (c' : Changed h' h'' r m') : Changed h h'' r m' :=
  ⟨by rw [c'.next, c.next], fun x => by rw [c'.sizes, c.sizes], fun x => by rw [c'.wsizes, c.wsizes],
    fun x hx => by rw [c'.old x hx, c.old x hx], fun i hi => c'.bits i (by rw [c.sizes]; exact hi)⟩

theorem changed_refl : Changed h h r (bit (h.vec r)) :=
  ⟨rfl, fun _ => rfl, fun _ => rfl, fun _ _ => rfl, fun _ _ => rfl⟩

theorem Changed.cast {h' : Heap} {m m' : Nat → Bool} (c : Changed h h' r m) (e : ∀ i, i < (h.vec r).size → m i = m' i) :
    Changed h h' r m' :=
  { c with bits := fun i hi => by rw [c.bits i hi, e i hi] }

theorem ashMask_bit {n : Nat} (hn : n ≤ 61) : ashMask n = .ok (above n) := if_pos hn

/-- Within one word. -/
theorem fillOne_spec {v : Bool} {start last : Nat} (hl : last / 64 = start / 64) (hle : start ≤ last)
    (hlast : last % 64 ≤ 61) (hw : start / 64 < (h.vec r).wsize) :
    ∃ h', fillOne h r v (wordOffset start) (bitOffset start) (bitOffset last) = .ok h' ∧
      Changed h h' r fun i => if start ≤ i ∧ i < last then v else bit (h.vec r) i := by
  unfold fillOne wordOffset bitOffset
  simp only [monad_bind]
  rw [ashMask_bit (by omega), bind_ok, ashMask_bit hlast, bind_ok, getW_ok hw, bind_ok]
  have key : ∀ i, i / 64 = start / 64 → (i % 64 < 64 ∧ (last % 64 ≤ i % 64 ↔ last ≤ i) ∧ (start % 64 ≤ i % 64 ↔ start ≤ i)) := by
    intro i hi; omega
  cases v
  · rw [if_pos rfl, setW_one hw (fun _ => (above (last % 64) ||| ~~~ above (start % 64)) &&& (h.vec r).word (start / 64)) rfl]
    refine ⟨_, rfl, changed_wr fun i hi => ?_⟩
    by_cases hj : i / 64 = start / 64
    · obtain ⟨h64, k1, k2⟩ := key i hj
      rw [if_pos (by omega), BitVec.getLsbD_and, BitVec.getLsbD_or, BitVec.getLsbD_not, above_bit h64, above_bit h64,
        show decide (last % 64 ≤ i % 64) = decide (last ≤ i) from decide_eq_decide.mpr k1,
        show decide (start % 64 ≤ i % 64) = decide (start ≤ i) from decide_eq_decide.mpr k2]
      unfold bit
      rw [hj]
      by_cases h1 : start ≤ i <;> by_cases h2 : last ≤ i
      · simp [h1, h2, Nat.not_lt.mpr h2]
      · simp [h1, h2, Nat.lt_of_not_le h2]
      · omega
      · simp [h1, h2, h64]
    · rw [if_neg (by omega), if_neg (by omega)]
  · rw [if_neg (by simp), setW_one hw (fun _ => (above (last % 64) ^^^ above (start % 64)) ||| (h.vec r).word (start / 64)) rfl]
    refine ⟨_, rfl, changed_wr fun i hi => ?_⟩
    by_cases hj : i / 64 = start / 64
    · obtain ⟨h64, k1, k2⟩ := key i hj
      rw [if_pos (by omega), BitVec.getLsbD_or, BitVec.getLsbD_xor, above_bit h64, above_bit h64,
        show decide (last % 64 ≤ i % 64) = decide (last ≤ i) from decide_eq_decide.mpr k1,
        show decide (start % 64 ≤ i % 64) = decide (start ≤ i) from decide_eq_decide.mpr k2]
      unfold bit
      rw [hj]
      by_cases h1 : start ≤ i <;> by_cases h2 : last ≤ i
      · simp [h1, h2, Nat.not_lt.mpr h2]
      · simp [h1, h2, Nat.lt_of_not_le h2]
      · omega
      · simp [h1, h2]
    · rw [if_neg (by omega), if_neg (by omega)]

/-- A partial word at the end. -/
theorem lastPart_spec {v : Bool} {last : Nat} (hw : last / 64 < (h.vec r).wsize) :
    ∃ h', ((getW h r (last / 64)).bind fun w =>
        setW h r (last / 64) (if v = false then w &&& above (last % 64) else w ||| below (last % 64))) = .ok h' ∧
      Changed h h' r fun i => if last / 64 * 64 ≤ i ∧ i < last then v else bit (h.vec r) i := by
  rw [getW_ok hw, bind_ok, setW_one hw (fun _ => if v = false then (h.vec r).word (last / 64) &&& above (last % 64)
    else (h.vec r).word (last / 64) ||| below (last % 64)) rfl]
  refine ⟨_, rfl, changed_wr fun i hi => ?_⟩
  by_cases hj : i / 64 = last / 64
  · have h64 : i % 64 < 64 := Nat.mod_lt _ (by omega)
    rw [if_pos (by omega)]
    unfold bit
    rw [hj]
    by_cases h1 : i < last
    · have h2 : i % 64 < last % 64 := by omega
      have h3 : last / 64 * 64 ≤ i := by omega
      have h4 : ¬ last % 64 ≤ i % 64 := by omega
      cases v
      · rw [if_pos rfl, BitVec.getLsbD_and, above_bit h64]; simp [h1, h3, h4]
      · rw [if_neg (by simp), BitVec.getLsbD_or, below_bit h64]; simp [h1, h3, h2]
    · have h2 : ¬ i % 64 < last % 64 := by omega
      have h4 : last % 64 ≤ i % 64 := by omega
      cases v
      · rw [if_pos rfl, BitVec.getLsbD_and, above_bit h64]; simp [h1, h4]
      · rw [if_neg (by simp), BitVec.getLsbD_or, below_bit h64]; simp [h1, h2]
  · rw [if_neg (by omega), if_neg (by omega)]

/-- A partial word at the start. -/
theorem startPart_spec {v : Bool} {start : Nat} (hw : start / 64 < (h.vec r).wsize) :
    ∃ h', ((getW h r (start / 64)).bind fun w =>
        setW h r (start / 64) (if v = false then w &&& below (start % 64) else w ||| above (start % 64))) = .ok h' ∧
      Changed h h' r fun i => if start ≤ i ∧ i < (start / 64 + 1) * 64 then v else bit (h.vec r) i := by
  rw [getW_ok hw, bind_ok, setW_one hw (fun _ => if v = false then (h.vec r).word (start / 64) &&& below (start % 64)
    else (h.vec r).word (start / 64) ||| above (start % 64)) rfl]
  refine ⟨_, rfl, changed_wr fun i hi => ?_⟩
  by_cases hj : i / 64 = start / 64
  · have h64 : i % 64 < 64 := Nat.mod_lt _ (by omega)
    rw [if_pos (by omega)]
    unfold bit
    rw [hj]
    by_cases h1 : start ≤ i
    · have h2 : ¬ i % 64 < start % 64 := by omega
      have h3 : i < (start / 64 + 1) * 64 := by omega
      have h4 : start % 64 ≤ i % 64 := by omega
      cases v
      · rw [if_pos rfl, BitVec.getLsbD_and, below_bit h64]; simp [h1, h3, h2]
      · rw [if_neg (by simp), BitVec.getLsbD_or, above_bit h64]; simp [h1, h3, h4]
    · have h2 : i % 64 < start % 64 := by omega
      have h4 : ¬ start % 64 ≤ i % 64 := by omega
      cases v
      · rw [if_pos rfl, BitVec.getLsbD_and, below_bit h64]; simp [h1, h2]
      · rw [if_neg (by simp), BitVec.getLsbD_or, above_bit h64]; simp [h1, h4]
  · rw [if_neg (by omega), if_neg (by omega)]

/-- Whole words. -/
theorem fillWords_spec {v : Bool} {a n : Nat} (hw : a + n ≤ (h.vec r).wsize ∨ n = 0) :
    ∃ h', loop (fun i h => setW h r i (fillWord v)) n a h = .ok h' ∧
      Changed h h' r fun i => if a * 64 ≤ i ∧ i < (a + n) * 64 then v else bit (h.vec r) i := by
  by_cases hn : n = 0
  · subst hn
    exact ⟨h, rfl, changed_refl.cast fun i _ => by rw [if_neg (by omega)]⟩
  · rw [loop_wr' (h := h) (r := r) (fun _ => fillWord v) (by omega) (fun j h1 h2 => setW_wr h1 (by omega) rfl)]
    refine ⟨_, rfl, changed_wr fun i hi => ?_⟩
    rw [fillWord_bit (Nat.mod_lt _ (by omega))]
    by_cases hc : a * 64 ≤ i ∧ i < (a + n) * 64
    · rw [if_pos (by omega), if_pos hc]
    · rw [if_neg (by omega), if_neg hc]

theorem fill_spec (g : (h.vec r).Good) {v : Bool} {start : Nat} {last : Option Nat}
    (hs : start < (h.vec r).size ∨ (h.vec r).size = 0) (hle : start ≤ last.getD (h.vec r).size)
    (hl : last.getD (h.vec r).size ≤ (h.vec r).size)
    (hash : start / 64 = last.getD (h.vec r).size / 64 → last.getD (h.vec r).size % 64 ≤ 61) :
    ∃ h', fill h r v start last = .ok h' ∧
      Changed h h' r fun i => if start ≤ i ∧ i < last.getD (h.vec r).size then v else bit (h.vec r) i := by
  unfold fill
  by_cases h0 : (h.vec r).size = 0
  · rw [if_pos h0]
    exact ⟨h, rfl, changed_refl.cast fun i hi => by omega⟩
  · rw [if_neg h0]
    generalize last.getD (h.vec r).size = e at hle hl hash
    have hsw : start / 64 < (h.vec r).wsize := g.lt (by omega)
    dsimp only
    by_cases hsame : wordOffset e = wordOffset start
    · rw [if_pos hsame]
      unfold wordOffset at hsame
      exact fillOne_spec hsame hle (hash hsame.symm) hsw
    · rw [if_neg hsame]
      unfold wordOffset at hsame
      unfold wordOffset bitOffset
      -- the last word
      have h1 : ∃ h1, (if e = (h.vec r).size ∨ e % 64 = 0 then Out.ok h
          else (getW h r (e / 64)).bind fun w =>
            setW h r (e / 64) (if v = false then w &&& above (e % 64) else w ||| below (e % 64))) = .ok h1 ∧
          Changed h h1 r fun i => if e < (h.vec r).size ∧ e / 64 * 64 ≤ i ∧ i < e then v else bit (h.vec r) i := by
        by_cases hc : e = (h.vec r).size ∨ e % 64 = 0
        · rw [if_pos hc]
          exact ⟨h, rfl, changed_refl.cast fun i hi => by rw [if_neg (by omega)]⟩
        · rw [if_neg hc]
          obtain ⟨h1, e1, c1⟩ := lastPart_spec (h := h) (r := r) (v := v) (last := e) (g.lt (by omega))
          refine ⟨h1, e1, c1.cast fun i hi => ?_⟩
          have : e < (h.vec r).size := by omega
          simp [this]
      obtain ⟨h1, e1, c1⟩ := h1
      rw [e1, bind_ok]
      -- the first word
      have h2 : ∃ h2, (if start % 64 = 0 then Out.ok h1
          else (getW h1 r (start / 64)).bind fun w =>
            setW h1 r (start / 64) (if v = false then w &&& below (start % 64) else w ||| above (start % 64))) = .ok h2 ∧
          Changed h1 h2 r fun i => if start % 64 ≠ 0 ∧ start ≤ i ∧ i < (start / 64 + 1) * 64 then v else bit (h1.vec r) i := by
        by_cases hc : start % 64 = 0
        · rw [if_pos hc]
          exact ⟨h1, rfl, changed_refl.cast fun i hi => by rw [if_neg (by omega)]⟩
        · rw [if_neg hc]
          obtain ⟨h2, e2, c2⟩ := startPart_spec (h := h1) (r := r) (v := v) (start := start) (by rw [c1.wsizes]; exact hsw)
          refine ⟨h2, e2, c2.cast fun i hi => ?_⟩
          simp [hc]
      obtain ⟨h2, e2, c2⟩ := h2
      rw [e2, bind_ok]
      -- the words between them
      have hg : (h.vec r).wsize = ((h.vec r).size + 63) / 64 := g
      have hsW : ∃ sw, (if start % 64 = 0 then start / 64 else start / 64 + 1) = sw ∧ start ≤ sw * 64 ∧ sw * 64 < start + 64 := by
        split
        · exact ⟨_, rfl, by omega, by omega⟩
        · exact ⟨_, rfl, by omega, by omega⟩
      have hlW : ∃ lw, (if e = (h.vec r).size then (h.vec r).wsize else e / 64) = lw ∧ lw ≤ (h.vec r).wsize ∧
          (e = (h.vec r).size ∧ lw = (h.vec r).wsize ∨ e < (h.vec r).size ∧ lw = e / 64) := by
        split
        · rename_i hq
          exact ⟨_, rfl, Nat.le_refl _, Or.inl ⟨hq, rfl⟩⟩
        · exact ⟨_, rfl, by omega, Or.inr ⟨by omega, rfl⟩⟩
      obtain ⟨sw, hsw1, hsw2, hsw3⟩ := hsW
      obtain ⟨lw, hlw1, hlw2, hlw3⟩ := hlW
      rw [hsw1, hlw1]
      obtain ⟨h3, e3, c3⟩ := fillWords_spec (h := h2) (r := r) (v := v) (a := sw) (n := lw - sw)
        (by rw [c2.wsizes, c1.wsizes]; omega)
      rw [e3]
      refine ⟨h3, rfl, ((c1.trans c2).trans c3).cast fun i hi => ?_⟩
      rw [c2.bits i (by rw [c1.sizes]; exact hi), c1.bits i hi]
      by_cases hin : start ≤ i ∧ i < e
      · rw [if_pos hin]
        by_cases hc3 : sw * 64 ≤ i ∧ i < (sw + (lw - sw)) * 64
        · rw [if_pos hc3]
        · rw [if_neg hc3]
          by_cases hc2 : start % 64 ≠ 0 ∧ start ≤ i ∧ i < (start / 64 + 1) * 64
          · rw [if_pos hc2]
          · rw [if_neg hc2, if_pos (by omega)]
      · rw [if_neg hin, if_neg (by omega), if_neg (by omega), if_neg (by omega)]

/-! ### bit-count -/

theorem countP_congr_range {n : Nat} {p q : Nat → Bool} (hpq : ∀ i, i < n → p i = q i) :
    (List.range n).countP p = (List.range n).countP q := by
  apply List.countP_congr
  intro x hx
  rw [hpq x (List.mem_range.mp hx)]

theorem countP_add (p : Nat → Bool) (a b : Nat) :
    (List.range (a + b)).countP p = (List.range a).countP p + (List.range b).countP fun i => p (a + i) := by
  rw [List.range_add, List.countP_append, List.countP_map]
  rfl

theorem countOnes_below {w : W} {b : Nat} (hb : b ≤ 64) :
    countOnes (w &&& below b) = (List.range b).countP fun i => w.getLsbD i := by
  unfold countOnes
  obtain ⟨k, hk⟩ : ∃ k, 64 = b + k := ⟨64 - b, by omega⟩
  have h64 : List.range 64 = List.range (b + k) := by rw [hk]
  rw [h64, countP_add]
  have h1 : (List.range b).countP (fun i => (w &&& below b).getLsbD i) = (List.range b).countP fun i => w.getLsbD i := by
    apply countP_congr_range
    intro i hi
    rw [BitVec.getLsbD_and, below_bit (by omega)]
    simp [hi]
  have h2 : (List.range k).countP (fun i => (w &&& below b).getLsbD (b + i)) = 0 := by
    rw [List.countP_eq_zero]
    intro i hi
    have := List.mem_range.mp hi
    rw [BitVec.getLsbD_and, below_bit (by omega)]
    simp
  rw [h1, h2]
  rfl

theorem bitCount_spec (g : (h.vec r).Good) {v : Bool} :
    bitCount h r v = .ok ((List.range (h.vec r).size).countP fun i => bit (h.vec r) i == v) := by
  have hg : (h.vec r).wsize = ((h.vec r).size + 63) / 64 := g
  have key : ∀ k i c, i + k = (h.vec r).wsize →
      c = (List.range (min (i * 64) (h.vec r).size)).countP (fun i => bit (h.vec r) i) →
      loop (fun i count => (getW h r i).bind fun word =>
        Out.ok (count + countOnes (if i + 1 = (h.vec r).wsize ∧ bitOffset (h.vec r).size ≠ 0 then
          word &&& below (bitOffset (h.vec r).size) else word))) k i c =
      .ok ((List.range (h.vec r).size).countP fun i => bit (h.vec r) i) := by
    intro k
    induction k with
    | zero =>
      intro i c hik hc
      rw [loop, hc]
      congr 3
      omega
    | succ k ih =>
      intro i c hik hc
      rw [loop, getW_ok (by omega), bind_ok, bind_ok]
      apply ih (i + 1) _ (by omega)
      rw [hc]
      unfold bitOffset
      have hi : min (i * 64) (h.vec r).size = i * 64 := by omega
      rw [hi]
      by_cases hlast : i + 1 = (h.vec r).wsize ∧ (h.vec r).size % 64 ≠ 0
      · have h2 : min ((i + 1) * 64) (h.vec r).size = i * 64 + (h.vec r).size % 64 := by omega
        rw [if_pos hlast, h2, countP_add, countOnes_below (by omega)]
        congr 1
        apply countP_congr_range
        intro j hj
        unfold bit
        have e1 : (i * 64 + j) / 64 = i := by omega
        have e2 : (i * 64 + j) % 64 = j := by omega
        rw [e1, e2]
      · have h2 : min ((i + 1) * 64) (h.vec r).size = i * 64 + 64 := by omega
        rw [if_neg hlast, h2, countP_add]
        congr 1
        apply countP_congr_range
        intro j hj
        unfold bit
        have e1 : (i * 64 + j) / 64 = i := by omega
        have e2 : (i * 64 + j) % 64 = j := by omega
        rw [e1, e2]
  unfold bitCount
  dsimp only
  rw [key (h.vec r).wsize 0 0 (by omega) (by simp), bind_ok]
  cases v
  · rw [if_pos rfl]
    have := List.length_eq_countP_add_countP (l := List.range (h.vec r).size) (fun i => bit (h.vec r) i)
    rw [List.length_range] at this
    have e : (List.range (h.vec r).size).countP (fun i => bit (h.vec r) i == false) =
        (List.range (h.vec r).size).countP fun i => decide (¬ bit (h.vec r) i = true) := by
      apply countP_congr_range
      intro i _
      cases bit (h.vec r) i <;> rfl
    rw [e]
    congr 1
    omega
  · rw [if_neg (by simp)]
    congr 1
    apply countP_congr_range
    intro i _
    cases bit (h.vec r) i <;> rfl

end
end Verif.Bits
