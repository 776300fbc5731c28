import Verif.Bitcode.Total

/-!
# Properties of the bitcode writer
-/

namespace Verif.Bitcode

/-! ### Files -/

theorem size_leave {o : Stream} {patch : Nat} {s s' : Stream} (h : leave o patch s = some s') : s'.size = 0 := by
  simp only [leave, Option.bind_eq_some_iff, Option.map_eq_some_iff] at h
  obtain ⟨t, h1, u, h2, rfl⟩ := h
  simp only [W.seq, Option.bind_eq_some_iff] at h1
  obtain ⟨r, _, h1⟩ := h1
  have ht : t.size = 0 := by
    simp only [align, Option.some.injEq] at h1
    rw [← h1]
    split
    · assumption
    · rfl
  simp only [writeFixed, ht, Nat.zero_add, ge_iff_le, Nat.le_refl, if_true, Option.some.injEq] at h2
  rw [← h2]
  simp only [flush, writeBytes]

theorem size_all : ∀ (l : List Item) {s s' : Stream}, (∀ i ∈ l, ∃ id w b, i = .block id w b) → runAll l s = some s' →
    s.size = 0 → s'.size = 0
  | [], s, s', _, h, hs => by
    rw [runAll, Option.some.injEq] at h
    rw [← h]
    exact hs
  | i :: l, s, s', hb, h, _ => by
    simp only [runAll, W.seq, Option.bind_eq_some_iff] at h
    obtain ⟨t, ht, h⟩ := h
    obtain ⟨id, w, b, rfl⟩ := hb i (by simp)
    rw [Item.run] at ht
    simp only [Option.bind_eq_some_iff] at ht
    obtain ⟨p, _, q, _, ht⟩ := ht
    exact size_all l (fun i hi => hb i (by simp [hi])) h (size_leave ht)

/-- Partial: literals from 128 on, names defined twice in a block and sequences before the last operand are excluded by
`okFile`; for these see below.  A program that uses the writer as it should does not fail, and, if the file has less than 16 gigabytes, a reader of the
format finds in it the blocks and records that were written, with lengths of blocks that are right. -/
theorem file_round_trip_partial (items : List Item) (h : okFile items) : ∃ s, runAll items start = some s ∧
    ((close s).bytes.length < 2 ^ 34 → readFile (close s).bytes = some (meaningAll [] items)) := by
  obtain ⟨s, hs⟩ := total_all items (s := start) (defs := []) rfl (fun p hp => absurd hp (by simp)) h.1
  refine ⟨s, hs, fun hsmall => ?_⟩
  have hz := size_all items h.2 hs rfl
  have hc : close s = s := by rw [close, if_pos hz]
  rw [hc] at hsmall ⊢
  obtain ⟨defs', e, _, c1, _, _, _, r⟩ := good_all items (top := true) (width := 2) (defs := []) (by omega) (by omega) inv_start rfl rfl
    (fun p hp => absurd hp (by simp)) h.1 hs hsmall
  have h0 : content start = [] := by decide
  have hcs : content s = fileBits s.bytes := by
    rw [content, hz]
    simp [bitsOf]
  rw [h0, List.nil_append, hcs] at c1
  rw [hcs] at r
  have hal : ((fileBits s.bytes).length + ([] : List Bool).length) % 32 = 0 := by
    have hi := (good_all items (top := true) (width := 2) (defs := []) (by omega) (by omega) inv_start rfl rfl
      (fun p hp => absurd hp (by simp)) h.1 hs hsmall)
    obtain ⟨_, _, hi, _⟩ := hi
    have := hi.whole
    rw [length_fileBits, List.length_nil]
    omega
  have hend : RI true 2 (defs'.map Prod.snd) 1 [] [] [] := by
    intro k hk
    obtain ⟨k, rfl⟩ : ∃ j, k = j + 1 := ⟨k - 1, by omega⟩
    rw [readItems]
    exact if_pos ⟨rfl, rfl⟩
  have hr := r [] [] [] 1 hal hend ((fileBits s.bytes).length + 1) (by rw [c1]; omega)
  rw [List.append_nil, List.append_nil, ← c1, List.map_nil] at hr
  rw [readFile, hr]

/-- The bytes are whole words of four. -/
theorem file_whole (items : List Item) (h : okFile items) {s : Stream} (hs : runAll items start = some s)
    (hsmall : (close s).bytes.length < 2 ^ 34) : (close s).bytes.length % 4 = 0 := by
  have hz := size_all items h.2 hs rfl
  have hc : close s = s := by rw [close, if_pos hz]
  rw [hc] at hsmall ⊢
  obtain ⟨_, _, hi, _⟩ := good_all items (top := true) (width := 2) (defs := []) (by omega) (by omega) inv_start rfl rfl
    (fun p hp => absurd hp (by simp)) h.1 hs hsmall
  exact hi.whole

/-- A file with a nested block, an abbreviation with a literal and an array of characters, and a record. -/
def sample : List Item :=
  [.block 8 3 [.record 7 [.one (.word 300), .one (.double 5 9), .many [.word 1, .word 70]],
     .define "name" [.literal 100, .vbr 6, .array, .char6],
     .block 14 4 [.record 1 []],
     .short "name" [.one (.word 99), .many [.word 97, .word 95]],
     .define "data" [.fixed 5, .blob],
     .short "data" [.one (.word 3), .many [.word 255, .word 0, .word 7]]]]

theorem sample_ok : okFile sample := by
  refine ⟨?_, ?_⟩
  · simp only [sample, okAll, Item.ok]
    refine ⟨⟨by decide, by decide, ⟨by decide, ?_⟩, ⟨by decide, by decide, ?_⟩, ⟨by decide, by decide,
      ⟨by decide, ?_⟩, trivial⟩, ⟨by decide, by decide, ?_⟩, ⟨by decide, by decide, ?_⟩, ⟨by decide, by decide, ?_⟩,
      trivial⟩, trivial⟩
    · simp
    · simp [Op.ok]
    · simp
    · rw [show abbrevOf "name" _ = [.literal 100, .vbr 6, .array, .char6] from by decide]
      refine ⟨_, _, rfl, _, _, rfl, rfl, trivial, by decide, ?_⟩
      intro v hv
      simp only [List.mem_cons, List.not_mem_nil, or_false] at hv
      rcases hv with rfl | rfl
      · show _ ∈ charset
        decide
      · show _ ∈ charset
        decide
    · simp [Op.ok]
    · rw [show abbrevOf "data" _ = [.fixed 5, .blob] from by decide]
      refine ⟨_, _, rfl, (by decide : (3 : BitVec 64).toNat < 2 ^ 5), _, rfl, rfl, by decide, ?_⟩
      intro v hv
      simp only [List.mem_cons, List.not_mem_nil, or_false] at hv
      rcases hv with rfl | rfl | rfl
      · exact ⟨_, rfl, by decide⟩
      · exact ⟨_, rfl, by decide⟩
      · exact ⟨_, rfl, by decide⟩
  · intro i hi
    simp only [sample, List.mem_singleton] at hi
    exact ⟨_, _, _, hi⟩

example : okFile sample ∧ ∃ s, runAll sample start = some s ∧ (close s).bytes.length = 60 ∧
    readFile (close s).bytes = some [.block 8 [.record [7, 300, 5 + 2 ^ 64 * 9, 1, 70], .block 14 [.record [1]],
      .record [100, 99, 97, 95], .record [3, 255, 0, 7]]] := by
  refine ⟨sample_ok, ?_⟩
  obtain ⟨s, hs, hr⟩ := file_round_trip_partial sample sample_ok
  have hl : ((runAll sample start).map fun s => (close s).bytes.length) = some 60 := by decide +kernel
  rw [hs] at hl
  simp only [Option.map_some, Option.some.injEq] at hl
  refine ⟨s, hs, hl, ?_⟩
  rw [hr (by omega)]
  rfl

/-! ### Signed numbers -/

/-- The number that a reader of the format makes of a signed `vbr`: the lowest bit is the sign. -/
def signed (n : Nat) : Int := if n % 2 = 0 then (n / 2 : Nat) else -((n / 2 : Nat) : Int)

/-- Integers. -/
theorem signed_integer (v : Int) (h1 : -2 ^ 61 ≤ v) (h2 : v < 2 ^ 61) :
    signed (asSignedWord (BitVec.ofInt 64 v)).toNat = v := by
  have hi : (BitVec.ofInt 64 v).toInt = v := by
    rw [BitVec.toInt_ofInt, Int.bmod_def]
    omega
  have hs : (BitVec.ofInt 64 v).slt 0 = decide (v < 0) := by
    rw [BitVec.slt, hi]
    rfl
  rw [asSignedWord, hs]
  by_cases hv : v < 0
  · rw [decide_eq_true hv, if_pos rfl]
    have hn : (-BitVec.ofInt 64 v).toNat = (-v).toNat := by
      rw [BitVec.toNat_neg, BitVec.toNat_ofInt]
      omega
    have h : (((-BitVec.ofInt 64 v) <<< 1) ||| 1).toNat = 2 * (-v).toNat + 1 := by
      rw [BitVec.toNat_or, BitVec.toNat_shiftLeft, hn, Nat.shiftLeft_eq, Nat.mod_eq_of_lt (by omega)]
      show (-v).toNat * 2 ^ 1 ||| 1 = _
      have := Nat.two_pow_add_eq_or_of_lt (i := 1) (b := 1) (by omega) (-v).toNat
      rw [Nat.mul_comm, ← this]
    rw [h, signed, if_neg (by omega)]
    omega
  · rw [decide_eq_false hv, if_neg (by simp)]
    have h : ((BitVec.ofInt 64 v) <<< 1).toNat = 2 * v.toNat := by
      rw [BitVec.toNat_shiftLeft, BitVec.toNat_ofInt, Nat.shiftLeft_eq]
      omega
    rw [h, signed, if_pos (by omega)]
    omega

example : asSignedWord (BitVec.ofInt 64 (-5)) = 11 ∧ asSignedWord 5 = 10 := by decide

/-- Double integers, except the least one. -/
theorem signed_double_partial (low high : BitVec 64) (hl : (high ++ low : BitVec 128).toInt ≠ -2 ^ 127) :
    signed ((asSignedDouble low high).1.toNat + 2 ^ 64 * (asSignedDouble low high).2.toNat) =
      (high ++ low : BitVec 128).toInt := by
  have hlt := low.isLt
  have hht := high.isLt
  have happ : ∀ a b : BitVec 64, (a ++ b : BitVec 128).toNat = a.toNat * 2 ^ 64 + b.toNat := by
    intro a b
    have := b.isLt
    rw [BitVec.toNat_append, Nat.shiftLeft_eq, Nat.mul_comm, ← Nat.two_pow_add_eq_or_of_lt this]
  have hparts : ∀ d : BitVec 128, (d.setWidth 64 : BitVec 64).toNat + 2 ^ 64 * ((d >>> 64).setWidth 64 : BitVec 64).toNat =
      d.toNat := by
    intro d
    have := d.isLt
    rw [BitVec.toNat_setWidth, BitVec.toNat_setWidth, BitVec.toNat_ushiftRight, Nat.shiftRight_eq_div_pow]
    omega
  have h0 : (0 : BitVec 64).toInt = 0 := rfl
  have hslt : high.slt 0 = decide (2 ^ 63 ≤ high.toNat) := by
    rw [BitVec.slt, h0, BitVec.toInt_eq_toNat_cond]
    by_cases h : 2 ^ 63 ≤ high.toNat
    · rw [if_neg (by omega)]
      simp only [decide_eq_decide]
      omega
    · rw [if_pos (by omega)]
      simp only [decide_eq_decide]
      omega
  have hint := BitVec.toInt_eq_toNat_cond (high ++ low : BitVec 128)
  rw [happ] at hint
  unfold asSignedDouble
  rw [hslt]
  by_cases hn : 2 ^ 63 ≤ high.toNat
  · rw [decide_eq_true hn, if_pos rfl]
    rw [if_neg (by omega)] at hint
    rw [hint] at hl ⊢
    simp only
    generalize hc : (if (~~~low).toNat + 1 ≥ 2 ^ 64 then (1 : BitVec 64) else 0) = carry
    generalize hd : ((~~~high + carry) ++ (~~~low + 1) : BitVec 128) <<< 1 = d
    have hnl : (~~~low).toNat = 2 ^ 64 - 1 - low.toNat := BitVec.toNat_not
    have hnh : (~~~high).toNat = 2 ^ 64 - 1 - high.toNat := BitVec.toNat_not
    have hdn : d.toNat = 2 * (2 ^ 128 - (high.toNat * 2 ^ 64 + low.toNat)) := by
      rw [← hd, BitVec.toNat_shiftLeft, happ, Nat.shiftLeft_eq, BitVec.toNat_add, BitVec.toNat_add, hnl, hnh]
      show ((2 ^ 64 - 1 - high.toNat + carry.toNat) % 2 ^ 64 * 2 ^ 64 + (2 ^ 64 - 1 - low.toNat + 1) % 2 ^ 64) * 2 ^ 1 %
        2 ^ 128 = _
      by_cases h0 : low.toNat = 0
      · rw [if_pos (by omega)] at hc
        rw [← hc]
        show ((2 ^ 64 - 1 - high.toNat + 1) % 2 ^ 64 * 2 ^ 64 + (2 ^ 64 - 1 - low.toNat + 1) % 2 ^ 64) * 2 ^ 1 %
          2 ^ 128 = _
        omega
      · rw [if_neg (by omega)] at hc
        rw [← hc]
        show ((2 ^ 64 - 1 - high.toNat + 0) % 2 ^ 64 * 2 ^ 64 + (2 ^ 64 - 1 - low.toNat + 1) % 2 ^ 64) * 2 ^ 1 %
          2 ^ 128 = _
        omega
    have hor : (d.setWidth 64 ||| (1 : BitVec 64)).toNat = (d.setWidth 64 : BitVec 64).toNat + 1 := by
      rw [BitVec.toNat_or]
      show (d.setWidth 64 : BitVec 64).toNat ||| 1 = _
      have he : (d.setWidth 64 : BitVec 64).toNat % 2 = 0 := by
        rw [BitVec.toNat_setWidth]
        omega
      have := Nat.two_pow_add_eq_or_of_lt (i := 1) (b := 1) (by omega) ((d.setWidth 64 : BitVec 64).toNat / 2)
      rw [show 2 ^ 1 * ((d.setWidth 64 : BitVec 64).toNat / 2) = (d.setWidth 64 : BitVec 64).toNat by omega] at this
      exact this.symm
    have hp := hparts d
    rw [hor]
    have : (d.setWidth 64 : BitVec 64).toNat + 1 + 2 ^ 64 * ((d >>> 64).setWidth 64 : BitVec 64).toNat = d.toNat + 1 := by omega
    rw [this, hdn, signed, if_neg (by omega)]
    omega
  · rw [decide_eq_false hn, if_neg (by simp)]
    rw [if_pos (by omega)] at hint
    rw [hint]
    simp only
    rw [hparts, BitVec.toNat_shiftLeft, happ, Nat.shiftLeft_eq, signed]
    have : (high.toNat * 2 ^ 64 + low.toNat) * 2 ^ 1 % 2 ^ 128 = 2 * (high.toNat * 2 ^ 64 + low.toNat) := by omega
    rw [this, if_pos (by omega)]
    omega

example : asSignedDouble 0 (BitVec.ofInt 64 (-1)) = (1, 2) := by decide

/-- The least double integer is written as minus zero. -/
theorem signed_least_violated : ∃ low high : BitVec 64,
    signed ((asSignedDouble low high).1.toNat + 2 ^ 64 * (asSignedDouble low high).2.toNat) ≠
      (high ++ low : BitVec 128).toInt := ⟨0, 0x8000000000000000, by decide⟩

/-! ### Where the reader does not find what was written -/

/-- Literals from 128 on. -/
theorem literal_violated : ((runAll [.block 8 4 [.define "a" [.literal 200, .fixed 8], .short "a" [.one (.word 5)]]] start).map
    fun s => (readFile (close s).bytes).isNone) = some true := by decide +kernel

/-- A second definition of a name, with a definition after it. -/
theorem redefinition_violated : ((runAll [.block 8 4 [.define "a" [.literal 100, .fixed 8], .define "b" [.literal 100, .fixed 8],
    .define "a" [.literal 101, .vbr 6], .define "c" [.literal 102, .fixed 16], .short "c" [.one (.word 5)]]] start).map
    fun s => (readFile (close s).bytes).isNone) = some true := by decide +kernel

/-- A sequence that is not the last operand. -/
theorem sequence_violated : ((runAll [.block 8 4 [.record 7 [.many [.word 1, .word 2], .one (.word 300)]]] start).map
    fun s => (readFile (close s).bytes).isNone) = some true := by decide +kernel

end Verif.Bitcode
