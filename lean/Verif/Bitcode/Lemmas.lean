import Verif.Bitcode.Bits

/-! Records, abbreviations and blocks. -/

namespace Verif.Bitcode

theorem R.bind_assoc {α β γ : Type} (r : R α) (f : α → R β) (g : β → R γ) :
    R.bind (R.bind r f) g = R.bind r fun a => R.bind (f a) g := by
  funext bits
  simp only [R.bind]
  cases r bits <;> rfl

theorem R.pure_bind {α β : Type} (a : α) (f : α → R β) : R.bind (R.pure a) f = f a := rfl

/-- Reading an operand of an abbreviation. -/
theorem wr_op {o : Op} (h : o.ok) (hw : ∀ w, o = .fixed w ∨ o = .vbr w → w < 2 ^ 64) : WR (encodeOp o) readOp o := by
  have f1 : WR (writeFixed 1 1) (readFixed 1) 1 := wr_fixed (v := 1) (by omega) (by decide)
  have f0 : WR (writeFixed 1 0) (readFixed 1) 0 := wr_fixed (v := 0) (by omega) (by decide)
  cases o with
  | literal n =>
    have hn : n.toNat < 128 := h
    refine WR.seq f1 ?_
    simp only [if_true]
    have hm := WR.map (k := fun x => Op.literal (BitVec.ofNat 64 x)) (fixed_chunk (n := 8) (v := n) (by omega) (by omega) hn).wr
    simpa using hm
  | fixed w =>
    refine WR.seq f0 ?_
    rw [if_neg (by decide)]
    refine WR.seq (wr_fixed (v := 1) (by omega) (by decide) : WR (writeFixed 3 1) (readFixed 3) 1) ?_
    rw [if_pos (by decide)]
    exact WR.map (wr_nat (by omega) (by omega) (hw w (Or.inl rfl)))
  | vbr w =>
    refine WR.seq f0 ?_
    rw [if_neg (by decide)]
    refine WR.seq (wr_fixed (v := 2) (by omega) (by decide) : WR (writeFixed 3 2) (readFixed 3) 2) ?_
    rw [if_neg (by decide), if_pos (by decide)]
    exact WR.map (wr_nat (by omega) (by omega) (hw w (Or.inr rfl)))
  | array =>
    refine WR.seq f0 ?_
    rw [if_neg (by decide)]
    rw [← seq_some (writeFixed 3 3)]
    refine WR.seq (wr_fixed (v := 3) (by omega) (by decide) : WR (writeFixed 3 3) (readFixed 3) 3) ?_
    rw [if_neg (by decide), if_neg (by decide), if_pos (by decide)]
    exact WR.pure _
  | char6 =>
    refine WR.seq f0 ?_
    rw [if_neg (by decide)]
    rw [← seq_some (writeFixed 3 4)]
    refine WR.seq (wr_fixed (v := 4) (by omega) (by decide) : WR (writeFixed 3 4) (readFixed 3) 4) ?_
    rw [if_neg (by decide), if_neg (by decide), if_neg (by decide), if_pos (by decide)]
    exact WR.pure _
  | blob =>
    refine WR.seq f0 ?_
    rw [if_neg (by decide)]
    rw [← seq_some (writeFixed 3 5)]
    refine WR.seq (wr_fixed (v := 5) (by omega) (by decide) : WR (writeFixed 3 5) (readFixed 3) 5) ?_
    rw [if_neg (by decide), if_neg (by decide), if_neg (by decide), if_neg (by decide), if_pos (by decide)]
    exact WR.pure _

theorem op_width {o : Op} (h : o.ok) : ∀ w, o = .fixed w ∨ o = .vbr w → w < 2 ^ 64 := by
  rintro w (rfl | rfl)
  · have : 1 ≤ w ∧ w ≤ 32 := h
    omega
  · have : 2 ≤ w ∧ w ≤ 32 := h
    omega

theorem times_add {α : Type} (r : R α) (n : Nat) : ∀ m, times r (m + n) =
    R.bind (times r m) fun a => R.bind (times r n) fun b => R.pure (a ++ b)
  | 0 => by
    rw [Nat.zero_add]
    simp only [times, R.pure_bind, List.nil_append]
    funext bits
    simp only [R.bind]
    cases times r n bits <;> rfl
  | m + 1 => by
    rw [Nat.add_right_comm]
    simp only [times]
    rw [times_add r n m]
    simp only [R.bind_assoc, R.pure_bind, List.cons_append]

theorem wr_operand (o : Operand) : WR (writeOperand o) (times (readVbr 6) o.fields.length) o.fields := by
  cases o with
  | one s => exact WR.map (k := fun a => [a]) (wr_vbr (by omega) (by omega) s)
  | many l =>
    have := wr_each (f := writeVbr 6) (r := readVbr 6) (v := Scalar.toNat) l (fun s _ => wr_vbr (by omega) (by omega) s)
    simpa [writeOperand, Operand.fields] using this

theorem wr_operands : ∀ l : List Operand, WR (forEach writeOperand l) (times (readVbr 6) (l.flatMap Operand.fields).length)
    (l.flatMap Operand.fields)
  | [] => WR.pure []
  | o :: l => by
    rw [List.flatMap_cons, List.length_append, times_add]
    exact WR.seq (wr_operand o) (WR.map (k := fun b => o.fields ++ b) (wr_operands l))

theorem length_ones : ∀ l : List Operand, (∀ o ∈ l, ∃ s, o = .one s) → (l.flatMap Operand.fields).length = l.length
  | [], _ => rfl
  | o :: l, h => by
    obtain ⟨s, rfl⟩ := h o (by simp)
    rw [List.flatMap_cons, List.length_append, length_ones l fun o ho => h o (by simp [ho])]
    simp [Operand.fields]
    omega

theorem count_eq {l : List Operand} (h : ∀ o ∈ l.dropLast, ∃ s, o = .one s) :
    operandCount l = (l.flatMap Operand.fields).length := by
  rcases List.eq_nil_or_concat l with rfl | ⟨init, last, rfl⟩
  · rfl
  · rw [List.concat_eq_append] at h ⊢
    rw [List.dropLast_concat] at h
    rw [List.flatMap_append, List.length_append, length_ones init h]
    unfold operandCount
    rw [List.getLast?_concat]
    cases last with
    | one s => simp [Operand.fields]
    | many l => simp [Operand.fields]

/-! ### Blobs -/

theorem padLoop_eq : ∀ (n : Nat) (s : Stream), s.pos = s.bytes.length → (4 - s.pos % 4) % 4 ≤ n →
    padLoop n s = { s with bytes := s.bytes ++ List.replicate ((4 - s.pos % 4) % 4) 0,
                           pos := (s.bytes ++ List.replicate ((4 - s.pos % 4) % 4) (0 : BitVec 8)).length }
  | 0, s, h, hn => by
    have h0 : (4 - s.pos % 4) % 4 = 0 := by omega
    rw [h0]
    simp [padLoop, ← h]
  | n + 1, s, h, hn => by
    rw [padLoop]
    split
    · rename_i hp
      rw [writeBytes_end _ h]
      have hpos : (s.bytes ++ [(0 : BitVec 8)]).length = s.pos + 1 := by simp [h]
      rw [padLoop_eq n _ rfl (by show (4 - (s.bytes ++ [(0 : BitVec 8)]).length % 4) % 4 ≤ n; rw [hpos]; omega)]
      simp only [hpos]
      have hc : (4 - s.pos % 4) % 4 = 1 + (4 - (s.pos + 1) % 4) % 4 := by omega
      rw [hc, ← List.replicate_append_replicate]
      simp
    · have h0 : (4 - s.pos % 4) % 4 = 0 := by omega
      rw [h0]
      simp [← h]

theorem read_bytes (rest : List Bool) : ∀ b : List (BitVec 8),
    times (readFixed 8) b.length (fileBits b ++ rest) = some (b.map BitVec.toNat, rest)
  | [] => rfl
  | x :: b => by
    have hl : (bitsOf 8 x.toNat).length = 8 := length_bitsOf _ _
    show times (readFixed 8) (b.length + 1) (bitsOf 8 x.toNat ++ fileBits b ++ rest) = _
    rw [List.append_assoc]
    simp only [times, R.bind, readFixed]
    rw [if_pos (by rw [List.length_append]; omega), List.take_left' hl, List.drop_left' hl, number_bitsOf 8 _ x.isLt]
    simp only
    rw [read_bytes rest b]
    rfl

theorem wr_bytes (b : List (BitVec 8)) : WR (W.seq align fun s => some (padLoop 3 (writeBytes b s)))
    (R.bind readAlign fun _ => R.bind (times (readFixed 8) b.length) fun a => R.bind readAlign fun _ => R.pure a)
    (b.map BitVec.toNat) := by
  intro s hs
  obtain ⟨t, e, ht, he, hr⟩ := wr_align s hs
  obtain ⟨t0, ta⟩ := align_empty ht hs
  have hw := he.inv.whole
  have hp := he.inv.pos_eq
  have hpad : padLoop 3 (writeBytes b t) =
      { t with bytes := t.bytes ++ (b ++ List.replicate ((4 - b.length % 4) % 4) 0),
               pos := (t.bytes ++ (b ++ List.replicate ((4 - b.length % 4) % 4) (0 : BitVec 8))).length } := by
    rw [writeBytes_end _ hp, padLoop_eq 3 _ rfl (by simp only; omega)]
    have hz : (t.bytes ++ b).length % 4 = b.length % 4 := by rw [List.length_append]; omega
    simp only [hz, List.append_assoc]
  have hc : content (padLoop 3 (writeBytes b t)) =
      content t ++ (fileBits b ++ fileBits (List.replicate ((4 - b.length % 4) % 4) 0)) := by
    rw [hpad]
    show fileBits (t.bytes ++ (b ++ _)) ++ bitsOf t.size _ = _
    rw [content, t0, fileBits_append, fileBits_append]
    simp [bitsOf]
  refine ⟨padLoop 3 (writeBytes b t), e ++ (fileBits b ++ fileBits (List.replicate ((4 - b.length % 4) % 4) 0)),
    by simp [W.seq, ht], he.trans ⟨⟨?_, ?_, ?_, ?_⟩, hc, ?_, ?_, ?_⟩, ?_⟩
  · rw [hpad]
    exact he.inv.size_lt
  · rw [hpad]
    exact he.inv.acc_lt
  · rw [hpad]
    simp only [List.length_append, List.length_replicate]
    omega
  · rw [hpad]
  · rw [hpad]
    exact List.prefix_append _ _
  · rw [hpad]
  · rw [hpad]
  · intro rest hl
    have hlt := length_content he.inv
    rw [t0] at hlt
    rw [hc, List.length_append, List.length_append, length_fileBits, length_fileBits, List.length_replicate] at hl
    have h1 := hr (fileBits b ++ fileBits (List.replicate ((4 - b.length % 4) % 4) 0) ++ rest) (by
      rw [List.length_append, List.length_append, length_fileBits, length_fileBits, List.length_replicate]
      omega)
    rw [List.append_assoc]
    simp only [R.bind]
    rw [h1]
    simp only
    rw [List.append_assoc, read_bytes]
    simp only [readAlign]
    have hz : (fileBits (List.replicate ((4 - b.length % 4) % 4) (0 : BitVec 8)) ++ rest).length % 32 =
        (fileBits (List.replicate ((4 - b.length % 4) % 4) (0 : BitVec 8))).length := by
      rw [List.length_append, length_fileBits, List.length_replicate]
      omega
    rw [hz, List.drop_left]
    rfl

theorem bytesOf_some : ∀ l : List Scalar, (∀ v ∈ l, ∃ w : BitVec 64, v = .word w ∧ w.toNat < 256) →
    ∃ b, bytesOf l = some b ∧ b.length = l.length ∧ b.map BitVec.toNat = l.map Scalar.toNat
  | [], _ => ⟨[], rfl, rfl, rfl⟩
  | v :: l, h => by
    obtain ⟨b, h1, h2, h3⟩ := bytesOf_some l fun v hv => h v (by simp [hv])
    obtain ⟨w, rfl, hw⟩ := h v (by simp)
    refine ⟨w.setWidth 8 :: b, by simp [bytesOf, hw, h1], by simp [h2], ?_⟩
    simp only [List.map_cons, h3, Scalar.toNat]
    rw [BitVec.toNat_setWidth]
    congr 1
    omega

theorem wr_blob {l : List Scalar} (hl : l.length < 2 ^ 64) (h : ∀ v ∈ l, ∃ w : BitVec 64, v = .word w ∧ w.toNat < 256) :
    WR (writeBlob l) (R.bind (readVbr 6) fun n => R.bind readAlign fun _ => R.bind (times (readFixed 8) n) fun a =>
      R.bind readAlign fun _ => R.pure a) (l.map Scalar.toNat) := by
  obtain ⟨b, h1, h2, h3⟩ := bytesOf_some l h
  have hw : writeBlob l = W.seq (writeVbrNat 6 b.length) (W.seq align fun s => some (padLoop 3 (writeBytes b s))) := by
    funext s
    simp only [writeBlob, h1, Option.bind_some]
    rw [seq_assoc]
  rw [hw, ← h3]
  exact WR.seq (wr_nat (by omega) (by omega) (by omega)) (wr_bytes b)

/-! ### Records with abbreviations -/

theorem wr_element {e : Op} (he : e.element) (hok : e.ok) {v : Scalar} (h : e.holds v) :
    WR (writeElement e v) (readElement e) v.toNat := by
  cases e with
  | fixed w =>
    cases v with
    | word x => exact wr_fixed hok.2 h
    | double => exact absurd h (by simp [Op.holds])
  | vbr w => exact wr_vbr hok.1 hok.2 v
  | char6 => exact wr_char6 h
  | _ => exact absurd he (by simp [Op.element])

theorem wr_ops : ∀ (ops : List Op) (vs : List Operand), fits ops vs → (∀ o ∈ ops, o.ok) →
    WR (writeOps (ops.filter Op.isOp) vs) (readOps ops) (fieldsOf ops vs)
  | [], vs, h, _ => by
    have hv : vs = [] := h
    subst hv
    exact WR.pure []
  | .literal n :: ops, vs, h, hok => by
    have hf : fits ops vs := h
    have := wr_ops ops vs hf fun o ho => hok o (List.mem_cons_of_mem _ ho)
    exact WR.map (k := fun l => n.toNat :: l) this
  | .fixed w :: ops, vs, h, hok => by
    obtain ⟨v, vs, rfl, h1, h2⟩ := h
    have := wr_ops ops vs h2 fun o ho => hok o (List.mem_cons_of_mem _ ho)
    exact WR.seq (wr_element (e := .fixed w) trivial (hok _ List.mem_cons_self) h1)
      (WR.map (k := fun l => v.toNat :: l) this)
  | .vbr w :: ops, vs, h, hok => by
    obtain ⟨v, vs, rfl, h2⟩ := h
    have := wr_ops ops vs h2 fun o ho => hok o (List.mem_cons_of_mem _ ho)
    exact WR.seq (wr_element (e := .vbr w) trivial (hok _ List.mem_cons_self) trivial)
      (WR.map (k := fun l => v.toNat :: l) this)
  | .char6 :: ops, vs, h, hok => by
    obtain ⟨v, vs, rfl, h1, h2⟩ := h
    have := wr_ops ops vs h2 fun o ho => hok o (List.mem_cons_of_mem _ ho)
    exact WR.seq (wr_char6 h1) (WR.map (k := fun l => v.toNat :: l) this)
  | .array :: ops, vs, h, hok => by
    obtain ⟨e, l, rfl, rfl, h1, h2, h3⟩ := h
    have he : [Op.array, e].filter Op.isOp = [.array, e] := by
      cases e with
      | literal => exact absurd h1 (by simp [Op.element])
      | _ => rfl
    have hf : fieldsOf [.array, e] [.many l] = l.map Scalar.toNat ++ [] := by
      cases e with
      | literal => exact absurd h1 (by simp [Op.element])
      | _ => rfl
    have hw : writeOps [.array, e] [.many l] =
        W.seq (W.seq (writeVbrNat 6 l.length) (forEach (writeElement e) l)) some := by
      cases e with
      | literal => exact absurd h1 (by simp [Op.element])
      | _ => rfl
    have hr : readOps [.array, e] = R.bind (readVbr 6) fun n => R.bind (times (readElement e) n) fun a => R.pure (a ++ []) := by
      cases e <;> rfl
    rw [he, hw, hf, hr, seq_some]
    refine WR.seq (wr_nat (by omega) (by omega) h2) ?_
    exact WR.map (k := fun a => a ++ []) (wr_each l fun v hv =>
      wr_element h1 (hok _ (List.mem_cons_of_mem _ List.mem_cons_self)) (h3 v hv))
  | .blob :: ops, vs, h, hok => by
    obtain ⟨l, rfl, rfl, h1, h2⟩ := h
    have hw : writeOps ([Op.blob].filter Op.isOp) [.many l] = W.seq (writeBlob l) some := rfl
    have hf : fieldsOf [.blob] [.many l] = l.map Scalar.toNat := List.append_nil _
    have hr : readOps [.blob] = R.bind (readVbr 6) fun n => R.bind readAlign fun _ => R.bind (times (readFixed 8) n) fun a =>
        R.bind readAlign fun _ => R.pure a := by
      simp only [readOps, R.pure_bind, List.append_nil]
    rw [hw, hf, hr, seq_some]
    exact wr_blob h1 h2

/-! ### The table of abbreviations -/

/-- The table of the stream, from the definitions that were written. -/
def table : Nat → List (String × List Op) → List (String × Def)
  | _, [] => []
  | i, p :: l => (p.1, ⟨4 + i, p.2.filter Op.isOp⟩) :: table (i + 1) l

theorem length_table : ∀ (i : Nat) (l : List (String × List Op)), (table i l).length = l.length
  | _, [] => rfl
  | i, _ :: l => by simp [table, length_table (i + 1) l]

theorem setDef_table (name : String) (ops : List Op) : ∀ (i : Nat) (l : List (String × List Op)), name ∉ l.map Prod.fst →
    setDef name ⟨4 + (i + l.length), ops.filter Op.isOp⟩ (table i l) = table i (l ++ [(name, ops)])
  | i, [], _ => rfl
  | i, p :: l, h => by
    simp only [List.map_cons, List.mem_cons, not_or] at h
    have := setDef_table name ops (i + 1) l h.2
    have e : i + 1 + l.length = i + (p :: l).length := by simp; omega
    rw [e] at this
    simp only [table, setDef, List.cons_append]
    rw [if_neg (fun he => h.1 he.symm), this]

theorem getDef_table (name : String) : ∀ (i : Nat) (l : List (String × List Op)), name ∈ l.map Prod.fst →
    ∃ j, j < l.length ∧ getDef name (table i l) = some ⟨4 + (i + j), (abbrevOf name l).filter Op.isOp⟩ ∧
      (l.map Prod.snd)[j]? = some (abbrevOf name l)
  | i, [], h => absurd h (by simp)
  | i, p :: l, h => by
    by_cases hp : p.1 = name
    · exact ⟨0, by simp, by simp [table, getDef, abbrevOf, hp], by simp [abbrevOf, hp]⟩
    · have hm : name ∈ l.map Prod.fst := by
        simp only [List.map_cons, List.mem_cons] at h
        rcases h with h | h
        · exact absurd h.symm hp
        · exact h
      obtain ⟨j, h1, h2, h3⟩ := getDef_table name (i + 1) l hm
      refine ⟨j + 1, by simp; omega, ?_, ?_⟩
      · simp only [table, getDef, abbrevOf, if_neg hp]
        rw [h2]
        congr 3
        omega
      · simpa [abbrevOf, hp] using h3

end Verif.Bitcode
