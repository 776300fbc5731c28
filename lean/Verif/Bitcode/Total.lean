import Verif.Bitcode.Items

/-!
# Programs that use the writer as they should do not fail
-/

namespace Verif.Bitcode

/-- Whether it fails does not depend on the stream, and it leaves the abbreviations alone. -/
def Steady (f : W) : Prop := ∀ s t, (f s).isSome = true → ∃ t', f t = some t' ∧ t'.defs = t.defs

theorem steady_fixed (bits : Nat) (v : BitVec 64) : Steady (writeFixed bits v) := by
  intro s t _
  refine ⟨_, rfl, ?_⟩
  simp only [flush, writeBytes]
  split <;> rfl

theorem steady_align : Steady align := by
  intro s t _
  refine ⟨_, rfl, ?_⟩
  simp only [flush, writeBytes]
  split <;> rfl

theorem steady_some : Steady some := fun _ t _ => ⟨t, rfl, rfl⟩

theorem steady_none : Steady (fun _ => none) := fun _ _ h => absurd h (by simp)

theorem Steady.seq {f g : W} (hf : Steady f) (hg : Steady g) : Steady (W.seq f g) := by
  intro s t h
  simp only [W.seq] at h ⊢
  cases hs : f s with
  | none => rw [hs] at h; exact absurd h (by simp)
  | some s1 =>
    rw [hs] at h
    obtain ⟨t1, h1, d1⟩ := hf s t (by rw [hs]; rfl)
    obtain ⟨t2, h2, d2⟩ := hg s1 t1 h
    exact ⟨t2, by rw [h1]; exact h2, d2.trans d1⟩

theorem steady_each {α : Type} {f : α → W} (h : ∀ a, Steady (f a)) : ∀ l, Steady (forEach f l)
  | [] => steady_some
  | a :: l => (h a).seq (steady_each h l)

theorem steady_vbrLoop (bits : Nat) (limit mask : BitVec 64) : ∀ n v, Steady (vbrLoop bits limit mask n v)
  | 0, _ => steady_none
  | n + 1, v => by
    rw [vbrLoop]
    split
    · exact steady_fixed _ _
    · exact (steady_fixed _ _).seq (steady_vbrLoop bits limit mask n _)

theorem steady_auxLoop (bits : Nat) (limit mask : BitVec 64) : ∀ n v w, Steady (auxLoop bits limit mask n v w)
  | 0, _, _ => steady_none
  | n + 1, v, w => by
    rw [auxLoop]
    split
    · exact steady_fixed _ _
    · exact (steady_fixed _ _).seq (steady_auxLoop bits limit mask n _ _)

theorem steady_vbr (bits : Nat) : ∀ v, Steady (writeVbr bits v)
  | .word _ => steady_vbrLoop _ _ _ _ _
  | .double _ _ => steady_auxLoop _ _ _ _ _ _

theorem steady_nat (bits n : Nat) : Steady (writeVbrNat bits n) := steady_vbrLoop _ _ _ _ _

theorem steady_scalar (bits : Nat) : ∀ v, Steady (writeFixedScalar bits v)
  | .word _ => steady_fixed _ _
  | .double _ _ => steady_none

theorem steady_char6 : ∀ v, Steady (writeChar6 v)
  | .word c => by
    rw [writeChar6]
    split
    · exact steady_fixed _ _
    · exact steady_none
  | .double _ _ => steady_none

theorem steady_op : ∀ o, Steady (encodeOp o)
  | .literal _ => (steady_fixed _ _).seq (steady_fixed _ _)
  | .fixed _ => (steady_fixed _ _).seq ((steady_fixed _ _).seq (steady_nat _ _))
  | .vbr _ => (steady_fixed _ _).seq ((steady_fixed _ _).seq (steady_nat _ _))
  | .array => (steady_fixed _ _).seq (steady_fixed _ _)
  | .char6 => (steady_fixed _ _).seq (steady_fixed _ _)
  | .blob => (steady_fixed _ _).seq (steady_fixed _ _)

theorem padLoop_defs : ∀ n s, (padLoop n s).defs = s.defs
  | 0, _ => rfl
  | n + 1, s => by
    rw [padLoop]
    split
    · rw [padLoop_defs n]
      rfl
    · rfl

theorem steady_blob (l : List Scalar) : Steady (writeBlob l) := by
  intro s t h
  simp only [writeBlob] at h ⊢
  cases hb : bytesOf l with
  | none => rw [hb] at h; exact absurd h (by simp)
  | some b =>
    rw [hb] at h
    simp only [Option.bind_some] at h ⊢
    have hp : Steady (fun s => some (padLoop 3 (writeBytes b s))) := by
      intro _ t _
      exact ⟨_, rfl, padLoop_defs 3 _⟩
    exact ((steady_nat _ _).seq steady_align).seq hp s t h

theorem steady_operand : ∀ o, Steady (writeOperand o)
  | .one _ => steady_vbr _ _
  | .many _ => steady_each (steady_vbr _) _

theorem steady_element : ∀ o v, Steady (writeElement o v)
  | .fixed _, v => steady_scalar _ v
  | .vbr _, v => steady_vbr _ v
  | .char6, v => steady_char6 v
  | .literal _, _ => steady_none
  | .array, _ => steady_none
  | .blob, _ => steady_none

theorem steady_ops : ∀ ops vs, Steady (writeOps ops vs) := by
  intro ops vs
  fun_induction writeOps ops vs with
  | case1 => exact steady_some
  | case2 _ _ _ _ ih => exact (steady_scalar _ _).seq ih
  | case3 _ _ _ _ ih => exact (steady_vbr _ _).seq ih
  | case4 _ _ _ ih => exact (steady_char6 _).seq ih
  | case5 _ _ _ _ ih => exact ((steady_nat _ _).seq (steady_each (steady_element _) _)).seq ih
  | case6 _ _ _ ih => exact (steady_blob _).seq ih
  | case7 => exact steady_none

theorem inv_start : Inv start := ⟨by decide, by decide, by decide, by decide⟩

/-- A writer with a reader does not fail on any stream. -/
theorem total_of {α : Type} {f : W} {r : R α} {a : α} (h : WR f r a) (hf : Steady f) (t : Stream) :
    ∃ t', f t = some t' ∧ t'.defs = t.defs := by
  obtain ⟨u, _, hu, _⟩ := h start inv_start
  exact hf start t (by rw [hu]; rfl)

theorem total_id (id : Nat) (t : Stream) : ∃ t', writeId id t = some t' ∧ t'.defs = t.defs :=
  steady_fixed t.width (BitVec.ofNat 64 id) t t rfl

theorem total_seq {f g : W} {t : Stream} (hf : ∃ t', f t = some t' ∧ t'.defs = t.defs)
    (hg : ∀ t, ∃ t', g t = some t' ∧ t'.defs = t.defs) : ∃ t', W.seq f g t = some t' ∧ t'.defs = t.defs := by
  obtain ⟨t1, h1, d1⟩ := hf
  obtain ⟨t2, h2, d2⟩ := hg t1
  exact ⟨t2, by simp only [W.seq, h1, Option.bind_some, h2], d2.trans d1⟩

theorem total_record {code : BitVec 64} {operands : List Operand} (width : Nat) (defs : List (String × List Op))
    (hok : (Item.record code operands).ok width defs) (t : Stream) :
    ∃ t', (Item.record code operands).run t = some t' ∧ t'.defs = t.defs := by
  simp only [Item.ok] at hok
  rw [Item.run, writeRecord]
  refine total_seq (total_seq (total_id 3 t) fun t => ?_) fun t => ?_
  · refine total_seq (total_of (wr_word (n := 6) (by omega) (by omega) code) (steady_vbrLoop _ _ _ _ _) t) fun t => ?_
    refine total_of (wr_nat (n := 6) (by omega) (by omega) ?_) (steady_nat _ _) t
    rw [count_eq hok.2]
    exact hok.1
  · exact total_of (wr_operands operands) (steady_each steady_operand _) t

theorem total_enter (id : BitVec 64) {w : Nat} (hw : w ≤ 32) (t : Stream) :
    ∃ p : Stream × Nat, enter id w t = some p ∧ p.1.defs = [] := by
  obtain ⟨t1, h1, _⟩ := total_id 1 t
  obtain ⟨t2, h2, _⟩ := total_of (wr_word (n := 8) (by omega) (by omega) id) (steady_vbrLoop _ _ _ _ _) t1
  obtain ⟨t3, h3, d3⟩ := total_of (wr_nat (n := 4) (by omega) (by omega) (v := w) (by omega)) (steady_nat _ _)
    { t2 with width := w, defs := [] }
  obtain ⟨t4, h4, d4⟩ := steady_align t3 t3 rfl
  obtain ⟨t5, h5, d5⟩ := steady_fixed 32 0 t4 t4 rfl
  refine ⟨(t5, t4.pos), ?_, ?_⟩
  · have h2' : writeVbrWord 8 id t1 = some t2 := h2
    simp only [enter, W.seq, h1, h2', h3, h4, h5, Option.bind_some, Option.map_some]
  · show t5.defs = []
    rw [d5, d4, d3]

theorem total_leave (o : Stream) (patch : Nat) (t : Stream) : ∃ t', leave o patch t = some t' ∧ t'.defs = o.defs := by
  obtain ⟨t1, h1, _⟩ := total_id 0 t
  obtain ⟨t2, h2, _⟩ := steady_align t1 t1 rfl
  obtain ⟨t3, h3, _⟩ := steady_fixed 32 (BitVec.ofNat 64 ((t2.pos - patch - 4) / 4)) { t2 with pos := patch }
    { t2 with pos := patch } rfl
  exact ⟨{ t3 with pos := t2.pos, width := o.width, defs := o.defs }, by
    simp only [leave, W.seq, h1, h2, h3, Option.bind_some, Option.map_some], rfl⟩

mutual
theorem total_item : ∀ (i : Item) {width : Nat} {defs : List (String × List Op)} {s : Stream}, s.defs = table 0 defs →
    DefsOk defs → i.ok width defs → ∃ s', i.run s = some s' ∧ s'.defs = table 0 (nextDefs defs i)
  | .record _ _, width, defs, s, hd, _, hok => by
    obtain ⟨s', h1, h2⟩ := total_record width defs hok s
    exact ⟨s', h1, h2.trans hd⟩
  | .define name ops, _, defs, s, hd, _, hok => by
    simp only [Item.ok] at hok
    have h := total_seq (total_id 2 { s with defs := setDef name ⟨4 + s.defs.length, ops.filter Op.isOp⟩ s.defs })
      (g := W.seq (writeVbrNat 5 ops.length) (forEach encodeOp ops)) (fun t => total_seq
        (total_of (wr_nat (n := 5) (by omega) (by omega) hok.2.1) (steady_nat _ _) t) fun t =>
        total_of (wr_each (f := encodeOp) (r := readOp) (v := id) ops
          (fun o ho => wr_op (hok.2.2 o ho) (op_width (hok.2.2 o ho)))) (steady_each steady_op _) t)
    obtain ⟨t', h1, h2⟩ := h
    refine ⟨t', ?_, ?_⟩
    · rw [Item.run]
      exact h1
    · rw [h2]
      show setDef name ⟨4 + s.defs.length, ops.filter Op.isOp⟩ s.defs = _
      rw [hd, length_table]
      have := setDef_table name ops 0 defs hok.1
      rw [Nat.zero_add] at this
      exact this
  | .short name values, _, defs, s, hd, hdo, hok => by
    simp only [Item.ok] at hok
    obtain ⟨h1, h2, h3⟩ := hok
    obtain ⟨j, hj, hget, habb⟩ := getDef_table name 0 defs h1
    rw [Item.run, writeShort, hd, hget]
    simp only [Option.bind_some]
    obtain ⟨t', h1, h2⟩ := total_seq (total_id (4 + (0 + j)) s)
      (fun t => total_of (wr_ops _ _ h3 (abbrevOf_ok hdo)) (steady_ops _ _) t)
    exact ⟨t', h1, h2.trans hd⟩
  | .block id w items, _, _, s, hd, _, hok => by
    rw [Item.ok] at hok
    obtain ⟨p, h1, d1⟩ := total_enter id hok.2.1 s
    obtain ⟨t, h2⟩ := total_all items (s := p.1) (defs := []) d1 (fun p hp => absurd hp (by simp)) hok.2.2
    obtain ⟨u, h3, d3⟩ := total_leave s p.2 t
    refine ⟨u, ?_, d3.trans hd⟩
    rw [Item.run]
    simp only [h1, h2, h3, Option.bind_some]
theorem total_all : ∀ (l : List Item) {width : Nat} {defs : List (String × List Op)} {s : Stream}, s.defs = table 0 defs →
    DefsOk defs → okAll width defs l → ∃ s', runAll l s = some s'
  | [], _, _, s, _, _, _ => ⟨s, by rw [runAll]⟩
  | i :: l, _, _, s, hd, hdo, hok => by
    obtain ⟨hi, hl⟩ := okAll_cons hok
    obtain ⟨t, h1, d1⟩ := total_item i hd hdo hi
    obtain ⟨u, h2⟩ := total_all l d1 (defsOk_next hdo hi) hl
    exact ⟨u, by simp only [runAll, W.seq, h1, Option.bind_some, h2]⟩
end

end Verif.Bitcode
