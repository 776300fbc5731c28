import Verif.Bitcode.Lemmas

/-! Items and blocks. -/

namespace Verif.Bitcode

/-! ### Streams only grow -/

/-- The writer does not make the file shorter. -/
def Mono (f : W) : Prop := ∀ s s', f s = some s' → s.bytes.length ≤ s'.bytes.length

theorem Mono.seq {f g : W} (hf : Mono f) (hg : Mono g) : Mono (W.seq f g) := by
  intro s s' h
  simp only [W.seq, Option.bind_eq_some_iff] at h
  obtain ⟨t, h1, h2⟩ := h
  exact Nat.le_trans (hf s t h1) (hg t s' h2)

theorem mono_some : Mono some := fun s s' h => by
  rw [Option.some.injEq] at h
  rw [h]
  exact Nat.le_refl _

theorem mono_none : Mono fun _ => none := fun s s' h => by simp at h

theorem writeBytes_length (b : List (BitVec 8)) (s : Stream) : s.bytes.length ≤ (writeBytes b s).bytes.length := by
  simp only [writeBytes, List.length_append, List.length_take, List.length_drop]
  omega

theorem mono_fixed (n : Nat) (v : BitVec 64) : Mono (writeFixed n v) := by
  intro s s' h
  simp only [writeFixed, Option.some.injEq] at h
  rw [← h]
  split
  · exact writeBytes_length _ { s with acc := s.acc ||| v <<< s.size, size := s.size + n }
  · exact Nat.le_refl _

theorem mono_id (id : Nat) : Mono (writeId id) := fun s s' h => mono_fixed _ _ s s' h

theorem mono_vbrLoop (n : Nat) (l m : BitVec 64) : ∀ k v, Mono (vbrLoop n l m k v)
  | 0, _ => mono_none
  | k + 1, v => by
    rw [vbrLoop]
    split
    · exact mono_fixed _ _
    · exact (mono_fixed _ _).seq (mono_vbrLoop n l m k _)

theorem mono_auxLoop (n : Nat) (l m : BitVec 64) : ∀ k v w, Mono (auxLoop n l m k v w)
  | 0, _, _ => mono_none
  | k + 1, v, w => by
    rw [auxLoop]
    split
    · exact mono_fixed _ _
    · exact (mono_fixed _ _).seq (mono_auxLoop n l m k _ _)

theorem mono_word (n : Nat) (v : BitVec 64) : Mono (writeVbrWord n v) := mono_vbrLoop _ _ _ _ _

theorem mono_vbr (n : Nat) (v : Scalar) : Mono (writeVbr n v) := by
  cases v with
  | word w => exact mono_word n w
  | double l h => exact mono_auxLoop _ _ _ _ _ _

theorem mono_scalar (n : Nat) (v : Scalar) : Mono (writeFixedScalar n v) := by
  cases v with
  | word w => exact mono_fixed n w
  | double l h => exact mono_none

theorem mono_each {α : Type} {f : α → W} (h : ∀ a, Mono (f a)) : ∀ l, Mono (forEach f l)
  | [] => mono_some
  | a :: l => (h a).seq (mono_each h l)

theorem mono_align : Mono align := by
  intro s s' h
  simp only [align, Option.some.injEq] at h
  rw [← h]
  split
  · exact Nat.le_refl _
  · exact writeBytes_length _ s

theorem mono_char6 (v : Scalar) : Mono (writeChar6 v) := by
  cases v with
  | word w =>
    simp only [writeChar6]
    split
    · exact mono_fixed _ _
    · exact mono_none
  | double l h => exact mono_none

theorem padLoop_length : ∀ n s, s.bytes.length ≤ (padLoop n s).bytes.length
  | 0, s => Nat.le_refl _
  | n + 1, s => by
    rw [padLoop]
    split
    · exact Nat.le_trans (writeBytes_length _ s) (padLoop_length n _)
    · exact Nat.le_refl _

theorem mono_blob (l : List Scalar) : Mono (writeBlob l) := by
  intro s s' h
  simp only [writeBlob, Option.bind_eq_some_iff] at h
  obtain ⟨b, _, h⟩ := h
  refine ((mono_word _ _).seq mono_align).seq ?_ s s' h
  intro s s' h
  rw [Option.some.injEq] at h
  rw [← h]
  exact Nat.le_trans (writeBytes_length b s) (padLoop_length 3 _)

theorem mono_encode (o : Op) : Mono (encodeOp o) := by
  cases o
  · exact (mono_fixed _ _).seq (mono_fixed _ _)
  · exact (mono_fixed _ _).seq ((mono_fixed _ _).seq (mono_word _ _))
  · exact (mono_fixed _ _).seq ((mono_fixed _ _).seq (mono_word _ _))
  · exact (mono_fixed _ _).seq (mono_fixed _ _)
  · exact (mono_fixed _ _).seq (mono_fixed _ _)
  · exact (mono_fixed _ _).seq (mono_fixed _ _)

theorem mono_operand (o : Operand) : Mono (writeOperand o) := by
  cases o with
  | one s => exact mono_vbr _ _
  | many l => exact mono_each (fun s => mono_vbr _ s) l

theorem mono_element (o : Op) (v : Scalar) : Mono (writeElement o v) := by
  cases o
  · exact mono_none
  · exact mono_scalar _ _
  · exact mono_vbr _ _
  · exact mono_none
  · exact mono_char6 _
  · exact mono_none

theorem mono_ops (ops : List Op) (vs : List Operand) : Mono (writeOps ops vs) := by
  fun_induction writeOps ops vs with
  | case1 => exact mono_some
  | case2 w ops v vs ih => exact (mono_scalar _ _).seq ih
  | case3 w ops v vs ih => exact (mono_vbr _ _).seq ih
  | case4 ops v vs ih => exact (mono_char6 _).seq ih
  | case5 aop ops l vs ih => exact ((mono_word _ _).seq (mono_each (mono_element aop) l)).seq ih
  | case6 ops l vs ih => exact (mono_blob _).seq ih
  | case7 => exact mono_none

theorem mono_enter {id : BitVec 64} {w : Nat} {s : Stream} {p : Stream × Nat} (h : enter id w s = some p) :
    s.bytes.length ≤ p.1.bytes.length := by
  simp only [enter, Option.bind_eq_some_iff, Option.map_eq_some_iff] at h
  obtain ⟨t, h1, u, h2, rfl⟩ := h
  refine Nat.le_trans ?_ (mono_fixed _ _ _ _ h2)
  refine (((mono_id 1).seq (mono_word 8 id)).seq (Mono.seq ?_ mono_align)) s t h1
  intro a b hab
  exact mono_word _ _ { a with width := w, defs := [] } b hab

theorem mono_leave {o s s' : Stream} {p : Nat} (h : leave o p s = some s') : s.bytes.length ≤ s'.bytes.length := by
  simp only [leave, Option.bind_eq_some_iff, Option.map_eq_some_iff] at h
  obtain ⟨t, h1, u, h2, rfl⟩ := h
  exact Nat.le_trans (((mono_id 0).seq mono_align) s t h1) (mono_fixed _ _ { t with pos := p } u h2)

mutual
theorem mono_item : ∀ i : Item, Mono i.run
  | .record code operands => by
    rw [Item.run]
    exact ((mono_id _).seq ((mono_word _ _).seq (mono_word _ _))).seq (mono_each mono_operand _)
  | .define name ops => by
    intro s s' h
    rw [Item.run] at h
    exact ((mono_id _).seq ((mono_word _ _).seq (mono_each mono_encode _)))
      { s with defs := setDef name ⟨4 + s.defs.length, ops.filter Op.isOp⟩ s.defs } s' h
  | .short name values => by
    intro s s' h
    rw [Item.run] at h
    simp only [writeShort, Option.bind_eq_some_iff] at h
    obtain ⟨d, _, h⟩ := h
    exact ((mono_id _).seq (mono_ops _ _)) s s' h
  | .block id w items => by
    intro s s' h
    rw [Item.run] at h
    simp only [Option.bind_eq_some_iff] at h
    obtain ⟨p, h1, t, h2, h3⟩ := h
    exact Nat.le_trans (mono_enter h1) (Nat.le_trans (mono_all items p.1 t h2) (mono_leave h3))
theorem mono_all : ∀ l : List Item, Mono (runAll l)
  | [] => by rw [runAll]; exact mono_some
  | i :: l => by rw [runAll]; exact (mono_item i).seq (mono_all l)
end

/-! ### Items -/

/-- The reader returns the items and the rest, with any bound from `k` on. -/
def RI (top : Bool) (width : Nat) (abbrevs : List (List Op)) (k : Nat) (bits : List Bool) (l : List Data)
    (rest : List Bool) : Prop := ∀ k1, k ≤ k1 → readItems k1 top width abbrevs bits = some (l, rest)

/-- What was written is read as `d`, with the definitions before and after. -/
def Good (top : Bool) (width : Nat) (defs defs' : List (String × List Op)) (s s' : Stream) (d : List Data) : Prop :=
  ∃ e, Inv s' ∧ content s' = content s ++ e ∧ s.bytes <+: s'.bytes ∧ s'.width = s.width ∧ s'.defs = table 0 defs' ∧
    ∀ rest l rest' k, ((content s').length + rest.length) % 32 = 0 → RI top width (defs'.map Prod.snd) k rest l rest' →
      RI top width (defs.map Prod.snd) (k + e.length) (e ++ rest) (d ++ l) rest'

/-- An item that begins with an abbreviation id. -/
theorem good_simple {top : Bool} {width id : Nat} {defs defs' : List (String × List Op)} {s s0 s' : Stream} {d : List Data}
    (hw : 2 ≤ width) (hw2 : width ≤ 32) (hid : id < 2 ^ width) {α : Type} {g : W} {r : R α} {a : α} (hg : WR g r a)
    (hs : Inv s) (h0 : s0 = { s with defs := s0.defs }) (hd : s0.defs = table 0 defs') (hsw : s.width = width)
    (hrun : W.seq (writeId id) g s0 = some s')
    (hread : ∀ k l rest rest' bits, readItems k top width (defs'.map Prod.snd) rest = some (l, rest') →
      r bits = some (a, rest) → ∀ e0 : List Bool, e0 ≠ [] → readFixed width e0 = some (id, bits) →
      readItems (k + 1) top width (defs.map Prod.snd) e0 = some (d ++ l, rest')) :
    Good top width defs defs' s s' d := by
  have hs0 : Inv s0 := by
    rw [h0]
    exact ⟨hs.size_lt, hs.acc_lt, hs.whole, hs.pos_eq⟩
  have hc0 : content s0 = content s := by rw [h0]; rfl
  have hb0 : s0.bytes = s.bytes := by rw [h0]
  have hw0 : s0.width = width := by rw [h0]; exact hsw
  have hidn : (BitVec.ofNat 64 id).toNat = id := by
    rw [BitVec.toNat_ofNat]
    apply Nat.mod_eq_of_lt
    exact Nat.lt_trans hid (Nat.pow_lt_pow_right (by decide) (by omega))
  obtain ⟨t, e1, ht, w1, r1⟩ := wr_fixed (n := width) (v := BitVec.ofNat 64 id) hw2 (by rw [hidn]; exact hid) s0 hs0
  obtain ⟨u, e2, hu, w2, r2⟩ := hg t w1.inv
  have hs' : s' = u := by
    have : W.seq (writeId id) g s0 = some u := by
      simp only [W.seq, writeId]
      rw [hw0, ht]
      exact hu
    rw [this, Option.some.injEq] at hrun
    exact hrun.symm
  have w := w1.trans w2
  subst hs'
  have hne : 1 ≤ e1.length := by
    rcases Nat.eq_zero_or_pos e1.length with h | h
    · have hc := w1.content_eq
      have he : e1 = [] := List.length_eq_zero_iff.1 h
      have := r1 [] 
      exfalso
      have hx : ∀ m : Nat, ((content t).length + m) % 32 = 0 → width ≤ m := by
        intro m hm
        have := r1 (List.replicate m false) (by rw [List.length_replicate]; exact hm)
        rw [he, List.nil_append] at this
        unfold readFixed at this
        split at this
        · rename_i hle
          rwa [List.length_replicate] at hle
        · exact absurd this (by simp)
      have h1 := r1 (List.replicate (32 - (content t).length % 32) false) (by rw [List.length_replicate]; omega)
      rw [he, List.nil_append] at h1
      unfold readFixed at h1
      split at h1
      · simp only [Option.some.injEq, Prod.mk.injEq] at h1
        have := congrArg List.length h1.2
        simp only [List.length_drop, List.length_replicate] at this
        have := hx (32 - (content t).length % 32) (by omega)
        omega
      · exact absurd h1 (by simp)
    · exact h
  refine ⟨e1 ++ e2, w.inv, by rw [w.content_eq, hc0], by rw [← hb0]; exact w.pre, by rw [w.width_eq, hw0, hsw],
    by rw [w.defs_eq, hd], ?_⟩
  intro rest l rest' k hal hri k1 hk1
  rw [List.length_append] at hk1
  obtain ⟨k2, rfl⟩ : ∃ k2, k1 = k2 + 1 := ⟨k1 - 1, by omega⟩
  have hc2 := congrArg List.length w2.content_eq
  rw [List.length_append] at hc2
  have hr1 := r1 (e2 ++ rest) (by rw [List.length_append]; omega)
  rw [hidn] at hr1
  rw [List.append_assoc]
  apply hread k2 l rest rest' (e2 ++ rest) (hri k2 (by omega)) (r2 rest hal) _ _ hr1
  intro h
  have := congrArg List.length h
  simp only [List.length_append, List.length_nil] at this
  omega

theorem bind_some {α β : Type} {r : R α} {f : α → R β} {bits rest : List Bool} {a : α} (h : r bits = some (a, rest)) :
    R.bind r f bits = f a rest := by
  simp only [R.bind, h]

theorem readItems_succ (k : Nat) (top : Bool) (width : Nat) (abbrevs : List (List Op)) {bits rest : List Bool} {id : Nat}
    (hne : bits ≠ []) (h : readFixed width bits = some (id, rest)) : readItems (k + 1) top width abbrevs bits =
      (if id = 0 then R.bind readAlign fun _ => R.pure []
      else if id = 1 then
        R.bind (readVbr 8) fun block => R.bind (readVbr 4) fun w => R.bind readAlign fun _ =>
          R.bind (readFixed 32) fun words => fun bits =>
            R.bind (readItems k false w []) (fun body => fun rest =>
              if bits.length = 32 * words + rest.length then
                R.bind (readItems k top width abbrevs) (fun l => R.pure (.block block body :: l)) rest
              else none) bits
      else if id = 2 then
        R.bind (readVbr 5) fun n => R.bind (times readOp n) fun ops => readItems k top width (abbrevs ++ [ops])
      else if id = 3 then
        R.bind (readVbr 6) fun code => R.bind (readVbr 6) fun n => R.bind (times (readVbr 6) n) fun fields =>
          R.bind (readItems k top width abbrevs) fun l => R.pure (.record (code :: fields) :: l)
      else match abbrevs[id - 4]? with
        | none => fun _ => none
        | some ops => R.bind (readOps ops) fun fields =>
          R.bind (readItems k top width abbrevs) fun l => R.pure (.record fields :: l)) rest := by
  rw [readItems]
  exact (if_neg (fun hh => hne hh.2)).trans (bind_some h)

theorem pow_width {width : Nat} (h : 2 ≤ width) : 4 ≤ 2 ^ width :=
  Nat.pow_le_pow_right (n := 2) (by decide) h

/-- The definitions after an item. -/
def nextDefs (defs : List (String × List Op)) : Item → List (String × List Op)
  | .define name ops => defs ++ [(name, ops)]
  | _ => defs

theorem okAll_cons {width : Nat} {defs : List (String × List Op)} {i : Item} {l : List Item}
    (h : okAll width defs (i :: l)) : i.ok width defs ∧ okAll width (nextDefs defs i) l := by
  cases i <;> simpa [okAll, nextDefs] using h

theorem meaningAll_cons (defs : List (String × List Op)) (i : Item) (l : List Item) :
    meaningAll defs (i :: l) = i.meaning defs ++ meaningAll (nextDefs defs i) l := by
  cases i <;> simp [meaningAll, nextDefs, Item.meaning]

/-- All definitions are of the right form. -/
def DefsOk (defs : List (String × List Op)) : Prop := ∀ p ∈ defs, ∀ o ∈ p.2, o.ok

theorem abbrevOf_ok {name : String} : ∀ {defs : List (String × List Op)}, DefsOk defs → ∀ o ∈ abbrevOf name defs, o.ok
  | [], _ => by simp [abbrevOf]
  | p :: l, h => by
    unfold abbrevOf
    split
    · exact h p (by simp)
    · exact abbrevOf_ok fun q hq => h q (by simp [hq])

theorem defsOk_next {width : Nat} {defs : List (String × List Op)} {i : Item} (h : DefsOk defs) (hi : i.ok width defs) :
    DefsOk (nextDefs defs i) := by
  cases i with
  | define name ops =>
    simp only [Item.ok] at hi
    intro p hp
    rcases List.mem_append.1 hp with hp | hp
    · exact h p hp
    · rw [List.mem_singleton.1 hp]
      exact hi.2.2
  | _ => exact h

theorem good_record {top : Bool} {width : Nat} {defs : List (String × List Op)} {code : BitVec 64} {operands : List Operand}
    {s s' : Stream} (hw : 2 ≤ width) (hw2 : width ≤ 32) (hs : Inv s) (hsw : s.width = width) (hd : s.defs = table 0 defs)
    (hok : (Item.record code operands).ok width defs) (hrun : (Item.record code operands).run s = some s') :
    Good top width defs defs s s' ((Item.record code operands).meaning defs) := by
  simp only [Item.ok] at hok
  have hrun' : W.seq (writeId 3) (W.seq (W.seq (writeVbrWord 6 code) (writeVbrNat 6 (operandCount operands)))
      (forEach writeOperand operands)) s = some s' := by
    rw [← hrun, Item.run, writeRecord]
    simp only [seq_assoc]
  have hp := pow_width hw
  have hg : WR (W.seq (W.seq (writeVbrWord 6 code) (writeVbrNat 6 (operandCount operands))) (forEach writeOperand operands))
      (R.bind (readVbr 6) fun c => R.bind (readVbr 6) fun n => R.bind (times (readVbr 6) n) fun fs => R.pure (c, fs))
      (code.toNat, operands.flatMap Operand.fields) := by
    rw [seq_assoc]
    refine WR.seq (wr_word (by omega) (by omega) code) (WR.seq (wr_nat (by omega) (by omega) ?_) ?_)
    · rw [count_eq hok.2]
      exact hok.1
    · rw [count_eq hok.2]
      exact WR.map (k := fun fs => (code.toNat, fs)) (wr_operands operands)
  refine good_simple (id := 3) (s0 := s) hw hw2 (by omega) hg hs rfl hd hsw hrun' ?_
  intro k l rest rest' bits h1 h2 e0 hne h3
  rw [readItems_succ k top width _ hne h3]
  simp only [show ¬ (3 = 0) by omega, show ¬ (3 = 1) by omega, show ¬ (3 = 2) by omega, if_false, if_true]
  simp only [R.bind] at h2 ⊢
  cases hc : readVbr 6 bits with
  | none => rw [hc] at h2; exact absurd h2 (by simp)
  | some c =>
    obtain ⟨c, b1⟩ := c
    rw [hc] at h2
    simp only at h2 ⊢
    cases hn : readVbr 6 b1 with
    | none => rw [hn] at h2; exact absurd h2 (by simp)
    | some n =>
      obtain ⟨n, b2⟩ := n
      rw [hn] at h2
      simp only at h2 ⊢
      cases hf : times (readVbr 6) n b2 with
      | none => rw [hf] at h2; exact absurd h2 (by simp)
      | some fs =>
        obtain ⟨fs, b3⟩ := fs
        rw [hf] at h2
        simp only [R.pure, Option.some.injEq, Prod.mk.injEq] at h2 ⊢
        obtain ⟨⟨rfl, rfl⟩, rfl⟩ := h2
        rw [h1]
        simp only [Item.meaning]
        rfl

theorem good_define {top : Bool} {width : Nat} {defs : List (String × List Op)} {name : String} {ops : List Op}
    {s s' : Stream} (hw : 2 ≤ width) (hw2 : width ≤ 32) (hs : Inv s) (hsw : s.width = width) (hd : s.defs = table 0 defs)
    (hok : (Item.define name ops).ok width defs) (hrun : (Item.define name ops).run s = some s') :
    Good top width defs (defs ++ [(name, ops)]) s s' [] := by
  simp only [Item.ok] at hok
  have hp := pow_width hw
  have hg : WR (W.seq (writeVbrNat 5 ops.length) (forEach encodeOp ops))
      (R.bind (readVbr 5) fun n => times readOp n) ops := by
    refine WR.seq (wr_nat (by omega) (by omega) hok.2.1) ?_
    have := wr_each (f := encodeOp) (r := readOp) (v := id) ops (fun o ho => wr_op (hok.2.2 o ho) (op_width (hok.2.2 o ho)))
    rwa [List.map_id] at this
  rw [Item.run] at hrun
  refine good_simple (id := 2) (s0 := { s with defs := setDef name ⟨4 + s.defs.length, ops.filter Op.isOp⟩ s.defs }) hw hw2
    (by omega) hg hs rfl ?_ hsw hrun ?_
  · show setDef name ⟨4 + s.defs.length, ops.filter Op.isOp⟩ s.defs = _
    rw [hd, length_table, ← setDef_table name ops 0 defs hok.1, Nat.zero_add]
  · intro k l rest rest' bits h1 h2 e0 hne h3
    rw [readItems_succ k top width _ hne h3]
    simp only [show ¬ (2 = 0) by omega, show ¬ (2 = 1) by omega, if_false, if_true]
    rw [List.map_append] at h1
    rw [← R.bind_assoc, bind_some h2]
    exact h1

theorem good_short {top : Bool} {width : Nat} {defs : List (String × List Op)} {name : String} {values : List Operand}
    {s s' : Stream} (hw2 : width ≤ 32) (hw : 2 ≤ width) (hs : Inv s) (hsw : s.width = width) (hd : s.defs = table 0 defs)
    (hdo : DefsOk defs) (hok : (Item.short name values).ok width defs) (hrun : (Item.short name values).run s = some s') :
    Good top width defs defs s s' ((Item.short name values).meaning defs) := by
  simp only [Item.ok] at hok
  obtain ⟨h1, h2, h3⟩ := hok
  obtain ⟨j, hj, hget, habb⟩ := getDef_table name 0 defs h1
  rw [Nat.zero_add] at hget
  rw [Item.run, writeShort, hd, hget] at hrun
  simp only [Option.bind_some] at hrun
  refine good_simple (id := 4 + j) (s0 := s) hw hw2 (by omega) (wr_ops _ _ h3 (abbrevOf_ok hdo)) hs rfl hd hsw hrun ?_
  intro k l rest rest' bits h1 h2 e0 hne h3
  rw [readItems_succ k top width _ hne h3]
  rw [if_neg (by omega), if_neg (by omega), if_neg (by omega), if_neg (by omega)]
  rw [show 4 + j - 4 = j by omega, habb]
  simp only
  rw [bind_some h2, bind_some h1]
  simp only [Item.meaning]
  rfl

/-- The end of a block. -/
theorem end_read {w : Nat} (hw : 2 ≤ w) (hw2 : w ≤ 32) (abbrevs : List (List Op)) {s : Stream} (hs : Inv s)
    (hsw : s.width = w) : ∃ u e, W.seq (writeId 0) align s = some u ∧ Wrote s u e ∧ u.size = 0 ∧ u.acc = 0 ∧
      ∀ rest, ((content u).length + rest.length) % 32 = 0 → RI false w abbrevs 1 (e ++ rest) [] rest := by
  have hp := pow_width hw
  obtain ⟨t, e1, ht, w1, r1⟩ := wr_fixed (n := w) (v := 0) hw2 (by simp; omega) s hs
  obtain ⟨u, e2, hu, w2, r2⟩ := wr_align t w1.inv
  obtain ⟨u0, ua⟩ := align_empty hu w1.inv
  have hrun : W.seq (writeId 0) align s = some u := by
    simp only [W.seq, writeId]
    rw [hsw, show (BitVec.ofNat 64 0) = 0 from rfl, ht]
    exact hu
  refine ⟨u, e1 ++ e2, hrun, w1.trans w2, u0, ua, ?_⟩
  intro rest hal k1 hk1
  obtain ⟨k, rfl⟩ : ∃ k, k1 = k + 1 := ⟨k1 - 1, by omega⟩
  have hc2 := congrArg List.length w2.content_eq
  rw [List.length_append] at hc2
  have hr1 := r1 (e2 ++ rest) (by rw [List.length_append]; omega)
  have hr2 := r2 rest hal
  rw [List.append_assoc]
  have hne : e1 ++ (e2 ++ rest) ≠ [] := by
    intro h
    rw [h] at hr1
    unfold readFixed at hr1
    rw [if_neg (by simp; omega)] at hr1
    exact absurd hr1 (by simp)
  rw [readItems_succ k false w abbrevs hne hr1]
  rw [if_pos (by decide), bind_some hr2]
  rfl

theorem good_block {top : Bool} {width : Nat} {defs : List (String × List Op)} {id : BitVec 64} {w : Nat} {items : List Item}
    {s s' : Stream} (hw : 2 ≤ width) (hw2 : width ≤ 32) (hs : Inv s) (hsw : s.width = width) (hd : s.defs = table 0 defs)
    (hi1 : 2 ≤ w) (hi2 : w ≤ 32) (hsmall : s'.bytes.length < 2 ^ 34)
    (hbody : ∀ t t', Inv t → t.width = w → t.defs = table 0 [] → runAll items t = some t' → t'.bytes.length < 2 ^ 34 →
      ∃ defs', Good false w [] defs' t t' (meaningAll [] items))
    (hrun : (Item.block id w items).run s = some s') :
    Good top width defs defs s s' [.block id.toNat (meaningAll [] items)] := by
  have hp := pow_width hw
  obtain ⟨s1, e1, hs1, w1, r1⟩ := wr_fixed (n := width) (v := 1) hw2 (by simp; omega) s hs
  obtain ⟨s2, e2, hs2, w2, r2⟩ := wr_word (n := 8) (by omega) (by omega) id s1 w1.inv
  have inv2 : Inv { s2 with width := w, defs := [] } :=
    ⟨w2.inv.size_lt, w2.inv.acc_lt, w2.inv.whole, w2.inv.pos_eq⟩
  obtain ⟨s3, e3, hs3, w3, r3⟩ := wr_nat (n := 4) (by omega) (by omega) (v := w) (by omega) _ inv2
  obtain ⟨s4, e4, hs4, w4, r4⟩ := wr_align s3 w3.inv
  obtain ⟨z4, a4⟩ := align_empty hs4 w3.inv
  obtain ⟨t, ht, w5⟩ := writeFixed_wrote w4.inv (bits := 32) (v := 0) (by omega) (by decide)
  have henter : enter id w s = some (t, s4.pos) := by
    have h1 : W.seq (writeId 1) (writeVbrWord 8 id) s = some s2 := by
      simp only [W.seq, writeId]
      rw [hsw, show (BitVec.ofNat 64 1) = 1 from rfl, hs1]
      exact hs2
    have h2 : W.seq (fun s => writeVbrNat 4 w { s with width := w, defs := [] }) align s2 = some s4 := by
      simp only [W.seq]
      rw [hs3]
      exact hs4
    simp only [enter]
    have : W.seq (W.seq (writeId 1) (writeVbrWord 8 id))
        (W.seq (fun s => writeVbrNat 4 w { s with width := w, defs := [] }) align) s = some s4 := by
      show (W.seq (writeId 1) (writeVbrWord 8 id) s).bind _ = _
      rw [h1]
      exact h2
    rw [this]
    simp only [Option.bind_some]
    rw [show writeFixed 32 0 s4 = some t from ht]
    rfl
  rw [Item.run] at hrun
  simp only [henter, Option.bind_some, Option.bind_eq_some_iff] at hrun
  obtain ⟨tb, htb, hleave⟩ := hrun
  have tw : t.width = w := by rw [w5.width_eq, w4.width_eq, w3.width_eq]
  have td : t.defs = table 0 [] := by rw [w5.defs_eq, w4.defs_eq, w3.defs_eq]; rfl
  have hml := mono_leave hleave
  obtain ⟨defs', eb, ib, cb, pb, wb, db, rb⟩ := hbody t tb w5.inv tw td htb (by omega)
  obtain ⟨u, e6, hu, w6, uz, ua, r6⟩ := end_read hi1 hi2 (defs'.map Prod.snd) ib (wb.trans tw)
  simp only [leave, hu, Option.bind_some, Option.map_eq_some_iff] at hleave
  obtain ⟨v, hv, rfl⟩ := hleave
  -- the bytes
  have t0 : t.size = 0 := by
    have h1 := length_content w5.inv
    have h2 := length_content w4.inv
    rw [w5.content_eq, List.length_append, length_bitsOf] at h1
    omega
  obtain ⟨x, hx⟩ := w5.pre
  obtain ⟨bb, hbb⟩ := pb.trans w6.pre
  have hxl : x.length = 4 := by
    have := congrArg List.length w5.content_eq
    rw [content, content, t0, z4, List.length_append, List.length_append, List.length_append, length_bitsOf, length_bitsOf,
      length_bitsOf, length_fileBits, length_fileBits, ← hx, List.length_append] at this
    omega
  have hbits : fileBits bb = eb ++ e6 := by
    have h1 : content u = content t ++ (eb ++ e6) := by rw [w6.content_eq, cb, List.append_assoc]
    rw [content, content, uz, t0, ← hbb, fileBits_append] at h1
    simpa [bitsOf] using h1
  have hbb4 : bb.length % 4 = 0 := by
    have h1 := w6.inv.whole
    have h2 := w5.inv.whole
    rw [← hbb, List.length_append] at h1
    omega
  have hu4 : u.bytes = s4.bytes ++ x ++ bb := by rw [← hbb, ← hx]
  have hL : (u.pos - s4.pos - 4) / 4 = bb.length / 4 := by
    rw [w6.inv.pos_eq, w4.inv.pos_eq, hu4, List.length_append, List.length_append, hxl]
    omega
  rw [hL] at hv
  have hflush : v = { u with bytes := s4.bytes ++ four (BitVec.ofNat 64 (bb.length / 4)) ++ bb, pos := s4.pos + 4 } := by
    have hor : (0#64 ||| BitVec.ofNat 64 (bb.length / 4) <<< 0) = BitVec.ofNat 64 (bb.length / 4) := by simp
    have hpos : s4.pos = s4.bytes.length := w4.inv.pos_eq
    simp only [writeFixed, uz, Nat.zero_add, ge_iff_le, Nat.le_refl, if_true, Nat.sub_zero, Nat.lt_irrefl, if_false,
      Option.some.injEq] at hv
    rw [← hv]
    simp only [ua, flush, writeBytes]
    rw [show (0 : BitVec 64) = 0#64 from rfl, hor]
    simp only [List.length_cons, List.length_nil, Nat.zero_add, Nat.reduceAdd, Nat.sub_self]
    rw [hu4, hpos, List.append_assoc s4.bytes x bb, List.take_left, ← List.drop_drop, List.drop_left,
      List.drop_left' hxl]
    cases u
    simp_all [four]
  have hlen : v.bytes.length = u.bytes.length := by
    rw [hflush, hu4]
    simp only [List.length_append, hxl]
    rfl
  have hsm : bb.length / 4 < 2 ^ 32 := by
    have h1 : v.bytes.length < 2 ^ 34 := hsmall
    rw [hlen, hu4, List.length_append] at h1
    omega
  have hLn : (BitVec.ofNat 64 (bb.length / 4)).toNat = bb.length / 4 := by
    rw [BitVec.toNat_ofNat]
    omega
  have hcv : content { v with pos := u.pos, width := s.width, defs := s.defs } =
      content s4 ++ (bitsOf 32 (bb.length / 4) ++ (eb ++ e6)) := by
    have e1 : content { v with pos := u.pos, width := s.width, defs := s.defs } = fileBits v.bytes := by
      rw [hflush]
      show fileBits _ ++ bitsOf u.size _ = _
      rw [uz]
      simp [bitsOf]
    have e2 : content s4 = fileBits s4.bytes := by
      rw [content, z4]
      simp [bitsOf]
    rw [e1, e2, hflush]
    simp only [fileBits_append, four_bits, hLn, hbits, List.append_assoc]
  have hc2 : content ({ s2 with width := w, defs := [] } : Stream) = content s2 := rfl
  have hpre : s.bytes <+: v.bytes := by
    have : s.bytes <+: s4.bytes := w1.pre.trans (w2.pre.trans (w3.pre.trans w4.pre))
    refine this.trans ?_
    rw [hflush]
    simp only [List.append_assoc]
    exact List.prefix_append _ _
  refine ⟨e1 ++ (e2 ++ (e3 ++ (e4 ++ (bitsOf 32 (bb.length / 4) ++ (eb ++ e6))))), ⟨?_, ?_, ?_, ?_⟩, ?_, hpre, rfl, hd, ?_⟩
  · rw [hflush]
    show u.size < 32
    omega
  · rw [hflush]
    exact w6.inv.acc_lt
  · show v.bytes.length % 4 = 0
    rw [hlen]
    exact w6.inv.whole
  · show u.pos = v.bytes.length
    rw [hlen]
    exact w6.inv.pos_eq
  · rw [hcv, w4.content_eq, w3.content_eq, hc2, w2.content_eq, w1.content_eq]
    simp only [List.append_assoc]
  · intro rest l rest' k hal hri k1 hk1
    rw [hcv] at hal
    have c4 := congrArg List.length w4.content_eq
    have c3 := congrArg List.length w3.content_eq
    have c2 := congrArg List.length w2.content_eq
    have c6 := congrArg List.length w6.content_eq
    have c5 := congrArg List.length w5.content_eq
    have cbb := congrArg List.length cb
    rw [hc2] at c3
    simp only [List.length_append, length_bitsOf] at hal c4 c3 c2 c6 c5 cbb hk1
    obtain ⟨k2, rfl⟩ : ∃ k2, k1 = k2 + 1 := ⟨k1 - 1, by omega⟩
    have hr1 := r1 (e2 ++ (e3 ++ (e4 ++ (bitsOf 32 (bb.length / 4) ++ (eb ++ (e6 ++ rest)))))) (by
      simp only [List.length_append, length_bitsOf]; omega)
    have hr2 := r2 (e3 ++ (e4 ++ (bitsOf 32 (bb.length / 4) ++ (eb ++ (e6 ++ rest))))) (by
      simp only [List.length_append, length_bitsOf]; omega)
    have hr3 := r3 (e4 ++ (bitsOf 32 (bb.length / 4) ++ (eb ++ (e6 ++ rest)))) (by
      simp only [List.length_append, length_bitsOf]; omega)
    have hr4 := r4 (bitsOf 32 (bb.length / 4) ++ (eb ++ (e6 ++ rest))) (by
      simp only [List.length_append, length_bitsOf]; omega)
    have hr5 : readFixed 32 (bitsOf 32 (bb.length / 4) ++ (eb ++ (e6 ++ rest))) = some (bb.length / 4, eb ++ (e6 ++ rest)) := by
      have hl : (bitsOf 32 (bb.length / 4)).length = 32 := length_bitsOf _ _
      unfold readFixed
      rw [if_pos (by rw [List.length_append]; omega), List.take_left' hl, List.drop_left' hl, number_bitsOf 32 _ hsm]
    have hr6 := r6 rest (by omega)
    have hne : e1 ++ (e2 ++ (e3 ++ (e4 ++ (bitsOf 32 (bb.length / 4) ++ (eb ++ (e6 ++ rest)))))) ≠ [] := by
      intro h
      have := congrArg List.length h
      simp only [List.length_append, length_bitsOf, List.length_nil] at this
      omega
    have hrb := rb (e6 ++ rest) [] rest 1 (by simp only [List.length_append]; omega) hr6 k2 (by omega)
    rw [List.append_nil, List.map_nil] at hrb
    have hlb := congrArg List.length hbits
    rw [length_fileBits, List.length_append] at hlb
    simp only [List.append_assoc]
    rw [readItems_succ k2 top width _ hne hr1]
    rw [if_neg (by decide), if_pos (by decide), bind_some hr2, bind_some hr3, bind_some hr4, bind_some hr5, bind_some hrb,
      if_pos (by simp only [List.length_append]; omega), bind_some (hri k2 (by omega))]
    rfl

mutual
theorem good_item : ∀ (i : Item) {top : Bool} {width : Nat} {defs : List (String × List Op)} {s s' : Stream}, 2 ≤ width →
    width ≤ 32 → Inv s → s.width = width → s.defs = table 0 defs → DefsOk defs → i.ok width defs → i.run s = some s' →
    s'.bytes.length < 2 ^ 34 → Good top width defs (nextDefs defs i) s s' (i.meaning defs)
  | .record _ _, _, _, _, _, _, hw, hw2, hs, hsw, hd, _, hok, hrun, _ => good_record hw hw2 hs hsw hd hok hrun
  | .define _ _, _, _, _, _, _, hw, hw2, hs, hsw, hd, _, hok, hrun, _ => by
    rw [Item.meaning]
    exact good_define hw hw2 hs hsw hd hok hrun
  | .short _ _, _, _, _, _, _, hw, hw2, hs, hsw, hd, hdo, hok, hrun, _ => good_short hw2 hw hs hsw hd hdo hok hrun
  | .block id w items, _, _, _, _, _, hw, hw2, hs, hsw, hd, _, hok, hrun, hsmall => by
    rw [Item.ok] at hok
    rw [Item.meaning]
    refine good_block hw hw2 hs hsw hd hok.1 hok.2.1 hsmall ?_ hrun
    intro t t' h1 h2 h3 h4 h5
    exact good_all items hok.1 hok.2.1 h1 h2 h3 (fun p hp => absurd hp (by simp)) hok.2.2 h4 h5
theorem good_all : ∀ (l : List Item) {top : Bool} {width : Nat} {defs : List (String × List Op)} {s s' : Stream}, 2 ≤ width →
    width ≤ 32 → Inv s → s.width = width → s.defs = table 0 defs → DefsOk defs → okAll width defs l → runAll l s = some s' →
    s'.bytes.length < 2 ^ 34 → ∃ defs', Good top width defs defs' s s' (meaningAll defs l)
  | [], _, _, defs, s, s', _, _, hs, _, hd, _, _, hrun, _ => by
    rw [runAll, Option.some.injEq] at hrun
    subst hrun
    refine ⟨defs, [], hs, by simp, List.prefix_rfl, rfl, hd, ?_⟩
    intro rest l rest' k _ h
    rw [meaningAll]
    simpa using h
  | i :: l, top, width, defs, s, s', hw, hw2, hs, hsw, hd, hdo, hok, hrun, hsmall => by
    obtain ⟨hi, hl⟩ := okAll_cons hok
    simp only [runAll, W.seq, Option.bind_eq_some_iff] at hrun
    obtain ⟨t, ht, hrun⟩ := hrun
    have hm := mono_all l t s' hrun
    obtain ⟨e, i1, c1, p1, w1, d1, r1⟩ := good_item i (top := top) hw hw2 hs hsw hd hdo hi ht (by omega)
    obtain ⟨defs', e', i2, c2, p2, w2, d2, r2⟩ := good_all l (top := top) hw hw2 i1 (w1.trans hsw) d1 (defsOk_next hdo hi) hl
      hrun hsmall
    refine ⟨defs', e ++ e', i2, by rw [c2, c1, List.append_assoc], p1.trans p2, w2.trans w1, d2, ?_⟩
    intro rest ls rest' k hal h
    have h2 := r2 rest ls rest' k hal h
    have hc := congrArg List.length c2
    rw [List.length_append] at hc
    have h1 := r1 (e' ++ rest) _ rest' _ (by rw [List.length_append]; omega) h2
    rw [meaningAll_cons, List.append_assoc, List.append_assoc, List.length_append,
      show k + (e.length + e'.length) = k + e'.length + e.length by omega]
    exact h1
end

end Verif.Bitcode
