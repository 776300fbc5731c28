/-
A sequence stream shows a part of its sequence.
-/
import Verif.SeqStream.Spec
import Mathlib.Tactic.Push
import Mathlib.Tactic.SplitIfs

namespace Verif.SeqStream

variable {α : Type}

theorem at?_nat (l : List α) (i : Nat) : at? l (i : Int) = l[i]? := by
  unfold at?
  rw [if_pos (by omega), Int.toNat_natCast]

theorem slice?_nat (l : List α) {i j : Nat} (h1 : i ≤ j) (h2 : j ≤ l.length) :
    slice? l (i : Int) (j : Int) = some ((l.drop i).take (j - i)) := by
  unfold slice?
  rw [if_pos (by omega), Int.toNat_natCast]
  congr 2; omega

theorem overwrite_length {l w : List α} {p : Nat} (h : p ≤ l.length) : (overwrite l p w).length = max l.length (p + w.length) := by
  unfold overwrite
  simp only [List.length_append, List.length_take, List.length_drop]; omega

theorem overwrite_set {l : List α} {p : Nat} {a : α} (h : p < l.length) : l.set p a = overwrite l p [a] := by
  unfold overwrite
  rw [List.set_eq_take_append_cons_drop, if_pos h]
  simp

theorem copyLoop_eq (src : List α) : ∀ (k i j : Nat) (dst : List α), i + k ≤ src.length → j + k ≤ dst.length →
    copyLoop src k (i : Int) (j : Int) dst = some (overwrite dst j ((src.drop i).take k))
  | 0, i, j, dst, _, _ => by simp [copyLoop, overwrite]
  | k + 1, i, j, dst, h1, h2 => by
    unfold copyLoop
    rw [at?_nat, List.getElem?_eq_getElem (by omega)]
    dsimp only
    rw [if_pos (by omega), Int.toNat_natCast]
    have := copyLoop_eq src k (i + 1) (j + 1) (dst.set j src[i]) (by omega) (by rw [List.length_set]; omega)
    rw [show ((i : Int) + 1) = ((i + 1 : Nat) : Int) by omega, show ((j : Int) + 1) = ((j + 1 : Nat) : Int) by omega, this]
    congr 1
    have hd : src.drop i = src[i] :: src.drop (i + 1) := List.drop_eq_getElem_cons (by omega)
    rw [hd, List.take_succ_cons, overwrite_set (by omega)]
    generalize ((src.drop (i + 1)).take k) = w
    generalize src[i] = a
    unfold overwrite
    have ht : (dst.take j).length = j := by rw [List.length_take]; omega
    have e1 : (dst.take j ++ [a] ++ dst.drop (j + [a].length)).take (j + 1) = dst.take j ++ [a] := by
      rw [List.take_append_of_le_length (by simp [ht]), List.take_of_length_le (by simp [ht])]
    have e2 : (dst.take j ++ [a] ++ dst.drop (j + [a].length)).drop (j + 1 + w.length) = dst.drop (j + (a :: w).length) := by
      rw [List.drop_append, List.drop_eq_nil_of_le (by simp [ht]), List.nil_append, List.drop_drop]
      congr 1
      simp [ht]; omega
    rw [e1, e2]
    simp

/-- The stream shows the text `t`; before its part are the elements `pre`. -/
structure View (start : Nat) (limited : Bool) (d : Dir) (s : St α) (pre : List α) (t : Text α) : Prop where
  hi : s.initial = start
  hc : s.current = start + t.pos
  hlim : s.lim = start + t.items.length
  hd : s.dir = d
  hpos : t.pos ≤ t.items.length
  seq : ∃ post, s.seq = pre ++ t.items ++ post
  hpre : pre.length = start
  lim : s.limit.isSome = limited
  ld : d ≠ .input → limited = false

theorem View.get {start : Nat} {limited : Bool} {d : Dir} {s : St α} {pre : List α} {t : Text α}
    (h : View start limited d s pre t) (hlt : t.pos < t.items.length) : at? s.seq s.current = t.items[t.pos]? := by
  obtain ⟨post, hs⟩ := h.seq
  rw [h.hc, show ((start : Int) + (t.pos : Int)) = ((start + t.pos : Nat) : Int) by omega, at?_nat, hs, List.append_assoc,
    List.getElem?_append_right (by rw [h.hpre]; omega), h.hpre, List.getElem?_append_left (by omega)]
  congr 1; omega

theorem View.length_le {start : Nat} {limited : Bool} {d : Dir} {s : St α} {pre : List α} {t : Text α}
    (h : View start limited d s pre t) : start + t.items.length ≤ s.seq.length := by
  obtain ⟨post, hs⟩ := h.seq
  rw [hs]
  simp only [List.length_append, h.hpre]; omega

theorem View.slice {start : Nat} {limited : Bool} {d : Dir} {s : St α} {pre : List α} {t : Text α}
    (h : View start limited d s pre t) {p n : Nat} (hn : p + n ≤ t.items.length) :
    (s.seq.drop (start + p)).take n = (t.items.drop p).take n := by
  obtain ⟨post, hs⟩ := h.seq
  rw [hs, List.append_assoc, ← List.drop_drop, ← h.hpre, List.drop_left, List.drop_append_of_le_length (by omega),
    List.take_append_of_le_length (by rw [List.length_drop]; omega)]

/-- Moving within the part. -/
theorem View.move {start : Nat} {limited : Bool} {d : Dir} {s : St α} {pre : List α} {t : Text α}
    (h : View start limited d s pre t) {p : Nat} (hp : p ≤ t.items.length) {c : Int} (hc : c = start + p) :
    View start limited d { s with current := c } pre { t with pos := p } :=
  ⟨h.hi, hc, h.hlim, h.hd, hp, h.seq, h.hpre, h.lim, h.ld⟩

theorem View.final {start : Nat} {d : Dir} {s : St α} {pre : List α} {t : Text α}
    (h : View start false d s pre t) : s.limit = none ∧ s.final = start + t.items.length := by
  have hn : s.limit = none := by have := h.lim; rw [Option.isSome_eq_false_iff, Option.isNone_iff_eq_none] at this; exact this
  refine ⟨hn, ?_⟩
  have := h.hlim
  unfold St.lim at this
  rw [hn] at this
  exact this

theorem growLoop_eq (s : St α) (r : Int) : ∃ extra, growLoop 2 s r = some { s with seq := s.seq ++ extra } ∧
    r ≤ (s.seq ++ extra).length := by
  unfold growLoop
  by_cases h : (s.seq.length : Int) < r
  · rw [if_pos h]
    have hg : ∃ extra, grow s r = s.seq ++ extra ∧ r ≤ (s.seq ++ extra).length := by
      unfold grow
      split_ifs
      · refine ⟨_, by rw [List.take_of_length_le (by omega)], ?_⟩
        rw [List.length_append, List.length_replicate]; omega
      · refine ⟨_, rfl, ?_⟩
        rw [List.length_append, List.length_replicate]; omega
    obtain ⟨extra, e, hl⟩ := hg
    refine ⟨extra, ?_, hl⟩
    unfold growLoop
    dsimp only
    rw [e, if_neg (by omega)]
  · rw [if_neg h]
    exact ⟨[], by simp, by simp; omega⟩

/-- The sequence after `w` was put over the position. -/
theorem View.put {start : Nat} {d : Dir} {s : St α} {pre : List α} {t : Text α} (h : View start false d s pre t)
    (w extra : List α) {cur fin : Int} (hcur : cur = start + t.pos + w.length)
    (hf : fin = max s.final cur) :
    View start false d { s with seq := overwrite (s.seq ++ extra) (start + t.pos) w, current := cur, final := fin } pre
      ⟨overwrite t.items t.pos w, t.pos + w.length⟩ := by
  obtain ⟨post, hs⟩ := h.seq
  obtain ⟨hn, hfin⟩ := h.final
  have hp := h.hpos
  have hl := overwrite_length (w := w) hp
  refine ⟨h.hi, by dsimp only; omega, ?_, h.hd, by dsimp only; omega, ?_, h.hpre, h.lim, h.ld⟩
  · unfold St.lim
    dsimp only
    rw [hn, Option.getD_none, hl]; omega
  · refine ⟨(post ++ extra).drop (t.pos + w.length - t.items.length), ?_⟩
    dsimp only
    unfold overwrite
    rw [hs, show pre ++ t.items ++ post ++ extra = pre ++ (t.items ++ (post ++ extra)) by simp, ← h.hpre, List.take_length_add_append,
      List.take_append_of_le_length hp, show pre.length + t.pos + w.length = pre.length + (t.pos + w.length) by omega,
      List.drop_length_add_append, List.drop_append]
    simp [List.append_assoc]

theorem spec_move {start : Nat} {limited : Bool} {d : Dir} {s : St α} {pre : List α} {t : Text α}
    (h : View start limited d s pre t) {p : Int} (h1 : p < 0 ∨ (start : Int) ≤ p) (h2 : limited = true ∨ p ≤ t.items.length) :
    ∃ s', setPosition s p = ((moveSpec t p).1, s') ∧ View start limited d s' pre (moveSpec t p).2 := by
  have hlim := h.hlim
  unfold setPosition moveSpec
  dsimp only
  by_cases hp : 0 ≤ p ∧ p ≤ t.items.length
  · rw [if_pos hp, if_neg ?_]
    · exact ⟨_, rfl, h.move (by omega) (by rw [h.hi]; omega)⟩
    · push Not
      refine ⟨by rw [h.hi]; omega, ?_⟩
      intro l hl
      split_ifs at hl
      · rw [Option.mem_def] at hl
        unfold St.lim at hlim
        rw [hl, Option.getD_some] at hlim
        rw [h.hi]; omega
      · cases hl
  · rw [if_neg hp, if_pos ?_]
    · exact ⟨s, rfl, h⟩
    · by_cases h0 : p < 0
      · left; rw [h.hi]; omega
      · right
        have hl : limited = true := h2.elim id (fun h2 => absurd ⟨by omega, h2⟩ hp)
        have hdi : d = .input := by
          cases d with
          | input => rfl
          | output => rw [h.ld (by simp)] at hl; cases hl
          | inputOutput => rw [h.ld (by simp)] at hl; cases hl
        have hs := h.lim
        rw [hl] at hs
        obtain ⟨l, hl'⟩ := Option.isSome_iff_exists.mp hs
        refine ⟨l, by rw [h.hd, hdi, if_pos rfl]; exact hl', ?_⟩
        unfold St.lim at hlim
        rw [hl', Option.getD_some] at hlim
        rw [h.hi]; omega

theorem step_view [DecidableEq α] {start : Nat} {limited : Bool} {d : Dir} {s : St α} {pre : List α} {t : Text α}
    (h : View start limited d s pre t) {op : Op α} (ok : CallOk start limited t op) :
    ∃ s', step s op = ((spec d t op).1, s') ∧ View start limited d s' pre (spec d t op).2 := by
  obtain ⟨ok1, ok2, ok3, ok4⟩ := ok
  have hp := h.hpos
  have hlim := h.hlim
  have hcur := h.hc
  have hrd : s.readable = false ↔ d = .output := by unfold St.readable; rw [h.hd]; cases d <;> simp
  have hwr : s.writable = false ↔ d = .input := by unfold St.writable; rw [h.hd]; cases d <;> simp
  have hout : op.reads = true → d = .output → spec d t op = (.notReadable, t) := by
    intro h1 h2; unfold spec; rw [if_pos ⟨h2, h1⟩]
  have hin : op.reads = true → d ≠ .output → spec d t op = callSpec d t op := by
    intro h1 h2
    have : op.writes = false := by cases op <;> simp [Op.reads, Op.writes] at h1 ⊢
    unfold spec; rw [if_neg (by simp [h2]), if_neg (by simp [this])]
  have hwo : op.writes = true → d = .input → spec d t op = (.notWritable, t) := by
    intro h1 h2
    unfold spec; rw [if_neg (by simp [h2]), if_pos ⟨h2, h1⟩]
  have hwi : op.writes = true → d ≠ .input → spec d t op = callSpec d t op := by
    intro h1 h2
    have : op.reads = false := by cases op <;> simp [Op.reads, Op.writes] at h1 ⊢
    unfold spec; rw [if_neg (by simp [this]), if_neg (by simp [h2])]
  have hel : op.reads = false → op.writes = false → spec d t op = callSpec d t op := by
    intro h1 h2; unfold spec; rw [if_neg (by simp [h1]), if_neg (by simp [h2])]
  cases op with
  | readElement sup =>
    simp only [step, readElement]
    by_cases ho : d = .output
    · rw [hout rfl ho, if_pos (hrd.mpr ho)]; exact ⟨s, rfl, h⟩
    · rw [hin rfl ho, if_neg (mt hrd.mp ho)]
      simp only [callSpec]
      by_cases hlt : t.pos < t.items.length
      · rw [if_pos (by omega), h.get hlt, List.getElem?_eq_getElem hlt]
        exact ⟨_, rfl, h.move (by omega) (by omega)⟩
      · rw [if_neg (by omega), List.getElem?_eq_none (by omega)]
        exact ⟨s, rfl, h⟩
  | peek sup =>
    simp only [step, peek]
    by_cases ho : d = .output
    · rw [hout rfl ho, if_pos (hrd.mpr ho)]; exact ⟨s, rfl, h⟩
    · rw [hin rfl ho, if_neg (mt hrd.mp ho)]
      simp only [callSpec]
      by_cases hlt : t.pos < t.items.length
      · rw [if_pos (by omega), h.get hlt, List.getElem?_eq_getElem hlt]
        exact ⟨_, rfl, h⟩
      · rw [if_neg (by omega), List.getElem?_eq_none (by omega)]
        exact ⟨s, rfl, h⟩
  | unread a =>
    simp only [step, unread]
    by_cases ho : d = .output
    · rw [hout rfl ho, if_pos (hrd.mpr ho)]; exact ⟨s, rfl, h⟩
    · rw [hin rfl ho, if_neg (mt hrd.mp ho)]
      simp only [callSpec]
      by_cases h0 : t.pos = 0
      · have hs0 : start = 0 := (ok4 ⟨a, rfl⟩).elim id (fun h1 => absurd h0 h1)
        rw [if_neg (by omega), if_pos h0]
        exact ⟨s, rfl, h⟩
      · rw [if_pos (by omega), if_neg h0]
        have hm := h.move (p := t.pos - 1) (by omega) (c := s.current - 1) (by omega)
        have hg := hm.get (by dsimp only; omega)
        dsimp only at hg
        rw [hg, List.getElem?_eq_getElem (by omega)]
        dsimp only
        by_cases hb : t.items[t.pos - 1] = a
        · rw [if_neg (by simpa using hb)]
          refine ⟨_, rfl, ?_⟩
          rw [show t.items.set (t.pos - 1) a = t.items by rw [← hb, List.set_getElem_self]]
          exact hm
        · rw [if_pos hb]
          refine ⟨_, rfl, ?_⟩
          obtain ⟨post, hs⟩ := h.seq
          refine ⟨h.hi, by dsimp only; omega, by simp only [List.length_set]; exact h.hlim, h.hd, by simp; omega, ⟨post, ?_⟩, h.hpre, h.lim, h.ld⟩
          dsimp only
          rw [hs, show (s.current - 1).toNat = pre.length + (t.pos - 1) by rw [h.hpre]; omega, List.append_assoc, List.append_assoc,
            List.set_append_right _ _ (by omega), Nat.add_sub_cancel_left, List.set_append_left _ _ (by omega)]
  | read n sup =>
    simp only [step, read]
    by_cases ho : d = .output
    · rw [hout rfl ho, if_pos (hrd.mpr ho)]; exact ⟨s, rfl, h⟩
    · rw [hin rfl ho, if_neg (mt hrd.mp ho)]
      simp only [callSpec, readSpec, List.length_drop]
      have hsrc : s.lim - s.current = ((t.items.length - t.pos : Nat) : Int) := by omega
      rw [hsrc]
      have hll := h.length_le
      by_cases hn : n ≤ t.items.length - t.pos
      · rw [if_neg (by omega), if_pos hn]
        rw [show s.current = ((start + t.pos : Nat) : Int) by omega, show ((start + t.pos : Nat) : Int) + (n : Int) = ((start + t.pos + n : Nat) : Int) by omega,
          slice?_nat _ (by omega) (by omega)]
        dsimp only
        rw [show start + t.pos + n - (start + t.pos) = n by omega, h.slice (by omega)]
        exact ⟨_, rfl, h.move (by omega) (by omega)⟩
      · rw [if_pos (by omega), if_neg hn]
        have hm := h.move (p := t.items.length) (by omega) (c := s.current + ((t.items.length - t.pos : Nat) : Int)) (by omega)
        cases sup with
        | true => exact ⟨_, rfl, hm⟩
        | false =>
          simp only [Bool.false_eq_true, if_false]
          by_cases hz : t.items.length - t.pos = 0
          · rw [if_pos (by omega), if_pos (by rw [List.drop_eq_nil_iff]; omega)]
            exact ⟨_, rfl, hm⟩
          · rw [if_neg (by omega), if_neg (by rw [List.drop_eq_nil_iff]; omega)]
            rw [show s.current + ((t.items.length - t.pos : Nat) : Int) = ((start + t.items.length : Nat) : Int) by omega] at hm ⊢
            rw [show s.current = ((start + t.pos : Nat) : Int) by omega, slice?_nat _ (by omega) (by omega)]
            dsimp only
            rw [show start + t.items.length - (start + t.pos) = t.items.length - t.pos by omega, h.slice (by omega),
              List.take_of_length_le (by rw [List.length_drop]; omega)]
            exact ⟨_, rfl, hm⟩
  | atEnd =>
    rw [hel rfl rfl]
    refine ⟨s, ?_, h⟩
    simp only [step, atEnd, callSpec, h.hd]
    congr 2
    by_cases ho : d = .output
    · rw [if_pos ho]; simp [ho]
    · rw [if_neg ho]
      refine decide_eq_decide.mpr ?_
      have : (if d = .input then s.limit else none).getD s.final = s.lim := by
        by_cases hi : d = .input
        · rw [if_pos hi]; rfl
        · rw [if_neg hi]
          have hl := h.lim
          rw [h.ld hi, Option.isSome_eq_false_iff, Option.isNone_iff_eq_none] at hl
          unfold St.lim; rw [hl]
      rw [this]
      constructor
      · intro hx; exact ⟨ho, by omega⟩
      · intro hx; have := hx.2; omega
  | writeElement a =>
    simp only [step, writeElement]
    by_cases ho : d = .input
    · rw [hwo rfl ho, if_pos (hwr.mpr ho)]; exact ⟨s, rfl, h⟩
    · rw [hwi rfl ho, if_neg (mt hwr.mp ho)]
      have hlf := h.ld ho
      subst hlf
      obtain ⟨hn, hfin⟩ := h.final
      obtain ⟨extra, e, hl⟩ := growLoop_eq s (s.current + 1)
      rw [e]
      dsimp only
      rw [if_pos (by omega)]
      refine ⟨_, rfl, ?_⟩
      have hput := h.put [a] extra (cur := s.current + 1) (fin := if s.current ≥ s.final then s.current + 1 else s.final)
        (by rw [List.length_singleton]; omega) (by split_ifs <;> omega)
      rw [← overwrite_set (by omega), show start + t.pos = s.current.toNat by omega] at hput
      by_cases hc : s.current ≥ s.final
      · rw [if_pos hc] at hput ⊢; exact hput
      · rw [if_neg hc] at hput ⊢; exact hput
  | write l =>
    simp only [step, write]
    by_cases ho : d = .input
    · rw [hwo rfl ho, if_pos (hwr.mpr ho)]; exact ⟨s, rfl, h⟩
    · rw [hwi rfl ho, if_neg (mt hwr.mp ho)]
      have hlf := h.ld ho
      subst hlf
      obtain ⟨hn, hfin⟩ := h.final
      rw [Option.getD_none, Int.sub_zero]
      obtain ⟨extra, e, hl⟩ := growLoop_eq s (s.current + l.length)
      rw [e]
      dsimp only
      have hcp := copyLoop_eq l l.length 0 (start + t.pos) (s.seq ++ extra) (by omega) (by omega)
      rw [show (((0 : Nat)) : Int) = 0 from rfl, show ((start + t.pos : Nat) : Int) = s.current by omega, List.drop_zero, List.take_length] at hcp
      rw [Int.toNat_natCast, hcp]
      dsimp only
      refine ⟨_, rfl, ?_⟩
      have hput := h.put l extra (cur := s.current + l.length) (fin := if s.current + l.length > s.final then s.current + l.length else s.final)
        (by omega) (by split_ifs <;> omega)
      by_cases hc : s.current + l.length > s.final
      · rw [if_pos hc] at hput ⊢; exact hput
      · rw [if_neg hc] at hput ⊢; exact hput
  | size =>
    rw [hel rfl rfl]
    refine ⟨s, ?_, h⟩
    simp only [step, streamSize, callSpec]
    congr 2
    rw [hlim, h.hi]; omega
  | contents clear =>
    rw [hel rfl rfl]
    simp only [step, contents, callSpec]
    have hn : s.lim - s.initial = (t.items.length : Int) := by rw [hlim, h.hi]; omega
    have hll := h.length_le
    have hcp := copyLoop_eq s.seq t.items.length start 0 (List.replicate t.items.length s.fill) (by omega) (by simp)
    rw [hn, if_neg (by omega), Int.toNat_natCast, h.hi, show (0 : Int) = ((0 : Nat) : Int) from rfl, hcp]
    dsimp only
    have hsl := h.slice (p := 0) (n := t.items.length) (by omega)
    rw [Nat.add_zero, List.drop_zero, List.take_length] at hsl
    have hov : overwrite (List.replicate t.items.length s.fill) 0 ((s.seq.drop start).take t.items.length) = t.items := by
      rw [hsl]; simp [overwrite]
    rw [hov]
    cases clear with
    | false => exact ⟨_, rfl, h⟩
    | true =>
      refine ⟨_, rfl, ?_⟩
      obtain ⟨hs0, hl0⟩ := ok3 rfl
      subst hs0 hl0
      obtain ⟨hnl, _⟩ := h.final
      simp only [if_true, clearContents]
      refine ⟨h.hi, by simp, ?_, h.hd, by simp, ⟨s.seq, ?_⟩, h.hpre, h.lim, h.ld⟩
      · unfold St.lim
        rw [hnl]; simp
      · have := h.hpre
        rw [List.length_eq_zero_iff] at this
        rw [this]; simp
  | position =>
    rw [hel rfl rfl]
    refine ⟨s, ?_, h⟩
    simp only [step, position, callSpec]
    congr 2
    rw [hcur, h.hi]; omega
  | setPosition p =>
    rw [hel rfl rfl]
    obtain ⟨h1, h2⟩ := ok1 p rfl
    exact spec_move h h1 h2
  | setStart =>
    rw [hel rfl rfl]
    obtain ⟨h1, h2⟩ := ok1 0 rfl
    exact spec_move h h1 h2
  | setEnd =>
    rw [hel rfl rfl]
    obtain ⟨h1, h2⟩ := ok1 _ rfl
    obtain ⟨hl, _⟩ := ok2 rfl
    have hs := h.lim
    rw [hl] at hs
    obtain ⟨l, hl'⟩ := Option.isSome_iff_exists.mp hs
    unfold St.lim at hlim
    rw [hl', Option.getD_some] at hlim
    simp only [step, setEnd, hl']
    rw [show l - s.initial = (t.items.length : Int) by rw [h.hi]; omega]
    exact spec_move h h1 h2
  | adjustPosition delta fr =>
    rw [hel rfl rfl]
    cases fr with
    | current =>
      obtain ⟨h1, h2⟩ := ok1 _ rfl
      have := spec_move h h1 h2
      simp only [step, adjustPosition, position]
      rw [show s.current - s.initial = (t.pos : Int) by rw [h.hi]; omega]
      exact this
    | start =>
      obtain ⟨h1, h2⟩ := ok1 _ rfl
      exact spec_move h h1 h2
    | fin =>
      obtain ⟨h1, h2⟩ := ok1 _ rfl
      obtain ⟨hl, h0⟩ := ok2 rfl
      have hs0 : start = 0 := h0.elim id (fun h0 => by cases h0)
      have hs := h.lim
      rw [hl] at hs
      obtain ⟨l, hl'⟩ := Option.isSome_iff_exists.mp hs
      unfold St.lim at hlim
      rw [hl', Option.getD_some] at hlim
      simp only [step, adjustPosition, hl']
      rw [show l = (t.items.length : Int) by omega]
      exact spec_move h h1 h2

theorem run_view [DecidableEq α] {start : Nat} {limited : Bool} {d : Dir} {pre : List α} : ∀ (ops : List (Op α)) {s : St α} {t : Text α},
    View start limited d s pre t → History start limited d t ops →
    (run s ops).1 = (specRun d t ops).1 ∧ View start limited d (run s ops).2 pre (specRun d t ops).2
  | [], _, _, h, _ => ⟨rfl, h⟩
  | op :: ops, s, t, h, ho => by
    obtain ⟨s', e, i⟩ := step_view h ho.1
    obtain ⟨a, b⟩ := run_view ops i ho.2
    unfold run specRun
    dsimp only
    rw [e]
    exact ⟨by rw [a], b⟩

/-- A newly opened stream. -/
theorem open_view {d : Dir} {l : List α} {start : Nat} {fin : Option Nat} (h1 : start ≤ fin.getD l.length) (h2 : fin.getD l.length ≤ l.length)
    (hd : d ≠ .input → fin = none) (stretchy : Bool) (fill : α) :
    View start fin.isSome d (open' d l start (fin.map (fun n => (n : Int))) stretchy fill) (l.take start)
      ⟨if d = .output then [] else part l start fin, 0⟩ := by
  have hpl : (part l start fin).length = fin.getD l.length - start := by
    unfold part; rw [List.length_drop, List.length_take]; omega
  refine ⟨rfl, by simp [open'], ?_, rfl, Nat.zero_le _, ?_, by rw [List.length_take]; omega, by cases fin <;> rfl, fun hc => by rw [hd hc]; rfl⟩
  · unfold St.lim open'
    by_cases ho : d = .output
    · subst ho
      rw [hd (by simp)]; simp
    · simp only [if_neg ho, hpl]
      cases fin with
      | none => simp at h1 ⊢; omega
      | some f => simp at h1 ⊢; omega
  · by_cases ho : d = .output
    · exact ⟨l.drop start, by simp [open', ho]⟩
    · refine ⟨l.drop (fin.getD l.length), ?_⟩
      simp only [open', if_neg ho, part]
      have : l.take start = (l.take (fin.getD l.length)).take start := by rw [List.take_take]; congr 1; omega
      rw [this, List.take_append_drop, List.take_append_drop]

end Verif.SeqStream
