/-
One call on a stream: the model answers what the specification says, and keeps to the invariant of
its direction.
-/
import Verif.Streams.Line
import Verif.Streams.Positions

namespace Verif.Streams

/-! ### Reading, input and input-output -/

theorem read_answer {s s' : St} {n : Nat} {l : List Byte} (h : readInto s n = .ok (l, s')) :
    finish s (read s n .unsupplied) ofRead = (if l.length < n then .incomplete l else .bytes l, s') := by
  unfold read
  rw [h]
  simp only [Res.bind, finish, readAnswer]
  split_ifs <;> first | rfl | contradiction

theorem reads_step {B : Nat} {d : Dir} {s : St} {c : List Byte} {p : Nat} (h : Ready B d s c p) {op : Op}
    (hop : op.readsIO = true) :
    ∃ s', step s op = ((callSpec d ⟨c, p⟩ op).1, s') ∧ RInv B d s' c (callSpec d ⟨c, p⟩ op).2.pos ∧
      (callSpec d ⟨c, p⟩ op).2.bytes = c := by
  have hpl := h.reg.pos_le
  cases op with
  | readElement =>
    obtain ⟨s', e, i⟩ := readElement_inv h
    refine ⟨s', by simp only [step, e, finish, callSpec], ?_, ?_⟩
    · simp only [callSpec]; split_ifs at i ⊢ <;> exact i
    · simp only [callSpec]; split_ifs <;> rfl
  | peek =>
    obtain ⟨s', e, i⟩ := peek_inv h
    exact ⟨s', by simp only [step, e, finish, callSpec], i, rfl⟩
  | read n =>
    obtain ⟨s', e, i⟩ := readInto_inv h n
    refine ⟨s', ?_, i, rfl⟩
    rw [step, read_answer e, callSpec, readSpec]
    dsimp only
    have : ((c.drop p).take n).length ≤ n := List.length_take_le _ _
    by_cases hl : ((c.drop p).take n).length = n
    · rw [if_pos hl, if_neg (by omega)]
    · rw [if_neg hl, if_pos (by omega)]
  | readSkip n =>
    have hn : 0 < n := by simpa [Op.readsIO, Op.reads] using hop
    obtain ⟨s', e, i⟩ := readSkip_inv h hn
    exact ⟨s', by simp only [step, e, finish', callSpec], i, rfl⟩
  | readLine =>
    obtain ⟨s', e, i⟩ := readLine_inv h
    have hs : callSpec d ⟨c, p⟩ .readLine = if p < c.length then
        (.line (some (firstLine (c.drop p)).1) (firstLine (c.drop p)).2.1, ⟨c, p + (firstLine (c.drop p)).2.2⟩)
        else (.line none false, ⟨c, p⟩) := by
      simp only [callSpec, lineSpec]
      by_cases hp : p < c.length
      · rw [if_neg (by rw [List.drop_eq_nil_iff]; omega), if_pos hp]
      · rw [if_pos (by rw [List.drop_eq_nil_iff]; omega), if_neg hp]
    rw [hs, step, e]
    simp only [finish]
    by_cases hp : p < c.length
    · rw [if_pos hp, if_pos hp]; exact ⟨s', rfl, i, rfl⟩
    · rw [if_neg hp, if_neg hp]
      rw [List.drop_eq_nil_of_le (by omega), firstLine] at i ⊢
      exact ⟨s', rfl, i, rfl⟩
  | atEnd =>
    obtain ⟨s', e, i, _⟩ := getInput_inv h
    refine ⟨s', ?_, i, rfl⟩
    have hdo : s.dir ≠ .output := by rw [h.hdir]; exact h.hd
    have hdd := h.hd
    simp only [step, atEnd, if_neg hdo, e, Res.bind, finish, callSpec]
    congr 2
    rw [← decide_not]
    exact decide_eq_decide.mpr (by simp [hdd])
  | readToEnd =>
    obtain ⟨s', e, i⟩ := readInto_inv h (c.length - p)
    have hl : ((c.drop p).take (c.length - p)).length = c.length - p := by rw [slice_length]; omega
    have ht : (c.drop p).take (c.length - p) = c.drop p := by
      apply List.take_of_length_le; rw [List.length_drop]
    refine ⟨s', ?_, ?_, rfl⟩
    · have hse := h.reg.size_eq
      have hpe := h.reg.position_eq
      show finish s (read s (streamSize s - streamPosition s) .unsupplied) ofRead = _
      rw [hse, hpe, read_answer e, if_neg (by omega), ht]
      rfl
    · rw [hl] at i
      simp only [callSpec]
      rw [show max p c.length = p + (c.length - p) by omega]; exact i
  | _ => simp [Op.readsIO, Op.reads] at hop

/-! ### Input streams -/

theorem input_seek {B k : Nat} (hk : B = 2 ^ k) {s : St} {c : List Byte} {p q : Nat} (h : RInv B .input s c p)
    (hq : q ≤ c.length) : ∃ s', seekFromStart s q (streamSize s) = .ok s' ∧ RInv B .input s' c q := by
  unfold seekFromStart
  rw [h.hdir, h.reg.size_eq]
  exact seekInput_inv hk h.hsize h.hdir h.hout (h.inClean rfl) (h.reg.clean (h.inClean rfl)).symm
    h.reg.acc1 hq (fun _ => ⟨p, h.reg⟩)

theorem input_setPosition {B k : Nat} (hk : B = 2 ^ k) {s : St} {c : List Byte} {p q : Nat} (h : RInv B .input s c p)
    (hq : q ≤ c.length) : ∃ s', setPosition s (q : Int) = .ok s' ∧ RInv B .input s' c q := by
  unfold setPosition
  rw [if_pos (by rw [h.reg.size_eq]; omega), Int.toNat_natCast]
  exact input_seek hk h hq

theorem input_adjust {B k : Nat} (hk : B = 2 ^ k) {s : St} {c : List Byte} {p : Nat} (h : RInv B .input s c p) (q : Int) :
    (∃ s', ∃ n : Nat, q = n ∧ n ≤ c.length ∧
      (if q < 0 ∨ (s.dir = .output ∧ q > streamSize s) then (Res.fail Fail.position : Res (Nat × St))
        else (seekFromStart s q.toNat (streamSize s)).bind fun s => .ok (q.toNat, s)) = .ok (n, s') ∧ RInv B .input s' c n) ∨
    ((q < 0 ∨ q > c.length) ∧ (if q < 0 ∨ (s.dir = .output ∧ q > streamSize s) then (Res.fail Fail.position : Res (Nat × St))
        else (seekFromStart s q.toNat (streamSize s)).bind fun s => .ok (q.toNat, s)) = .fail .position) := by
  have hdo : s.dir ≠ .output := by rw [h.hdir]; simp
  by_cases h0 : q < 0
  · right; rw [if_pos (Or.inl h0)]; exact ⟨Or.inl h0, rfl⟩
  · rw [if_neg (by simp [h0, hdo])]
    obtain ⟨n, rfl⟩ : ∃ n : Nat, q = n := ⟨q.toNat, by omega⟩
    rw [Int.toNat_natCast]
    by_cases hq : n ≤ c.length
    · left
      obtain ⟨s', e, i⟩ := input_seek hk h hq
      rw [e]
      exact ⟨s', n, rfl, hq, rfl, i⟩
    · right
      refine ⟨Or.inr (by omega), ?_⟩
      have : seekFromStart s n (streamSize s) = .fail .position := by
        unfold seekFromStart
        rw [h.hdir, h.reg.size_eq]
        simp only [seekInput]
        rw [if_pos (by omega)]
      rw [this, Res.bind]

theorem moveSpec_eq (d : Dir) (c : List Byte) (p n : Nat) (hn : n ≤ c.length) (g : Nat → Ans) :
    moveSpec d ⟨c, p⟩ (n : Int) g = (g n, ⟨c, n⟩) := by
  unfold moveSpec
  rw [if_neg (by omega), if_pos (by dsimp only; omega), Int.toNat_natCast]

theorem moveSpec_err (d : Dir) (c : List Byte) (p : Nat) {q : Int} (h : q < 0 ∨ (d ≠ .inputOutput ∧ q > c.length)) (g : Nat → Ans) :
    moveSpec d ⟨c, p⟩ q g = (.positionError, ⟨c, p⟩) := by
  unfold moveSpec
  by_cases h0 : q < 0
  · rw [if_pos h0]
  · rcases h with h | ⟨hd, h⟩
    · exact absurd h h0
    · rw [if_neg h0, if_neg (by dsimp only; omega), if_neg hd]

theorem input_step {B k : Nat} (hk : B = 2 ^ k) {s : St} {c : List Byte} {p : Nat} (h : RInv B .input s c p) (op : Op) :
    ∃ s', step s op = ((spec .input ⟨c, p⟩ op).1, s') ∧
      RInv B .input s' (spec .input ⟨c, p⟩ op).2.bytes (spec .input ⟨c, p⟩ op).2.pos := by
  have hrd : ∀ {op : Op}, op.readsIO = true → op.writes = false →
      ∃ s', step s op = ((spec .input ⟨c, p⟩ op).1, s') ∧
      RInv B .input s' (spec .input ⟨c, p⟩ op).2.bytes (spec .input ⟨c, p⟩ op).2.pos := by
    intro op ho hw
    obtain ⟨s', e, i, hb⟩ := reads_step h.ready ho
    have : spec .input ⟨c, p⟩ op = callSpec .input ⟨c, p⟩ op := by
      unfold spec; rw [if_neg (by simp), if_neg (by simp [hw])]
    rw [this]
    exact ⟨s', e, by rw [hb]; exact i⟩
  have hwr : getOutput s = .fail .notWritable := by
    unfold getOutput doGetOutput
    simp only [h.hout, h.hdir, Bool.false_eq_true, if_false, if_true]
  cases op with
  | readElement => exact hrd rfl rfl
  | peek => exact hrd rfl rfl
  | read n => exact hrd rfl rfl
  | readSkip n =>
    by_cases hn : 0 < n
    · exact hrd (by simp [Op.readsIO, Op.reads, hn]) rfl
    · have : n = 0 := by omega
      subst this
      exact ⟨s, rfl, h⟩
  | readLine => exact hrd rfl rfl
  | atEnd => exact hrd rfl rfl
  | readToEnd => exact hrd rfl rfl
  | contents =>
    obtain ⟨s1, e1, i1⟩ := input_setPosition hk h (q := 0) (Nat.zero_le _)
    obtain ⟨s2, e2, i2⟩ := readInto_inv i1.ready c.length
    obtain ⟨s3, e3, i3⟩ := input_setPosition hk i2 (q := p) h.reg.pos_le
    have hdo : s.dir ≠ .output := by rw [h.hdir]; simp
    have hdi : s.dir = .input := h.hdir
    refine ⟨s3, ?_, i3⟩
    have e1' : setPosition s 0 = .ok s1 := e1
    have hsz := i1.reg.size_eq
    rw [List.drop_zero, List.take_of_length_le (Nat.le_refl _)] at e2
    simp only [step, streamContents, if_neg hdo, forceOutput, if_pos hdi, Res.bind, e1', hsz, read, e2, h.reg.position_eq, e3, finish,
      readAnswer]
    rw [if_neg (by omega), if_neg (by simp)]
    rfl
  | writeElement b => exact ⟨s, by simp only [step, writeElement, hwr, Res.bind, finish']; rfl, h⟩
  | write l => exact ⟨s, by simp only [step, write, hwr, Res.bind, finish']; rfl, h⟩
  | writeLine l => exact ⟨s, by simp only [step, writeLine, hwr, Res.bind, finish']; rfl, h⟩
  | writeFill b n => exact ⟨s, by simp only [step, writeFill, hwr, Res.bind, finish']; rfl, h⟩
  | forceOutput => exact ⟨s, by simp only [step, forceOutput, h.hdir, if_true, finish']; rfl, h⟩
  | setPosition q =>
    have hs : spec .input ⟨c, p⟩ (.setPosition q) = if q ≤ c.length then moveSpec .input ⟨c, p⟩ q (fun _ => .done)
      else (.positionError, ⟨c, p⟩) := rfl
    rw [hs]
    by_cases hq : 0 ≤ q ∧ q ≤ c.length
    · obtain ⟨n, rfl⟩ : ∃ n : Nat, q = n := ⟨q.toNat, by omega⟩
      obtain ⟨s1, e1, i1⟩ := input_setPosition hk h (q := n) (by omega)
      rw [if_pos hq.2, moveSpec_eq _ _ _ _ (by omega)]
      exact ⟨s1, by simp only [step, e1, finish'], i1⟩
    · have he : setPosition s q = .fail .position := by
        unfold setPosition; rw [if_neg (by rw [h.reg.size_eq]; exact hq)]
      refine ⟨s, ?_, ?_⟩
      · simp only [step, he, finish', failAns]
        split_ifs with hc
        · rw [moveSpec_err _ _ _ (Or.inl (by omega))]
        · rfl
      · split_ifs with hc
        · rw [moveSpec_err _ _ _ (Or.inl (by omega))]; exact h
        · exact h
  | adjustPosition delta fr =>
    have key : ∀ q : Int, ∃ s', finish s (if q < 0 ∨ (s.dir = .output ∧ q > streamSize s) then (Res.fail Fail.position : Res (Nat × St))
        else (seekFromStart s q.toNat (streamSize s)).bind fun s => .ok (q.toNat, s)) .number =
          ((moveSpec .input ⟨c, p⟩ q .number).1, s') ∧
        RInv B .input s' (moveSpec .input ⟨c, p⟩ q .number).2.bytes (moveSpec .input ⟨c, p⟩ q .number).2.pos := by
      intro q
      rcases input_adjust hk h q with ⟨s', n, rfl, hn, e, i⟩ | ⟨hq, e⟩
      · rw [e, moveSpec_eq _ _ _ _ hn]; exact ⟨s', rfl, i⟩
      · rw [e, moveSpec_err _ _ _ (by rcases hq with hq | hq; exacts [Or.inl hq, Or.inr ⟨by simp, hq⟩])]
        exact ⟨s, rfl, h⟩
    cases fr with
    | current =>
      have := key (p + delta)
      simp only [step, adjustPosition, h.reg.position_eq]; exact this
    | start => exact key delta
    | fin =>
      have := key (c.length + delta)
      simp only [step, adjustPosition]
      simp only [h.reg.size_eq] at this ⊢
      exact this
  | unread =>
    have hs : spec .input ⟨c, p⟩ .unread = moveSpec .input ⟨c, p⟩ (p - 1) (fun _ => .done) := rfl
    rw [hs]
    have hstep : step s .unread = finish' s ((if ((p : Int) - 1) < 0 ∨ (s.dir = .output ∧ ((p : Int) - 1) > streamSize s) then (Res.fail Fail.position : Res (Nat × St))
        else (seekFromStart s ((p : Int) - 1).toNat (streamSize s)).bind fun s => .ok (((p : Int) - 1).toNat, s)).bind fun r => .ok r.2) := by
      simp only [step, unreadElement, adjustPosition, h.reg.position_eq]
      rfl
    rw [hstep]
    rcases input_adjust hk h ((p : Int) - 1) with ⟨s', n, hqn, hn, e, i⟩ | ⟨hq, e⟩
    · rw [e, hqn, moveSpec_eq _ _ _ _ hn]; exact ⟨s', rfl, i⟩
    · rw [e, moveSpec_err _ _ _ (by rcases hq with hq | hq; exacts [Or.inl hq, Or.inr ⟨by simp, hq⟩])]
      exact ⟨s, rfl, h⟩
  | position => exact ⟨s, by simp only [step, h.reg.position_eq]; rfl, h⟩
  | size => exact ⟨s, by simp only [step, h.reg.size_eq]; rfl, h⟩

end Verif.Streams
