/-
One call on an output stream or an input-output stream.
-/
import Verif.Streams.Steps

namespace Verif.Streams

/-! ### Moving, output and input-output -/

theorem move_step {s : St} {c : List Byte} {p : Nat} {d : Dir} (hsz : streamSize s = c.length) (hps : streamPosition s = p)
    (hdir : s.dir = d) (hd : d ≠ .input) {op : Op} (hop : op.moves = true)
    (hio : d = .inputOutput → target ⟨c, p⟩ op ≤ c.length) {P : St → Nat → Prop}
    (seek : (target ⟨c, p⟩ op).toNat ≤ c.length →
      ∃ s', seekFromStart s (target ⟨c, p⟩ op).toNat c.length = .ok s' ∧ P s' (target ⟨c, p⟩ op).toNat) :
    ∃ s', step s op = ((spec d ⟨c, p⟩ op).1, s') ∧
      (((spec d ⟨c, p⟩ op).1 = .positionError ∧ s' = s ∧ (spec d ⟨c, p⟩ op).2 = ⟨c, p⟩) ∨
       ((spec d ⟨c, p⟩ op).1 ≠ .positionError ∧ (spec d ⟨c, p⟩ op).2 = ⟨c, (target ⟨c, p⟩ op).toNat⟩ ∧
        P s' (target ⟨c, p⟩ op).toNat)) := by
  have hdi : ¬ d = .input := hd
  have hadj : ∀ q : Int, (d = .inputOutput → q ≤ c.length) →
      (q.toNat ≤ c.length → ∃ s', seekFromStart s q.toNat c.length = .ok s' ∧ P s' q.toNat) →
      (∃ s', (if q < 0 ∨ (s.dir = .output ∧ q > streamSize s) then (Res.fail Fail.position : Res (Nat × St))
        else (seekFromStart s q.toNat (streamSize s)).bind fun s => .ok (q.toNat, s)) = .ok (q.toNat, s') ∧
        (∀ g, moveSpec d ⟨c, p⟩ q g = (g q.toNat, ⟨c, q.toNat⟩)) ∧ P s' q.toNat) ∨
      ((if q < 0 ∨ (s.dir = .output ∧ q > streamSize s) then (Res.fail Fail.position : Res (Nat × St))
        else (seekFromStart s q.toNat (streamSize s)).bind fun s => .ok (q.toNat, s)) = .fail .position ∧
        ∀ g, moveSpec d ⟨c, p⟩ q g = (.positionError, ⟨c, p⟩)) := by
    intro q hio' seek'
    rw [hdir, hsz]
    have hdo : d = .output ∨ d = .inputOutput := by cases d <;> simp at hd ⊢
    by_cases h0 : q < 0
    · right
      rw [if_pos (Or.inl h0)]
      exact ⟨rfl, fun g => moveSpec_err _ _ _ (Or.inl h0) g⟩
    · by_cases hq : q ≤ c.length
      · left
        rw [if_neg (by omega)]
        obtain ⟨s', e, hP⟩ := seek' (by omega)
        refine ⟨s', by rw [e, Res.bind], fun g => ?_, hP⟩
        obtain ⟨n, rfl⟩ : ∃ n : Nat, q = n := ⟨q.toNat, by omega⟩
        rw [moveSpec_eq _ _ _ _ (by omega), Int.toNat_natCast]
      · right
        have hdo' : d = .output := by
          rcases hdo with h | h
          · exact h
          · exact absurd (hio' h) hq
        rw [if_pos (Or.inr ⟨hdo', by omega⟩)]
        exact ⟨rfl, fun g => moveSpec_err _ _ _ (Or.inr ⟨by rw [hdo']; simp, by omega⟩) g⟩
  have hspec : spec d ⟨c, p⟩ op = callSpec d ⟨c, p⟩ op := by
    unfold spec
    have h1 : op.reads = false := by cases op <;> simp [Op.moves, Op.reads] at hop ⊢
    have h2 : op.writes = false := by cases op <;> simp [Op.moves, Op.writes] at hop ⊢
    rw [h1, h2, if_neg (by simp), if_neg (by simp)]
  rw [hspec]
  cases op with
  | setPosition q =>
    have hcs : callSpec d ⟨c, p⟩ (.setPosition q) = if q ≤ c.length then moveSpec d ⟨c, p⟩ q (fun _ => .done)
      else (.positionError, ⟨c, p⟩) := rfl
    have htg : target ⟨c, p⟩ (.setPosition q) = q := rfl
    rw [htg] at seek ⊢
    rw [hcs]
    by_cases hq : 0 ≤ q ∧ q ≤ c.length
    · obtain ⟨s', e, hP⟩ := seek (by omega)
      rw [if_pos hq.2]
      obtain ⟨n, rfl⟩ : ∃ n : Nat, q = n := ⟨q.toNat, by omega⟩
      rw [moveSpec_eq _ _ _ _ (by omega)]
      rw [Int.toNat_natCast] at e hP
      refine ⟨s', ?_, Or.inr ⟨by simp, by rw [Int.toNat_natCast], by rw [Int.toNat_natCast]; exact hP⟩⟩
      simp only [step, setPosition, hsz, if_pos hq, Int.toNat_natCast, e, finish']
    · have he : setPosition s q = .fail .position := by
        unfold setPosition; rw [hsz, if_neg hq]
      have hm : (if q ≤ c.length then moveSpec d ⟨c, p⟩ q (fun _ => .done) else (.positionError, ⟨c, p⟩)) = ((.positionError, ⟨c, p⟩) : Ans × FileS) := by
        split_ifs with hc
        · exact moveSpec_err _ _ _ (Or.inl (by omega)) _
        · rfl
      rw [hm]
      exact ⟨s, by simp only [step, he, finish', failAns], Or.inl ⟨rfl, rfl, rfl⟩⟩
  | adjustPosition delta fr =>
    have key : ∀ q : Int, target ⟨c, p⟩ (.adjustPosition delta fr) = q →
        callSpec d ⟨c, p⟩ (.adjustPosition delta fr) = moveSpec d ⟨c, p⟩ q .number →
        step s (.adjustPosition delta fr) = finish s (if q < 0 ∨ (s.dir = .output ∧ q > streamSize s) then (Res.fail Fail.position : Res (Nat × St))
        else (seekFromStart s q.toNat (streamSize s)).bind fun s => .ok (q.toNat, s)) .number → ∃ s', step s (.adjustPosition delta fr) = ((callSpec d ⟨c, p⟩ (.adjustPosition delta fr)).1, s') ∧
      (((callSpec d ⟨c, p⟩ (.adjustPosition delta fr)).1 = .positionError ∧ s' = s ∧ (callSpec d ⟨c, p⟩ (.adjustPosition delta fr)).2 = ⟨c, p⟩) ∨
       ((callSpec d ⟨c, p⟩ (.adjustPosition delta fr)).1 ≠ .positionError ∧ (callSpec d ⟨c, p⟩ (.adjustPosition delta fr)).2 = ⟨c, (target ⟨c, p⟩ (.adjustPosition delta fr)).toNat⟩ ∧
        P s' (target ⟨c, p⟩ (.adjustPosition delta fr)).toNat)) := by
      intro q htg hcs hst
      rw [htg] at seek hio ⊢
      rw [hcs, hst]
      rcases hadj q hio seek with ⟨s', e, hm, hP⟩ | ⟨e, hm⟩
      · rw [e, hm]
        exact ⟨s', rfl, Or.inr ⟨by simp, rfl, hP⟩⟩
      · rw [e, hm]
        exact ⟨s, rfl, Or.inl ⟨rfl, rfl, rfl⟩⟩
    cases fr with
    | current =>
      refine key (p + delta) rfl rfl ?_
      simp only [step, adjustPosition, hps]
    | start => exact key delta rfl rfl rfl
    | fin =>
      refine key (c.length + delta) rfl rfl ?_
      simp only [step, adjustPosition, hsz]
  | unread =>
    have hst : step s .unread = finish' s ((if ((p : Int) - 1) < 0 ∨ (s.dir = .output ∧ ((p : Int) - 1) > streamSize s) then (Res.fail Fail.position : Res (Nat × St))
        else (seekFromStart s ((p : Int) - 1).toNat (streamSize s)).bind fun s => .ok (((p : Int) - 1).toNat, s)).bind fun r => .ok r.2) := by
      simp only [step, unreadElement, adjustPosition, hps]
      rfl
    have hcs : callSpec d ⟨c, p⟩ .unread = moveSpec d ⟨c, p⟩ ((p : Int) - 1) (fun _ => .done) := rfl
    have htg : target ⟨c, p⟩ .unread = (p : Int) - 1 := rfl
    rw [htg] at seek hio ⊢
    rw [hcs, hst]
    rcases hadj ((p : Int) - 1) hio seek with ⟨s', e, hm, hP⟩ | ⟨e, hm⟩
    · rw [e, hm]
      exact ⟨s', rfl, Or.inr ⟨by simp, rfl, hP⟩⟩
    · rw [e, hm]
      exact ⟨s, rfl, Or.inl ⟨rfl, rfl, rfl⟩⟩
  | _ => simp [Op.moves] at hop

/-! ### Writing -/

/-- The state in which a write finds the output buffer. -/
structure Got (B : Nat) (d : Dir) (s s' : St) (c : List Byte) (p : Nat) : Prop where
  inv : OInv B d s' c p
  page : (s'.buf.pos = s.buf.pos ∧ s'.buf.next = s.buf.next ∧ s'.buf.fin = s.buf.fin) ∨
    (s'.buf.next = 0 ∧ s'.buf.fin = 0 ∧ s.buf.pos < s'.buf.pos)

theorem getOutput_out {B : Nat} {d : Dir} {s : St} {c : List Byte} {p : Nat} (h : OInv B d s c p) :
    ∃ s', getOutput s = .ok s' ∧ Got B d s s' c p ∧ s'.buf.next < B := by
  have hB := h.reg.pos_size
  rw [h.hsize] at hB
  unfold getOutput
  rw [if_pos h.hout, h.hsize]
  by_cases hn : s.buf.next ≥ B
  · rw [if_pos hn]
    obtain ⟨s1, e1, i1, n1, f1, p1, _, _⟩ := doNextOutput_inv h hn
    have := h.reg.hp
    exact ⟨s1, e1, ⟨i1, Or.inr ⟨n1, f1, by omega⟩⟩, by omega⟩
  · rw [if_neg hn]
    exact ⟨s, rfl, ⟨h, Or.inl ⟨rfl, rfl, rfl⟩⟩, by omega⟩

theorem getOutput_inp {B : Nat} {s : St} {c : List Byte} {p : Nat} (h : RInv B .inputOutput s c p) :
    ∃ s', getOutput s = .ok s' ∧ Got B .inputOutput s s' c p ∧ s'.buf.next = s.buf.next := by
  unfold getOutput doGetOutput
  have hf : (fillZero s.buf.data s.buf.fin).length = B := by
    rw [fillZero_length h.reg.le3]; exact h.hsize
  rw [if_neg (by rw [h.hout]; simp), if_neg (by rw [h.hdir]; simp), if_pos h.hinp]
  refine ⟨_, rfl, ⟨⟨(h.reg.fill).mode false true, hf, h.hdir, by simp, rfl, rfl, (fun hc => by cases hc), h.st0, h.al⟩,
    Or.inl ⟨rfl, rfl, rfl⟩⟩, rfl⟩

theorem Got.wrote {B : Nat} {d : Dir} {s s1 s2 : St} {c : List Byte} {p : Nat} {bs : List Byte} (g : Got B d s s1 c p)
    (w : Wrote B d s1 s2 c p bs) : Wrote B d s s2 c p bs := by
  refine ⟨w.inv, w.next_pos, ?_, ?_, ?_⟩
  · have := w.pos_le
    rcases g.page with ⟨h1, _, _⟩ | ⟨_, _, h1⟩ <;> omega
  · intro hc
    have := w.pos_le
    rcases g.page with ⟨h1, _, h2⟩ | ⟨_, _, h1⟩
    · have := w.fin_le (by omega); omega
    · omega
  · intro hc
    exact w.atEnd (by rcases g.page with ⟨h1, h2, h3⟩ | ⟨h1, h2, _⟩ <;> omega)

/-- The bytes a call writes. -/
def Op.bytes : Op → List Byte
  | .writeElement b => [b]
  | .write l => l
  | .writeLine l => l ++ [10]
  | .writeFill b n => List.replicate n b
  | _ => []

theorem callSpec_write {d : Dir} {f : FileS} {op : Op} (h : op.writes = true) :
    callSpec d f op = writeSpec f op.bytes := by
  cases op <;> simp [Op.writes] at h <;> rfl

theorem spec_write {d : Dir} {f : FileS} {op : Op} (h : op.writes = true) (hd : d ≠ .input) :
    spec d f op = writeSpec f op.bytes := by
  have h1 : op.reads = false := by cases op <;> simp [Op.writes, Op.reads] at h ⊢
  unfold spec
  rw [h1, if_neg (by simp), if_neg (by simp [hd]), callSpec_write h]

theorem write_op {B : Nat} {d : Dir} {s s1 : St} {c : List Byte} {p : Nat} {op : Op} (hop : op.writes = true)
    (hg : getOutput s = .ok s1) (g : Got B d s s1 c p) (hn : (∃ b, op = .writeElement b) → s1.buf.next < B) :
    ∃ s', step s op = (.done, s') ∧ Wrote B d s s' c p op.bytes ∧
      (op.bytes = [] → s' = s1) := by
  have i1 := g.inv
  have hpl := i1.reg.pos_le
  cases op with
  | writeElement b =>
    have hlt := hn ⟨b, rfl⟩
    have hc := chunk_inv i1 (w := [b]) (by simp) (by rw [List.length_singleton]; omega)
    simp only [List.length_singleton] at hc
    have hw : Wrote B d s1 _ c p [b] := ⟨hc, fun _ => Nat.succ_pos _, Nat.le_refl _, fun _ => Nat.le_max_right _ _,
      fun hc => (by dsimp only; omega)⟩
    refine ⟨_, ?_, g.wrote hw, fun hc => by cases hc⟩
    simp only [step, writeElement, hg, Res.bind]
    rw [if_pos (by rw [i1.hsize]; exact hlt)]
    rfl
  | write l =>
    obtain ⟨s2, e2, w2⟩ := writeLoop_inv (2 * l.length + 2) (bs := l) i1 (by split_ifs <;> omega)
    refine ⟨s2, by simp only [step, write, hg, Res.bind, e2, finish'], g.wrote w2, ?_⟩
    intro hl
    change l = [] at hl
    subst hl
    simp [writeLoop] at e2
    exact e2.symm
  | writeLine l =>
    obtain ⟨s2, e2, w2⟩ := writeLoop_inv (2 * l.length + 2) (bs := l) i1 (by split_ifs <;> omega)
    obtain ⟨s3, e3, w3⟩ := writeLoop_inv 4 (bs := [10]) w2.inv (by
      simp only [List.length_singleton]; split_ifs <;> omega)
    refine ⟨s3, by simp only [step, writeLine, hg, Res.bind, e2, e3, finish'], g.wrote (w2.trans hpl w3 (by simp)), ?_⟩
    intro hc
    simp [Op.bytes] at hc
  | writeFill b n =>
    obtain ⟨s2, e2, w2⟩ := writeLoop_inv (2 * n + 2) (bs := List.replicate n b) i1 (by
      rw [List.length_replicate]; split_ifs <;> omega)
    refine ⟨s2, by simp only [step, writeFill, hg, Res.bind, e2, finish'], g.wrote w2, ?_⟩
    intro hl
    change List.replicate n b = [] at hl
    rw [hl] at e2
    simp [writeLoop] at e2
    exact e2.symm
  | _ => simp [Op.writes] at hop

/-! ### Output streams -/

/-- The bytes behind the position were forced out, so they are not in the buffer for its user. -/
structure Stale (B : Nat) (s : St) (c : List Byte) (p : Nat) : Prop where
  inv : OInv B .output { s with buf := { s.buf with next := s.buf.fin } } c (s.buf.pos + s.buf.fin)
  clean : s.buf.dirty = false
  lt : s.buf.next < s.buf.fin
  hp : p = s.buf.pos + s.buf.next

/-- The invariant of output streams. -/
def OutJ (B : Nat) (n : OutNote) (s : St) (c : List Byte) (p : Nat) : Prop :=
  (OInv B .output s c p ∧ (n.back = false → s.buf.next = s.buf.fin) ∧ (n.pending = false → s.buf.dirty = false)) ∨
  (n.stale = true ∧ Stale B s c p)

theorem Stale.size_eq {B : Nat} {s : St} {c : List Byte} {p : Nat} (h : Stale B s c p) : streamSize s = c.length :=
  h.inv.reg.size_eq

theorem OutJ.size_eq {B : Nat} {n : OutNote} {s : St} {c : List Byte} {p : Nat} (h : OutJ B n s c p) :
    streamSize s = c.length := by
  rcases h with ⟨h, _⟩ | ⟨_, h⟩
  · exact h.reg.size_eq
  · exact h.size_eq

theorem OutJ.position_eq {B : Nat} {n : OutNote} {s : St} {c : List Byte} {p : Nat} (h : OutJ B n s c p) :
    streamPosition s = p := by
  rcases h with ⟨h, _⟩ | ⟨_, h⟩
  · exact h.reg.position_eq
  · exact h.hp.symm

theorem OutJ.dir {B : Nat} {n : OutNote} {s : St} {c : List Byte} {p : Nat} (h : OutJ B n s c p) : s.dir = .output := by
  rcases h with ⟨h, _⟩ | ⟨_, h⟩
  · exact h.hdir
  · exact h.inv.hdir

theorem OutJ.inp {B : Nat} {n : OutNote} {s : St} {c : List Byte} {p : Nat} (h : OutJ B n s c p) : s.inp = false := by
  rcases h with ⟨h, _⟩ | ⟨_, h⟩
  · exact h.hinp
  · exact h.inv.hinp

theorem OutJ.seek {B k : Nat} (hk : B = 2 ^ k) {n : OutNote} {s : St} {c : List Byte} {p q : Nat} (h : OutJ B n s c p)
    (hq : q ≤ c.length) :
    ∃ s', seekFromStart s q c.length = .ok s' ∧ OutJ B ⟨n.pending, n.back || n.pending, false⟩ s' c q := by
  unfold seekFromStart
  rw [h.dir]
  dsimp only
  rcases h with ⟨h, hb, hp⟩ | ⟨_, h⟩
  · obtain ⟨s', e, i, hcl⟩ := seekOutput_inv hk h.hsize h.hdir h.hinp h.reg (h.outClean rfl) hq
    refine ⟨s', e, Or.inl ⟨i, ?_, ?_⟩⟩
    · intro hbk
      simp only [Bool.or_eq_false_iff] at hbk
      exact (hcl (hp hbk.2)).1
    · intro hpn
      exact (hcl (hp hpn)).2
  · have hi := h.inv
    obtain ⟨s', e, i, hcl⟩ := seekOutput_inv hk hi.hsize hi.hdir hi.hinp hi.reg (hi.outClean rfl) hq
    rw [seekOutput_next] at e
    refine ⟨s', e, Or.inl ⟨i, fun _ => (hcl h.clean).1, fun _ => (hcl h.clean).2⟩⟩

theorem OInv.force_end {B : Nat} {s : St} {c : List Byte} {p : Nat} (h : OInv B .output s c p)
    (he : s.buf.next = s.buf.fin) : OInv B .output (force s) c p ∧ (force s).buf.next = (force s).buf.fin ∧ (force s).buf.dirty = false := by
  have f := force_forced h.reg
  refine ⟨⟨force_reg h.reg (Or.inr he), by rw [size_of_data f.data]; exact h.hsize, f.dir.trans h.hdir, by simp,
    f.inp.trans h.hinp, f.out.trans h.hout, ?_, (fun hc => by cases hc), (fun hc => by cases hc)⟩, by rw [f.next, f.fin, he], f.dirty⟩
  intro _ _
  rw [f.start, f.fin]
  split_ifs with hc
  · rfl
  · have : s.buf.dirty = false := by
      cases hd : s.buf.dirty
      · rfl
      · exact absurd ⟨h.hdir, hd⟩ hc
    exact h.outClean rfl this

/-- `force-output` on an output stream. -/
theorem OutJ.force {B : Nat} {n : OutNote} {s : St} {c : List Byte} {p : Nat} (h : OutJ B n s c p) :
    ∃ s', forceOutput s = .ok s' ∧ s'.acc.file = c ∧
      OutJ B ⟨false, false, n.stale || (n.back && decide (p ≠ c.length))⟩ s' c p := by
  unfold forceOutput
  rw [h.dir, if_neg (by simp)]
  rcases h with ⟨h, hb, hp⟩ | ⟨hst, h⟩
  · obtain ⟨s1, e1, g1, lt1⟩ := getOutput_out h
    rw [e1, Res.bind]
    have i1 := g1.inv
    have f := force_forced i1.reg
    refine ⟨_, rfl, f.file, ?_⟩
    by_cases he : s1.buf.next = s1.buf.fin
    · obtain ⟨a, b, cc⟩ := i1.force_end he
      exact Or.inl ⟨a, fun _ => b, fun _ => cc⟩
    · have hle := i1.reg.le2
      have hne : s.buf.next ≠ s.buf.fin := by
        rcases g1.page with ⟨_, h2, h3⟩ | ⟨h1, h2, _⟩ <;> omega
      have hbk : n.back = true := by
        cases hbk : n.back
        · exact absurd (hb hbk) hne
        · rfl
      have hpc : p ≠ c.length := by
        have := h.reg.fin_le
        have := h.reg.hp
        have := h.reg.le2
        omega
      have hl1 := i1.reg.le1
      have i2 : OInv B .output { s1 with buf := { s1.buf with next := s1.buf.fin } } c (s1.buf.pos + s1.buf.fin) :=
        ⟨i1.reg.move (by omega) (Nat.le_refl _), i1.hsize, i1.hdir, by simp, i1.hinp, i1.hout, i1.outClean, (fun hc => by cases hc), (fun hc => by cases hc)⟩
      obtain ⟨a, _, _⟩ := i2.force_end rfl
      rw [force_next] at a
      refine Or.inr ⟨by simp [hbk, hpc], ⟨?_, f.dirty, by rw [f.next, f.fin]; omega, by rw [f.pos, f.next]; exact i1.reg.hp⟩⟩
      rw [f.fin, f.pos]
      exact a
  · have hi := h.inv
    have hlt := h.lt
    have hl3 := hi.reg.le3
    dsimp only at hl3
    have hsz : s.buf.size = B := hi.hsize
    have hout : s.out = true := hi.hout
    have hl3' : s.buf.fin ≤ B := by rw [← hsz]; exact hl3
    have e1 : getOutput s = .ok s := by
      unfold getOutput
      rw [if_pos hout, hsz, if_neg (by omega)]
    have e2 : Streams.force s = s := by
      unfold Streams.force forceBuffer
      simp only [h.clean, Bool.false_eq_true, if_false]
    rw [e1, Res.bind, e2]
    refine ⟨s, rfl, (hi.reg.clean h.clean).symm, Or.inr ⟨by simp [hst], h⟩⟩

theorem output_step {B k : Nat} (hk : B = 2 ^ k) {n : OutNote} {s : St} {c : List Byte} {p : Nat} (h : OutJ B n s c p)
    {op : Op} (hok : OutOk n op) :
    ∃ s', step s op = ((spec .output ⟨c, p⟩ op).1, s') ∧
      OutJ B (outNote n ⟨c, p⟩ op) s' (spec .output ⟨c, p⟩ op).2.bytes (spec .output ⟨c, p⟩ op).2.pos := by
  have hrd : getInput s = .fail .notReadable := by
    unfold getInput doGetInput
    simp only [h.inp, h.dir, Bool.false_eq_true, if_false, if_true]
  have hmv : ∀ {op : Op}, op.moves = true → op.writes = false → ∃ s', step s op = ((spec .output ⟨c, p⟩ op).1, s') ∧
      OutJ B (outNote n ⟨c, p⟩ op) s' (spec .output ⟨c, p⟩ op).2.bytes (spec .output ⟨c, p⟩ op).2.pos := by
    intro op hop hw
    obtain ⟨s', e, hc⟩ := move_step h.size_eq h.position_eq h.dir (by simp) hop (fun hc => by cases hc)
      (P := fun s' q => OutJ B ⟨n.pending, n.back || n.pending, false⟩ s' c q) (fun hq => h.seek hk hq)
    refine ⟨s', e, ?_⟩
    unfold outNote
    rw [hw, if_neg (by simp), if_pos hop]
    rcases hc with ⟨h1, h2, h3⟩ | ⟨h1, h2, h3⟩
    · rw [if_pos h1, h2, h3]; exact h
    · rw [if_neg h1, h2]; exact h3
  by_cases hw : op.writes = true
  · have hst : n.stale = false := by
      cases hs : n.stale
      · rfl
      · have := hok hs; rw [hw] at this; cases this
    rcases h with ⟨h, hb, hp⟩ | ⟨hs, _⟩
    · obtain ⟨s1, e1, g1, lt1⟩ := getOutput_out h
      obtain ⟨s2, e2, w2, _⟩ := write_op hw e1 g1 (fun _ => lt1)
      rw [spec_write hw (by simp)]
      refine ⟨s2, e2, ?_⟩
      unfold outNote
      rw [if_pos hw]
      exact Or.inl ⟨w2.inv, fun hbk => w2.atEnd (hb hbk), fun hc => by cases hc⟩
    · rw [hst] at hs; cases hs
  · have hw' : op.writes = false := by simpa using hw
    have hid : op.moves = false → op ≠ .forceOutput → outNote n ⟨c, p⟩ op = n := by
      intro h1 h2
      unfold outNote
      rw [hw', h1, if_neg (by simp), if_neg (by simp), if_neg h2]
    cases op with
    | readElement => exact ⟨s, by simp only [step, readElement, hrd, Res.bind, finish]; rfl, by rw [hid rfl (by simp)]; exact h⟩
    | peek => exact ⟨s, by simp only [step, peek, hrd, Res.bind, finish]; rfl, by rw [hid rfl (by simp)]; exact h⟩
    | read m => exact ⟨s, by simp only [step, read, readInto, hrd, Res.bind, finish]; rfl, by rw [hid rfl (by simp)]; exact h⟩
    | readSkip m =>
      rw [hid rfl (by simp)]
      by_cases hm : 0 < m
      · have hs : spec .output ⟨c, p⟩ (.readSkip m) = (.notReadable, ⟨c, p⟩) := by
          unfold spec; rw [if_pos (by simp [Op.reads, hm])]
        rw [hs]
        exact ⟨s, by simp only [step, readSkip, if_pos hm, hrd, Res.bind, finish']; rfl, h⟩
      · have : m = 0 := by omega
        subst this
        exact ⟨s, rfl, h⟩
    | readLine => exact ⟨s, by simp only [step, readLine, hrd, Res.bind, finish]; rfl, by rw [hid rfl (by simp)]; exact h⟩
    | atEnd =>
      rw [hid rfl (by simp)]
      refine ⟨s, by simp only [step, atEnd, if_pos h.dir, finish]; rfl, h⟩
    | readToEnd =>
      exact ⟨s, by simp only [step, readToEnd, read, readInto, hrd, Res.bind, finish]; rfl, by rw [hid rfl (by simp)]; exact h⟩
    | contents => exact ⟨s, by simp only [step, streamContents, if_pos h.dir, finish]; rfl, by rw [hid rfl (by simp)]; exact h⟩
    | writeElement b => exact absurd rfl hw
    | write l => exact absurd rfl hw
    | writeLine l => exact absurd rfl hw
    | writeFill b m => exact absurd rfl hw
    | forceOutput =>
      obtain ⟨s', e, _, j⟩ := h.force
      exact ⟨s', by simp only [step, e, finish']; rfl, j⟩
    | setPosition q => exact hmv rfl rfl
    | adjustPosition delta fr => exact hmv rfl rfl
    | unread => exact hmv rfl rfl
    | position => exact ⟨s, by simp only [step, h.position_eq]; rfl, by rw [hid rfl (by simp)]; exact h⟩
    | size => exact ⟨s, by simp only [step, h.size_eq]; rfl, by rw [hid rfl (by simp)]; exact h⟩

end Verif.Streams
