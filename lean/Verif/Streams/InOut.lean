/-
One call on an input-output stream, and whole histories.
-/
import Verif.Streams.Output

namespace Verif.Streams

/-! ### Input-output streams -/

/-- The invariant of input-output streams. -/
structure IOJ (B : Nat) (n : IONote) (s : St) (c : List Byte) (p : Nat) : Prop where
  reg : Reg s c p
  hsize : s.buf.size = B
  hdir : s.dir = .inputOutput
  modes : s.inp = !s.out
  st0 : s.buf.start = 0
  al : s.buf.pos % B = 0 ∨ p = c.length
  full : n.last ≠ .write → s.buf.fin < B → s.buf.pos + s.buf.fin = c.length
  lt : n.last = .move → s.buf.next < B
  rd : n.last = .read → s.inp = true
  wr : n.last = .write → s.inp = false
  inFull : s.inp = true → s.buf.fin < B → s.buf.pos + s.buf.fin = c.length
  gap : n.gap = false → s.buf.fin < B → s.buf.fin = 0 ∨ c.length ≤ s.buf.pos + B

theorem RInv.ioj {B : Nat} {s : St} {c : List Byte} {p : Nat} (h : RInv B .inputOutput s c p) (g : Bool) :
    IOJ B ⟨.read, g⟩ s c p :=
  ⟨h.reg, h.hsize, h.hdir, by rw [h.hinp, h.hout]; rfl, h.st0 rfl, h.al rfl, fun _ => h.full rfl, (fun hc => by cases hc),
    fun _ => h.hinp, (fun hc => by cases hc), fun _ => h.full rfl, fun _ hf => Or.inr (by have := h.full rfl hf; omega)⟩

theorem Ready.ioj {B : Nat} {s : St} {c : List Byte} {p : Nat} (h : Ready B .inputOutput s c p) (hn : s.buf.next < B) (g : Bool) :
    IOJ B ⟨.move, g⟩ s c p :=
  ⟨h.reg, h.hsize, h.hdir, h.modes, h.st0 rfl, h.al rfl, fun _ => h.full rfl, fun _ => hn,
    (fun hc => by cases hc), (fun hc => by cases hc), fun _ => h.full rfl, fun _ hf => Or.inr (by have := h.full rfl hf; omega)⟩

theorem IOJ.ready {B : Nat} {n : IONote} {s : St} {c : List Byte} {p : Nat} (h : IOJ B n s c p) (hl : n.last ≠ .write) :
    Ready B .inputOutput s c p := by
  refine ⟨h.reg, h.hsize, h.hdir, by simp, h.modes, (fun hc => by cases hc), (fun hc => by cases hc), fun _ => h.full hl,
    fun _ => h.st0, fun _ => h.al, ?_⟩
  intro ho
  cases hn : n.last with
  | move => exact h.lt hn
  | read =>
    have := h.rd hn
    have hm := h.modes
    rw [this, ho] at hm; cases hm
  | write => exact absurd hn hl

theorem IOJ.modes' {B : Nat} {n : IONote} {s : St} {c : List Byte} {p : Nat} (h : IOJ B n s c p) :
    s.inp = true → s.out = false := by
  intro hi
  have hm := h.modes
  rw [hi] at hm
  cases ho : s.out
  · rfl
  · rw [ho] at hm; cases hm

/-- The invariant in the form the writes need. -/
theorem IOJ.got {B : Nat} {n : IONote} {s : St} {c : List Byte} {p : Nat} (h : IOJ B n s c p) :
    ∃ s', getOutput s = .ok s' ∧ Got B .inputOutput s s' c p ∧ (s.buf.next < B ∨ s.inp = false → s'.buf.next < B) := by
  cases hi : s.inp
  · have ho : s.out = true := by
      have := h.modes; rw [hi] at this
      cases ho : s.out
      · rw [ho] at this; cases this
      · rfl
    obtain ⟨s', e, g, l⟩ := getOutput_out (B := B) (d := .inputOutput) (s := s) (c := c) (p := p)
      ⟨h.reg, h.hsize, h.hdir, by simp, hi, ho, (fun hc => by cases hc), fun _ => h.st0, fun _ => h.al⟩
    exact ⟨s', e, g, fun _ => l⟩
  · obtain ⟨s', e, g, l⟩ := getOutput_inp (B := B) (s := s) (c := c) (p := p)
      ⟨h.reg, h.hsize, h.hdir, by simp, hi, h.modes' hi, (fun hc => by cases hc), fun _ => h.inFull hi, fun _ => h.st0, fun _ => h.al⟩
    refine ⟨s', e, g, ?_⟩
    intro hc
    rcases hc with hc | hc
    · omega
    · cases hc

theorem IOJ.seek {B k : Nat} (hk : B = 2 ^ k) {n : IONote} {s : St} {c : List Byte} {p q : Nat} (h : IOJ B n s c p)
    (hq : q ≤ c.length) (hg : n.gap = true → q / B ≠ p / B) :
    ∃ s', seekFromStart s q c.length = .ok s' ∧ Ready B .inputOutput s' c q ∧ s'.buf.next < B := by
  have hB : 0 < B := by rw [hk]; exact Nat.two_pow_pos k
  unfold seekFromStart
  rw [h.hdir]
  dsimp only
  refine seekIO_inv hk ⟨h.reg, h.hsize, h.hdir, h.modes', h.st0⟩ hq ?_
  intro hpage hf
  cases hgp : n.gap
  · exact h.gap hgp hf
  · exfalso
    apply hg hgp
    have := h.reg.le2
    rw [h.reg.hp, ← hpage, Nat.mul_add_div hB, Nat.div_eq_of_lt (show s.buf.next < B by omega), Nat.add_zero]

theorem IOJ.setPosition {B k : Nat} (hk : B = 2 ^ k) {n : IONote} {s : St} {c : List Byte} {p q : Nat} (h : IOJ B n s c p)
    (hq : q ≤ c.length) (hg : n.gap = true → q / B ≠ p / B) :
    ∃ s', Streams.setPosition s (q : Int) = .ok s' ∧ Ready B .inputOutput s' c q ∧ s'.buf.next < B := by
  unfold Streams.setPosition
  rw [if_pos (by rw [h.reg.size_eq]; omega), Int.toNat_natCast, h.reg.size_eq]
  exact h.seek hk hq hg

/-- `force-output` on an input-output stream. -/
theorem IOJ.force {B : Nat} {n : IONote} {s : St} {c : List Byte} {p : Nat} (h : IOJ B n s c p) :
    ∃ s', forceOutput s = .ok s' ∧ s'.acc.file = c ∧ IOJ B ⟨.write, n.gap⟩ s' c p := by
  unfold forceOutput
  rw [h.hdir, if_neg (by simp)]
  obtain ⟨s1, e1, g1, _⟩ := h.got
  rw [e1, Res.bind]
  have i1 := g1.inv
  have f := force_forced i1.reg
  refine ⟨_, rfl, f.file, force_reg i1.reg (Or.inl (by rw [i1.hdir]; simp)), by rw [size_of_data f.data]; exact i1.hsize,
    f.dir.trans i1.hdir, by rw [f.inp, f.out, i1.hinp, i1.hout]; rfl, ?_, by rw [f.pos]; exact i1.al rfl, fun hc => absurd rfl hc,
    (fun hc => by cases hc), (fun hc => by cases hc), fun _ => f.inp.trans i1.hinp, ?_, ?_⟩
  · rw [f.start, if_neg (by rw [i1.hdir]; simp)]; exact i1.st0 rfl
  · intro hc; rw [f.inp, i1.hinp] at hc; cases hc
  · intro hg hf
    rw [f.fin] at hf
    rw [f.fin, f.pos]
    rcases g1.page with ⟨h1, _, h3⟩ | ⟨_, h2, _⟩
    · rw [h1, h3]
      exact h.gap hg (by omega)
    · exact Or.inl h2

/-- A write of at least one byte. -/
theorem IOJ.wrote {B : Nat} {n : IONote} {s s2 : St} {c : List Byte} {p : Nat} {bs : List Byte} (h : IOJ B n s c p)
    (w : Wrote B .inputOutput s s2 c p bs) (hb : bs ≠ [])
    {crossed : Bool} (hcr : crossed = (decide (p / B ≠ (p + bs.length - 1) / B) || (decide (p % B = 0) && decide (n.last ≠ .move)))) :
    IOJ B ⟨.write, (n.gap || crossed) && decide (((p + bs.length - 1) / B + 1) * B < (overwrite c p bs).length)⟩ s2
      (overwrite c p bs) (p + bs.length) := by
  have i := w.inv
  have hn := w.next_pos hb
  have hB := h.reg.pos_size
  rw [h.hsize] at hB
  have hbl : 0 < bs.length := List.length_pos_iff.mpr hb
  have hl2 := i.reg.le2
  have hl3 := i.reg.le3
  rw [i.hsize] at hl3
  have hp2 := i.reg.hp
  have hpl := h.reg.pos_le
  have hov : (overwrite c p bs).length = max c.length (p + bs.length) := by rw [overwrite_length hpl]
  refine ⟨i.reg, i.hsize, i.hdir, by rw [i.hinp, i.hout]; rfl, i.st0 rfl, i.al rfl, fun hc => absurd rfl hc,
    (fun hc => by cases hc), (fun hc => by cases hc), fun _ => i.hinp, (fun hc => by rw [i.hinp] at hc; cases hc), ?_⟩
  intro hg hf
  right
  -- at the end of the file
  by_cases hend : p + bs.length = (overwrite c p bs).length
  · omega
  have hal : s2.buf.pos % B = 0 := by
    rcases i.al rfl with ha | ha
    · exact ha
    · exact absurd ha hend
  have hpos2 : s2.buf.pos = B * ((p + bs.length - 1) / B) := by
    have h1 := page_split (B := B) s2.buf.pos
    rw [hal, Nat.add_zero] at h1
    rw [hp2, show s2.buf.pos + s2.buf.next - 1 = B * (s2.buf.pos / B) + (s2.buf.next - 1) by omega,
      Nat.mul_add_div hB, Nat.div_eq_of_lt (show s2.buf.next - 1 < B by omega), Nat.add_zero]
    exact h1.symm
  dsimp only at hg
  rw [Bool.and_eq_false_iff] at hg
  rcases hg with hg | hg
  · rw [Bool.or_eq_false_iff] at hg
    obtain ⟨hg1, hg2⟩ := hg
    rw [hcr, Bool.or_eq_false_iff] at hg2
    obtain ⟨hx, hy⟩ := hg2
    have hx' : p / B = (p + bs.length - 1) / B := by simpa using hx
    have hpc : p ≠ c.length := by omega
    have hal1 : s.buf.pos % B = 0 := by
      rcases h.al with ha | ha
      · exact ha
      · exact absurd ha hpc
    have h1 := page_split (B := B) s.buf.pos
    rw [hal1, Nat.add_zero] at h1
    have hmv : p % B = 0 → n.last = .move := by
      intro h0
      simpa [h0] using hy
    have hpe := h.reg.hp
    have hle2 := h.reg.le2
    have hle3 := h.reg.le3
    rw [h.hsize] at hle3
    have hnB : s.buf.next < B := by
      by_contra hc
      have hnn : s.buf.next = B := by omega
      have : p % B = 0 := by rw [hpe, hnn, Nat.add_mod_right, hal1]
      have := h.lt (hmv this)
      omega
    have hps : s.buf.pos = s2.buf.pos := by
      rw [hpos2, ← hx', hpe]
      rw [show s.buf.pos + s.buf.next = B * (s.buf.pos / B) + s.buf.next by omega, Nat.mul_add_div hB,
        Nat.div_eq_of_lt hnB, Nat.add_zero]
      exact h1.symm
    have hfl := w.fin_le hps.symm
    rcases h.gap hg1 (by omega) with hz | hz
    · have hm0 : p % B = 0 := by
        rw [hpe, show s.buf.next = 0 by omega, Nat.add_zero]; exact hal1
      have hl := hmv hm0
      have := h.full (by rw [hl]; simp) (by omega)
      omega
    · omega
  · have hg' : ¬ ((p + bs.length - 1) / B + 1) * B < (overwrite c p bs).length := by simpa using hg
    rw [Nat.add_mul, Nat.one_mul, Nat.mul_comm] at hg'
    omega

theorem inout_step {B k : Nat} (hk : B = 2 ^ k) {n : IONote} {s : St} {c : List Byte} {p : Nat} (h : IOJ B n s c p)
    {op : Op} (hok : IOOk B n ⟨c, p⟩ op) :
    ∃ s', step s op = ((spec .inputOutput ⟨c, p⟩ op).1, s') ∧
      IOJ B (ioNote B n ⟨c, p⟩ op) s' (spec .inputOutput ⟨c, p⟩ op).2.bytes (spec .inputOutput ⟨c, p⟩ op).2.pos := by
  obtain ⟨ok1, ok2, ok3, ok4⟩ := hok
  by_cases hr : op.readsIO = true
  · have hw : op.writes = false := by cases op <;> simp [Op.readsIO, Op.reads, Op.writes] at hr ⊢
    obtain ⟨s', e, i, hb⟩ := reads_step (h.ready (ok1 hr)) hr
    have hs : spec .inputOutput ⟨c, p⟩ op = callSpec .inputOutput ⟨c, p⟩ op := by
      unfold spec; rw [if_neg (by simp), if_neg (by simp)]
    rw [hs]
    refine ⟨s', e, ?_⟩
    unfold ioNote
    rw [if_pos hr, hb]
    exact i.ioj n.gap
  by_cases hw : op.writes = true
  · obtain ⟨s1, e1, g1, l1⟩ := h.got
    have hne : (∃ b, op = .writeElement b) → s1.buf.next < B := by
      intro he
      apply l1
      cases hl : n.last with
      | read => exact absurd hl (ok2 he)
      | move => exact Or.inl (h.lt hl)
      | write => exact Or.inr (h.wr hl)
    obtain ⟨s2, e2, w2, hnil⟩ := write_op hw e1 g1 hne
    have hsp := spec_write (f := ⟨c, p⟩) hw (d := .inputOutput) (by simp)
    rw [hsp]
    refine ⟨s2, e2, ?_⟩
    unfold ioNote
    rw [if_neg hr, if_pos hw, hsp]
    dsimp only [writeSpec]
    by_cases hb : op.bytes = []
    · rw [hb, List.length_nil, Nat.add_zero, if_pos rfl]
      have hs2 := hnil hb
      subst hs2
      have i1 := g1.inv
      rw [overwrite_nil]
      refine ⟨i1.reg, i1.hsize, i1.hdir, by rw [i1.hinp, i1.hout]; rfl, i1.st0 rfl, i1.al rfl, fun hc => absurd rfl hc,
        (fun hc => by cases hc), (fun hc => by cases hc), fun _ => i1.hinp, (fun hc => by rw [i1.hinp] at hc; cases hc), ?_⟩
      intro hg hf
      rcases g1.page with ⟨h1, _, h3⟩ | ⟨_, h2, _⟩
      · rw [h1, h3]
        exact h.gap hg (by omega)
      · exact Or.inl h2
    · have hbl : 0 < op.bytes.length := List.length_pos_iff.mpr hb
      rw [if_neg (by omega)]
      exact h.wrote w2 hb rfl
  have hr' : op.readsIO = false := by simpa using hr
  have hw' : op.writes = false := by simpa using hw
  by_cases hm : op.moves = true
  · obtain ⟨s', e, hc⟩ := move_step h.reg.size_eq h.reg.position_eq h.hdir (by simp) hm (fun _ => ok3 hm)
      (P := fun s' q => Ready B .inputOutput s' c q ∧ s'.buf.next < B) (fun hq => h.seek hk hq (ok4 (Or.inl hm)))
    refine ⟨s', e, ?_⟩
    unfold ioNote
    rw [hr', hw', if_neg (by simp), if_neg (by simp), if_pos hm]
    rcases hc with ⟨h1, h2, h3⟩ | ⟨h1, h2, h3⟩
    · rw [if_pos h1, h2, h3]; exact h
    · rw [if_neg h1, h2]; exact h3.1.ioj h3.2 false
  have hm' : op.moves = false := by simpa using hm
  have hid : op ≠ .contents → op ≠ .forceOutput → ioNote B n ⟨c, p⟩ op = n := by
    intro h1 h2
    unfold ioNote
    rw [hr', hw', hm', if_neg (by simp), if_neg (by simp), if_neg (by simp), if_neg h1, if_neg h2]
  cases op with
  | readSkip m =>
    have : m = 0 := by
      simp [Op.readsIO, Op.reads] at hr'; exact hr'
    subst this
    rw [hid (by simp) (by simp)]
    exact ⟨s, rfl, h⟩
  | contents =>
    obtain ⟨s0, e0, _, i0⟩ := h.force
    obtain ⟨s1, e1, i1, l1⟩ := i0.setPosition hk (q := 0) (Nat.zero_le _) (ok4 (Or.inr rfl))
    obtain ⟨s2, e2, i2⟩ := readInto_inv i1 c.length
    obtain ⟨s3, e3, i3, l3⟩ := (i2.ioj false).setPosition hk (q := p) h.reg.pos_le (fun hc => by cases hc)
    have hdo : s.dir ≠ .output := by rw [h.hdir]; simp
    refine ⟨s3, ?_, i3.ioj l3 false⟩
    have e1' : setPosition s0 0 = .ok s1 := e1
    have hsz := i1.reg.size_eq
    rw [List.drop_zero, List.take_of_length_le (Nat.le_refl _)] at e2
    simp only [step, streamContents, if_neg hdo, e0, Res.bind, e1', hsz, read, e2, h.reg.position_eq, e3, finish,
      readAnswer]
    rw [if_neg (by omega), if_neg (by simp)]
    rfl
  | forceOutput =>
    obtain ⟨s', e, _, j⟩ := h.force
    exact ⟨s', by simp only [step, e, finish']; rfl, j⟩
  | position =>
    rw [hid (by simp) (by simp)]
    exact ⟨s, by simp only [step, h.reg.position_eq]; rfl, h⟩
  | size =>
    rw [hid (by simp) (by simp)]
    exact ⟨s, by simp only [step, h.reg.size_eq]; rfl, h⟩
  | _ => simp [Op.readsIO, Op.reads, Op.writes, Op.moves] at hr' hw' hm'

end Verif.Streams
