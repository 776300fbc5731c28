/-
Setting the position of a stream.
-/
import Verif.Streams.Writing

namespace Verif.Streams

theorem page_split {B : Nat} (p : Nat) : B * (p / B) + p % B = p := Nat.div_add_mod p B

/-! ### Input streams -/

theorem seekInput_inv {B k : Nat} {s : St} {c : List Byte} {p : Nat} (hk : B = 2 ^ k) (hsize : s.buf.size = B)
    (hdir : s.dir = .input) (hout : s.out = false) (hclean : s.buf.dirty = false) (hfile : s.acc.file = c)
    (hacc : s.acc.atEnd = true → s.acc.file.length ≤ s.acc.pos) (hp : p ≤ c.length)
    (hreg : s.inp = true → ∃ q, Reg s c q) :
    ∃ s', seekInput s p c.length = .ok s' ∧ RInv B .input s' c p := by
  have hk' : s.buf.size = 2 ^ k := hsize.trans hk
  have hB : 0 < B := by rw [hk]; exact Nat.two_pow_pos k
  have hlt : p % B < B := Nat.mod_lt _ hB
  have hsp := page_split (B := B) p
  unfold seekInput
  rw [if_neg (by omega), onPage_eq hk', offPage_eq hk', hsize]
  by_cases hc : s.inp = true ∧ B * (p / B) = s.buf.pos ∧ s.buf.start ≤ p % B ∧ p % B ≤ s.buf.fin
  · rw [if_pos hc]
    obtain ⟨q, hr⟩ := hreg hc.1
    have hm := hr.move hc.2.2.1 hc.2.2.2
    rw [← hc.2.1, hsp] at hm
    exact ⟨_, rfl, hm, hsize, hdir, by simp, hc.1, hout, fun _ => hclean, (fun h => by cases h), (fun h => by cases h), (fun h => by cases h)⟩
  · rw [if_neg hc]
    refine ⟨_, rfl, ⟨?_, ?_, ?_, ?_, ?_, ?_, ?_, ?_, ?_, ?_⟩, hsize, hdir, by simp, rfl, hout, fun _ => hclean, (fun h => by cases h),
      (fun h => by cases h), (fun h => by cases h)⟩
    · show 0 < s.buf.size
      omega
    · exact Nat.le_refl _
    · exact Nat.le_refl _
    · show p % B ≤ s.buf.size
      omega
    · exact hsp.symm
    · intro i; dsimp only; rw [if_neg (by omega), hfile]
    · intro _; exact hfile.symm
    · dsimp only; rw [hsp, hfile]; exact hp
    · intro h; dsimp only at h; rw [hclean] at h; exact absurd h (by simp)
    · exact hacc

/-! ### Output streams -/

theorem force_next (s : St) (n : Nat) :
    force { s with buf := { s.buf with next := n } } =
      { force s with buf := { (force s).buf with next := n } } := by
  unfold force forceBuffer
  cases hd : s.buf.dirty
  · simp
  · simp only [if_true]
    split_ifs <;> rfl

theorem seekOutput_next (s : St) (n p size : Nat) :
    seekOutput { s with buf := { s.buf with next := n } } p size = seekOutput s p size := by
  unfold seekOutput
  rw [force_next]
  rfl

theorem seekOutput_inv {B k : Nat} {s : St} {c : List Byte} {p q : Nat} (hk : B = 2 ^ k) (hsize : s.buf.size = B)
    (hdir : s.dir = .output) (hinp : s.inp = false) (hr : Reg s c q)
    (hoc : s.buf.dirty = false → s.buf.start = s.buf.fin) (hp : p ≤ c.length) :
    ∃ s', seekOutput s p c.length = .ok s' ∧ OInv B .output s' c p ∧ (s.buf.dirty = false → s'.buf.next = s'.buf.fin ∧ s'.buf.dirty = false) := by
  have hk' : s.buf.size = 2 ^ k := hsize.trans hk
  have hB : 0 < B := by rw [hk]; exact Nat.two_pow_pos k
  have hlt : p % B < B := Nat.mod_lt _ hB
  have hsp := page_split (B := B) p
  have f := force_forced hr
  have hfs : (force s).buf.size = B := by rw [size_of_data f.data]; exact hsize
  have hkf : ∀ b : Buf, b.data = (force s).buf.data → ∀ t : St, t.buf = b → onPage t p = p % B ∧ offPage t p = B * (p / B) := by
    intro b hb t ht
    have : t.buf.size = B := by rw [ht]; unfold Buf.size; rw [hb]; exact hfs
    have h2 : t.buf.size = 2 ^ k := this.trans hk
    exact ⟨by rw [onPage_eq h2, this], by rw [offPage_eq h2, this]⟩
  unfold seekOutput
  rw [onPage_eq hk', offPage_eq hk', hsize]
  by_cases hc : B * (p / B) = s.buf.pos ∧ s.buf.start ≤ p % B ∧ p % B ≤ s.buf.fin
  · rw [if_pos hc]
    have hm := hr.move hc.2.1 hc.2.2
    rw [← hc.1, hsp] at hm
    refine ⟨_, rfl, ⟨hm.mode s.inp true, hsize, hdir, by simp, hinp, rfl, fun _ => hoc, (fun h => by cases h), (fun h => by cases h)⟩, fun hd => ⟨?_, hd⟩⟩
    have := hoc hd
    dsimp only; omega
  · rw [if_neg hc]
    dsimp only
    obtain ⟨h1, h2⟩ := hkf (force s).buf rfl (force s) rfl
    rw [h1, h2, if_neg (by omega)]
    refine ⟨_, rfl, ?_, fun _ => ⟨rfl, f.dirty⟩⟩
    have h3' : onPage { (force s) with buf := { (force s).buf with pos := B * (p / B), next := p % B, fin := p % B } } p = p % B := by
      have : ({ (force s) with buf := { (force s).buf with pos := B * (p / B), next := p % B, fin := p % B } } : St).buf.size = B := hfs
      rw [onPage_eq (this.trans hk), this]
    rw [h3']
    refine ⟨⟨?_, ?_, ?_, ?_, ?_, ?_, ?_, ?_, ?_, ?_⟩, hfs, f.dir.trans hdir, by simp, f.inp.trans hinp, rfl, fun _ _ => rfl,
      (fun h => by cases h), (fun h => by cases h)⟩
    · show 0 < (force s).buf.size
      omega
    · exact Nat.le_refl _
    · exact Nat.le_refl _
    · show p % B ≤ (force s).buf.size
      omega
    · exact hsp.symm
    · intro i; dsimp only; rw [if_neg (by omega), f.file]
    · intro _; exact f.file.symm
    · dsimp only; rw [hsp, f.file]; exact hp
    · intro h; dsimp only at h; rw [f.dirty] at h; exact absurd h (by simp)
    · exact f.acc1

/-! ### Input-output streams -/

/-- What is needed to set the position of an input-output stream. -/
structure Seekable (B : Nat) (s : St) (c : List Byte) (q : Nat) : Prop where
  reg : Reg s c q
  hsize : s.buf.size = B
  hdir : s.dir = .inputOutput
  modes : s.inp = true → s.out = false
  st0 : s.buf.start = 0

/-- The stream after its position was set, before the mode is. -/
structure Moved (B : Nat) (s s' : St) (c : List Byte) (p : Nat) : Prop where
  reg : Reg s' c p
  hsize : s'.buf.size = B
  hdir : s'.dir = .inputOutput
  inp : s'.inp = s.inp
  out : s'.out = s.out
  full : s'.buf.fin < B → s'.buf.pos + s'.buf.fin = c.length
  st0 : s'.buf.start = 0
  al : s'.buf.pos % B = 0
  lt : s'.buf.next < B

theorem Reg.drop_fin {s : St} {c : List Byte} {p : Nat} (h : Reg s c p) :
    s.acc.file.drop (s.buf.pos + s.buf.fin) = c.drop (s.buf.pos + s.buf.fin) := by
  apply List.ext_getElem?
  intro i
  rw [List.getElem?_drop, List.getElem?_drop, h.view, if_neg (by omega)]

theorem fillZero_self {l : List Byte} : fillZero l l.length = l := by simp [fillZero]

/-- Zeros after the end of the buffer do not matter. -/
theorem Reg.fill {s : St} {c : List Byte} {p : Nat} (h : Reg s c p) :
    Reg { s with buf := { s.buf with data := fillZero s.buf.data s.buf.fin } } c p := by
  have hl : (fillZero s.buf.data s.buf.fin).length = s.buf.size := fillZero_length h.le3
  refine ⟨?_, h.le1, h.le2, ?_, h.hp, ?_, h.clean, h.gapf, h.dirt, h.acc1⟩
  · show 0 < (fillZero _ _).length
    rw [hl]; exact h.pos_size
  · show s.buf.fin ≤ (fillZero _ _).length
    rw [hl]; exact h.le3
  · intro i
    dsimp only
    rw [h.view i]
    split_ifs with hi
    · rw [fillZero_get (by omega) h.le3]
    · rfl

theorem seekIOSame_inv {B k : Nat} {s : St} {c : List Byte} {p q : Nat} (hk : B = 2 ^ k) (h : Seekable B s c q)
    (hp : p ≤ c.length) (hpage : B * (p / B) = s.buf.pos)
    (hgap : s.buf.fin < B → s.buf.fin = 0 ∨ c.length ≤ s.buf.pos + B) :
    ∃ s', seekIOSame s p c.length = .ok s' ∧ Moved B s s' c p := by
  have hr := h.reg
  have hB : 0 < B := by rw [hk]; exact Nat.two_pow_pos k
  have hlt : p % B < B := Nat.mod_lt _ hB
  have hsp := page_split (B := B) p
  have hl2 := hr.le2
  have hl3 := hr.le3
  have hdl : s.buf.data.length = B := h.hsize
  have hfl := hr.fin_le
  rw [h.hsize] at hl3
  have hon : ∀ t : St, t.buf.size = B → onPage t p = p % B := by
    intro t ht; rw [onPage_eq (ht.trans hk), ht]
  have hal : s.buf.pos % B = 0 := by rw [← hpage]; exact Nat.mul_mod_right _ _
  -- the last step
  have last : ∀ t : St, Reg t c (t.buf.pos + t.buf.next) → t.buf.size = B → t.dir = .inputOutput → t.inp = s.inp → t.out = s.out →
      t.buf.pos = s.buf.pos → t.buf.start = 0 → (t.buf.fin < B → t.buf.pos + t.buf.fin = c.length) →
      ∃ s', Res.ok (α := St) { t with buf := { t.buf with next := onPage t p } } = .ok s' ∧ Moved B s s' c p := by
    intro t ht hts htd hti hto htp ht0 htf
    rw [hon t hts]
    have hle : p % B ≤ t.buf.fin := by
      by_cases hf : t.buf.fin < B
      · have := htf hf; omega
      · omega
    have hm := ht.move (n := p % B) (by omega) hle
    rw [htp, ← hpage, hsp] at hm
    exact ⟨_, rfl, hm, hts, htd, hti, hto, htf, ht0, by rw [htp]; exact hal, hlt⟩
  unfold seekIOSame
  rw [h.hsize]
  by_cases hfB : s.buf.fin < B
  · rw [if_pos hfB]
    by_cases hs : s.buf.pos + s.buf.fin < c.length
    · rw [if_pos hs]
      have hclen : c.length = s.acc.file.length := by
        have := congrArg List.length hr.drop_fin
        rw [List.length_drop, List.length_drop] at this
        have := hr.file_le
        omega
      have hfit : s.buf.fin + min (min B (c.length - (s.buf.pos + s.buf.fin))) (s.acc.file.length - (s.buf.pos + s.buf.fin)) ≤ s.buf.size := by
        rw [h.hsize]
        rcases hgap hfB with hg | hg <;> omega
      obtain ⟨a', e1, hf1, ha1⟩ := loadBuffer_eq (t := s) (c := s.acc.file) rfl hr.acc1 hfit
      rw [e1]
      simp only [Res.bind]
      rw [hr.drop_fin]
      generalize hw : (c.drop (s.buf.pos + s.buf.fin)).take (min B (c.length - (s.buf.pos + s.buf.fin))) = w
      have hwl : w.length = min B (c.length - (s.buf.pos + s.buf.fin)) := by rw [← hw, slice_length]; omega
      have hwfit : s.buf.fin + w.length ≤ B := by
        rw [hwl]; rcases hgap hfB with hg | hg <;> omega
      have hpt : (patch s.buf.data s.buf.fin w).length = B := by rw [patch_length (by omega)]; exact hdl
      have hreg1 : Reg { s with acc := a', buf := { s.buf with data := patch s.buf.data s.buf.fin w, fin := s.buf.fin + w.length } } c q := by
        refine ⟨?_, hr.le1, ?_, ?_, hr.hp, ?_, ?_, ?_, ?_, ?_⟩
        · show 0 < (patch _ _ _).length
          rw [hpt]; exact hB
        · dsimp only; omega
        · show _ ≤ (patch _ _ _).length
          rw [hpt]; dsimp only; omega
        · intro i
          dsimp only
          rw [hf1, patch_get (by omega)]
          by_cases hi : s.buf.pos + s.buf.fin ≤ i ∧ i < s.buf.pos + s.buf.fin + w.length
          · have := h.st0
            have := hr.le1
            rw [if_pos (by omega), if_pos (by omega), ← hw, slice_get, if_pos (by omega)]
            congr 1; omega
          · by_cases hi2 : s.buf.pos + s.buf.start ≤ i ∧ i < s.buf.pos + s.buf.fin
            · rw [if_pos (by omega), if_neg (by omega), hr.view i, if_pos hi2]
            · have := h.st0
              rw [if_neg (by omega), hr.view i, if_neg hi2]
        · intro hd; dsimp only; rw [hf1]; exact hr.clean hd
        · dsimp only; rw [hf1]; exact hr.gapf
        · intro hd; have := hr.dirt hd; dsimp only; omega
        · dsimp only
          intro he
          refine ha1 (Or.inl (by omega)) he
      have hreg2 := hreg1.fill
      refine last { s with acc := a', buf := { s.buf with data := fillZero (patch s.buf.data s.buf.fin w) (s.buf.fin + w.length), fin := s.buf.fin + w.length } } ?_ ?_ ?_ ?_ ?_ ?_ ?_ ?_
      · have := hreg2
        rw [hr.hp] at this
        exact this
      · show (fillZero _ _).length = B
        rw [fillZero_length (by omega)]; exact hpt
      · exact h.hdir
      · rfl
      · rfl
      · rfl
      · exact h.st0
      · dsimp only
        intro hlt2
        rcases hgap hfB with hg | hg <;> omega
    · rw [if_neg hs]
      simp only [Res.bind]
      have hreg2 := hr.fill
      refine last { s with buf := { s.buf with data := fillZero s.buf.data s.buf.fin } } ?_ ?_ ?_ ?_ ?_ ?_ ?_ ?_
      · have := hreg2
        rw [hr.hp] at this
        exact this
      · show (fillZero _ _).length = B
        rw [fillZero_length (by omega)]; exact hdl
      · exact h.hdir
      · rfl
      · rfl
      · rfl
      · exact h.st0
      · dsimp only; intro _; omega
  · rw [if_neg hfB]
    simp only [Res.bind]
    refine last s ?_ h.hsize h.hdir rfl rfl rfl h.st0 (fun hc => absurd hc hfB)
    rw [← hr.hp]; exact hr

theorem seekIOOther_inv {B k : Nat} {s : St} {c : List Byte} {p q : Nat} (hk : B = 2 ^ k) (h : Seekable B s c q)
    (hp : p ≤ c.length) : ∃ s', seekIOOther s p = .ok s' ∧ Moved B s s' c p := by
  have hr := h.reg
  have hB : 0 < B := by rw [hk]; exact Nat.two_pow_pos k
  have hlt : p % B < B := Nat.mod_lt _ hB
  have hsp := page_split (B := B) p
  have f := force_forced hr
  have hfs : (force s).buf.size = B := by rw [size_of_data f.data]; exact h.hsize
  have hfd : (force s).buf.data.length = B := hfs
  unfold seekIOOther
  dsimp only
  rw [offPage_eq (hfs.trans hk), hfs]
  unfold loadBufferAndFill
  obtain ⟨a', e1, hf1, ha1⟩ := loadBuffer_eq (t := force s) f.file f.acc1 (q := B * (p / B)) (start := 0) (n := B) (by rw [hfs]; omega)
  rw [e1]
  simp only [Res.bind, Nat.zero_add]
  generalize hw : (c.drop (B * (p / B))).take B = w
  have hwl : w.length = min B (c.length - B * (p / B)) := by rw [← hw, slice_length]
  have hpt : (patch (force s).buf.data 0 w).length = B := by rw [patch_length (by omega)]; exact hfd
  have hzt : (fillZero (patch (force s).buf.data 0 w) w.length).length = B := by rw [fillZero_length (by omega)]; exact hpt
  refine ⟨_, rfl, ?_⟩
  have hon : ∀ t : St, t.buf.size = B → onPage t p = p % B ∧ offPage t p = B * (p / B) := by
    intro t ht; exact ⟨by rw [onPage_eq (ht.trans hk), ht], by rw [offPage_eq (ht.trans hk), ht]⟩
  obtain ⟨o1, o2⟩ := hon { force s with acc := a', buf := { (force s).buf with data := fillZero (patch (force s).buf.data 0 w) w.length, fin := w.length } } hzt
  rw [o1, o2]
  refine ⟨⟨?_, ?_, ?_, ?_, ?_, ?_, ?_, ?_, ?_, ?_⟩, hzt, f.dir.trans h.hdir, f.inp, f.out, ?_, rfl, ?_, hlt⟩
  · show 0 < (fillZero _ _).length
    rw [hzt]; exact hB
  · exact Nat.zero_le _
  · dsimp only; omega
  · show w.length ≤ (fillZero _ _).length
    rw [hzt]; omega
  · exact hsp.symm
  · intro i
    dsimp only
    rw [hf1]
    split_ifs with hi
    · rw [fillZero_get (by omega) (by omega), patch_get (by omega), if_pos (by omega), ← hw, slice_get, if_pos (by omega)]
      congr 1; omega
    · rfl
  · intro _; exact hf1.symm
  · dsimp only; rw [hf1]; omega
  · intro hc; exact absurd hc (by simp)
  · exact ha1 (Or.inl hB)
  · dsimp only; intro _; omega
  · exact Nat.mul_mod_right _ _

theorem Moved.ready {B : Nat} {s s' : St} {c : List Byte} {p : Nat} (h : Moved B s s' c p)
    (hm : s.inp = true → s.out = false) : Ready B .inputOutput (setOutput s') c p ∧ (setOutput s').buf.next < B := by
  unfold setOutput
  by_cases hi : s'.inp = true
  · rw [if_pos hi]
    have ho : s'.out = false := by rw [h.out]; exact hm (by rw [← h.inp]; exact hi)
    exact ⟨⟨h.reg, h.hsize, h.hdir, by simp, by rw [hi, ho]; rfl, (fun h => by cases h), (fun h => by cases h), fun _ => h.full,
      fun _ => h.st0, fun _ => Or.inl h.al, fun _ => h.lt⟩, h.lt⟩
  · rw [if_neg hi]
    have hi' : s'.inp = false := by simpa using hi
    exact ⟨⟨h.reg.mode s'.inp true, h.hsize, h.hdir, by simp, by dsimp only; rw [hi']; rfl, (fun h => by cases h), (fun h => by cases h), fun _ => h.full,
      fun _ => h.st0, fun _ => Or.inl h.al, fun _ => h.lt⟩, h.lt⟩

theorem seekIO_inv {B k : Nat} {s : St} {c : List Byte} {p q : Nat} (hk : B = 2 ^ k) (h : Seekable B s c q)
    (hp : p ≤ c.length)
    (hgap : B * (p / B) = s.buf.pos → s.buf.fin < B → s.buf.fin = 0 ∨ c.length ≤ s.buf.pos + B) :
    ∃ s', seekIO s p c.length = .ok s' ∧ Ready B .inputOutput s' c p ∧ s'.buf.next < B := by
  unfold seekIO
  rw [if_neg (by omega), offPage_eq (h.hsize.trans hk), h.hsize]
  by_cases hc : B * (p / B) = s.buf.pos
  · rw [if_pos hc]
    obtain ⟨s1, e1, m1⟩ := seekIOSame_inv hk h hp hc (hgap hc)
    rw [e1, Res.bind]
    exact ⟨_, rfl, m1.ready h.modes⟩
  · rw [if_neg hc]
    obtain ⟨s1, e1, m1⟩ := seekIOOther_inv hk h hp
    rw [e1, Res.bind]
    exact ⟨_, rfl, m1.ready h.modes⟩

end Verif.Streams
