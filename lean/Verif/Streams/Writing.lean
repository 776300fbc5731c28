/-
Writing to a stream whose buffer is its output buffer.
-/
import Verif.Streams.Reading

namespace Verif.Streams

/-- A stream that is being written: `B` is the size of its buffer, `d` its direction. -/
structure OInv (B : Nat) (d : Dir) (s : St) (c : List Byte) (p : Nat) : Prop where
  reg : Reg s c p
  hsize : s.buf.size = B
  hdir : s.dir = d
  hd : d ≠ .input
  hinp : s.inp = false
  hout : s.out = true
  outClean : d = .output → s.buf.dirty = false → s.buf.start = s.buf.fin
  st0 : d = .inputOutput → s.buf.start = 0
  al : d = .inputOutput → s.buf.pos % B = 0 ∨ p = c.length

theorem chunk_inv {B : Nat} {d : Dir} {s : St} {c : List Byte} {p : Nat} (h : OInv B d s c p) {w : List Byte}
    (h1 : 0 < w.length) (h2 : s.buf.next + w.length ≤ B) :
    OInv B d { s with buf := { s.buf with
          data := patch s.buf.data s.buf.next w,
          next := s.buf.next + w.length, fin := max (s.buf.next + w.length) s.buf.fin, dirty := true } }
      (overwrite c p w) (p + w.length) := by
  have hr := h.reg
  have hpl := hr.pos_le
  have hdl : s.buf.data.length = B := h.hsize
  have hl1 := hr.le1
  have hl2 := hr.le2
  have hl3 := hr.le3
  have hpe := hr.hp
  rw [h.hsize] at hl3
  have hpt : (patch s.buf.data s.buf.next w).length = B := by rw [patch_length (by omega)]; exact hdl
  refine ⟨⟨?_, ?_, ?_, ?_, ?_, ?_, ?_, ?_, ?_, ?_⟩, ?_, h.hdir, h.hd, h.hinp, h.hout, ?_, h.st0, ?_⟩
  · show 0 < (patch _ _ _).length
    rw [hpt]; omega
  · dsimp only; omega
  · dsimp only; omega
  · show _ ≤ (patch _ _ _).length
    rw [hpt]; dsimp only; omega
  · dsimp only; omega
  · intro i
    dsimp only
    rw [overwrite_eq_patch, patch_get hpl, patch_get (by omega)]
    by_cases hi : p ≤ i ∧ i < p + w.length
    · rw [if_pos hi, if_pos (by omega), if_pos (by omega)]
      congr 1; omega
    · rw [if_neg hi, hr.view i]
      by_cases hj : s.buf.pos + s.buf.start ≤ i ∧ i < s.buf.pos + s.buf.fin
      · rw [if_pos hj, if_pos (by omega), if_neg (by omega)]
      · rw [if_neg hj, if_neg (by omega)]
  · intro hc; exact absurd hc (by simp)
  · exact hr.gapf
  · intro _; dsimp only; omega
  · exact hr.acc1
  · exact hpt
  · intro _ hc; exact absurd hc (by simp)
  · intro hio
    rcases h.al hio with ha | ha
    · exact Or.inl ha
    · right
      rw [overwrite_length hpl]; omega

theorem doNextOutput_inv {B : Nat} {d : Dir} {s : St} {c : List Byte} {p : Nat} (h : OInv B d s c p)
    (hn : s.buf.next ≥ B) :
    ∃ s', doNextOutput s = .ok s' ∧ OInv B d s' c p ∧ s'.buf.next = 0 ∧ s'.buf.fin = 0 ∧ s'.buf.pos = p ∧
      s'.buf.dirty = false ∧ s'.acc.file = c := by
  have hr := h.reg
  have hl2 := hr.le2
  have hl3 := hr.le3
  have hB := hr.pos_size
  rw [h.hsize] at hl3 hB
  have f := force_forced hr
  have hdl : (force s).buf.data.length = B := by rw [f.data]; exact h.hsize
  unfold doNextOutput
  rw [if_neg (by rw [h.hsize]; simp only [ne_eq, Decidable.not_not]; omega)]
  have hp : s.buf.pos + s.buf.fin = p := by rw [hr.hp]; omega
  dsimp only
  rw [hp]
  have hz : (fillZero (force s).buf.data 0).length = B := by rw [fillZero_length (by omega)]; exact hdl
  refine ⟨_, rfl, ⟨⟨?_, ?_, ?_, ?_, ?_, ?_, ?_, ?_, ?_, ?_⟩, ?_, ?_, h.hd, ?_, ?_, ?_, ?_, ?_⟩, rfl, rfl, rfl, rfl, f.file⟩
  · show 0 < (fillZero _ _).length
    rw [hz]; exact hB
  · exact Nat.le_refl _
  · exact Nat.le_refl _
  · exact Nat.zero_le _
  · rfl
  · intro i
    dsimp only
    rw [if_neg (by omega), f.file]
  · intro _; exact f.file.symm
  · dsimp only; rw [f.file]; have := hr.pos_le; omega
  · intro hc; exact absurd hc (by simp)
  · exact f.acc1
  · exact hz
  · exact f.dir.trans h.hdir
  · exact f.inp.trans h.hinp
  · exact f.out.trans h.hout
  · intro _ _; rfl
  · intro _; rfl
  · intro hio
    dsimp only
    rcases h.al hio with ha | ha
    · left; rw [← hp, show s.buf.fin = B by omega, Nat.add_mod_right]; exact ha
    · right; exact ha

/-- What a write leaves behind. -/
structure Wrote (B : Nat) (d : Dir) (s s' : St) (c : List Byte) (p : Nat) (bs : List Byte) : Prop where
  inv : OInv B d s' (overwrite c p bs) (p + bs.length)
  next_pos : bs ≠ [] → 0 < s'.buf.next
  pos_le : s.buf.pos ≤ s'.buf.pos
  fin_le : s'.buf.pos = s.buf.pos → s.buf.fin ≤ s'.buf.fin
  atEnd : s.buf.next = s.buf.fin → s'.buf.next = s'.buf.fin

theorem writeLoop_inv {B : Nat} {d : Dir} : ∀ (k : Nat) {bs : List Byte} {s : St} {c : List Byte} {p : Nat},
    OInv B d s c p → 2 * bs.length + (if s.buf.next < B then 1 else 2) ≤ k →
    ∃ s', writeLoop k bs s = .ok s' ∧ Wrote B d s s' c p bs
  | 0, bs, s, c, p, _, hk => by split_ifs at hk <;> omega
  | k + 1, bs, s, c, p, h, hk => by
    unfold writeLoop
    have hr := h.reg
    have hB := hr.pos_size
    rw [h.hsize] at hB
    by_cases hb : 0 < bs.length
    · rw [if_pos hb, h.hsize]
      by_cases hn : s.buf.next ≥ B
      · rw [if_pos hn]
        obtain ⟨s1, e1, i1, n1, f1, p1, _, _⟩ := doNextOutput_inv h hn
        rw [e1, Res.bind]
        obtain ⟨s2, e2, w2⟩ := writeLoop_inv k (bs := bs) i1 (by
          rw [if_neg (by omega)] at hk
          rw [if_pos (by omega)]; omega)
        have hpp := hr.hp
        have := w2.pos_le
        have hne := w2.atEnd (by omega)
        refine ⟨s2, e2, w2.inv, w2.next_pos, by omega, fun hc => ?_, fun _ => hne⟩
        have := hr.le2
        omega
      · rw [if_neg hn]
        dsimp only
        generalize hm : min (B - s.buf.next) bs.length = m
        have hml : (bs.take m).length = m := by rw [List.length_take]; omega
        have hch := chunk_inv h (w := bs.take m) (by omega) (by omega)
        rw [hml] at hch
        obtain ⟨s2, e2, w2⟩ := writeLoop_inv k (bs := bs.drop m) hch (by
          rw [List.length_drop]; split_ifs at hk ⊢ <;> omega)
        have hov : overwrite (overwrite c p (bs.take m)) (p + m) (bs.drop m) = overwrite c p bs := by
          have := overwrite_overwrite (f := c) (v := bs.take m) (w := bs.drop m) hr.pos_le
          rw [hml, List.take_append_drop] at this
          exact this
        have hlen : p + m + (bs.drop m).length = p + bs.length := by rw [List.length_drop]; omega
        have hw := w2.inv
        rw [hov, hlen] at hw
        have hpl := w2.pos_le
        have hfl := w2.fin_le
        have hae := w2.atEnd
        have hnp := w2.next_pos
        dsimp only at hpl hfl hae
        refine ⟨s2, e2, hw, fun _ => ?_, hpl, fun hc => ?_, fun hc => ?_⟩
        · by_cases hd : bs.drop m = []
          · -- nothing more to write
            have hk1 : k ≠ 0 := by intro h0; split_ifs at hk <;> omega
            obtain ⟨j, rfl⟩ := Nat.exists_eq_succ_of_ne_zero hk1
            rw [hd] at e2
            simp only [writeLoop, List.length_nil, Nat.lt_irrefl, if_false, Res.ok.injEq] at e2
            rw [← e2]
            dsimp only; omega
          · exact hnp hd
        · have := hfl hc; omega
        · exact hae (by omega)
    · rw [if_neg hb]
      have hb0 : bs = [] := List.length_eq_zero_iff.mp (by omega)
      subst hb0
      refine ⟨s, rfl, ?_, fun hc => absurd rfl hc, Nat.le_refl _, fun _ => Nat.le_refl _, fun hc => hc⟩
      rw [overwrite_nil]; exact h

/-- Both writes of `write-line`. -/
theorem Wrote.trans {B : Nat} {d : Dir} {s s' s'' : St} {c : List Byte} {p : Nat} {v w : List Byte}
    (h : Wrote B d s s' c p v) (hpl : p ≤ c.length)
    (h' : Wrote B d s' s'' (overwrite c p v) (p + v.length) w) (hw : w ≠ []) : Wrote B d s s'' c p (v ++ w) := by
  have hi := h'.inv
  rw [overwrite_overwrite hpl, Nat.add_assoc, ← List.length_append] at hi
  refine ⟨hi, fun _ => h'.next_pos hw, Nat.le_trans h.pos_le h'.pos_le, fun hc => ?_, fun hc => h'.atEnd (h.atEnd hc)⟩
  have h1 := h.pos_le
  have h2 := h'.pos_le
  exact Nat.le_trans (h.fin_le (by omega)) (h'.fin_le (by omega))

end Verif.Streams
