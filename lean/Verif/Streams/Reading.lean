/-
Reading from a stream whose buffer is its input buffer.
-/
import Verif.Streams.Lemmas

namespace Verif.Streams

/-- A stream that is being read: `B` is the size of its buffer, `d` its direction. -/
structure RInv (B : Nat) (d : Dir) (s : St) (c : List Byte) (p : Nat) : Prop where
  reg : Reg s c p
  hsize : s.buf.size = B
  hdir : s.dir = d
  hd : d ≠ .output
  hinp : s.inp = true
  hout : s.out = false
  inClean : d = .input → s.buf.dirty = false
  full : d = .inputOutput → s.buf.fin < B → s.buf.pos + s.buf.fin = c.length
  st0 : d = .inputOutput → s.buf.start = 0
  al : d = .inputOutput → s.buf.pos % B = 0 ∨ p = c.length

theorem loadBuffer_eq {t : St} {c : List Byte} (hf : t.acc.file = c)
    (ha : t.acc.atEnd = true → t.acc.file.length ≤ t.acc.pos) {q start n : Nat}
    (hfit : start + min n (c.length - q) ≤ t.buf.size) :
    ∃ a' : Acc, loadBuffer t q start n = .ok (((c.drop q).take n).length,
        { t with acc := a', buf := { t.buf with data := patch t.buf.data start ((c.drop q).take n), fin := start + ((c.drop q).take n).length } }) ∧
      a'.file = c ∧ ((0 < n ∨ c.length ≤ q) → a'.atEnd = true → a'.file.length ≤ a'.pos) := by
  have h := accRead_eq (q := q) (n := n) ha
  rw [hf] at h
  refine ⟨(accRead (accSeek t.acc q) n).2, ?_, h.2.1, fun hn he => ?_⟩
  · unfold loadBuffer
    dsimp only
    rw [h.1, if_neg (by rw [slice_length]; omega)]
  · rw [h.2.1]; exact h.2.2 hn he

theorem doNextInput_inv {B : Nat} {d : Dir} {s : St} {c : List Byte} {p : Nat} (h : RInv B d s c p)
    (hn : s.buf.next = s.buf.fin) :
    ∃ s', doNextInput s = .ok (decide (p < c.length), s') ∧ RInv B d s' c p ∧
      (p < c.length → s'.buf.next < s'.buf.fin) := by
  have hr := h.reg
  have f := force_forced hr
  have hB := hr.pos_size
  rw [h.hsize] at hB
  have hsz : (force s).buf.size = B := by rw [size_of_data f.data, h.hsize]
  have hp : s.buf.pos + s.buf.fin = p := by rw [hr.hp, hn]
  have hpl := hr.pos_le
  obtain ⟨a', hl, hfile, hacc⟩ := loadBuffer_eq (t := force s) f.file f.acc1 (q := p) (start := 0) (n := B)
    (by rw [hsz]; omega)
  unfold doNextInput
  dsimp only
  rw [hp, hsz, hl]
  have hlen : ((c.drop p).take B).length = min B (c.length - p) := slice_length
  have hd0 : (decide (((c.drop p).take B).length > 0)) = decide (p < c.length) :=
    show decide _ = decide _ from decide_eq_decide.mpr (by rw [hlen]; omega)
  refine ⟨_, by rw [Res.bind, hd0], ?_, ?_⟩
  · have hdl : (force s).buf.data.length = B := hsz
    refine ⟨?_, ?_, ?_, h.hd, ?_, ?_, ?_, ?_, ?_, ?_⟩
    · refine ⟨?_, ?_, ?_, ?_, ?_, ?_, ?_, ?_, ?_, ?_⟩
      · show 0 < (patch _ _ _).length
        rw [patch_length (by rw [hlen]; omega)]; omega
      · exact Nat.le_refl _
      · exact Nat.zero_le _
      · show _ ≤ (patch _ _ _).length
        rw [patch_length (by rw [hlen]; omega)]
        dsimp only
        rw [hlen]; omega
      · rfl
      · intro i
        dsimp only
        rw [hfile]
        split_ifs with hi
        · rw [hlen] at hi
          rw [patch_get (by omega), if_pos (by rw [hlen]; omega), slice_get, if_pos (by omega)]
          congr 1; omega
        · rfl
      · intro _; exact hfile.symm
      · show p + 0 ≤ a'.file.length
        rw [hfile]; omega
      · intro hc; exact absurd hc (by simp)
      · exact hacc (Or.inl hB)
    · show (patch _ _ _).length = B
      rw [patch_length (by rw [hlen]; omega)]; exact hdl
    · exact f.dir.trans h.hdir
    · exact f.inp.trans h.hinp
    · exact f.out.trans h.hout
    · intro _; rfl
    · intro _ hlt
      dsimp only at hlt ⊢
      rw [hlen] at hlt ⊢
      omega
    · intro _; rfl
    · intro hio
      dsimp only
      by_cases hfB : s.buf.fin < B
      · right
        have := h.full hio hfB
        omega
      · have := hr.le3
        rw [h.hsize] at this
        have hfe : s.buf.fin = B := by omega
        rcases h.al hio with ha | ha
        · left; rw [← hp, hfe, Nat.add_mod_right]; exact ha
        · right; exact ha
  · intro hlt
    dsimp only
    rw [hlen]; omega

/-- The position moves inside the buffer. -/
theorem RInv.move {B : Nat} {d : Dir} {s : St} {c : List Byte} {p n : Nat} (h : RInv B d s c p)
    (h1 : s.buf.start ≤ n) (h2 : n ≤ s.buf.fin) (h3 : s.buf.next ≤ n) :
    RInv B d { s with buf := { s.buf with next := n } } c (s.buf.pos + n) := by
  refine ⟨h.reg.move h1 h2, h.hsize, h.hdir, h.hd, h.hinp, h.hout, h.inClean, h.full, h.st0, ?_⟩
  intro hio
  rcases h.al hio with ha | ha
  · exact Or.inl ha
  · right
    have := h.reg.hp; have := h.reg.fin_le; omega

theorem readLoop_inv {B : Nat} {d : Dir} {c : List Byte} : ∀ (k : Nat) {n : Nat} {got : List Byte} {sb : Bool} {s : St} {p : Nat},
    RInv B d s c p → (sb = false → p = c.length) →
    2 * n + (if s.buf.next < s.buf.fin ∨ sb = false then 1 else 2) ≤ k →
    ∃ s', readLoop k n got sb s = .ok (got ++ (c.drop p).take n, s') ∧ RInv B d s' c (p + ((c.drop p).take n).length)
  | 0, n, got, sb, s, p, _, _, hk => by split_ifs at hk <;> omega
  | k + 1, n, got, sb, s, p, h, hsb, hk => by
    unfold readLoop
    by_cases hn : 0 < n
    · rw [if_pos hn]
      cases sb with
      | false =>
        have := hsb rfl
        simp only [Bool.false_eq_true, if_false]
        rw [List.drop_eq_nil_of_le (by omega), List.take_nil, List.append_nil]
        exact ⟨s, rfl, h⟩
      | true =>
        simp only [if_true]
        have hr := h.reg
        by_cases hf : s.buf.next ≥ s.buf.fin
        · rw [if_pos hf]
          have hne : s.buf.next = s.buf.fin := by have := hr.le2; omega
          obtain ⟨s1, e1, i1, l1⟩ := doNextInput_inv h hne
          rw [e1, Res.bind]
          refine readLoop_inv k i1 ?_ ?_
          · intro hc; have := of_decide_eq_false hc; have := hr.pos_le; omega
          · rw [if_neg (by simp only [Bool.true_eq_false, or_false]; omega)] at hk
            rw [if_pos]
            · omega
            · by_cases hp : p < c.length
              · exact Or.inl (l1 hp)
              · right; simp [hp]
        · rw [if_neg hf]
          have hcnt : min (s.buf.fin - s.buf.next) n ≤ s.buf.fin - s.buf.next := by omega
          have hmv := h.move (n := s.buf.next + min (s.buf.fin - s.buf.next) n)
            (by have := hr.le1; omega) (by omega) (by omega)
          rw [hr.slice hcnt]
          generalize hm : min (s.buf.fin - s.buf.next) n = m at *
          have hpe : s.buf.pos + (s.buf.next + m) = p + m := by rw [hr.hp]; omega
          rw [hpe] at hmv
          have hfl := hr.fin_le
          have hml : ((c.drop p).take m).length = m := by
            rw [slice_length]; rw [hr.hp]; omega
          obtain ⟨s2, e2, i2⟩ := readLoop_inv k (n := n - m) (got := got ++ (c.drop p).take m) (sb := true) hmv
            (fun hc => absurd hc (by simp)) (by split_ifs at hk ⊢ <;> omega)
          have hsplit : (c.drop p).take m ++ (c.drop (p + m)).take (n - m) = (c.drop p).take n := by
            rw [show n = m + (n - m) by omega, List.take_add, List.drop_drop]
            congr 2; omega
          refine ⟨s2, ?_, ?_⟩
          · rw [e2, List.append_assoc, hsplit]
          · rw [← hsplit, List.length_append, hml, ← Nat.add_assoc]; exact i2
    · rw [if_neg hn]
      have : n = 0 := by omega
      subst this
      exact ⟨s, by simp, by simpa using h⟩

theorem skipLoop_eq : ∀ (k : Nat) (n : Nat) (got : List Byte) (sb : Bool) (s : St),
    skipLoop k n sb s = (readLoop k n got sb s).bind fun r => .ok r.2
  | 0, _, _, _, _ => rfl
  | k + 1, n, got, sb, s => by
    unfold skipLoop readLoop
    split_ifs
    · cases hd : doNextInput s with
      | fail e => rfl
      | ok r => simp only [Res.bind]; exact skipLoop_eq k n got r.1 r.2
    · exact skipLoop_eq _ _ _ _ _
    · rfl
    · rfl

/-- A stream that is about to be read: from its input buffer, or from its output buffer when that holds
    all that is left of the page. -/
structure Ready (B : Nat) (d : Dir) (s : St) (c : List Byte) (p : Nat) : Prop where
  reg : Reg s c p
  hsize : s.buf.size = B
  hdir : s.dir = d
  hd : d ≠ .output
  modes : s.inp = !s.out
  inMode : d = .input → s.inp = true
  inClean : d = .input → s.buf.dirty = false
  full : d = .inputOutput → s.buf.fin < B → s.buf.pos + s.buf.fin = c.length
  st0 : d = .inputOutput → s.buf.start = 0
  al : d = .inputOutput → s.buf.pos % B = 0 ∨ p = c.length
  notFull : s.out = true → s.buf.next < B

theorem RInv.ready {B : Nat} {d : Dir} {s : St} {c : List Byte} {p : Nat} (h : RInv B d s c p) : Ready B d s c p :=
  ⟨h.reg, h.hsize, h.hdir, h.hd, by rw [h.hinp, h.hout]; rfl, fun _ => h.hinp, h.inClean, h.full, h.st0, h.al,
    fun hc => absurd hc (by rw [h.hout]; simp)⟩

theorem getInput_inv {B : Nat} {d : Dir} {s : St} {c : List Byte} {p : Nat} (h : Ready B d s c p) :
    ∃ s', getInput s = .ok (decide (p < c.length), s') ∧ RInv B d s' c p ∧
      (p < c.length → s'.buf.next < s'.buf.fin) := by
  have hr := h.reg
  unfold getInput
  cases hi : s.inp with
  | true =>
    have ho : s.out = false := by have := h.modes; rw [hi] at this; simpa using this.symm
    have hR : RInv B d s c p := ⟨hr, h.hsize, h.hdir, h.hd, hi, ho, h.inClean, h.full, h.st0, h.al⟩
    simp only [if_true]
    by_cases hf : s.buf.next ≥ s.buf.fin
    · rw [if_pos hf]
      exact doNextInput_inv hR (by have := hr.le2; omega)
    · rw [if_neg hf]
      have hlt : p < c.length := by have := hr.fin_le; have := hr.hp; omega
      exact ⟨s, by simp [hlt], hR, fun _ => by omega⟩
  | false =>
    have ho : s.out = true := by have := h.modes; rw [hi] at this; simpa using this.symm
    simp only [Bool.false_eq_true, if_false]
    unfold doGetInput
    have hdo : s.dir ≠ .output := by rw [h.hdir]; exact h.hd
    rw [if_neg hdo, if_pos ho]
    dsimp only
    have hio : d = .inputOutput := by
      cases hdd : d with
      | input => have := h.inMode hdd; rw [hi] at this; exact absurd this (by simp)
      | output => exact absurd hdd h.hd
      | inputOutput => rfl
    have hR : RInv B d { s with inp := true, out := false } c p :=
      ⟨hr.mode true false, h.hsize, h.hdir, h.hd, rfl, rfl, h.inClean, h.full, h.st0, h.al⟩
    by_cases hf : s.buf.next ≥ s.buf.fin
    · have hnf := h.notFull ho
      have hne : s.buf.next = s.buf.fin := by have := hr.le2; omega
      have hfl := h.full hio (by omega)
      have hpe : p = c.length := by rw [hr.hp, hne]; exact hfl
      have hsz := h.hsize
      rw [if_pos hf, if_neg (by rw [hsz]; omega)]
      have hb : ∀ a : Acc, (patch s.buf.data s.buf.fin ([] : List Byte)) = s.buf.data := by
        intro _; simp [patch]
      -- the load of no bytes
      have hra : (accRead (accSeek s.acc (s.buf.pos + s.buf.fin)) (s.buf.fin - s.buf.fin)).1 = [] := by
        unfold accRead
        split_ifs with h1
        · rfl
        · unfold posixRead; simp
      have hfa : (accRead (accSeek s.acc (s.buf.pos + s.buf.fin)) (s.buf.fin - s.buf.fin)).2.file = s.acc.file := by
        unfold accRead
        split_ifs with h1
        · exact accSeek_file _ _
        · unfold posixRead; simp [accSeek_file]
      have hpa : (accRead (accSeek s.acc (s.buf.pos + s.buf.fin)) (s.buf.fin - s.buf.fin)).2.pos = s.buf.pos + s.buf.fin := by
        unfold accRead
        split_ifs with h1
        · exact accSeek_pos _ _
        · unfold posixRead; simp [accSeek_pos]
      have hload : loadBuffer { s with inp := true, out := false } (s.buf.pos + s.buf.fin) s.buf.fin (s.buf.fin - s.buf.fin)
          = .ok (0, { s with inp := true, out := false, acc := (accRead (accSeek s.acc (s.buf.pos + s.buf.fin)) (s.buf.fin - s.buf.fin)).2 }) := by
        unfold loadBuffer
        dsimp only
        rw [hra, if_neg (by simp only [List.length_nil]; have := hr.le3; unfold Buf.size at *; omega)]
        simp [patch]
      rw [hload, Res.bind]
      dsimp only
      rw [if_pos hf]
      generalize (accRead (accSeek s.acc (s.buf.pos + s.buf.fin)) (s.buf.fin - s.buf.fin)).2 = a' at *
      have hR' : RInv B d { s with inp := true, out := false, acc := a' } c p := by
        refine ⟨⟨hr.pos_size, hr.le1, hr.le2, hr.le3, hr.hp, ?_, ?_, ?_, hr.dirt, ?_⟩, h.hsize, h.hdir, h.hd, rfl, rfl,
          h.inClean, h.full, h.st0, h.al⟩
        · intro i; dsimp only; rw [hfa]; exact hr.view i
        · intro hc; dsimp only; rw [hfa]; exact hr.clean hc
        · dsimp only; rw [hfa]; exact hr.gapf
        · intro _; dsimp only; rw [hfa, hpa]; have := hr.file_le; omega
      have hF := force_forced hR'.reg
      refine ⟨_, by rw [show decide (p < c.length) = false by simp [hpe]], ?_, fun hc => absurd hc (by omega)⟩
      refine ⟨force_reg hR'.reg (Or.inl hdo), ?_, ?_, h.hd, ?_, ?_, ?_, ?_, ?_, ?_⟩
      · rw [size_of_data hF.data]; exact h.hsize
      · rw [hF.dir]; exact h.hdir
      · rw [hF.inp]
      · rw [hF.out]
      · intro _; exact hF.dirty
      · intro _; rw [hF.fin, hF.pos]; exact h.full hio
      · intro _
        have := hF.start
        rw [if_neg (by simp [hdo])] at this
        rw [this]; exact h.st0 hio
      · intro _; rw [hF.pos]; exact h.al hio
    · rw [if_neg hf]
      have hlt : p < c.length := by have := hr.fin_le; have := hr.hp; omega
      exact ⟨_, by rw [show decide (p < c.length) = true by simp [hlt]], hR, fun _ => by dsimp only; omega⟩

theorem readInto_inv {B : Nat} {d : Dir} {s : St} {c : List Byte} {p : Nat} (h : Ready B d s c p) (n : Nat) :
    ∃ s', readInto s n = .ok ((c.drop p).take n, s') ∧ RInv B d s' c (p + ((c.drop p).take n).length) := by
  obtain ⟨s1, e1, i1, l1⟩ := getInput_inv h
  unfold readInto
  rw [e1, Res.bind]
  dsimp only
  obtain ⟨s2, e2, i2⟩ := readLoop_inv (2 * n + 2) (n := n) (got := []) (sb := decide (p < c.length)) i1
    (by intro hc; have := of_decide_eq_false hc; have := i1.reg.pos_le; omega) (by split_ifs <;> omega)
  exact ⟨s2, by rw [e2, List.nil_append], i2⟩

theorem readElement_inv {B : Nat} {d : Dir} {s : St} {c : List Byte} {p : Nat} (h : Ready B d s c p) :
    ∃ s', readElement s = .ok (c[p]?, s') ∧ RInv B d s' c (if p < c.length then p + 1 else p) := by
  obtain ⟨s1, e1, i1, l1⟩ := getInput_inv h
  unfold readElement
  rw [e1, Res.bind]
  dsimp only
  by_cases hp : p < c.length
  · have hl := l1 hp
    have hr := i1.reg
    rw [if_pos (decide_eq_true hp), if_pos hp]
    have hm := i1.move (n := s1.buf.next + 1) (by have := hr.le1; omega) (by omega) (by omega)
    rw [show s1.buf.pos + (s1.buf.next + 1) = p + 1 by rw [hr.hp]; omega] at hm
    exact ⟨_, by rw [hr.get hr.le1 hl, ← hr.hp], hm⟩
  · rw [if_neg (by simp [hp]), if_neg hp]
    exact ⟨s1, by rw [List.getElem?_eq_none (by omega)], i1⟩

theorem peek_inv {B : Nat} {d : Dir} {s : St} {c : List Byte} {p : Nat} (h : Ready B d s c p) :
    ∃ s', peek s = .ok (c[p]?, s') ∧ RInv B d s' c p := by
  obtain ⟨s1, e1, i1, l1⟩ := getInput_inv h
  unfold peek
  rw [e1, Res.bind]
  dsimp only
  by_cases hp : p < c.length
  · have hl := l1 hp
    have hr := i1.reg
    rw [if_pos (decide_eq_true hp)]
    exact ⟨_, by rw [hr.get hr.le1 hl, ← hr.hp], i1⟩
  · rw [if_neg (by simp [hp])]
    exact ⟨s1, by rw [List.getElem?_eq_none (by omega)], i1⟩

theorem readSkip_inv {B : Nat} {d : Dir} {s : St} {c : List Byte} {p : Nat} (h : Ready B d s c p) {n : Nat} (hn : 0 < n) :
    ∃ s', readSkip s n = .ok s' ∧ RInv B d s' c (p + ((c.drop p).take n).length) := by
  obtain ⟨s2, e2, i2⟩ := readInto_inv h n
  obtain ⟨s1, e1, i1, l1⟩ := getInput_inv h
  unfold readInto at e2
  rw [e1] at e2
  simp only [Res.bind] at e2
  unfold readSkip
  rw [if_pos hn, e1, Res.bind]
  dsimp only
  rw [skipLoop_eq _ _ [], e2, Res.bind]
  exact ⟨s2, rfl, i2⟩

end Verif.Streams
