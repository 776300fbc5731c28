/-
Lemmas on bytes, buffers and the file accessor.
-/
import Verif.Streams.Spec
import Mathlib.Tactic.SplitIfs

namespace Verif.Streams

theorem patch_length {l w : List Byte} {i : Nat} (h : i + w.length ≤ l.length) :
    (patch l i w).length = l.length := by
  simp only [patch, List.length_append, List.length_take, List.length_drop]; omega

theorem patch_get {l w : List Byte} {i : Nat} (h : i ≤ l.length) (j : Nat) :
    (patch l i w)[j]? = if i ≤ j ∧ j < i + w.length then w[j - i]? else l[j]? := by
  unfold patch
  have hm : min i l.length = i := by omega
  rw [List.append_assoc, List.getElem?_append, List.length_take, hm]
  by_cases h1 : j < i
  · rw [if_pos h1, if_neg (by omega), List.getElem?_take, if_pos h1]
  · rw [if_neg h1, List.getElem?_append]
    by_cases h2 : j - i < w.length
    · rw [if_pos h2, if_pos (by omega)]
    · rw [if_neg h2, if_neg (by omega), List.getElem?_drop]
      congr 1; omega

theorem fillZero_length {l : List Byte} {i : Nat} (h : i ≤ l.length) : (fillZero l i).length = l.length := by
  simp only [fillZero, List.length_append, List.length_take, List.length_replicate]; omega

theorem fillZero_get {l : List Byte} {i j : Nat} (h : j < i) (hi : i ≤ l.length) :
    (fillZero l i)[j]? = l[j]? := by
  unfold fillZero
  rw [List.getElem?_append, List.length_take, if_pos (by omega), List.getElem?_take, if_pos h]

theorem posixWrite_get {f w : List Byte} {p : Nat} (h : p ≤ f.length) (j : Nat) :
    (posixWrite f p w)[j]? = if p ≤ j ∧ j < p + w.length then w[j - p]? else f[j]? := by
  have : posixWrite f p w = patch f p w := by
    unfold posixWrite patch
    rw [show p - f.length = 0 by omega, List.replicate_zero, List.append_nil]
  rw [this, patch_get h]

theorem overwrite_eq_patch (l w : List Byte) (p : Nat) : overwrite l p w = patch l p w := rfl

theorem posixWrite_length {f w : List Byte} {p : Nat} (h : p ≤ f.length) :
    (posixWrite f p w).length = max f.length (p + w.length) := by
  simp only [posixWrite, List.length_append, List.length_take, List.length_replicate, List.length_drop]; omega

theorem overwrite_length {f w : List Byte} {p : Nat} (h : p ≤ f.length) :
    (overwrite f p w).length = max f.length (p + w.length) := by
  simp only [overwrite, List.length_append, List.length_take, List.length_drop]; omega

theorem overwrite_nil (f : List Byte) (p : Nat) : overwrite f p [] = f := by
  simp [overwrite]

theorem overwrite_overwrite {f v w : List Byte} {p : Nat} (h : p ≤ f.length) :
    overwrite (overwrite f p v) (p + v.length) w = overwrite f p (v ++ w) := by
  apply List.ext_getElem?
  intro j
  rw [overwrite_eq_patch, patch_get (by rw [overwrite_length h]; omega), overwrite_eq_patch, overwrite_eq_patch,
    patch_get h, patch_get h, List.length_append, List.getElem?_append]
  by_cases h1 : p + v.length ≤ j ∧ j < p + v.length + w.length
  · rw [if_pos h1, if_pos (by omega), if_neg (by omega)]; congr 1; omega
  · rw [if_neg h1]
    by_cases h2 : p ≤ j ∧ j < p + v.length
    · rw [if_pos h2, if_pos (by omega), if_pos (by omega)]
    · rw [if_neg h2, if_neg (by omega)]

theorem slice_get {l : List Byte} {a n j : Nat} : ((l.drop a).take n)[j]? = if j < n then l[a + j]? else none := by
  rw [List.getElem?_take]
  split
  · rw [List.getElem?_drop]
  · rfl

theorem slice_length {l : List Byte} {a n : Nat} : ((l.drop a).take n).length = min n (l.length - a) := by
  rw [List.length_take, List.length_drop]

/-! ### Pages -/

theorem onPage_eq {s : St} {k : Nat} (h : s.buf.size = 2 ^ k) (p : Nat) : onPage s p = p % s.buf.size := by
  rw [onPage, h, Nat.and_two_pow_sub_one_eq_mod]

theorem offPage_eq {s : St} {k : Nat} (h : s.buf.size = 2 ^ k) (p : Nat) :
    offPage s p = s.buf.size * (p / s.buf.size) := by
  rw [offPage, h]
  apply Nat.eq_of_testBit_eq
  intro i
  rw [Nat.testBit_ldiff, Nat.testBit_two_pow_mul, Nat.testBit_two_pow_sub_one, Nat.testBit_div_two_pow]
  by_cases hi : i < k
  · simp [hi]
  · have : k ≤ i := by omega
    simp only [hi, decide_false, Bool.not_false, Bool.and_true, ge_iff_le, this, decide_true, Bool.true_and]
    congr 1; omega

/-! ### The state of a stream that shows the bytes `c` and the position `p` -/

/-- The bytes of the file are `c`, when the buffer is put over them, and the position is `p`. -/
structure Reg (s : St) (c : List Byte) (p : Nat) : Prop where
  pos_size : 0 < s.buf.size
  le1 : s.buf.start ≤ s.buf.next
  le2 : s.buf.next ≤ s.buf.fin
  le3 : s.buf.fin ≤ s.buf.size
  hp : p = s.buf.pos + s.buf.next
  view : ∀ i, c[i]? = if s.buf.pos + s.buf.start ≤ i ∧ i < s.buf.pos + s.buf.fin then s.buf.data[i - s.buf.pos]? else s.acc.file[i]?
  clean : s.buf.dirty = false → c = s.acc.file
  gapf : s.buf.pos + s.buf.start ≤ s.acc.file.length
  dirt : s.buf.dirty = true → s.buf.start < s.buf.fin
  acc1 : s.acc.atEnd = true → s.acc.file.length ≤ s.acc.pos

theorem Reg.fin_le {s : St} {c : List Byte} {p : Nat} (h : Reg s c p) : s.buf.pos + s.buf.fin ≤ c.length := by
  by_cases he : s.buf.start < s.buf.fin
  · by_contra hc
    have hv := h.view (s.buf.pos + s.buf.fin - 1)
    rw [if_pos (by omega), List.getElem?_eq_none (by omega)] at hv
    have := h.le3
    unfold Buf.size at this
    rw [eq_comm, List.getElem?_eq_none_iff] at hv
    omega
  · have := h.le1; have := h.le2; have := h.gapf
    have hc : c = s.acc.file := by
      apply List.ext_getElem?
      intro i
      rw [h.view i, if_neg (by omega)]
    rw [hc]; omega

theorem Reg.pos_le {s : St} {c : List Byte} {p : Nat} (h : Reg s c p) : p ≤ c.length := by
  have := h.fin_le; have := h.le2; have := h.hp; omega

theorem Reg.file_le {s : St} {c : List Byte} {p : Nat} (h : Reg s c p) : s.acc.file.length ≤ c.length := by
  by_contra hc
  have hv := h.view c.length
  have := h.fin_le
  rw [if_neg (by omega), List.getElem?_eq_none (le_refl _), eq_comm, List.getElem?_eq_none_iff] at hv
  omega

/-- The bytes of the buffer are the bytes of the file. -/
theorem Reg.get {s : St} {c : List Byte} {p : Nat} (h : Reg s c p) {i : Nat} (h1 : s.buf.start ≤ i)
    (h2 : i < s.buf.fin) : s.buf.data[i]? = c[s.buf.pos + i]? := by
  rw [h.view, if_pos (by omega)]; congr 1; omega

theorem Reg.slice {s : St} {c : List Byte} {p : Nat} (h : Reg s c p) {n : Nat}
    (hn : n ≤ s.buf.fin - s.buf.next) : (s.buf.data.drop s.buf.next).take n = (c.drop p).take n := by
  apply List.ext_getElem?
  intro i
  rw [slice_get, slice_get]
  split
  · have := h.le1; have := h.le2
    rw [h.get (by omega) (by omega), h.hp]; congr 1; omega
  · rfl

theorem Reg.size_eq {s : St} {c : List Byte} {p : Nat} (h : Reg s c p) : streamSize s = c.length := by
  unfold streamSize
  have h1 := h.fin_le
  have h2 := h.file_le
  cases hd : s.buf.dirty
  · simp only [Bool.false_eq_true, if_false, h.clean hd]
  · simp only [if_true]
    by_contra hc
    have hlt : max (s.buf.pos + s.buf.fin) s.acc.file.length < c.length := by omega
    have hv := h.view (max (s.buf.pos + s.buf.fin) s.acc.file.length)
    rw [if_neg (by omega), List.getElem?_eq_none (l := s.acc.file) (by omega), List.getElem?_eq_none_iff] at hv
    omega

theorem Reg.position_eq {s : St} {c : List Byte} {p : Nat} (h : Reg s c p) : streamPosition s = p := h.hp.symm

/-- Moving `next` inside the buffer moves the position. -/
theorem Reg.move {s : St} {c : List Byte} {p n : Nat} (h : Reg s c p) (h1 : s.buf.start ≤ n) (h2 : n ≤ s.buf.fin) :
    Reg { s with buf := { s.buf with next := n } } c (s.buf.pos + n) where
  pos_size := h.pos_size
  le1 := h1
  le2 := h2
  le3 := h.le3
  hp := rfl
  view := h.view
  clean := h.clean
  gapf := h.gapf
  dirt := h.dirt
  acc1 := h.acc1

/-- The modes do not matter. -/
theorem Reg.mode {s : St} {c : List Byte} {p : Nat} (h : Reg s c p) (a b : Bool) : Reg { s with inp := a, out := b } c p :=
  ⟨h.pos_size, h.le1, h.le2, h.le3, h.hp, h.view, h.clean, h.gapf, h.dirt, h.acc1⟩

theorem accSeek_file (a : Acc) (p : Nat) : (accSeek a p).file = a.file := by unfold accSeek; split <;> rfl
theorem accSeek_pos (a : Acc) (p : Nat) : (accSeek a p).pos = p := by
  unfold accSeek
  split_ifs with h
  · rfl
  · simp only [ne_eq, Decidable.not_not] at h; exact h.symm
theorem accSeek_atEnd {a : Acc} {p : Nat} (h : a.atEnd = true → a.file.length ≤ a.pos) :
    (accSeek a p).atEnd = true → a.file.length ≤ p := by
  unfold accSeek
  split_ifs with hp
  · intro hc; exact absurd hc (by simp)
  · simp only [ne_eq, Decidable.not_not] at hp
    subst hp; exact h

/-- What writing the buffer out does. -/
structure Forced (s s' : St) (c : List Byte) : Prop where
  file : s'.acc.file = c
  acc1 : s'.acc.atEnd = true → s'.acc.file.length ≤ s'.acc.pos
  data : s'.buf.data = s.buf.data
  pos : s'.buf.pos = s.buf.pos
  next : s'.buf.next = s.buf.next
  fin : s'.buf.fin = s.buf.fin
  dirty : s'.buf.dirty = false
  start : s'.buf.start = if s.dir = .output ∧ s.buf.dirty = true then s.buf.fin else s.buf.start
  dir : s'.dir = s.dir
  inp : s'.inp = s.inp
  out : s'.out = s.out

theorem force_forced {s : St} {c : List Byte} {p : Nat} (h : Reg s c p) : Forced s (force s) c := by
  unfold force forceBuffer
  cases hd : s.buf.dirty
  · simp only [Bool.false_eq_true, if_false]
    exact ⟨(h.clean hd).symm, h.acc1, rfl, rfl, rfl, rfl, hd, by simp [hd], rfl, rfl, rfl⟩
  · have h1 := h.dirt hd
    have h3 := h.le3
    have hg := h.gapf
    unfold Buf.size at h3
    have hc : s.buf.fin - s.buf.start > 0 := by omega
    simp only [if_true, if_pos hc]
    have hlen : ((s.buf.data.drop s.buf.start).take (s.buf.fin - s.buf.start)).length = s.buf.fin - s.buf.start := by
      rw [slice_length]; omega
    have hw : posixWrite s.acc.file (s.buf.pos + s.buf.start)
        ((s.buf.data.drop s.buf.start).take (s.buf.fin - s.buf.start)) = c := by
      apply List.ext_getElem?
      intro i
      rw [posixWrite_get hg, h.view i, hlen]
      by_cases hi : s.buf.pos + s.buf.start ≤ i ∧ i < s.buf.pos + s.buf.fin
      · rw [if_pos hi, if_pos (by omega), slice_get, if_pos (by omega)]; congr 1; omega
      · rw [if_neg hi, if_neg (by omega)]
    have hlc : c.length = max s.acc.file.length (s.buf.pos + s.buf.fin) := by
      rw [← hw, posixWrite_length hg, hlen]; congr 1; omega
    refine ⟨?_, ?_, ?_, ?_, ?_, ?_, rfl, ?_, rfl, rfl, rfl⟩
    · show (accWrite _ _).file = c
      unfold accWrite
      dsimp only
      rw [accSeek_file, accSeek_pos, hw]
    · show (accWrite _ _).atEnd = true → (accWrite _ _).file.length ≤ (accWrite _ _).pos
      unfold accWrite
      dsimp only
      rw [accSeek_file, accSeek_pos, hw, hlc, hlen]
      intro ha
      have := accSeek_atEnd h.acc1 ha
      omega
    all_goals (dsimp only; split_ifs <;> first | rfl | (simp_all; done) | (simp_all; omega))

theorem size_of_data {s s' : St} (h : s'.buf.data = s.buf.data) : s'.buf.size = s.buf.size := by
  unfold Buf.size; rw [h]

/-- Writing the buffer of a readable stream out does not change what the stream shows. -/
theorem force_reg {s : St} {c : List Byte} {p : Nat} (h : Reg s c p) (hd : s.dir ≠ .output ∨ s.buf.next = s.buf.fin) :
    Reg (force s) c p := by
  have f := force_forced h
  have hst : s.buf.start ≤ (force s).buf.start ∧ (force s).buf.start ≤ s.buf.next := by
    rw [f.start]; have := h.le1; have := h.le2
    split_ifs with hc
    · rcases hd with hd | hd
      · exact absurd hc.1 hd
      · omega
    · omega
  refine ⟨?_, ?_, ?_, ?_, ?_, ?_, ?_, ?_, ?_, ?_⟩
  · rw [size_of_data f.data]; exact h.pos_size
  · rw [f.next]; exact hst.2
  · rw [f.next, f.fin]; exact h.le2
  · rw [f.fin, size_of_data f.data]; exact h.le3
  · rw [f.pos, f.next]; exact h.hp
  · intro i
    rw [f.pos, f.fin, f.data, f.file]
    split_ifs with hi
    · rw [h.view i, if_pos (by omega)]
    · rfl
  · intro _; exact f.file.symm
  · rw [f.pos, f.file]; have := h.fin_le; have := h.le2; omega
  · intro hc; rw [f.dirty] at hc; exact absurd hc (by simp)
  · exact f.acc1

/-- What loading does when the stream shows the file as it is. -/
theorem accRead_eq {a : Acc} {q n : Nat} (h : a.atEnd = true → a.file.length ≤ a.pos) :
    (accRead (accSeek a q) n).1 = (a.file.drop q).take n ∧ (accRead (accSeek a q) n).2.file = a.file ∧
    ((0 < n ∨ a.file.length ≤ q) → (accRead (accSeek a q) n).2.atEnd = true →
      a.file.length ≤ (accRead (accSeek a q) n).2.pos) := by
  unfold accRead
  have hs := accSeek_atEnd (p := q) h
  by_cases he : (accSeek a q).atEnd = true
  · rw [if_pos he]
    have := hs he
    refine ⟨?_, accSeek_file _ _, fun _ _ => ?_⟩
    · rw [List.drop_eq_nil_of_le this, List.take_nil]
    · rw [accSeek_pos]; exact this
  · rw [if_neg he]
    unfold posixRead
    rw [accSeek_file, accSeek_pos]
    dsimp only
    by_cases hb : (a.file.drop q).take n = []
    · rw [if_pos hb]
      refine ⟨hb.symm, rfl, fun hn _ => ?_⟩
      dsimp only
      rcases hn with hn | hn
      · rw [List.take_eq_nil_iff] at hb
        rcases hb with hb | hb
        · omega
        · exact List.drop_eq_nil_iff.mp hb
      · exact hn
    · rw [if_neg hb]
      refine ⟨rfl, rfl, fun _ hc => ?_⟩
      exact absurd hc he

end Verif.Streams
