/-
`read-line`.
-/
import Verif.Streams.Reading

namespace Verif.Streams

theorem firstLine_append : ∀ (ch r : List Byte), (∀ b ∈ ch, isEol b = false) →
    firstLine (ch ++ r) = (ch ++ (firstLine r).1, (firstLine r).2.1, ch.length + (firstLine r).2.2)
  | [], r, _ => by simp
  | b :: ch, r, h => by
    have hb := h b (by simp)
    have ih := firstLine_append ch r (fun x hx => h x (by simp [hx]))
    simp only [isEol, Bool.or_eq_false_iff, beq_eq_false_iff_ne, ne_eq] at hb
    rw [List.cons_append, firstLine, ih]
    · simp only [List.cons_append, List.length_cons]
      congr 2
      omega
    · exact hb.1
    · intro x hx _; exact hb.2 hx
    · exact hb.2

theorem firstLine_nl (r : List Byte) : firstLine (10 :: r) = ([], true, 1) := rfl

theorem firstLine_rt (r : List Byte) : firstLine (13 :: r) = ([], true, if r[0]? = some 10 then 2 else 1) := by
  cases r with
  | nil => rfl
  | cons b l =>
    simp only [List.getElem?_cons_zero, Option.some.injEq]
    by_cases hb : b = 10
    · subst hb; simp [firstLine]
    · rw [if_neg hb, firstLine]
      intro l' hl'
      simp only [List.cons.injEq] at hl'
      exact hb hl'.1

theorem eatNewline_inv {B : Nat} {d : Dir} {s : St} {c : List Byte} {p : Nat} (h : RInv B d s c p) :
    ∃ s', eatNewline s = .ok s' ∧ RInv B d s' c (p + if c[p]? = some 10 then 1 else 0) := by
  have hr := h.reg
  have key : ∀ {t : St}, RInv B d t c p → t.buf.next < t.buf.fin → t.buf.data[t.buf.next]? = c[p]? ∧
      RInv B d { t with buf := { t.buf with next := t.buf.next + 1 } } c (p + 1) := by
    intro t ht hlt
    have hm := ht.move (n := t.buf.next + 1) (by have := ht.reg.le1; omega) (by omega) (by omega)
    rw [show t.buf.pos + (t.buf.next + 1) = p + 1 by rw [ht.reg.hp]; omega] at hm
    exact ⟨by rw [ht.reg.get ht.reg.le1 hlt, ← ht.reg.hp], hm⟩
  unfold eatNewline
  by_cases hf : s.buf.next ≥ s.buf.fin
  · rw [if_pos hf]
    obtain ⟨s1, e1, i1, l1⟩ := doNextInput_inv h (by have := hr.le2; omega)
    rw [e1, Res.bind]
    dsimp only
    by_cases hp : p < c.length
    · obtain ⟨hg, hm⟩ := key i1 (l1 hp)
      rw [hg]
      by_cases h10 : c[p]? = some 10
      · rw [if_pos ⟨by simp [hp], h10⟩, if_pos h10]; exact ⟨_, rfl, hm⟩
      · rw [if_neg (fun hc => h10 hc.2), if_neg h10]; exact ⟨_, rfl, i1⟩
    · rw [if_neg (by simp [hp]), List.getElem?_eq_none (by omega), if_neg (by simp)]
      exact ⟨_, rfl, i1⟩
  · rw [if_neg hf]
    obtain ⟨hg, hm⟩ := key h (by omega)
    rw [hg]
    by_cases h10 : c[p]? = some 10
    · rw [if_pos h10, if_pos h10]; exact ⟨_, rfl, hm⟩
    · rw [if_neg h10, if_neg h10]; exact ⟨_, rfl, h⟩

theorem lineLoop_inv {B : Nat} {d : Dir} {c : List Byte} : ∀ (k : Nat) {line : Option (List Byte)} {sb : Bool} {s : St} {p : Nat},
    RInv B d s c p → (sb = false → p = c.length) →
    2 * (c.length - p) + (if s.buf.next < s.buf.fin ∨ sb = false then 1 else 2) ≤ k →
    ∃ s', lineLoop k line sb s = .ok ((if p < c.length then some (line.getD [] ++ (firstLine (c.drop p)).1) else line,
        (firstLine (c.drop p)).2.1), s') ∧ RInv B d s' c (p + (firstLine (c.drop p)).2.2)
  | 0, line, sb, s, p, _, _, hk => by split_ifs at hk <;> omega
  | k + 1, line, sb, s, p, h, hsb, hk => by
    unfold lineLoop
    have hr := h.reg
    have hpl := hr.pos_le
    cases sb with
    | false =>
      have := hsb rfl
      simp only [Bool.false_eq_true, if_false]
      rw [if_neg (by omega), List.drop_eq_nil_of_le (by omega), firstLine]
      exact ⟨s, rfl, h⟩
    | true =>
      simp only [if_true]
      by_cases hf : s.buf.next ≥ s.buf.fin
      · rw [if_pos hf]
        obtain ⟨s1, e1, i1, l1⟩ := doNextInput_inv h (by have := hr.le2; omega)
        rw [e1, Res.bind]
        refine lineLoop_inv k i1 ?_ ?_
        · intro hc; have := of_decide_eq_false hc; omega
        · rw [if_neg (by simp only [Bool.true_eq_false, or_false]; omega)] at hk
          rw [if_pos]
          · omega
          · by_cases hp : p < c.length
            · exact Or.inl (l1 hp)
            · right; simp [hp]
      · rw [if_neg hf, hr.slice (Nat.le_refl _)]
        have hfl := hr.fin_le
        have hpe := hr.hp
        have hplt : p < c.length := by omega
        rw [if_pos hplt]
        generalize hm : s.buf.fin - s.buf.next = m at *
        have hcl : ((c.drop p).take m).length = m := by rw [slice_length]; omega
        have hrest : c.drop p = (c.drop p).take m ++ c.drop (p + m) := by
          conv_lhs => rw [← List.take_append_drop m (c.drop p), List.drop_drop]
        generalize hch : (c.drop p).take m = ch at *
        have htw : ch = ch.takeWhile (fun b => !isEol b) ++ ch.drop (ch.takeWhile (fun b => !isEol b)).length := by
          conv_lhs => rw [← List.takeWhile_append_dropWhile (p := fun b => !isEol b) (l := ch)]
          congr 1
          conv_rhs => rw [← List.takeWhile_append_dropWhile (p := fun b => !isEol b) (l := ch)]
          rw [List.drop_left']
          rw [List.takeWhile_append_dropWhile]
        have hbe : ∀ b ∈ ch.takeWhile (fun b => !isEol b), isEol b = false := by
          intro b hb
          have := List.all_eq_true.mp (List.all_takeWhile (p := fun b => !isEol b) (l := ch)) b hb
          simpa using this
        generalize hbf : ch.takeWhile (fun b => !isEol b) = bf at *
        by_cases hlt : bf.length < ch.length
        · rw [if_pos hlt]
          have hx : ∃ x, ch[bf.length]? = some x := ⟨ch[bf.length], List.getElem?_eq_getElem hlt⟩
          obtain ⟨x, hx⟩ := hx
          have hdr : ch.drop bf.length = x :: ch.drop (bf.length + 1) := by
            have := List.getElem?_eq_some_iff.mp hx
            obtain ⟨h1, h2⟩ := this
            rw [List.drop_eq_getElem_cons h1, h2]
          have hxe : isEol x = true := by
            have hdw : ch.dropWhile (fun b => !isEol b) = x :: ch.drop (bf.length + 1) := by
              have h1 := List.takeWhile_append_dropWhile (p := fun b => !isEol b) (l := ch)
              rw [hbf] at h1
              rw [← hdr]
              conv_rhs => rw [← h1]
              rw [List.drop_left']
              rfl
            have := List.head?_dropWhile_not (fun b => !isEol b) ch
            rw [hdw] at this
            simpa using this
          have hcx : c.drop p = bf ++ (x :: c.drop (p + bf.length + 1)) := by
            have h2 : (c.drop p).take bf.length = bf := by
              rw [hrest, List.take_append_of_le_length (by omega)]
              conv_lhs => rw [htw]
              rw [List.take_left']
              rfl
            have h3 : (c.drop p).drop bf.length = x :: c.drop (p + bf.length + 1) := by
              have hg : (c.drop p)[bf.length]? = some x := by
                rw [hrest, List.getElem?_append, if_pos hlt, hx]
              obtain ⟨h1, h2⟩ := List.getElem?_eq_some_iff.mp hg
              rw [List.drop_eq_getElem_cons h1, h2, List.drop_drop]
              rfl
            rw [← List.take_append_drop bf.length (c.drop p), h2, h3]
          have hmv := h.move (n := s.buf.next + bf.length + 1) (by have := hr.le1; omega) (by omega) (by omega)
          rw [show s.buf.pos + (s.buf.next + bf.length + 1) = p + bf.length + 1 by omega] at hmv
          rw [hx, hcx, firstLine_append _ _ hbe]
          by_cases hx13 : x = 13
          · subst hx13
            rw [if_pos rfl, firstLine_rt]
            obtain ⟨s2, e2, i2⟩ := eatNewline_inv hmv
            rw [e2, Res.bind]
            refine ⟨s2, by simp, ?_⟩
            dsimp only
            rw [List.getElem?_drop, Nat.add_zero]
            have he : p + bf.length + 1 + (if c[p + bf.length + 1]? = some 10 then 1 else 0)
                = p + (bf.length + if c[p + bf.length + 1]? = some 10 then 2 else 1) := by split_ifs <;> omega
            rw [he] at i2
            exact i2
          · have hx10 : x = 10 := by
              simp only [isEol, Bool.or_eq_true, beq_iff_eq] at hxe
              rcases hxe with h1 | h1
              · exact h1
              · exact absurd h1 hx13
            subst hx10
            rw [if_neg (by simp), firstLine_nl]
            exact ⟨_, by simp, hmv⟩
        · rw [if_neg hlt]
          have hble : bf.length ≤ ch.length := by
            have := congrArg List.length htw
            rw [List.length_append] at this
            omega
          have hbc : bf = ch := by
            have h0 : ch.drop bf.length = [] := List.drop_eq_nil_of_le (by omega)
            rw [h0, List.append_nil] at htw
            exact htw.symm
          rw [hbc] at hbe ⊢
          have hmv := h.move (n := s.buf.fin) (by have := hr.le1; omega) (Nat.le_refl _) (by omega)
          rw [show s.buf.pos + s.buf.fin = p + m by omega] at hmv
          obtain ⟨s2, e2, i2⟩ := lineLoop_inv k (line := some (line.getD [] ++ ch)) (sb := true) hmv
            (fun hc => absurd hc (by simp))
            (by
              rw [if_pos (Or.inl (by omega))] at hk
              split_ifs <;> omega)
          rw [e2]
          have hfl2 : firstLine (c.drop p) = (ch ++ (firstLine (c.drop (p + m))).1, (firstLine (c.drop (p + m))).2.1,
              ch.length + (firstLine (c.drop (p + m))).2.2) := by
            rw [hrest, firstLine_append _ _ hbe]
          rw [hfl2]
          refine ⟨s2, ?_, ?_⟩
          · dsimp only
            by_cases hq : p + m < c.length
            · rw [if_pos hq]; simp [List.append_assoc]
            · rw [if_neg hq, List.drop_eq_nil_of_le (by omega), firstLine]; simp
          · dsimp only
            rw [hcl, ← Nat.add_assoc]; exact i2

theorem readLine_inv {B : Nat} {d : Dir} {s : St} {c : List Byte} {p : Nat} (h : Ready B d s c p) :
    ∃ s', readLine s = .ok ((if p < c.length then some (firstLine (c.drop p)).1 else none, (firstLine (c.drop p)).2.1), s') ∧
      RInv B d s' c (p + (firstLine (c.drop p)).2.2) := by
  obtain ⟨s1, e1, i1, l1⟩ := getInput_inv h
  unfold readLine
  rw [e1, Res.bind]
  dsimp only
  have hr := i1.reg
  have hsz := hr.size_eq
  have hg := hr.gapf
  have hcl : c.length ≤ s1.acc.file.length + s1.buf.fin := by
    rw [← hsz]; unfold streamSize; split_ifs <;> omega
  obtain ⟨s2, e2, i2⟩ := lineLoop_inv (2 * (s1.acc.file.length + s1.buf.fin) + 4) (line := none) (sb := decide (p < c.length)) i1
    (by intro hc; have := of_decide_eq_false hc; have := i1.reg.pos_le; omega) (by split_ifs <;> omega)
  refine ⟨s2, ?_, i2⟩
  rw [e2]
  simp

end Verif.Streams
