/-
The functions on any stream.
-/
import Verif.SeqStream.Lemmas

namespace Verif.SeqStream

variable {α σ : Type}

theorem Faithful.after {r : Src σ α} {holds : σ → List α → Prop} (h : Faithful r holds) {s : σ} {rest : List α} (hs : holds s rest) :
    holds (r.atEnd s).2 rest := by
  obtain ⟨s', e, i⟩ := h.atEnd hs
  rw [e]; exact i

theorem readToLoop_eq {r : Src σ α} {holds : σ → List α → Prop} (h : Faithful r holds) (test : α → Bool) :
    ∀ (rest : List α) (k : Nat) (got : List α) (s : σ), holds s rest → rest.length < k →
      ∃ s', readToLoop r test k got s = (.found (got ++ before test rest) (rest.any test), s') ∧ holds s' (since test rest).tail
  | _, 0, _, _, _, hk => absurd hk (by omega)
  | [], k + 1, got, s, hs, _ => by
    obtain ⟨s1, e1, i1⟩ := h.atEnd hs
    unfold readToLoop
    rw [e1]
    exact ⟨s1, by simp [before], by simpa [since] using i1⟩
  | a :: rest, k + 1, got, s, hs, hk => by
    obtain ⟨s1, e1, i1⟩ := h.atEnd hs
    obtain ⟨s2, e2, i2⟩ := h.readElement i1
    unfold readToLoop
    rw [e1]
    simp only [List.isEmpty_cons, Bool.false_eq_true, if_false, e2]
    by_cases ha : test a = true
    · rw [if_pos ha]
      exact ⟨(r.atEnd s2).2, by simp [before, ha], by simpa [since, ha] using h.after i2⟩
    · rw [if_neg ha]
      obtain ⟨s3, e3, i3⟩ := readToLoop_eq h test rest k (got ++ [a]) s2 i2 (by simpa using hk)
      refine ⟨s3, ?_, by simpa [since, ha] using i3⟩
      rw [e3]; simp [before, ha]

theorem readThroughLoop_eq {r : Src σ α} {holds : σ → List α → Prop} (h : Faithful r holds) (test : α → Bool) :
    ∀ (rest : List α) (k : Nat) (got : List α) (s : σ), holds s rest → rest.length < k →
      ∃ s', readThroughLoop r test k got s = (.found (got ++ (before test rest ++ (since test rest).take 1)) (rest.any test), s') ∧
        holds s' (since test rest).tail
  | _, 0, _, _, _, hk => absurd hk (by omega)
  | [], k + 1, got, s, hs, _ => by
    obtain ⟨s1, e1, i1⟩ := h.atEnd hs
    unfold readThroughLoop
    rw [e1]
    exact ⟨s1, by simp [before, since], by simpa [since] using i1⟩
  | a :: rest, k + 1, got, s, hs, hk => by
    obtain ⟨s1, e1, i1⟩ := h.atEnd hs
    obtain ⟨s2, e2, i2⟩ := h.readElement i1
    unfold readThroughLoop
    rw [e1]
    simp only [List.isEmpty_cons, Bool.false_eq_true, if_false, e2]
    by_cases ha : test a = true
    · rw [if_pos ha]
      exact ⟨(r.atEnd s2).2, by simp [before, since, ha], by simpa [since, ha] using h.after i2⟩
    · rw [if_neg ha]
      obtain ⟨s3, e3, i3⟩ := readThroughLoop_eq h test rest k (got ++ [a]) s2 i2 (by simpa using hk)
      refine ⟨s3, ?_, by simpa [since, ha] using i3⟩
      rw [e3]; simp [before, since, ha]

theorem readToEnd_eq {r : Src σ α} {holds : σ → List α → Prop} (h : Faithful r holds) :
    ∀ (rest : List α) (k : Nat) (got : List α) (s : σ), holds s rest → rest.length < k →
      ∃ s', readToEnd r k got s = (.elements (got ++ rest), s') ∧ holds s' []
  | _, 0, _, _, _, hk => absurd hk (by omega)
  | [], k + 1, got, s, hs, _ => by
    obtain ⟨s1, e1, i1⟩ := h.atEnd hs
    unfold readToEnd
    rw [e1]
    exact ⟨s1, by simp, i1⟩
  | a :: rest, k + 1, got, s, hs, hk => by
    obtain ⟨s1, e1, i1⟩ := h.atEnd hs
    obtain ⟨s2, e2, i2⟩ := h.readElement i1
    unfold readToEnd
    rw [e1]
    simp only [List.isEmpty_cons, Bool.false_eq_true, if_false, e2]
    obtain ⟨s3, e3, i3⟩ := readToEnd_eq h rest k (got ++ [a]) s2 i2 (by simpa using hk)
    exact ⟨s3, by rw [e3]; simp, i3⟩

theorem skipThrough_eq {r : Src σ α} {holds : σ → List α → Prop} (h : Faithful r holds) (test : α → Bool) :
    ∀ (rest : List α) (k : Nat) (s : σ), holds s rest → rest.length < k →
      ∃ s', skipThrough r test k s = (.bool (rest.any test), s') ∧ holds s' (since test rest).tail
  | _, 0, _, _, hk => absurd hk (by omega)
  | [], k + 1, s, hs, _ => by
    obtain ⟨s1, e1, i1⟩ := h.atEnd hs
    unfold skipThrough
    rw [e1]
    exact ⟨s1, by simp, by simpa [since] using i1⟩
  | a :: rest, k + 1, s, hs, hk => by
    obtain ⟨s1, e1, i1⟩ := h.atEnd hs
    obtain ⟨s2, e2, i2⟩ := h.readElement i1
    unfold skipThrough
    rw [e1]
    simp only [List.isEmpty_cons, Bool.false_eq_true, if_false, e2]
    by_cases ha : test a = true
    · rw [if_pos ha]
      exact ⟨(r.atEnd s2).2, by simp [ha], by simpa [since, ha] using h.after i2⟩
    · rw [if_neg ha]
      obtain ⟨s3, e3, i3⟩ := skipThrough_eq h test rest k s2 i2 (by simpa using hk)
      refine ⟨s3, ?_, by simpa [since, ha] using i3⟩
      rw [e3]; simp [ha]

variable [DecidableEq α]

theorem eatNewline_eq {r : Src σ α} {holds : σ → List α → Prop} (h : Faithful r holds) (nl : α) {rest : List α} {s : σ} (hs : holds s rest) :
    ∃ s', eatNewline r nl s = (some (), s') ∧ holds s' (if rest.head? = some nl then rest.tail else rest) := by
  obtain ⟨s1, e1, i1⟩ := h.peek hs
  unfold eatNewline
  rw [e1]
  dsimp only
  by_cases hh : rest.head? = some nl
  · rw [if_pos hh, if_pos hh]
    cases rest with
    | nil => simp at hh
    | cons b rest =>
      obtain ⟨s2, e2, i2⟩ := h.readElement i1
      rw [e2]
      exact ⟨s2, rfl, i2⟩
  · rw [if_neg hh, if_neg hh]
    exact ⟨s1, rfl, i1⟩

theorem firstLine_nil (nl rt : α) : firstLine nl rt [] = ([], false, []) := by simp [firstLine, before, since]

theorem firstLine_nl (nl rt : α) (rest : List α) : firstLine nl rt (nl :: rest) = ([], true, rest) := by
  simp [firstLine, before, since]

theorem firstLine_rt {nl rt : α} (hne : rt ≠ nl) (rest : List α) :
    firstLine nl rt (rt :: rest) = ([], true, if rest.head? = some nl then rest.tail else rest) := by
  cases rest with
  | nil => simp [firstLine, before, since, hne]
  | cons b rest =>
    by_cases hb : b = nl
    · simp [firstLine, before, since, hne, hb]
    · simp [firstLine, before, since, hne, hb]

theorem firstLine_cons {nl rt a : α} (h1 : a ≠ nl) (h2 : a ≠ rt) (rest : List α) :
    firstLine nl rt (a :: rest) = (a :: (firstLine nl rt rest).1, (firstLine nl rt rest).2) := by
  have hb : before (fun a => a = nl ∨ a = rt) (a :: rest) = a :: before (fun a => a = nl ∨ a = rt) rest := by
    simp [before, h1, h2]
  have hs : since (fun a => a = nl ∨ a = rt) (a :: rest) = since (fun a => a = nl ∨ a = rt) rest := by
    simp [since, h1, h2]
  unfold firstLine
  rw [hb, hs]
  dsimp only
  cases since (fun a => a = nl ∨ a = rt) rest with
  | nil => rfl
  | cons e l =>
    dsimp only
    split_ifs
    · rfl
    · cases l with
      | nil => rfl
      | cons f l' => dsimp only; split_ifs <;> rfl

theorem lineLoop_eq {r : Src σ α} {holds : σ → List α → Prop} (h : Faithful r holds) {nl rt : α} (hne : rt ≠ nl) :
    ∀ (rest : List α) (k : Nat) (got : List α) (s : σ), holds s rest → rest.length < k →
      ∃ s', lineLoop r nl rt k got s = (.found (got ++ (firstLine nl rt rest).1) (firstLine nl rt rest).2.1, s') ∧
        holds s' (firstLine nl rt rest).2.2
  | _, 0, _, _, _, hk => absurd hk (by omega)
  | [], k + 1, got, s, hs, _ => by
    obtain ⟨s1, e1, i1⟩ := h.atEnd hs
    unfold lineLoop
    rw [e1, firstLine_nil]
    exact ⟨s1, by simp, i1⟩
  | a :: rest, k + 1, got, s, hs, hk => by
    obtain ⟨s1, e1, i1⟩ := h.atEnd hs
    obtain ⟨s2, e2, i2⟩ := h.readElement i1
    unfold lineLoop
    rw [e1]
    simp only [List.isEmpty_cons, Bool.false_eq_true, if_false, e2]
    by_cases ha : a = nl
    · rw [if_pos ha, ha, firstLine_nl]
      exact ⟨_, by simp, h.after i2⟩
    · rw [if_neg ha]
      by_cases hr : a = rt
      · obtain ⟨s3, e3, i3⟩ := eatNewline_eq h nl i2
        rw [if_pos hr, e3, hr, firstLine_rt hne]
        exact ⟨_, by simp, h.after i3⟩
      · rw [if_neg hr, firstLine_cons ha hr]
        obtain ⟨s3, e3, i3⟩ := lineLoop_eq h hne rest k (got ++ [a]) s2 i2 (by simpa using hk)
        exact ⟨s3, by rw [e3]; simp, i3⟩

/-! ### Lines into a string -/

/-- What has been stored: `got` over `str` from `start` on. -/
inductive Stored (blank : α) (growing : Bool) (str : List α) (start : Nat) : List α → Into α → Prop
  | within {got : List α} : start + got.length ≤ str.length →
      Stored blank growing str start got ⟨overwrite str start got, ((start + got.length : Nat) : Int), none⟩
  | beyond : str.length < start → Stored blank growing str start [] ⟨str, (start : Int), none⟩
  | overflow {got l o : List α} {i : Int} : got ≠ [] → growing = true → l.length = str.length → (str.length : Int) ≤ i → str.length ≤ start + got.length →
      l ++ o = patchGrow blank str start got → Stored blank growing str start got ⟨l, i, some o⟩

omit [DecidableEq α] in
theorem patchGrow_snoc {blank : α} {str : List α} {start : Nat} {got : List α} {a : α} (h : str.length ≤ start + got.length) :
    patchGrow blank str start (got ++ [a]) = patchGrow blank str start got ++ [a] := by
  unfold patchGrow overwrite
  have hl : (str ++ List.replicate (start - str.length) blank).length ≤ start + got.length := by
    rw [List.length_append, List.length_replicate]; omega
  rw [List.drop_eq_nil_of_le hl, List.drop_eq_nil_of_le (show _ ≤ start + (got ++ [a]).length by rw [List.length_append (as := got)]; omega)]
  simp

omit [DecidableEq α] in
theorem Stored.add {blank : α} {growing : Bool} {str : List α} {start : Nat} {got : List α} {t : Into α}
    (h : Stored blank growing str start got t) (a : α) (hfit : growing = true ∨ start + got.length < str.length) :
    ∃ t', t.add blank growing start a = some t' ∧ Stored blank growing str start (got ++ [a]) t' := by
  cases h with
  | within hle =>
    have hol : (overwrite str start got).length = str.length := by rw [overwrite_length (by omega)]; omega
    unfold Into.add
    dsimp only
    rw [hol]
    by_cases hlt : start + got.length < str.length
    · rw [if_neg (by omega), if_pos (by omega), Int.toNat_natCast]
      refine ⟨_, rfl, ?_⟩
      have e : (overwrite str start got).set (start + got.length) a = overwrite str start (got ++ [a]) := by
        rw [overwrite_set (by omega)]
        unfold overwrite
        have ht : (str.take start ++ got).length = start + got.length := by rw [List.length_append, List.length_take]; omega
        rw [← ht, List.take_left, List.drop_length_add_append, List.drop_drop, ht, List.append_assoc (str.take start), List.length_append, Nat.add_assoc]
      rw [e]
      have := Stored.within (blank := blank) (growing := growing) (str := str) (start := start) (got := got ++ [a]) (by rw [List.length_append, List.length_singleton]; omega)
      rw [List.length_append, List.length_singleton] at this
      rw [show ((start + got.length : Nat) : Int) + 1 = ((start + (got.length + 1) : Nat) : Int) by omega]
      exact this
    · have hg : growing = true := hfit.elim id (fun hc => absurd hc hlt)
      rw [if_pos ⟨hg, by omega⟩]
      refine ⟨_, rfl, .overflow (by simp) hg hol (by omega) (by rw [List.length_append]; omega) ?_⟩
      rw [patchGrow_snoc (by omega)]
      simp [patchGrow, show start - str.length = 0 by omega]
  | beyond hlt =>
    have hg : growing = true := hfit.elim id (fun hc => by simp at hc; omega)
    unfold Into.add
    dsimp only
    rw [if_pos ⟨hg, by omega⟩]
    refine ⟨_, rfl, .overflow (by simp) hg rfl (by omega) (by omega) ?_⟩
    rw [patchGrow_snoc (by simp; omega)]
    unfold patchGrow overwrite
    rw [List.take_of_length_le (by rw [List.length_append, List.length_replicate]; omega),
      List.drop_eq_nil_of_le (by rw [List.length_append, List.length_replicate]; omega), Option.getD_none,
      show ((start : Int) - (str.length : Int)).toNat = start - str.length by omega]
    simp
  | overflow hn hg hl hi hle he =>
    unfold Into.add
    dsimp only
    rw [if_pos ⟨hg, by omega⟩]
    refine ⟨_, rfl, .overflow (by simp) hg hl hi (by rw [List.length_append]; omega) ?_⟩
    rw [patchGrow_snoc hle, ← he]
    simp

omit [DecidableEq α] in
/-- What is returned for the string. -/
theorem Stored.result {blank : α} {growing : Bool} {str : List α} {start : Nat} {got : List α} {t : Into α}
    (h : Stored blank growing str start got t) :
    t.str ++ t.overflow.getD [] = if got = [] then str else patchGrow blank str start got := by
  cases h with
  | within hle =>
    dsimp only
    rw [Option.getD_none, List.append_nil]
    split_ifs with hg
    · rw [hg]; simp [overwrite]
    · simp [patchGrow, show start - str.length = 0 by omega]
  | beyond hlt => simp
  | overflow hn hg hl hi hle he =>
    dsimp only
    rw [Option.getD_some, he, if_neg hn]

theorem lineIntoLoop_eq {r : Src σ α} {holds : σ → List α → Prop} (h : Faithful r holds) {nl rt : α} (hne : rt ≠ nl) (blank : α)
    (growing : Bool) (str : List α) (start : Nat) :
    ∀ (rest : List α) (k : Nat) (got : List α) (t : Into α) (s : σ), Stored blank growing str start got t → holds s rest → rest.length < k →
      (growing = true ∨ start + (got ++ (firstLine nl rt rest).1).length ≤ str.length ∨ (firstLine nl rt rest).1 = []) →
      ∃ s' t', lineIntoLoop r nl rt blank growing start k t s = (.found (t'.str ++ t'.overflow.getD []) (firstLine nl rt rest).2.1, s') ∧
        Stored blank growing str start (got ++ (firstLine nl rt rest).1) t' ∧ holds s' (firstLine nl rt rest).2.2
  | _, 0, _, _, _, _, _, hk, _ => absurd hk (by omega)
  | [], k + 1, got, t, s, ht, hs, _, _ => by
    obtain ⟨s1, e1, i1⟩ := h.atEnd hs
    unfold lineIntoLoop
    rw [e1, firstLine_nil]
    exact ⟨s1, t, by simp, by simpa using ht, i1⟩
  | a :: rest, k + 1, got, t, s, ht, hs, hk, hfit => by
    obtain ⟨s1, e1, i1⟩ := h.atEnd hs
    obtain ⟨s2, e2, i2⟩ := h.readElement i1
    unfold lineIntoLoop
    rw [e1]
    simp only [List.isEmpty_cons, Bool.false_eq_true, if_false, e2]
    by_cases ha : a = nl
    · rw [if_pos ha, ha, firstLine_nl]
      exact ⟨_, t, rfl, by simpa using ht, h.after i2⟩
    · rw [if_neg ha]
      by_cases hr : a = rt
      · obtain ⟨s3, e3, i3⟩ := eatNewline_eq h nl i2
        rw [if_pos hr, e3, hr, firstLine_rt hne]
        exact ⟨_, t, rfl, by simpa using ht, h.after i3⟩
      · rw [firstLine_cons ha hr] at hfit ⊢
        dsimp only at hfit ⊢
        obtain ⟨t1, e, ht1⟩ := ht.add a (by
          rcases hfit with hf | hf | hf
          · exact Or.inl hf
          · right; simp at hf; omega
          · cases hf)
        rw [if_neg hr, e]
        dsimp only
        obtain ⟨s3, t3, e3, h3, i3⟩ := lineIntoLoop_eq h hne blank growing str start rest k (got ++ [a]) t1 s2 ht1 i2 (by simpa using hk) (by
          rcases hfit with hf | hf | hf
          · exact Or.inl hf
          · right; left; simpa using hf
          · cases hf)
        exact ⟨s3, t3, e3, by simpa using h3, i3⟩

omit [DecidableEq α] in
theorem Stored.full {blank : α} {str : List α} {start : Nat} {got : List α} {t : Into α}
    (h : Stored blank false str start got t) (a : α) (hfull : str.length ≤ start + got.length) : t.add blank false start a = none := by
  cases h with
  | within hle =>
    have hol : (overwrite str start got).length = str.length := by rw [overwrite_length (by omega)]; omega
    unfold Into.add
    dsimp only
    rw [hol, if_neg (by simp), if_neg (by omega)]
  | beyond hlt =>
    unfold Into.add
    dsimp only
    rw [if_neg (by simp), if_neg (by omega)]
  | overflow hn hg => cases hg

theorem lineIntoLoop_bounds {r : Src σ α} {holds : σ → List α → Prop} (h : Faithful r holds) {nl rt : α} (hne : rt ≠ nl) (blank : α)
    (str : List α) (start : Nat) :
    ∀ (rest : List α) (k : Nat) (got : List α) (t : Into α) (s : σ), Stored blank false str start got t → holds s rest → rest.length < k →
      (str.length < start + (got ++ (firstLine nl rt rest).1).length ∧ (firstLine nl rt rest).1 ≠ []) →
      (lineIntoLoop r nl rt blank false start k t s).1 = .bounds
  | _, 0, _, _, _, _, _, hk, _ => absurd hk (by omega)
  | [], k + 1, got, t, s, ht, hs, _, hb => by rw [firstLine_nil] at hb; exact absurd rfl hb.2
  | a :: rest, k + 1, got, t, s, ht, hs, hk, hb => by
    obtain ⟨s1, e1, i1⟩ := h.atEnd hs
    obtain ⟨s2, e2, i2⟩ := h.readElement i1
    unfold lineIntoLoop
    rw [e1]
    simp only [List.isEmpty_cons, Bool.false_eq_true, if_false, e2]
    by_cases ha : a = nl
    · rw [ha, firstLine_nl] at hb; exact absurd rfl hb.2
    · rw [if_neg ha]
      by_cases hr : a = rt
      · rw [hr, firstLine_rt hne] at hb; exact absurd rfl hb.2
      · rw [if_neg hr]
        rw [firstLine_cons ha hr] at hb
        by_cases hfull : str.length ≤ start + got.length
        · rw [ht.full a hfull]
        · obtain ⟨t1, e, ht1⟩ := ht.add a (Or.inr (by omega))
          rw [e]
          dsimp only at hb ⊢
          by_cases hl : (firstLine nl rt rest).1 = []
          · rw [hl] at hb; simp at hb; omega
          · exact lineIntoLoop_bounds h hne blank str start rest k (got ++ [a]) t1 s2 ht1 i2 (by simpa using hk) ⟨by simpa using hb.1, hl⟩

/-! ### Text into a string -/

theorem nextText_length (nl rt : α) : ∀ (n : Nat) (l : List α), (nextText nl rt n l).1.length ≤ n
  | 0, l => by simp [nextText]
  | n + 1, [] => by simp [nextText]
  | n + 1, a :: l => by
    have h1 := nextText_length nl rt n (if l.head? = some nl then l.tail else l)
    have h2 := nextText_length nl rt n l
    by_cases ha : a = rt
    · rw [nextText, if_pos ha]; dsimp only; rw [List.length_cons]; omega
    · rw [nextText, if_neg ha]; dsimp only; rw [List.length_cons]; omega

omit [DecidableEq α] in
theorem overwrite_cons {l : List α} {p : Nat} {a : α} {w : List α} (h : p + 1 + w.length ≤ l.length) :
    overwrite (l.set p a) (p + 1) w = overwrite l p (a :: w) := by
  rw [overwrite_set (by omega)]
  unfold overwrite
  have ht : (l.take p ++ [a]).length = p + 1 := by rw [List.length_append, List.length_take, List.length_singleton]; omega
  rw [← ht, List.take_left, List.drop_length_add_append, List.drop_drop, List.append_assoc (l.take p), List.length_singleton, List.length_cons,
    show p + 1 + w.length = p + (w.length + 1) by omega]
  rfl

theorem textLoop_eq {r : Src σ α} {holds : σ → List α → Prop} (h : Faithful r holds) (nl rt : α) (sup : Bool) :
    ∀ (n : Nat) (rest : List α) (i : Nat) (text : List α) (s : σ), holds s rest → i + n ≤ text.length →
      ∃ s', textLoop r nl rt sup n (i : Int) text s =
          (if (nextText nl rt n rest).1.length = n then none else some (eosAns sup), overwrite text i (nextText nl rt n rest).1, s') ∧
        holds s' (nextText nl rt n rest).2
  | 0, rest, i, text, s, hs, _ => ⟨s, by simp [textLoop, nextText, overwrite], hs⟩
  | n + 1, [], i, text, s, hs, _ => by
    obtain ⟨s1, e1, i1⟩ := h.atEnd hs
    unfold textLoop
    rw [e1]
    exact ⟨s1, by simp [nextText, overwrite], i1⟩
  | n + 1, a :: rest, i, text, s, hs, hl => by
    obtain ⟨s1, e1, i1⟩ := h.atEnd hs
    obtain ⟨s2, e2, i2⟩ := h.readElement i1
    unfold textLoop
    rw [e1]
    simp only [List.isEmpty_cons, Bool.false_eq_true, if_false, e2]
    have hb : 0 ≤ (i : Int) ∧ (i : Int) < text.length := by omega
    by_cases hr : a = rt
    · obtain ⟨s3, e3, i3⟩ := eatNewline_eq h nl i2
      have hnt : nextText nl rt (n + 1) (a :: rest) = (nl :: (nextText nl rt n (if rest.head? = some nl then rest.tail else rest)).1,
          (nextText nl rt n (if rest.head? = some nl then rest.tail else rest)).2) := by rw [nextText, if_pos hr]
      rw [if_pos hr, e3, hnt]
      dsimp only
      rw [if_pos hb, Int.toNat_natCast]
      obtain ⟨s4, e4, i4⟩ := textLoop_eq h nl rt sup n _ (i + 1) (text.set i nl) s3 i3 (by rw [List.length_set]; omega)
      refine ⟨s4, ?_, i4⟩
      have hlen := nextText_length nl rt n (if rest.head? = some nl then rest.tail else rest)
      rw [show (i : Int) + 1 = ((i + 1 : Nat) : Int) by omega, e4, overwrite_cons (by omega)]
      simp
    · have hnt : nextText nl rt (n + 1) (a :: rest) = (a :: (nextText nl rt n rest).1, (nextText nl rt n rest).2) := by
        rw [nextText, if_neg hr]
      rw [if_neg hr, hnt]
      dsimp only
      rw [if_pos hb, Int.toNat_natCast]
      obtain ⟨s4, e4, i4⟩ := textLoop_eq h nl rt sup n _ (i + 1) (text.set i a) s2 i2 (by rw [List.length_set]; omega)
      refine ⟨s4, ?_, i4⟩
      have hlen := nextText_length nl rt n rest
      rw [show (i : Int) + 1 = ((i + 1 : Nat) : Int) by omega, e4, overwrite_cons (by omega)]
      simp

end Verif.SeqStream
