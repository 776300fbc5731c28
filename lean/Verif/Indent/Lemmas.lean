import Verif.Indent.Spec

/- Proofs about indenting streams, apart from the properties themselves. -/

namespace Verif.Indent

open Spec

/-- The stream with more given to the stream inside. -/
def Stream.plus (s : Stream) (cs : List Char) : Stream := { s with inner := s.inner ++ cs }

theorem plus_plus (s : Stream) (a b : List Char) : (s.plus a).plus b = s.plus (a ++ b) := by
  simp [Stream.plus]

theorem plus_nil (s : Stream) : s.plus [] = s := by simp [Stream.plus]

theorem innerWrite_prefix (s : Stream) (c : Char) (m : Nat) (n : Int) (h0 : 0 ≤ n) (h : n ≤ m) :
    innerWrite s (List.replicate m c) 0 n = some (s.plus (List.replicate n.toNat c)) := by
  have : (0 : Int) ≤ 0 ∧ 0 ≤ n ∧ n ≤ ((List.replicate m c).length : Int) := by simp; omega
  simp only [innerWrite, this, and_self, if_true, Stream.plus]
  simp
  omega

theorem innerWrite_neg (s : Stream) (es : List Char) (n : Int) (h0 : n < 0) : innerWrite s es 0 n = none := by
  simp only [innerWrite]
  rw [if_neg]
  omega

theorem writeSpaces_eq (s : Stream) (n : Int) :
    writeSpaces s n = if n < 0 then none else some (s.plus (List.replicate n.toNat ' ')) := by
  induction s, n using writeSpaces.induct with
  | case1 s n h ih =>
    rw [writeSpaces, if_pos h, spaces, innerWrite_prefix _ _ _ _ (by omega) (by omega)]
    simp only [Option.bind_some, ih]
    rw [if_neg (by omega), if_neg (by omega), plus_plus, List.replicate_append_replicate]
    congr 3
    omega
  | case2 s n h =>
    rw [writeSpaces, if_neg h]
    split
    · exact innerWrite_neg _ _ _ (by assumption)
    · exact innerWrite_prefix _ _ _ _ (by omega) (by omega)

theorem writeTabs_eq (s : Stream) (n : Int) :
    writeTabs s n = if n < 0 then none else some (s.plus (List.replicate n.toNat '\t')) := by
  induction s, n using writeTabs.induct with
  | case1 s n h ih =>
    rw [writeTabs, if_pos h, tabs, innerWrite_prefix _ _ _ _ (by omega) (by omega)]
    simp only [Option.bind_some, ih]
    rw [if_neg (by omega), if_neg (by omega), plus_plus, List.replicate_append_replicate]
    congr 3
    omega
  | case2 s n h =>
    rw [writeTabs, if_neg h]
    split
    · exact innerWrite_neg _ _ _ (by assumption)
    · exact innerWrite_prefix _ _ _ _ (by omega) (by omega)

theorem writeIndent_eq (s : Stream) (n : Int) (hw : ∀ w, s.outputTabWidth = some w → 0 < w) :
    writeIndent s n = if n < 0 then none else some (s.plus (pad s.outputTabWidth n)) := by
  simp only [writeIndent]
  cases ho : s.outputTabWidth with
  | none => simp only [writeSpaces_eq, pad]
  | some w =>
    have hp := hw w ho
    simp only [pad]
    split
    · have hn : ¬ n < 0 := by omega
      have hw0 : ¬ w = 0 := by omega
      have h1 : n.tdiv w = n / w := Int.tdiv_eq_ediv_of_nonneg (by omega)
      have h2 : n.tmod w = n % w := Int.tmod_eq_emod_of_nonneg (by omega)
      have h3 : 0 ≤ n / w := Int.ediv_nonneg (by omega) (by omega)
      have h4 : 0 ≤ n % w := Int.emod_nonneg _ (by omega)
      simp only [hw0, if_false, writeTabs_eq, h1, h2, hn]
      rw [if_neg (by omega)]
      simp only [Option.bind_some, writeSpaces_eq]
      rw [if_neg (by omega), plus_plus]
    · rw [writeSpaces_eq]
      split
      · rfl
      · have h1 : n / w = 0 := Int.ediv_eq_zero_of_lt (by omega) (by omega)
        have h2 : n % w = n := Int.emod_eq_of_lt (by omega) (by omega)
        simp [h1, h2]

/-- Where the stream is. -/
structure Good (s : Stream) : Prop where
  inW : 0 < s.inputTabWidth
  outW : ∀ w, s.outputTabWidth = some w → 0 < w
  col : ∀ k, s.spaceColumn = some k → 0 ≤ k

theorem afterTab_eq {w k : Int} (hw : 0 < w) (hk : 0 ≤ k) : afterTab w k = some ((k / w + 1) * w) := by
  have h0 : ¬ w = 0 := by omega
  simp only [afterTab, h0, if_false, Option.some.injEq]
  rw [Int.tmod_eq_emod_of_nonneg hk, Int.add_mul, Int.one_mul]
  have := Int.mul_ediv_add_emod k w
  rw [Int.mul_comm] at this
  omega

/-- The elements of a text, one by one. -/
def elements (s : Stream) : List Char → Option Stream
  | [] => some s
  | c :: cs => (writeElement s c).bind (fun s => elements s cs)

theorem elements_append (s : Stream) : ∀ (a b : List Char), elements s (a ++ b) = (elements s a).bind (fun s => elements s b)
  | [], b => rfl
  | c :: a, b => by
    simp only [List.cons_append, elements]
    cases writeElement s c with
    | none => rfl
    | some s => exact elements_append s a b

/-- The stream with the column that the loop of `write` has. -/
def at' (s : Stream) (k : Option Int) : Stream := { s with spaceColumn := k }

theorem slice_snoc (es : List Char) (a b : Nat) (c : Char) (h : es[b]? = some c) (hab : a ≤ b) :
    (es.take (b + 1)).drop a = (es.take b).drop a ++ [c] := by
  have hb : b < es.length := by
    rw [List.getElem?_eq_some_iff] at h
    exact h.1
  rw [List.take_succ_eq_append_getElem hb, List.drop_append_of_le_length (by simp; omega)]
  congr 1
  rw [List.getElem?_eq_getElem hb] at h
  simpa using h

/-- `write` writes its elements one by one. -/
theorem writeLoop_eq (es : List Char) : ∀ (n i st : Nat) (col : Option Int) (s : Stream),
    st ≤ i → i + n ≤ es.length → (∀ k, col = some k → st = i) → 0 < s.inputTabWidth →
    (∀ w, s.outputTabWidth = some w → 0 < w) →
    writeLoop es n i st col s = elements (at' (s.plus ((es.take i).drop st)) col) ((es.take (i + n)).drop i)
  | 0, i, st, col, s, h1, h2, h3, h4, h5 => by
    have e : (es.take (i + 0)).drop i = [] := by simp
    rw [e]
    simp only [writeLoop, elements]
    by_cases h : st = i
    · subst h
      have e2 : (es.take st).drop st = [] := by simp
      simp [e2, plus_nil, at']
    · have hne : ¬ (st : Int) = (i : Int) := by omega
      have hb : (0 : Int) ≤ st ∧ (st : Int) ≤ i ∧ (i : Int) ≤ es.length := by omega
      simp only [ne_eq, hne, not_false_eq_true, if_true, innerWrite, hb, and_self, Option.map_some]
      simp [at', Stream.plus]
  | n + 1, i, st, col, s, h1, h2, h3, h4, h5 => by
    have hi : i < es.length := by omega
    have hg : es[i]? = some es[i] := List.getElem?_eq_getElem hi
    have e : (es.take (i + (n + 1))).drop i = es[i] :: (es.take (i + 1 + n)).drop (i + 1) := by
      have : i < (es.take (i + (n + 1))).length := by simp; omega
      rw [List.drop_eq_getElem_cons this]
      simp [Nat.add_assoc, Nat.add_comm 1 n]
    have hi0 : ¬ (i : Int) < 0 := by omega
    rw [e]
    generalize hc : es[i] = c at *
    have hs := slice_snoc es st i c hg h1
    have e0 : (es.take (i + 1)).drop (i + 1) = [] := by simp
    have cast : ((i : Int) + 1) = ((i + 1 : Nat) : Int) := by omega
    simp only [writeLoop, hi0, if_false, Int.toNat_natCast, hg, elements, writeElement, at']
    rw [cast]
    by_cases c1 : c = ' '
    · simp only [c1, if_true]
      cases col with
      | some k =>
        obtain rfl := h3 k rfl
        have e2 : (es.take st).drop st = [] := by simp
        simp only [Option.bind_some]
        rw [writeLoop_eq es n (st + 1) (st + 1) (some (k + 1)) s (by omega) (by omega) (by simp) h4 h5, e0, e2]
        rfl
      | none =>
        simp only [Option.bind_some]
        rw [writeLoop_eq es n (i + 1) st none s (by omega) (by omega) (by simp) h4 h5, hs, c1]
        simp [at', innerElement, Stream.plus]
    · simp only [c1, if_false]
      by_cases c2 : c = '\t'
      · simp only [c2, if_true]
        cases col with
        | some k =>
          obtain rfl := h3 k rfl
          have e2 : (es.take st).drop st = [] := by simp
          simp only [e2, plus_nil]
          cases afterTab s.inputTabWidth k with
          | none => rfl
          | some k' =>
            simp only [Option.bind_some, Option.map_some]
            rw [writeLoop_eq es n (st + 1) (st + 1) (some k') s (by omega) (by omega) (by simp) h4 h5, e0]
            simp [at', plus_nil]
        | none =>
          simp only [Option.bind_some]
          rw [writeLoop_eq es n (i + 1) st none s (by omega) (by omega) (by simp) h4 h5, hs, c2]
          simp [at', innerElement, Stream.plus]
      · simp only [c2, if_false]
        by_cases c3 : c = '\n' ∨ c = '\r'
        · simp only [c3, if_true, Option.bind_some]
          have hb : (0 : Int) ≤ st ∧ (st : Int) ≤ ((i + 1 : Nat) : Int) ∧ ((i + 1 : Nat) : Int) ≤ es.length := by omega
          simp only [innerWrite, hb, and_self, if_true, Option.bind_some, Int.toNat_natCast]
          rw [writeLoop_eq es n (i + 1) (i + 1) (some 0) _ (by omega) (by omega) (by simp) (by exact h4) (by exact h5), hs, e0]
          simp [at', innerElement, Stream.plus]
        · simp only [c3, if_false]
          cases col with
          | none =>
            simp only [indentAt, Option.bind_some, Option.map_some]
            rw [writeLoop_eq es n (i + 1) st none s (by omega) (by omega) (by simp) h4 h5, hs]
            simp [at', innerElement, Stream.plus]
          | some k =>
            obtain rfl := h3 k rfl
            have e2 : (es.take st).drop st = [] := by simp
            simp only [indentAt, e2, plus_nil, writeIndent_eq s _ h5]
            rw [writeIndent_eq _ _ (by exact h5)]
            split
            · rfl
            · simp only [Option.bind_some, Option.map_some]
              rw [writeLoop_eq es n (st + 1) st none _ (by omega) (by omega) (by simp) (by exact h4) (by exact h5), hs, e2]
              simp [at', innerElement, Stream.plus]

/-- A `write` past the end of its elements is an error. -/
theorem writeLoop_past (es : List Char) : ∀ (n i st : Nat) (col : Option Int) (s : Stream),
    es.length < i + (n + 1) → writeLoop es (n + 1) i st col s = none
  | n, i, st, col, s, h => by
    have hi0 : ¬ (i : Int) < 0 := by omega
    have cast : ((i : Int) + 1) = ((i + 1 : Nat) : Int) := by omega
    simp only [writeLoop, hi0, if_false, Int.toNat_natCast]
    cases hg : es[i]? with
    | none => rfl
    | some c =>
      have hi : i < es.length := by
        rw [List.getElem?_eq_some_iff] at hg
        exact hg.1
      obtain ⟨m, rfl⟩ : ∃ m, n = m + 1 := ⟨n - 1, by omega⟩
      simp only
      rw [cast]
      have rec1 := fun st' col' s' => writeLoop_past es m (i + 1) st' col' s' (by omega)
      split
      · split <;> exact rec1 _ _ _
      · split
        · split
          · cases afterTab s.inputTabWidth _ with
            | none => rfl
            | some k => exact rec1 _ _ _
          · exact rec1 _ _ _
        · split
          · cases innerWrite s es st ((i + 1 : Nat) : Int) with
            | none => rfl
            | some s => exact rec1 _ _ _
          · cases indentAt s col with
            | none => rfl
            | some s => exact rec1 _ _ _

/-- What a call of `write` does. -/
theorem write_eq (s : Stream) (es : List Char) (a b : Int) (hs : Good s) :
    write s es a b = if b ≤ a then some s
      else if 0 ≤ a ∧ b ≤ es.length then elements s ((es.take b.toNat).drop a.toNat) else none := by
  simp only [write]
  split
  · have : (b - a).toNat = 0 := by omega
    rw [this]
    simp [writeLoop]
  · obtain ⟨n, hn⟩ : ∃ n, (b - a).toNat = n + 1 := ⟨(b - a).toNat - 1, by omega⟩
    split
    · obtain ⟨m, rfl⟩ : ∃ m : Nat, a = (m : Int) := ⟨a.toNat, by omega⟩
      rw [hn, writeLoop_eq es (n + 1) m m s.spaceColumn s (by omega) (by omega) (by simp) hs.inW hs.outW]
      have e : (es.take m).drop m = [] := by simp
      have e2 : m + (n + 1) = b.toNat := by omega
      rw [e, plus_nil, e2]
      simp [at']
    · rw [hn]
      by_cases h0 : a < 0
      · simp [writeLoop, h0]
      · obtain ⟨m, rfl⟩ : ∃ m : Nat, a = (m : Int) := ⟨a.toNat, by omega⟩
        exact writeLoop_past es n m m _ s (by omega)

/-- The characters written, each with the indentation it was written with. -/
def feed (s : Stream) : List Written → Option Stream
  | [] => some s
  | (c, i) :: t => (writeElement { s with indentation := i } c).bind (fun s => feed s t)

/-- What is left alone by `write-element`. -/
theorem writeElement_same {s t : Stream} {c : Char} (hs : Good s) (h : writeElement s c = some t) :
    Good t ∧ t.indentation = s.indentation ∧ t.inputTabWidth = s.inputTabWidth ∧ t.outputTabWidth = s.outputTabWidth := by
  simp only [writeElement] at h
  split at h
  · split at h
    · rename_i k hk
      simp only [Option.some.injEq] at h
      subst h
      have := hs.col k hk
      exact ⟨⟨hs.inW, hs.outW, by simp; omega⟩, rfl, rfl, rfl⟩
    · rename_i hk
      simp only [Option.some.injEq] at h
      subst h
      exact ⟨⟨hs.inW, hs.outW, hs.col⟩, rfl, rfl, rfl⟩
  · split at h
    · split at h
      · rename_i k hk
        have hk0 := hs.col k hk
        rw [afterTab_eq hs.inW hk0] at h
        simp only [Option.map_some, Option.some.injEq] at h
        subst h
        refine ⟨⟨hs.inW, hs.outW, ?_⟩, rfl, rfl, rfl⟩
        have h1 : 0 ≤ k / s.inputTabWidth := Int.ediv_nonneg hk0 (Int.le_of_lt hs.inW)
        have h2 := Int.mul_nonneg (show 0 ≤ k / s.inputTabWidth + 1 by omega) (Int.le_of_lt hs.inW)
        simpa using h2
      · simp only [Option.some.injEq] at h
        subst h
        exact ⟨⟨hs.inW, hs.outW, hs.col⟩, rfl, rfl, rfl⟩
    · split at h
      · simp only [Option.some.injEq] at h
        subst h
        exact ⟨⟨hs.inW, hs.outW, by simp [innerElement]⟩, rfl, rfl, rfl⟩
      · cases hc : s.spaceColumn with
        | none =>
          simp only [hc, indentAt, Option.map_some, Option.some.injEq] at h
          subst h
          exact ⟨⟨hs.inW, hs.outW, by simp [innerElement]⟩, rfl, rfl, rfl⟩
        | some k =>
          simp only [hc, indentAt, writeIndent_eq s _ hs.outW] at h
          split at h
          · simp at h
          · simp only [Option.map_some, Option.some.injEq] at h
            subst h
            exact ⟨⟨hs.inW, hs.outW, by simp [innerElement]⟩, rfl, rfl, rfl⟩

theorem elements_feed : ∀ (cs : List Char) (s : Stream) (t : List Written), Good s →
    (elements s cs).bind (fun r => feed r t) = feed s (cs.map (fun c => (c, s.indentation)) ++ t)
  | [], s, t, _ => rfl
  | c :: cs, s, t, hs => by
    simp only [elements, List.map_cons, List.cons_append, feed]
    cases h : writeElement s c with
    | none => rfl
    | some r =>
      have hr := writeElement_same hs h
      simp only [Option.bind_some]
      rw [elements_feed cs r t hr.1, hr.2.1]

theorem elements_same : ∀ (cs : List Char) {s t : Stream}, Good s → elements s cs = some t →
    Good t ∧ t.indentation = s.indentation ∧ t.inputTabWidth = s.inputTabWidth ∧ t.outputTabWidth = s.outputTabWidth
  | [], s, t, hs, h => by
    simp only [elements, Option.some.injEq] at h
    exact h ▸ ⟨hs, rfl, rfl, rfl⟩
  | c :: cs, s, t, hs, h => by
    simp only [elements] at h
    cases hw : writeElement s c with
    | none => simp [hw] at h
    | some r =>
      have hr := writeElement_same hs hw
      simp only [hw, Option.bind_some] at h
      have := elements_same cs hr.1 h
      exact ⟨this.1, this.2.1.trans hr.2.1, this.2.2.1.trans hr.2.2.1, this.2.2.2.trans hr.2.2.2⟩

/-- The indentation before the first character does not matter. -/
theorem feed_indent (s : Stream) (i : Int) (t : List Written) :
    (feed { s with indentation := i } t).map Stream.inner = (feed s t).map Stream.inner := by
  cases t <;> rfl

theorem bind_map {α β γ : Type} (x : Option α) (f : α → Option β) (g : β → γ) :
    (x.bind f).map g = x.bind (fun a => (f a).map g) := by cases x <;> rfl

/-- The calls write the text of the specification. -/
theorem run_feed : ∀ (ops : List Op) (s : Stream), Good s →
    (run s ops).map Stream.inner = (text s.indentation ops).bind (fun t => (feed s t).map Stream.inner)
  | [], s, _ => rfl
  | .indent d :: os, s, hs => by
    simp only [run, step, text, Option.bind_some, indent]
    rw [run_feed os { s with indentation := s.indentation + d } ⟨hs.inW, hs.outW, hs.col⟩]
    congr 1
    funext t
    exact feed_indent s _ t
  | .newLine :: os, s, hs => by
    have : writeElement s '\n' = some (newLine s) := by simp [writeElement, newLine]
    have hr := writeElement_same hs this
    simp only [run, step, text, Option.bind_some]
    rw [run_feed os (newLine s) hr.1, hr.2.1]
    cases text s.indentation os with
    | none => rfl
    | some t => simp only [Option.bind_some, Option.map_some, feed, this]
  | .writeElement c :: os, s, hs => by
    simp only [run, step, text]
    cases hw : writeElement s c with
    | none =>
      cases text s.indentation os with
      | none => rfl
      | some t => simp [feed, hw]
    | some r =>
      have hr := writeElement_same hs hw
      simp only [Option.bind_some]
      rw [run_feed os r hr.1, hr.2.1]
      cases text s.indentation os with
      | none => rfl
      | some t => simp [feed, hw]
  | .write es a b :: os, s, hs => by
    simp only [run, step, text, write_eq s es a b hs]
    split
    · simp only [Option.bind_some]
      exact run_feed os s hs
    · split
      · generalize (es.take b.toNat).drop a.toNat = cs
        cases hw : elements s cs with
        | none =>
          cases text s.indentation os with
          | none => rfl
          | some t =>
            simp only [Option.bind_none, Option.map_none, Option.map_some, Option.bind_some]
            rw [← elements_feed cs s t hs, hw]
            rfl
        | some r =>
          have hr := elements_same cs hs hw
          simp only [Option.bind_some]
          rw [run_feed os r hr.1, hr.2.1]
          cases text s.indentation os with
          | none => rfl
          | some t =>
            simp only [Option.map_some, Option.bind_some]
            rw [← elements_feed cs s t hs, hw]
            rfl
      · rfl

/-- What is left to write in a state: the rest of a line that has begun, or a line of which some columns were seen. -/
def restFrom (inW : Int) (outW : Option Int) (k : Option Int) : List (List Written) → Option (List Char)
  | [] => some []
  | l :: ls =>
    (match k with
      | some k => lineFrom inW outW k l
      | none => some (l.map Prod.fst)).bind (fun a => (allLines inW outW ls).map (fun b => a ++ b))

theorem restFrom_zero (inW : Int) (outW : Option Int) (ls : List (List Written)) :
    restFrom inW outW (some 0) ls = allLines inW outW ls := by
  cases ls <;> rfl

/-- A character before a line. -/
theorem lines_cons {c : Written} (cs : List Written) (h : isEnd c = false) :
    ∃ l ls, lines (c :: cs) = (c :: l) :: ls ∧
      ∀ inW outW k, restFrom inW outW k (l :: ls) = restFrom inW outW k (lines cs) := by
  simp only [lines, h, Bool.false_eq_true, if_false]
  cases hl : lines cs with
  | nil => exact ⟨[], [], rfl, fun inW outW k => by cases k <;> rfl⟩
  | cons l ls => exact ⟨l, ls, rfl, fun _ _ _ => rfl⟩

theorem lineFrom_blank (inW : Int) (outW : Option Int) (k : Int) {c : Written} (l : List Written) (h : isBlank c = true) :
    lineFrom inW outW k (c :: l)
      = lineFrom inW outW (if c.1 = '\t' then (k / inW + 1) * inW else k + 1) l := by
  simp [lineFrom, h, column]

theorem lineFrom_other (inW : Int) (outW : Option Int) (k : Int) {c : Written} (l : List Written) (h : isBlank c = false)
    (he : isEnd c = false) :
    lineFrom inW outW k (c :: l)
      = if c.2 + k < 0 then none else some (pad outW (c.2 + k) ++ c.1 :: l.map Prod.fst) := by
  simp [lineFrom, h, he, column]

theorem feed_lines : ∀ (t : List Written) (s : Stream), Good s →
    (feed s t).map Stream.inner
      = (restFrom s.inputTabWidth s.outputTabWidth s.spaceColumn (lines t)).map (fun o => s.inner ++ o)
  | [], s, _ => by simp [feed, lines, restFrom]
  | (c, i) :: t, s, hs => by
    have hs' : Good { s with indentation := i } := ⟨hs.inW, hs.outW, hs.col⟩
    by_cases he : c = '\n' ∨ c = '\r'
    · have hne : ¬ c = ' ' ∧ ¬ c = '\t' := by rcases he with rfl | rfl <;> decide
      have hen : isEnd (c, i) = true := by simpa [isEnd] using he
      have hbl : isBlank (c, i) = false := by simp [isBlank, hne]
      have hw : writeElement { s with indentation := i } c
          = some (innerElement { s with indentation := i, spaceColumn := some 0 } c) := by
        simp [writeElement, hne, he]
      have hr := writeElement_same hs' hw
      simp only [feed, hw, Option.bind_some]
      rw [feed_lines t _ hr.1]
      simp only [innerElement]
      rw [restFrom_zero]
      simp only [lines, hen, if_true, restFrom]
      have hline : ∀ k, lineFrom s.inputTabWidth s.outputTabWidth k [(c, i)] = some [c] := by
        intro k
        simp [lineFrom, hbl, hen]
      cases s.spaceColumn with
      | none => cases allLines s.inputTabWidth s.outputTabWidth (lines t) <;> simp
      | some k => cases allLines s.inputTabWidth s.outputTabWidth (lines t) <;> simp [hline]
    · have hen : isEnd (c, i) = false := by simpa [isEnd] using he
      obtain ⟨l, ls, hl, hrest⟩ := lines_cons t hen
      rw [hl]
      cases hc : s.spaceColumn with
      | none =>
        have hw : writeElement { s with indentation := i } c = some (innerElement { s with indentation := i } c) := by
          simp only [writeElement, hc, indentAt, he, if_false, Option.map_some]
          split
          · rfl
          · split
            · rfl
            · simp [innerElement]
        have hr := writeElement_same hs' hw
        simp only [feed, hw, Option.bind_some]
        rw [feed_lines t _ hr.1]
        simp only [innerElement, hc]
        rw [← hrest]
        simp only [restFrom, Option.bind_some, Option.map_map]
        congr 1
        funext o
        simp
      | some k =>
        have hk := hs.col k hc
        by_cases hb : isBlank (c, i) = true
        · have hw : writeElement { s with indentation := i } c
              = some { s with indentation := i,
                              spaceColumn := some (if c = '\t' then (k / s.inputTabWidth + 1) * s.inputTabWidth else k + 1) } := by
            simp only [isBlank, Bool.or_eq_true, beq_iff_eq] at hb
            rcases hb with rfl | rfl
            · simp [writeElement, hc]
            · simp [writeElement, hc, afterTab_eq hs.inW hk]
          have hr := writeElement_same hs' hw
          simp only [feed, hw, Option.bind_some]
          rw [feed_lines t _ hr.1]
          simp only
          rw [← hrest]
          simp only [restFrom, lineFrom_blank _ _ _ _ hb]
        · have hb : isBlank (c, i) = false := by simpa using hb
          have hne : ¬ c = ' ' ∧ ¬ c = '\t' := by simpa [isBlank] using hb
          have hw : writeElement { s with indentation := i } c
              = if i + k < 0 then none
                else some (innerElement { s with indentation := i, spaceColumn := none,
                                                 inner := s.inner ++ pad s.outputTabWidth (i + k) } c) := by
            simp only [writeElement, hne, if_false, he, hc, indentAt]
            rw [writeIndent_eq _ _ (by exact hs.outW)]
            simp only
            split <;> rfl
          simp only [feed, hw, restFrom, lineFrom_other _ _ _ _ hb hen]
          split
          · rfl
          · rename_i hn
            have hr := writeElement_same hs' (by rw [hw, if_neg hn])
            simp only [Option.bind_some]
            rw [feed_lines t _ hr.1]
            simp only [innerElement]
            rw [← hrest]
            simp only [restFrom, Option.bind_some, Option.map_map]
            congr 1
            funext o
            simp

end Verif.Indent
