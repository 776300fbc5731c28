/-
C119: strings with three quotes or more.
-/
import Verif.Reader.MultiSpec
import Verif.Reader.StringProps

namespace Verif.Reader
open LexerSpec

/-! ### The token -/

/-- The states of a string with three quotes or more. -/
structure Multi (escapes : Bool) (bl : Builder) (s1 s2 s3 body cont fin : St) : Prop where
  one : next s1 (code '"') = some s2
  two : next s2 (code '"') = some s3
  more : next s3 (code '"') = some s3
  actTwo : action s2 = some .quoteStart
  bTwo : builder s2 = some bl
  actMore : action s3 = some .quoteStart
  bMore : builder s3 = none
  actBody : action body = some .resetQuoteEnd
  bBody : builder body = none
  quietCont : quiet cont = true ∧ builder cont = none
  actFin : action fin = some .quoteEnd
  bFin : builder fin = some bl
  blank : bl ≠ .whitespace ∧ bl ≠ .comment
  plain : ∀ b : Byte, ((32 ≤ b.val ∧ b.val < 127) ∨ 128 ≤ b.val ∨ b = code '\n' ∨ b = code '\r') → b ≠ code '"' →
    (escapes = true → b ≠ code '\\') →
    next s3 b = some body ∧ next body b = some cont ∧ next cont b = some cont ∧ next fin b = some body
  quote : next body (code '"') = some fin ∧ next cont (code '"') = some fin ∧ next fin (code '"') = some fin
  escape : escapes = true → ∃ esc less digits, (next s3 (code '\\') = some esc ∧ next body (code '\\') = some esc ∧
    next cont (code '\\') = some esc ∧ next fin (code '\\') = some esc) ∧ action esc = some .resetQuoteEnd ∧
    builder esc = none ∧ Escapes esc less digits cont

theorem multi_string : Multi true .string .stringStart .twoDoubleQuotes .multiStringStart .multiStringBody
    .multiStringBodyContinue .multiStringEnd where
  one := by decide +kernel
  two := by decide +kernel
  more := by decide +kernel
  actTwo := rfl
  bTwo := rfl
  actMore := rfl
  bMore := rfl
  actBody := rfl
  bBody := rfl
  quietCont := ⟨by decide, rfl⟩
  actFin := rfl
  bFin := rfl
  blank := by decide
  plain := by decide +kernel
  quote := by decide +kernel
  escape := fun _ => ⟨.multiStringEscape, .multiStringEscapeLess, .multiStringHexCharDigits, by decide +kernel, rfl, rfl,
    ⟨escapes_next _ _ (by decide +kernel), by decide +kernel, next_digit 16 _ _ (by decide +kernel),
      next_digit 16 _ _ (by decide +kernel), by decide +kernel, by decide, by decide, by decide⟩⟩

theorem multi_raw : Multi false .rawString .rawStringStart .rawTwoDoubleQuotes .rawMultiStringStart .rawMultiStringBody
    .rawMultiStringBodyContinue .rawMultiStringEnd where
  one := by decide +kernel
  two := by decide +kernel
  more := by decide +kernel
  actTwo := rfl
  bTwo := rfl
  actMore := rfl
  bMore := rfl
  actBody := rfl
  bBody := rfl
  quietCont := ⟨by decide, rfl⟩
  actFin := rfl
  bFin := rfl
  blank := by decide
  plain := by decide +kernel
  quote := by decide +kernel
  escape := fun h => by cases h

theorem enter_reset {st : St} (ha : action st = some .resetQuoteEnd) (hb : builder st = none) (pos : Nat) (g : Regs) :
    enter st pos g = (.advance, { g with quoteEnd := 0 }) := by
  unfold enter stateAction
  rw [ha]
  dsimp only [act]
  rw [hb]
  by_cases h : g.quoteStart = g.quoteEnd ∨ g.quoteStart = 2
  · simp only [h, if_true]
  · simp only [h, if_false]

theorem enter_fin {st : St} {bl : Builder} (ha : action st = some .quoteEnd) (hb : builder st = some bl)
    (hbl : bl ≠ .whitespace ∧ bl ≠ .comment) (pos : Nat) (g : Regs) (h3 : 3 ≤ g.quoteStart) :
    enter st pos g = if g.quoteEnd + 1 = g.quoteStart then (.stop, save pos bl { g with quoteEnd := g.quoteEnd + 1 })
      else (.advance, { g with quoteEnd := g.quoteEnd + 1 }) := by
  unfold enter stateAction
  rw [ha]
  dsimp only [act]
  rw [hb]
  by_cases h : g.quoteEnd + 1 = g.quoteStart
  · rw [if_pos h, if_pos ⟨h, by omega⟩]
    dsimp only
    cases bl <;> first | rfl | exact absurd rfl hbl.1 | exact absurd rfl hbl.2
  · rw [if_neg h, if_neg (fun x => h x.1)]

/-- Where the machine is in the text, after `k` quotes in a row. -/
inductive In (s3 body cont fin : St) (g : Regs) : Nat → St → Prop where
  | start : In s3 body cont fin g 0 s3
  | body (h : g.quoteEnd = 0) : In s3 body cont fin g 0 body
  | cont (h : g.quoteEnd = 0) : In s3 body cont fin g 0 cont
  | fin {k : Nat} (h : g.quoteEnd = k) : In s3 body cont fin g k fin

theorem newline_same (b : Byte) (pos : Nat) (g : Regs) : (newline b pos g).startPos = g.startPos ∧
    (newline b pos g).quoteStart = g.quoteStart ∧ (newline b pos g).quoteEnd = g.quoteEnd :=
  ⟨(newline_kept b pos g).1.1, (newline_kept b pos g).1.2, (newline_kept b pos g).1.3⟩

theorem advance_body {st st' : St} {b : Byte} (h : next st b = some st') (ha : action st' = some .resetQuoteEnd)
    (hb : builder st' = none) (rest : List Byte) (pos : Nat) (g : Regs) :
    advance st (b :: rest) pos g = advance st' rest (pos + 1) { newline b pos g with quoteEnd := 0 } := by
  rw [advance_cons h, enter_reset ha hb]; rfl

theorem advance_quiet {st st' : St} {b : Byte} (h : next st b = some st') (hq : quiet st' = true)
    (hb : builder st' = none) (rest : List Byte) (pos : Nat) (g : Regs) :
    advance st (b :: rest) pos g = advance st' rest (pos + 1) (newline b pos g) := by
  rw [advance_cons h, enter_quiet hq, hb]; rfl

theorem advance_between {escapes : Bool} {bl : Builder} {s1 s2 s3 body cont fin : St}
    (m : Multi escapes bl s1 s2 s3 body cont fin) {n k : Nat} (hn : 3 ≤ n) {w : List Byte}
    (h : Between escapes n k w) (rest : List Byte) (pos : Nat) (g : Regs) (st : St) (hg : g.quoteStart = n)
    (hi : In s3 body cont fin g k st) (hs : st = s3 → w.head? ≠ some (code '"')) :
    ∃ st' g', advance st (w ++ rest) pos g = advance st' rest (pos + w.length) g' ∧
      (w ≠ [] ∨ st ≠ s3 → g'.quoteEnd = 0 ∧ next st' (code '"') = some fin) ∧
      g'.startPos = g.startPos ∧ g'.quoteStart = n := by
  induction h generalizing pos g st with
  | done =>
    refine ⟨st, g, rfl, ?_, rfl, hg⟩
    intro h'
    cases hi with
    | start => rcases h' with h | h <;> exact absurd rfl h
    | body h => exact ⟨h, m.quote.1⟩
    | cont h => exact ⟨h, m.quote.2.1⟩
    | fin h => exact ⟨h, m.quote.2.2⟩
  | @quote k w hk hw ih =>
    have hst : next st (code '"') = some fin ∧ g.quoteEnd = k := by
      cases hi with
      | start => exact absurd rfl (hs rfl)
      | body h => exact ⟨m.quote.1, h⟩
      | cont h => exact ⟨m.quote.2.1, h⟩
      | fin h => exact ⟨m.quote.2.2, h⟩
    have hfin : fin ≠ s3 := by
      intro h; have := m.bFin; rw [h, m.bMore] at this; cases this
    obtain ⟨st', g', e, a, b, c⟩ := ih (pos + 1) { g with quoteEnd := g.quoteEnd + 1 } fin hg
      (.fin (by show g.quoteEnd + 1 = k + 1; rw [hst.2])) (fun h => absurd h hfin)
    refine ⟨st', g', ?_, fun _ => a (.inr hfin), b, c⟩
    rw [List.cons_append, advance_cons hst.1, newline_quote, enter_fin m.actFin m.bFin m.blank _ _ (by omega),
      if_neg (by omega)]
    refine e.trans ?_
    rw [List.length_cons]; congr 1; omega
  | @plain k b w hb hq he hw ih =>
    obtain ⟨p1, p2, p3, p4⟩ := m.plain b hb hq he
    obtain ⟨n1, n2, n3⟩ := newline_same b pos g
    have hb3 : body ≠ s3 := by
      intro h; have := m.actBody; rw [h, m.actMore] at this; cases this
    have hc3 : cont ≠ s3 := by
      intro h; have := m.quietCont.1; rw [h] at this; unfold quiet at this; rw [m.actMore] at this; cases this
    have hbody : ∀ st, next st b = some body → ∃ st' g', advance st (b :: w ++ rest) pos g =
        advance st' rest (pos + (b :: w).length) g' ∧ (g'.quoteEnd = 0 ∧ next st' (code '"') = some fin) ∧
        g'.startPos = g.startPos ∧ g'.quoteStart = n := by
      intro st h
      obtain ⟨st', g', e, a, b', c⟩ := ih (pos + 1) { newline b pos g with quoteEnd := 0 } body (n2.trans hg)
        (.body rfl) (fun h => absurd h hb3)
      refine ⟨st', g', ?_, a (.inr hb3), b'.trans n1, c⟩
      rw [List.cons_append, advance_body h m.actBody m.bBody]
      refine e.trans ?_
      rw [List.length_cons]; congr 1; omega
    have hcont : ∀ st, next st b = some cont → g.quoteEnd = 0 → ∃ st' g', advance st (b :: w ++ rest) pos g =
        advance st' rest (pos + (b :: w).length) g' ∧ (g'.quoteEnd = 0 ∧ next st' (code '"') = some fin) ∧
        g'.startPos = g.startPos ∧ g'.quoteStart = n := by
      intro st h h0
      obtain ⟨st', g', e, a, b', c⟩ := ih (pos + 1) (newline b pos g) cont (n2.trans hg)
        (.cont (n3.trans h0)) (fun h => absurd h hc3)
      refine ⟨st', g', ?_, a (.inr hc3), b'.trans n1, c⟩
      rw [List.cons_append, advance_quiet h m.quietCont.1 m.quietCont.2]
      refine e.trans ?_
      rw [List.length_cons]; congr 1; omega
    have : ∃ st' g', advance st (b :: w ++ rest) pos g =
        advance st' rest (pos + (b :: w).length) g' ∧ (g'.quoteEnd = 0 ∧ next st' (code '"') = some fin) ∧
        g'.startPos = g.startPos ∧ g'.quoteStart = n := by
      cases hi with
      | start => exact hbody _ p1
      | body h => exact hcont _ p2 h
      | cont h => exact hcont _ p3 h
      | fin h => exact hbody _ p4
    obtain ⟨st', g', e, a, b', c⟩ := this
    exact ⟨st', g', e, fun _ => a, b', c⟩
  | @escape k i b w he hm hi' hw ih =>
    obtain ⟨esc, less, digits, ⟨p1, p2, p3, p4⟩, pa, pb, pe⟩ := m.escape he
    have hc3 : cont ≠ s3 := by
      intro h; have := m.quietCont.1; rw [h] at this; unfold quiet at this; rw [m.actMore] at this; cases this
    have hst : next st (code '\\') = some esc := by
      cases hi with
      | start => exact p1
      | body h => exact p2
      | cont h => exact p3
      | fin h => exact p4
    obtain ⟨v, ev, hr⟩ := run_escape pe hm hi'
    obtain ⟨n1, n2, n3⟩ := newline_same (code '\\') pos g
    obtain ⟨g1, e1, k1, -, -⟩ := advance_run hr (w ++ rest) (pos + 1) { newline (code '\\') pos g with quoteEnd := 0 }
    obtain ⟨st', g', e, a, b', c⟩ := ih (pos + 1 + v.length) g1 cont (k1.2.trans (n2.trans hg))
      (.cont k1.3) (fun h => absurd h hc3)
    refine ⟨st', g', ?_, fun _ => a (.inr hc3), b'.trans (k1.1.trans n1), c⟩
    rw [ev, List.cons_append, List.cons_append, advance_body hst pa pb, List.append_assoc, e1, e, List.length_cons,
      List.length_append]
    congr 1; omega

theorem advance_fin {escapes : Bool} {bl : Builder} {s1 s2 s3 body cont fin : St}
    (m : Multi escapes bl s1 s2 s3 body cont fin) {n : Nat} (hn : 3 ≤ n) (rest : List Byte) :
    ∀ (j : Nat) (pos : Nat) (g : Regs) (st : St), g.quoteStart = n → g.quoteEnd + (j + 1) = n →
      next st (code '"') = some fin →
      ∃ g', advance st (quotes (j + 1) ++ rest) pos g = .at (pos + (j + 1)) g' ∧ g'.startPos = g.startPos ∧
        g'.builder = some bl ∧ g'.endPos = some (pos + (j + 1)) ∧ g'.quoteStart = n := by
  intro j
  induction j with
  | zero =>
    intro pos g st hg he hst
    refine ⟨save (pos + 1) bl { g with quoteEnd := g.quoteEnd + 1 }, ?_, rfl, rfl, rfl, hg⟩
    show advance st (code '"' :: rest) pos g = _
    rw [advance_cons hst, newline_quote, enter_fin m.actFin m.bFin m.blank _ _ (by omega), if_pos (by omega)]
    rfl
  | succ j ih =>
    intro pos g st hg he hst
    obtain ⟨g', e, a, b, c, d⟩ := ih (pos + 1) { g with quoteEnd := g.quoteEnd + 1 } fin hg
      (by show g.quoteEnd + 1 + (j + 1) = n; omega) m.quote.2.2
    refine ⟨g', ?_, a, b, c.trans ?_, d⟩
    · show advance st (code '"' :: (quotes (j + 1) ++ rest)) pos g = _
      rw [advance_cons hst, newline_quote, enter_fin m.actFin m.bFin m.blank _ _ (by omega), if_neg (by omega)]
      refine e.trans ?_
      congr 1; omega
    · congr 1; omega

theorem advance_more {escapes : Bool} {bl : Builder} {s1 s2 s3 body cont fin : St}
    (m : Multi escapes bl s1 s2 s3 body cont fin) (rest : List Byte) :
    ∀ (j : Nat) (pos : Nat) (g : Regs), ∃ g', advance s3 (quotes j ++ rest) pos g = advance s3 rest (pos + j) g' ∧
      g'.startPos = g.startPos ∧ g'.quoteStart = g.quoteStart + j := by
  intro j
  induction j with
  | zero => intro pos g; exact ⟨g, rfl, rfl, rfl⟩
  | succ j ih =>
    intro pos g
    obtain ⟨g', e, a, b⟩ := ih (pos + 1) { g with quoteStart := g.quoteStart + 1 }
    refine ⟨g', ?_, a, b.trans ?_⟩
    · show advance s3 (code '"' :: (quotes j ++ rest)) pos g = _
      rw [advance_quote m.more m.actMore m.bMore]
      refine e.trans ?_
      congr 1; omega
    · show g.quoteStart + 1 + j = _; omega

/-- A string with three quotes or more is one token. -/
theorem reads_multi {escapes : Bool} {bl : Builder} {s0 s1 s2 s3 body cont fin : St}
    (m : Multi escapes bl s1 s2 s3 body cont fin) {pre v w rest : List Byte} {lx : Lexer} {n : Nat} (hn : 3 ≤ n)
    (hp : lx.pos = pre.length) (hq : lx.quoteStart = 0) (h0 : Run .start v s0) (h1 : next s0 (code '"') = some s1)
    (ha : action s1 = some .quoteStart) (hb : builder s1 = none) (h : Inside escapes n w) :
    Reads (pre ++ (v ++ quotes n ++ w ++ quotes n) ++ rest) lx (v ++ quotes n ++ w ++ quotes n) bl n := by
  obtain ⟨j, rfl⟩ : ∃ j, n = j + 3 := ⟨n - 3, by omega⟩
  obtain ⟨h, hne, hh⟩ := h
  obtain ⟨g0, e0, k0, -, -⟩ := advance_run h0 (quotes (j + 3) ++ (w ++ (quotes (j + 3) ++ rest))) lx.pos lx.regs
  have hq0 : g0.quoteStart = 0 := k0.2.trans hq
  have e1 : advance s0 (quotes (j + 3) ++ (w ++ (quotes (j + 3) ++ rest))) (lx.pos + v.length) g0 =
      advance s3 (quotes j ++ (w ++ (quotes (j + 3) ++ rest))) (lx.pos + v.length + 1 + 1 + 1)
        { save (lx.pos + v.length + 1 + 1) bl { g0 with quoteStart := 2 } with quoteStart := 3 } := by
    show advance s0 (code '"' :: code '"' :: code '"' :: (quotes j ++ (w ++ (quotes (j + 3) ++ rest)))) _ _ = _
    rw [advance_quote h1 ha hb, advance_cons m.one, newline_quote]
    have hen : enter s2 (lx.pos + v.length + 1 + 1) { g0 with quoteStart := g0.quoteStart + 1 } =
        (.advance, save (lx.pos + v.length + 1 + 1) bl { g0 with quoteStart := 2 }) := by
      unfold enter stateAction
      rw [m.actTwo]
      dsimp only [act]
      rw [hq0, m.bTwo]
      have := m.blank
      cases bl <;> first | rfl | exact absurd rfl this.1 | exact absurd rfl this.2
    rw [hen]
    show advance s2 _ _ _ = _
    rw [advance_quote m.two m.actMore m.bMore]
    rfl
  obtain ⟨g2, e2, a2, b2⟩ := advance_more m (w ++ (quotes (j + 3) ++ rest)) j (lx.pos + v.length + 1 + 1 + 1)
    { save (lx.pos + v.length + 1 + 1) bl { g0 with quoteStart := 2 } with quoteStart := 3 }
  obtain ⟨st3, g3, e3, a3, b3, c3⟩ := advance_between m (n := j + 3) (by omega) h (quotes (j + 3) ++ rest)
    (lx.pos + v.length + 1 + 1 + 1 + j) g2 s3 (b2.trans (show 3 + j = j + 3 by omega)) .start (fun _ => hh)
  obtain ⟨x3, y3⟩ := a3 (.inl hne)
  obtain ⟨g4, e4, a4, b4, c4, d4⟩ := advance_fin m (n := j + 3) (by omega) rest (j + 2)
    (lx.pos + v.length + 1 + 1 + 1 + j + w.length) g3 st3 c3 (by omega) y3
  refine reads_of_advance (g := g4) (epos := lx.pos + v.length + 1 + 1 + 1 + j + w.length + (j + 2 + 1)) hp ?_
    (a4.trans (b3.trans (a2.trans k0.1))) b4 (c4.trans ?_) d4
  · rw [List.append_assoc, List.append_assoc, List.append_assoc]
    exact e0.trans (e1.trans (e2.trans (e3.trans e4)))
  · congr 1
    simp only [List.length_append, quotes, List.length_replicate]
    omega

/-! ### The value -/

theorem multiLine_ok (b : Byte) : (((32 ≤ b.val ∧ b.val < 127) ∨ 128 ≤ b.val)) →
    b ≠ code '\n' ∧ b ≠ code '\r' ∧ b ≠ code '\t' := by revert b; decide +kernel

theorem spaces_ok (n : Nat) : ∀ b ∈ spaces n, b ≠ code '\n' ∧ b ≠ code '\r' ∧ b ≠ code '\t' := by
  intro b hb
  rw [(List.mem_replicate.1 hb).2]; decide

theorem lineMeans_ok {escapes : Bool} {w bs : List Byte} (h : LineMeans escapes w bs) :
    ∀ b ∈ w, b ≠ code '\n' ∧ b ≠ code '\r' ∧ b ≠ code '\t' := by
  unfold LineMeans at h
  cases escapes
  · rw [if_neg (by decide)] at h
    intro b hb
    exact multiLine_ok b (h.2 b (h.1 ▸ hb))
  · rw [if_pos rfl] at h
    obtain ⟨is, rfl, h⟩ := h
    exact not_break_item (fun b hb => multiLine_ok b hb.1) h

theorem lineMeans_value {escapes : Bool} {w bs : List Byte} (h : LineMeans escapes w bs) :
    (if escapes then processEscapes w.length w else .value w) = .value bs := by
  unfold LineMeans at h
  cases escapes
  · rw [if_neg (by decide)] at h
    rw [h.1]; rfl
  · rw [if_pos rfl] at h
    obtain ⟨is, rfl, h⟩ := h
    exact Spells.processEscapes (fun c hc => hc.2) h _ (textOf_length is)

theorem zip_spaces (n : Nat) (w : List Byte) : ((spaces n ++ w).zip (spaces n)).all (fun x => x.1 == x.2) = true := by
  induction n with
  | zero => simp [spaces]
  | succ n ih =>
    show (((code ' ' :: (spaces n ++ w)).zip (code ' ' :: spaces n)).all _) = true
    rw [List.zip_cons_cons, List.all_cons, ih]; simp

theorem zip_fewer_spaces (k n : Nat) : ((spaces k).zip (spaces n)).all (fun x => x.1 == x.2) = true := by
  rw [List.all_eq_true]
  intro x hx
  have := List.of_mem_zip hx
  rw [(List.mem_replicate.1 this.1).2, (List.mem_replicate.1 this.2).2]; decide

theorem line_value {escapes : Bool} {n : Nat} {w bs : List Byte} (h : Line escapes n w bs) :
    processLine escapes (spaces n) w = .value bs := by
  unfold processLine removePrefix
  cases h with
  | @text w bs h =>
    rw [if_pos (zip_spaces n w), if_neg (by simp), List.drop_left]
    exact lineMeans_value h
  | @blank k h =>
    rw [if_pos (zip_fewer_spaces k n), if_pos (by simpa [spaces] using h)]
    cases escapes <;> rfl

theorem line_ok {escapes : Bool} {n : Nat} {w bs : List Byte} (h : Line escapes n w bs) :
    ∀ b ∈ w, b ≠ code '\n' ∧ b ≠ code '\r' ∧ b ≠ code '\t' := by
  cases h with
  | text h =>
    intro b hb
    rcases List.mem_append.1 hb with hb | hb
    · exact spaces_ok n b hb
    · exact lineMeans_ok h b hb
  | blank h => exact spaces_ok _

theorem splitLines_break {br : List Byte} (hbr : IsBreak br) (l t : List Byte)
    (h : ∀ b ∈ l, b ≠ code '\n' ∧ b ≠ code '\r') (ht : br = [code '\r'] → t.head? ≠ some (code '\n')) :
    splitLines (l ++ br ++ t) = l :: splitLines t := by
  induction l with
  | nil =>
    rcases hbr with rfl | rfl | rfl
    · show splitLines (code '\n' :: t) = _
      rw [splitLines.eq_def]
      dsimp only
      rw [if_pos rfl]
    · show splitLines (code '\r' :: code '\n' :: t) = _
      rw [splitLines.eq_def]
      dsimp only
      rw [if_neg (by decide), if_pos rfl, if_pos rfl]
    · show splitLines (code '\r' :: t) = _
      rw [splitLines.eq_def]
      dsimp only
      rw [if_neg (by decide), if_pos rfl]
      cases t with
      | nil => rfl
      | cons c t =>
        dsimp only
        rw [if_neg (fun he => ht rfl (congrArg some he))]
  | cons b l ih =>
    obtain ⟨h1, h2⟩ := h b (List.mem_cons_self ..)
    rw [List.cons_append, List.cons_append, splitLines.eq_def]
    dsimp only
    rw [if_neg h1, if_neg h2, ih fun x hx => h x (List.mem_cons_of_mem _ hx)]

/-- After a line break comes no newline of its own. -/
theorem lines_head {escapes : Bool} {n : Nat} {br ws : List Byte} {bss : List (List Byte)}
    (h : Lines escapes n br ws bss) (hb : br = [code '\r']) : (ws ++ spaces n).head? ≠ some (code '\n') := by
  have hspace : ∀ k, (spaces k).head? ≠ some (code '\n') := by
    intro k he
    have := (spaces_ok k _ (List.mem_of_head? he)).1
    exact this rfl
  cases h with
  | nil => exact hspace n
  | @cons w bs ws bss h hs =>
    have := line_ok h
    subst hb
    cases w with
    | nil => intro he; cases he
    | cons b w =>
      intro he
      exact (this b (List.mem_cons_self ..)).1 (Option.some.inj he)

theorem lines_value {escapes : Bool} {n : Nat} {br ws : List Byte} {bss : List (List Byte)} (hbr : IsBreak br)
    (h : Lines escapes n br ws bss) :
    ∃ texts, splitLines (ws ++ spaces n) = texts ++ [spaces n] ∧ texts.length = bss.length ∧
      joinLines escapes (spaces n) texts = .value (joined bss) := by
  induction h with
  | nil => exact ⟨[], splitLines_one _ (fun b hb => ⟨(spaces_ok n b hb).1, (spaces_ok n b hb).2.1⟩), rfl, rfl⟩
  | @cons w bs ws bss h hs ih =>
    obtain ⟨texts, e, hl, hj⟩ := ih
    refine ⟨w :: texts, ?_, by rw [List.length_cons, List.length_cons, hl], ?_⟩
    · rw [List.append_assoc, splitLines_break hbr w _ (fun b hb => ⟨(line_ok h b hb).1, (line_ok h b hb).2.1⟩)
        (lines_head hs), e]
      rfl
    · cases texts with
      | nil =>
        cases bss with
        | nil => exact line_value h
        | cons _ _ => cases hl
      | cons t ts =>
        cases bss with
        | nil => cases hl
        | cons c cs =>
          have hc : ∀ a b, processLine escapes (spaces n) w = .value a → joinLines escapes (spaces n) (t :: ts) = .value b →
              joinLines escapes (spaces n) (w :: t :: ts) = .value (a ++ code '\n' :: b) := by
            intro a b ha hb
            unfold joinLines
            simp only [ha, hb]
          exact hc _ _ (line_value h) hj

theorem break_ok {br : List Byte} (hbr : IsBreak br) : ∀ b ∈ br, b ≠ code '\t' := by
  rcases hbr with rfl | rfl | rfl <;> decide +kernel

theorem lines_no_tab {escapes : Bool} {n : Nat} {br ws : List Byte} {bss : List (List Byte)} (hbr : IsBreak br)
    (h : Lines escapes n br ws bss) : ∀ b ∈ ws, b ≠ code '\t' := by
  induction h with
  | nil => intro b hb; cases hb
  | @cons w bs ws bss h hs ih =>
    intro b hb
    rcases List.mem_append.1 hb with hb | hb
    · rcases List.mem_append.1 hb with hb | hb
      · exact (line_ok h b hb).2.2
      · exact break_ok hbr b hb
    · exact ih b hb

theorem allSpaces_spaces (n : Nat) : allSpaces (spaces n) = true := by
  unfold allSpaces
  rw [List.all_eq_true]
  intro b hb
  rw [(List.mem_replicate.1 hb).2]; decide

theorem decode_lines {escapes : Bool} {n pad : Nat} {br ws : List Byte} {bss : List (List Byte)} (hbr : IsBreak br)
    (h : Lines escapes n br ws bss) (hne : bss ≠ []) :
    decodeString escapes (spaces pad ++ br ++ (ws ++ spaces n)) = .value (joined bss) := by
  obtain ⟨texts, e, hl, hj⟩ := lines_value hbr h
  have hs : splitLines (spaces pad ++ br ++ (ws ++ spaces n)) = spaces pad :: (texts ++ [spaces n]) := by
    rw [splitLines_break hbr _ _ (fun b hb => ⟨(spaces_ok pad b hb).1, (spaces_ok pad b hb).2.1⟩) (lines_head h), e]
  have ht : (spaces pad ++ br ++ (ws ++ spaces n)).contains (code '\t') = false := by
    apply not_contains
    intro b hb
    rcases List.mem_append.1 hb with hb | hb
    · rcases List.mem_append.1 hb with hb | hb
      · exact (spaces_ok _ b hb).2.2
      · exact break_ok hbr b hb
    · rcases List.mem_append.1 hb with hb | hb
      · exact lines_no_tab hbr h b hb
      · exact (spaces_ok _ b hb).2.2
  unfold decodeString
  rw [ht, hs]
  cases texts with
  | nil =>
    cases bss with
    | nil => exact absurd rfl hne
    | cons _ _ => cases hl
  | cons t ts =>
    cases ts with
    | nil =>
      simp only [Bool.false_eq_true, if_false, List.cons_append, List.nil_append]
      simpa [allSpaces_spaces] using hj
    | cons t2 ts =>
      simp only [Bool.false_eq_true, if_false, List.cons_append]
      have h1 : (t :: t2 :: (ts ++ [spaces n])).getLast? = some (spaces n) := by
        rw [← List.cons_append, ← List.cons_append, List.getLast?_concat]
      have h2 : (t :: t2 :: (ts ++ [spaces n])).dropLast = t :: t2 :: ts := by
        rw [← List.cons_append, ← List.cons_append, List.dropLast_concat]
      rw [h1, h2, Option.getD_some, allSpaces_spaces, allSpaces_spaces]
      exact hj

theorem stringContents_multi (escapes : Bool) (v w : List Byte) (n : Nat) (hn : 3 ≤ n) :
    stringContents v.length escapes n (v ++ quotes n ++ w ++ quotes n) = decodeString escapes w := by
  unfold stringContents
  rw [if_neg (by simp [quotes]; omega), contents_cut v w n (quotes n) (by simp [quotes])]

theorem stringLiteral_multi {escapes : Bool} {bl : Builder} {v : List Byte} (h : Opens escapes bl v) (w : List Byte)
    (n : Nat) (hn : 3 ≤ n) :
    stringLiteral bl n (v ++ quotes n ++ w ++ quotes n) = decodeString escapes w := by
  obtain ⟨j, rfl⟩ : ∃ j, n = j + 3 := ⟨n - 3, by omega⟩
  cases h with
  | string =>
    show stringContents (if some (code '"') = some (code '#') then 1 else 0) true _ _ = _
    rw [if_neg (by decide)]
    exact stringContents_multi true [] w (j + 3) hn
  | symbol => exact stringContents_multi true [code '#'] w (j + 3) hn
  | @raw r hr => exact stringContents_multi false [code '#', r] w (j + 3) hn

/-- A string that begins so with three quotes or more is one token, up to the first `n` quotes in a row. -/
theorem reads_opens {escapes : Bool} {bl : Builder} {v : List Byte} (ho : Opens escapes bl v) (pre w rest : List Byte)
    (lx : Lexer) (hp : lx.pos = pre.length) (hq : lx.quoteStart = 0) (n : Nat) (hn : 3 ≤ n) (h : Inside escapes n w) :
    Reads (pre ++ (v ++ quotes n ++ w ++ quotes n) ++ rest) lx (v ++ quotes n ++ w ++ quotes n) bl n := by
  cases ho with
  | string => exact reads_multi multi_string hn hp hq .nil (by decide +kernel) rfl rfl h
  | symbol =>
    exact reads_multi multi_string hn hp hq (s0 := .sharp) (.one (by decide +kernel) (by decide)) (by decide +kernel)
      rfl rfl h
  | @raw r hr =>
    refine reads_multi multi_raw hn hp hq (s0 := .sharpR) ?_ (by decide +kernel) rfl rfl h
    rcases hr with rfl | rfl
    · exact .cons (st' := .sharp) (by decide +kernel) (by decide) (.one (by decide +kernel) (by decide))
    · exact .cons (st' := .sharp) (by decide +kernel) (by decide) (.one (by decide +kernel) (by decide))

/-- **C119** A string between `n` quotes, three or more, is one token if its text does not have `n` quotes in a row, and
    if it has no line breaks its value is what is written in it. -/
theorem quoted_strings {escapes : Bool} {bl : Builder} {v : List Byte} (ho : Opens escapes bl v) (pre w rest : List Byte)
    (lx : Lexer) (hp : lx.pos = pre.length) (hq : lx.quoteStart = 0) (n : Nat) (hn : 3 ≤ n) (h : Inside escapes n w)
    (bs : List Byte) (hm : LineMeans escapes w bs) :
    let text := v ++ quotes n ++ w ++ quotes n
    Reads (pre ++ text ++ rest) lx text bl n ∧ stringLiteral bl n text = .value bs := by
  refine ⟨reads_opens ho pre w rest lx hp hq n hn h, ?_⟩
  rw [stringLiteral_multi ho w n hn, decode_one escapes (lineMeans_ok hm)]
  exact lineMeans_value hm

/-- **C119** A string of several lines, with the quotes that end it on a line of their own: its value is the lines
    without the indentation of the last one, with newlines between them, however the lines are broken. -/
theorem multi_line_strings {escapes : Bool} {bl : Builder} {v : List Byte} (ho : Opens escapes bl v)
    (pre rest : List Byte) (lx : Lexer) (hp : lx.pos = pre.length) (hq : lx.quoteStart = 0) (n : Nat) (hn : 3 ≤ n)
    (pad indent : Nat) (br ws : List Byte) (bss : List (List Byte)) (hbr : IsBreak br) (hne : bss ≠ [])
    (hl : Lines escapes indent br ws bss) (h : Inside escapes n (spaces pad ++ br ++ (ws ++ spaces indent))) :
    let text := v ++ quotes n ++ (spaces pad ++ br ++ (ws ++ spaces indent)) ++ quotes n
    Reads (pre ++ text ++ rest) lx text bl n ∧ stringLiteral bl n text = .value (joined bss) := by
  refine ⟨reads_opens ho pre _ rest lx hp hq n hn h, ?_⟩
  rw [stringLiteral_multi ho _ n hn]
  exact decode_lines hbr hl hne

instance (b : Byte) : Decidable (MultiLine b) := inferInstanceAs (Decidable (_ ∧ _))

instance (b : Byte) : Decidable (RawMultiLine b) := inferInstanceAs (Decidable (_ ∨ _))

/-- Two quotes in a row between three, and an escaped quote. -/
example : Inside true 3 (bytes "a\"\"b\\\"") ∧ LineMeans true (bytes "a\"\"b\\\"") (bytes "a\"\"b\"") := by
  refine ⟨⟨.plain (by decide) (by decide) (by decide) (.quote (by decide) (.quote (by decide)
    (.plain (by decide) (by decide) (by decide) (.escape (i := .escape (code '"')) (b := code '"') rfl
      (Means.escape (c := '"') (n := 34) (by decide)) (by simp) .done)))), by decide, by decide⟩, ?_⟩
  refine ⟨[.plain (code 'a'), .plain (code '"'), .plain (code '"'), .plain (code 'b'), .escape (code '"')], rfl, ?_⟩
  exact .cons (.plain _) (fun c hc => by cases hc; decide +kernel) (.cons (.plain _) (fun c hc => by cases hc; decide +kernel)
    (.cons (.plain _) (fun c hc => by cases hc; decide +kernel) (.cons (.plain _) (fun c hc => by cases hc; decide +kernel)
      (.cons (Means.escape (c := '"') (n := 34) (by decide)) (fun c hc => by cases hc) .nil))))

/-- Two lines and a blank one, indented by two spaces. -/
example : Lines false 2 [code '\n'] (bytes "  a\n\n   b\n") [bytes "a", [], bytes " b"] ∧
    Inside false 3 (spaces 0 ++ [code '\n'] ++ (bytes "  a\n\n   b\n" ++ spaces 2)) := by
  constructor
  · exact .cons (w := bytes "  a") (ws := bytes "\n   b\n") (.text (w := bytes "a") ⟨rfl, by decide +kernel⟩)
      (.cons (w := []) (ws := bytes "   b\n") (.blank (k := 0) (by decide))
        (.cons (w := bytes "   b") (ws := []) (.text (w := bytes " b") ⟨rfl, by decide +kernel⟩) .nil))
  · refine ⟨?_, by decide, by decide⟩
    have h : ∀ l : List Byte, (∀ b ∈ l, ((32 ≤ b.val ∧ b.val < 127) ∨ 128 ≤ b.val ∨ b = code '\n' ∨ b = code '\r') ∧
        b ≠ code '"') → Between false 3 0 l := by
      intro l hl
      induction l with
      | nil => exact .done
      | cons b l ih =>
        exact .plain (hl b (List.mem_cons_self ..)).1 (hl b (List.mem_cons_self ..)).2 (fun h => by cases h)
          (ih fun x hx => hl x (List.mem_cons_of_mem _ hx))
    exact h _ (by decide +kernel)

end Verif.Reader
