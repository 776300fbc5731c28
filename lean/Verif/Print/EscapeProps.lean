import Verif.Print.Escape
import Verif.Reader.StringProps

namespace Verif.Print
open Verif.Reader Verif.Reader.LexerSpec

/-- The item that `write-char-maybe-escape` writes for a character. -/
def itemOf (quote b : Byte) : Item :=
  if b.val < 32 then
    if b.val = 0 then .escape (code '0')
    else if b.val = 7 then .escape (code 'a')
    else if b.val = 8 then .escape (code 'b')
    else if b.val = 9 then .escape (code 't')
    else if b.val = 12 then .escape (code 'f')
    else if b.val = 13 then .escape (code 'r')
    else if b.val = 10 then .escape (code 'n')
    else if b.val = 27 then .escape (code 'e')
    else .hex (hexText b)
  else if b = quote then .escape b
  else if b = code '\\' then .escape (code '\\')
  else if 126 < b.val then .hex (hexText b)
  else .plain b

theorem itemOf_text (quote b : Byte) : (itemOf quote b).text = writeChar quote b := by
  unfold itemOf writeChar controlEscape hexEscape
  repeat' split
  all_goals first | rfl | simp [Item.text]

/-- The digits of the hexadecimal escape of a byte. -/
def nibbles (b : Byte) : List Nat := if b.val < 16 then [b.val] else [b.val / 16, b.val % 16]

theorem hex_digits (b : Byte) : Digits (hexText b) (nibbles b) ∧ hexText b ≠ [] ∧ number 16 (nibbles b) = b.val := by
  have key : ∀ b : Byte, hexText b = (nibbles b).map (fun d => ((bytes "0123456789ABCDEF")[d]?).getD 0) ∧
      (∀ d ∈ nibbles b, d < 16) ∧ nibbles b ≠ [] ∧ number 16 (nibbles b) = b.val := by decide +kernel
  obtain ⟨h1, h2, h3, h4⟩ := key b
  refine ⟨?_, ?_, h4⟩
  · rw [h1]
    generalize nibbles b = ds at h2
    clear h1 h3 h4
    induction ds with
    | nil => exact .nil
    | cons d ds ih =>
      refine .cons (.inr ?_) (ih fun x hx => h2 x (by simp [hx]))
      have := h2 d (by simp)
      have e : d < (bytes "0123456789ABCDEF").length := by simpa [bytes] using this
      show _ = some (Option.getD _ 0)
      rw [List.getElem?_eq_getElem e]
      rfl
  · rw [h1]
    simpa using h3

theorem itemOf_means (quote b : Byte) (hq : quote = code '\'' ∨ quote = code '"') : Means (itemOf quote b) b := by
  have hx : ∀ b : Byte, Means (.hex (hexText b)) b := by
    intro b
    obtain ⟨h1, h2, h3⟩ := hex_digits b
    have := Means.hex h1 h2 (by rw [h3]; exact b.isLt)
    rw [h3] at this
    have e : Fin.ofNat 256 b.val = b := by simp
    rwa [e] at this
  have esc : ∀ (c : Char) (n : Nat), (c, n) ∈ escapes → n < 256 → ∀ b : Byte, b.val = n → Means (.escape (code c)) b := by
    intro c n h hn b hb
    have := Means.escape h
    have e : Fin.ofNat 256 n = b := by rw [← hb]; simp
    rwa [e] at this
  unfold itemOf
  split
  · split
    · exact esc '0' 0 (by decide) (by decide) b (by assumption)
    split
    · exact esc 'a' 7 (by decide) (by decide) b (by assumption)
    split
    · exact esc 'b' 8 (by decide) (by decide) b (by assumption)
    split
    · exact esc 't' 9 (by decide) (by decide) b (by assumption)
    split
    · exact esc 'f' 12 (by decide) (by decide) b (by assumption)
    split
    · exact esc 'r' 13 (by decide) (by decide) b (by assumption)
    split
    · exact esc 'n' 10 (by decide) (by decide) b (by assumption)
    split
    · exact esc 'e' 27 (by decide) (by decide) b (by assumption)
    · exact hx b
  split
  · rename_i hb
    subst hb
    rcases hq with rfl | rfl
    · exact esc '\'' 39 (by decide) (by decide) _ (by decide)
    · exact esc '"' 34 (by decide) (by decide) _ (by decide)
  split
  · exact esc '\\' 92 (by decide) (by decide) b (by rename_i hb; rw [hb]; decide)
  split
  · exact hx b
  · exact .plain b

theorem itemOf_plain (quote b c : Byte) (h : itemOf quote b = .plain c) :
    c = b ∧ 32 ≤ b.val ∧ b.val < 127 ∧ b ≠ quote ∧ b ≠ code '\\' := by
  unfold itemOf at h
  repeat' split at h
  all_goals first | cases h | skip
  simp_all
  omega

theorem findBreak_spec (bs : List Byte) :
    (findBreak bs).1 ++ (findBreak bs).2 = bs ∧ (∀ b ∈ (findBreak bs).1, breaks b = false) := by
  induction bs with
  | nil => simp [findBreak]
  | cons b bs ih =>
    unfold findBreak
    split
    · simp
    · rename_i hb
      refine ⟨by simp [ih.1], ?_⟩
      intro x hx
      rcases List.mem_cons.1 hx with rfl | hx
      · simpa using hb
      · exact ih.2 x hx

theorem writeChar_plain (b : Byte) (h : breaks b = false) : writeChar (code '"') b = [b] := by
  simp only [breaks, Bool.or_eq_false_iff, decide_eq_false_iff_not, beq_eq_false_iff_ne] at h
  obtain ⟨⟨⟨h1, h2⟩, h3⟩, h4⟩ := h
  simp [writeChar, h1, h2, h3, h4]

theorem writeGuts_eq : ∀ (fuel : Nat) (bs : List Byte), bs.length < fuel →
    writeGuts fuel bs = bs.flatMap (writeChar (code '"'))
  | 0, bs, h => by omega
  | fuel + 1, bs, h => by
    obtain ⟨h1, h2⟩ := findBreak_spec bs
    have hp : (findBreak bs).1.flatMap (writeChar (code '"')) = (findBreak bs).1 := by
      generalize (findBreak bs).1 = l at h2
      clear h1
      induction l with
      | nil => rfl
      | cons b l ih =>
        rw [List.flatMap_cons, writeChar_plain b (h2 b (by simp)), ih fun x hx => h2 x (by simp [hx])]
        rfl
    unfold writeGuts
    cases hr : (findBreak bs).2 with
    | nil =>
      dsimp only
      rw [hr, List.append_nil] at h1
      rw [← hp, h1]
    | cons b rest =>
      dsimp only
      rw [hr] at h1
      have hl := congrArg List.length h1
      simp only [List.length_append, List.length_cons] at hl
      rw [writeGuts_eq fuel rest (by omega)]
      conv => rhs; rw [← h1]
      rw [List.flatMap_append, hp, List.flatMap_cons]
      simp

/-- **C129** The two ways to write a string, in chunks and character by character, write the same. -/
theorem chunks_same (bs : List Byte) : printString bs = printStringEach bs := by
  unfold printString printStringEach
  rw [writeGuts_eq _ _ (by omega)]

/-- **C129** Every character is printed as a character literal: the reader reads it as one token, whatever comes
    next, and its value is the character. -/
theorem print_character_reads (b : Byte) (pre rest : List Byte) (lx : Lexer) (hp : lx.pos = pre.length) :
    Reads (pre ++ printCharacter b ++ rest) lx (printCharacter b) .character lx.quoteStart ∧
      characterLiteral (printCharacter b) = .value b := by
  have := character_literals pre rest lx hp (itemOf (code '\'') b) b (itemOf_means _ b (.inl rfl)) (by
    intro c hc
    obtain ⟨rfl, h1, h2, h3, h4⟩ := itemOf_plain _ _ _ hc
    exact ⟨by omega, h3, h4⟩)
  rw [itemOf_text] at this
  exact this

theorem spells_print (bs : List Byte) : Spells OneLine (bs.map (itemOf (code '"'))) bs := by
  induction bs with
  | nil => exact .nil
  | cons b bs ih =>
    refine .cons (itemOf_means _ b (.inr rfl)) ?_ ih
    intro c hc
    obtain ⟨rfl, h1, h2, h3, h4⟩ := itemOf_plain _ _ _ hc
    exact ⟨by omega, h3, h4⟩

theorem textOf_print (bs : List Byte) :
    textOf (bs.map (itemOf (code '"'))) = bs.flatMap (writeChar (code '"')) := by
  unfold textOf
  rw [List.map_map, List.flatMap_def]
  congr 1
  apply List.map_congr_left
  intro b _
  exact itemOf_text _ b

theorem quoted_reads (v bs : List Byte) (hv : v = [] ∨ v = [code '#']) (pre rest : List Byte) (lx : Lexer)
    (hp : lx.pos = pre.length) (hq : lx.quoteStart = 0) (hr : bs = [] → rest.head? ≠ some (code '"')) :
    ∃ n, Reads (pre ++ (v ++ printString bs) ++ rest) lx (v ++ printString bs) .string n ∧
      stringLiteral .string n (v ++ printString bs) = .value bs := by
  rw [chunks_same]
  by_cases hb : bs = []
  · subst hb
    exact ⟨2, empty_string_literals pre rest lx hp hq v hv (hr rfl)⟩
  · have := string_literals pre rest lx hp hq v hv (bs.map (itemOf (code '"'))) bs (by simpa using hb) (spells_print bs)
    rw [textOf_print] at this
    refine ⟨1, ?_⟩
    simpa [printStringEach] using this

/-- **C129** Every string is printed as a string literal on one line: the reader reads it as one token whose value is
    the string. (After an empty string there must not be another quote; in the output of `print` there is none.) -/
theorem print_string_reads (bs pre rest : List Byte) (lx : Lexer) (hp : lx.pos = pre.length) (hq : lx.quoteStart = 0)
    (hr : bs = [] → rest.head? ≠ some (code '"')) :
    ∃ n, Reads (pre ++ printString bs ++ rest) lx (printString bs) .string n ∧
      stringLiteral .string n (printString bs) = .value bs :=
  quoted_reads [] bs (.inl rfl) pre rest lx hp hq hr

/-- **C129** Every symbol, with whatever name, is printed as a symbol literal `#"…"`: the reader reads it as one
    token, and the name in it is the symbol's but for the case of its letters, which does not matter. -/
theorem print_symbol_reads (name pre rest : List Byte) (lx : Lexer) (hp : lx.pos = pre.length) (hq : lx.quoteStart = 0)
    (hr : name = [] → rest.head? ≠ some (code '"')) :
    ∃ n, Reads (pre ++ printSymbol name ++ rest) lx (printSymbol name) .string n ∧
      stringLiteral .string n (printSymbol name) = .value (name.map lower) :=
  quoted_reads [code '#'] (name.map lower) (.inr rfl) pre rest lx hp hq (fun h => hr (by simpa using h))

theorem writeChar_printable (b : Byte) :
    (writeChar (code '"') b).all (fun c => decide (32 ≤ c.val) && decide (c.val < 127)) = true := by
  revert b
  decide +kernel

/-- **C129** Only printing characters are printed, so that a string never breaks a line. -/
theorem print_printable (bs : List Byte) : ∀ b ∈ printString bs, 32 ≤ b.val ∧ b.val < 127 := by
  rw [chunks_same]
  have hq : 32 ≤ (code '"').val ∧ (code '"').val < 127 := by decide
  intro b hb
  unfold printStringEach at hb
  rcases List.mem_append.1 hb with hb | hb
  · rcases List.mem_append.1 hb with hb | hb
    · exact List.mem_singleton.1 hb ▸ hq
    · obtain ⟨x, _, hx⟩ := List.mem_flatMap.1 hb
      simpa using List.all_eq_true.1 (writeChar_printable x) b hx
  · exact List.mem_singleton.1 hb ▸ hq

/-- **C129** Different strings are printed differently, and no printed string is the beginning of another. -/
theorem print_injective (as bs x y : List Byte) (h : printString as ++ x = printString bs ++ y)
    (hx : x.head? ≠ some (code '"')) (hy : y.head? ≠ some (code '"')) : as = bs ∧ x = y := by
  obtain ⟨n, h1, h2⟩ := print_string_reads as [] x .new rfl rfl (fun _ => hx)
  obtain ⟨m, h3, h4⟩ := print_string_reads bs [] y .new rfl rfl (fun _ => hy)
  simp only [List.nil_append] at h1 h3
  rw [h] at h1
  obtain ⟨sp, lx, a1, _, a3, a4, a5⟩ := h1
  obtain ⟨sp', lx', b1, _, b3, b4, b5⟩ := h3
  rw [a1] at b1
  cases b1
  obtain ⟨hl, hr⟩ := List.append_inj h (by omega)
  rw [hl, ← a5, b5, h4] at h2
  cases h2
  exact ⟨rfl, hr⟩

/-- Two characters are the same letter in upper or lower case, or the same character. -/
def SameLetter (a b : Byte) : Prop :=
  a = b ∨ ∃ i, i < 26 ∧ (a.val = 0x41 + i ∨ a.val = 0x61 + i) ∧ (b.val = 0x41 + i ∨ b.val = 0x61 + i)

/-- The names are of the same length and have the same letters at every place. -/
def SameName : List Byte → List Byte → Prop
  | [], [] => True
  | a :: as, b :: bs => SameLetter a b ∧ SameName as bs
  | _, _ => False

theorem lower_small (a : Byte) : ((a.val < 0x41 ∨ 0x5A < a.val) ∧ (lower a).val = a.val) ∨
    (0x41 ≤ a.val ∧ a.val ≤ 0x5A ∧ (lower a).val = a.val + 0x20) := by
  revert a
  decide +kernel

theorem lower_same (a b : Byte) : lower a = lower b ↔ SameLetter a b := by
  have ha := lower_small a
  have hb := lower_small b
  rw [Fin.ext_iff]
  unfold SameLetter
  rw [Fin.ext_iff]
  constructor
  · intro h
    by_cases he : a.val = b.val
    · exact .inl he
    · right
      rcases ha with ⟨h1, h2⟩ | ⟨h1, h1', h2⟩
      · exact ⟨a.val - 0x61, by omega, by omega, by omega⟩
      · exact ⟨a.val - 0x41, by omega, by omega, by omega⟩
  · rintro (h | ⟨i, hi, h1, h2⟩)
    · omega
    · omega

/-- **C129** Two symbols are printed alike if and only if their names differ in the case of letters only: then, and
    only then, they are the same symbol. -/
theorem print_symbol_same (a b : List Byte) : printSymbol a = printSymbol b ↔ SameName a b := by
  have h : printSymbol a = printSymbol b ↔ a.map lower = b.map lower := by
    constructor
    · intro h
      unfold printSymbol at h
      exact (print_injective _ _ [] [] (by rw [List.append_cancel_left h]) (by simp) (by simp)).1
    · intro h
      unfold printSymbol
      rw [h]
  rw [h]
  clear h
  induction a generalizing b with
  | nil => cases b <;> simp [SameName]
  | cons x a ih =>
    cases b with
    | nil => simp [SameName]
    | cons y b => simp only [List.map_cons, List.cons.injEq, SameName, lower_same, ih]

example : printSymbol ("Foo-1".toList.map code) = printSymbol ("foo-1".toList.map code) ∧
    printSymbol ("Foo-1".toList.map code) ≠ printSymbol ("foo_1".toList.map code) := by
  decide +kernel

example : printString (bytes "a\"b\n\\") = bytes "\"a\\\"b\\n\\\\\"" ∧ printCharacter 255 = bytes "'\\<FF>'" ∧
    printSymbol (bytes "Foo") = bytes "#\"foo\"" := by decide +kernel

end Verif.Print
