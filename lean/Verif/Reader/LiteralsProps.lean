/-
C115–C118: names, integers, characters and strings on one line.
-/
import Verif.Reader.LiteralsLemmas

namespace Verif.Reader
open LexerSpec

/-! ### Names -/

theorem not_name {b : Byte} (h : b ∉ nameChars) : isName b = false := by
  rw [mem_nameChars] at h; exact Bool.eq_false_iff.2 h

theorem next_name (b : Byte) : b ∈ nameChars → next .symbol b = some .symbol := by
  rw [mem_nameChars]; revert b; decide +kernel

theorem next_letter (b : Byte) : b ∈ letters → next .start b = some .symbol ∧ b ∈ nameChars := by
  rw [mem_letters, mem_nameChars]; revert b; decide +kernel

theorem run_symbol (w : List Byte) (h : ∀ b ∈ w, b ∈ nameChars) : Run .symbol w .symbol := by
  induction w with
  | nil => exact .nil
  | cons b w ih =>
    exact .cons (next_name b (h b (List.mem_cons_self ..))) (by decide)
      (ih fun x hx => h x (List.mem_cons_of_mem _ hx))

theorem stops_symbol {rest : List Byte} (h : Delimited rest) : Stops .symbol rest := by
  have : ∀ b : Byte, isName b = false → b ≠ code ':' → next .symbol b = none := by decide +kernel
  exact fun c hc => this c (not_name (h c hc).1) (h c hc).2.2

theorem stops_keyword {rest : List Byte} (h : Delimited rest) : Stops .colonKeyword rest := by
  have : ∀ b : Byte, isName b = false → b ≠ code ':' → next .colonKeyword b = none := by decide +kernel
  exact fun c hc => this c (not_name (h c hc).1) (h c hc).2.2

/-- The states before the first letter of a name that begins with a graphic character. -/
def graphicState : St → Bool
  | .equal | .doubleEqual | .arrow | .operatorGraphic | .operatorGraphicPreEqual | .leadingGraphic
  | .leadingDollar | .historyOrLeadingGraphic | .leadingUnderscore => true
  | _ => false

theorem graphic_start (b : Byte) : b ∈ bytes "!&*<=>|^$%@_" →
    (next .start b).any (fun s => graphicState s && quiet s) = true := by
  revert b; decide +kernel

theorem graphic_step (st : St) (h : graphicState st = true) (b : Byte) :
    b ∈ nameChars → b ∉ letters → b ≠ code '-' → b ≠ code '+' →
    (next st b).any (fun s => graphicState s && quiet s) = true := by
  rw [mem_nameChars, mem_letters]
  revert b
  cases st <;> first | (exact absurd h (by decide)) | decide +kernel

theorem graphic_letter (st : St) (h : graphicState st = true) (b : Byte) :
    b ∈ letters → next st b = some .symbol := by
  rw [mem_letters]
  revert b
  cases st <;> first | (exact absurd h (by decide)) | decide +kernel

theorem some_of_any {α : Type} {o : Option α} {p : α → Bool} (h : o.any p = true) : ∃ a, o = some a ∧ p a = true := by
  cases o with
  | none => cases h
  | some a => exact ⟨a, rfl, h⟩

/-- A name with graphic characters, up to where letters occur. -/
theorem run_graphic (st : St) (h : graphicState st = true) (v : List Byte) (c : Byte) (w : List Byte)
    (hv : ∀ b ∈ v, b ∈ nameChars ∧ b ≠ code '-' ∧ b ≠ code '+') (hc : c ∈ letters) (hw : ∀ b ∈ w, b ∈ nameChars) :
    Run st (v ++ c :: w) .symbol := by
  induction v generalizing st with
  | nil => exact .cons (graphic_letter st h c hc) (by decide) (run_symbol w hw)
  | cons b v ih =>
    obtain ⟨h1, h2, h3⟩ := hv b (List.mem_cons_self ..)
    have hv' : ∀ b ∈ v, b ∈ nameChars ∧ b ≠ code '-' ∧ b ≠ code '+' := fun x hx => hv x (List.mem_cons_of_mem _ hx)
    by_cases hl : b ∈ letters
    · refine .cons (graphic_letter st h b hl) (by decide) (run_symbol _ ?_)
      intro x hx
      rcases List.mem_append.1 hx with hx | hx
      · exact (hv' x hx).1
      · rcases List.mem_cons.1 hx with rfl | hx
        · exact (next_letter _ hc).2
        · exact hw x hx
    · obtain ⟨s, e, hs⟩ := some_of_any (graphic_step st h b h1 hl h2 h3)
      rw [Bool.and_eq_true] at hs
      exact .cons e hs.2 (ih s hs.1 hv')

/-- **C115** A name that begins with a letter and is followed by a character that is not part of a name is one token. -/
theorem letter_names (pre rest : List Byte) (lx : Lexer) (hp : lx.pos = pre.length) (c : Byte) (w : List Byte)
    (hc : c ∈ letters) (hw : ∀ b ∈ w, b ∈ nameChars) (hd : Delimited rest) :
    Reads (pre ++ (c :: w) ++ rest) lx (c :: w) .identifier lx.quoteStart :=
  reads_run hp (by simp) (.cons (next_letter c hc).1 (by decide) (run_symbol w hw)) rfl (stops_symbol hd)

/-- **C115** So is a name that begins with a graphic character, if there is no `-` and no `+` in it before a letter. -/
theorem graphic_names_partial (pre rest : List Byte) (lx : Lexer) (hp : lx.pos = pre.length) (g c : Byte)
    (v w : List Byte) (hg : g ∈ bytes "!&*<=>|^$%@_")
    (hv : ∀ b ∈ v, b ∈ nameChars ∧ b ≠ code '-' ∧ b ≠ code '+') (hc : c ∈ letters) (hw : ∀ b ∈ w, b ∈ nameChars)
    (hd : Delimited rest) :
    Reads (pre ++ (g :: v ++ c :: w) ++ rest) lx (g :: v ++ c :: w) .identifier lx.quoteStart := by
  obtain ⟨s, e, hs⟩ := some_of_any (graphic_start g hg)
  rw [Bool.and_eq_true] at hs
  exact reads_run hp (by simp) (.cons e hs.2 (run_graphic s hs.1 v c w hv hc hw)) rfl (stops_symbol hd)

/-- **C115** A name with a colon after it is a keyword. -/
theorem keywords (pre rest : List Byte) (lx : Lexer) (hp : lx.pos = pre.length) (c : Byte) (w : List Byte)
    (hc : c ∈ letters) (hw : ∀ b ∈ w, b ∈ nameChars) (hd : Delimited rest) :
    Reads (pre ++ (c :: w ++ [code ':']) ++ rest) lx (c :: w ++ [code ':']) .keyword lx.quoteStart :=
  reads_run hp (by simp)
    ((Run.cons (next_letter c hc).1 (by decide) (run_symbol w hw)).append (.one (by decide) (by decide))) rfl
    (stops_keyword hd)

example : Delimited (bytes "(x)") ∧ code 'f' ∈ letters ∧ (∀ b ∈ bytes "oo-bar?", b ∈ nameChars) := by
  refine ⟨?_, by decide +kernel, by decide +kernel⟩
  intro c hc
  simp [bytes] at hc
  subst hc; decide +kernel

/-- **C115** The name `*-x*` is read as the operators `*` and `-` and the name `x*`. -/
theorem graphic_names_violated :
    ∃ w, NameText w ∧ w = bytes "*-x*" ∧
      (tokens w 9 .new).map (fun t => (t.1, text w t.2.startPos t.2.endPos)) =
        [(.binaryOperator, bytes "*"), (.minus, bytes "-"), (.identifier, bytes "x*"), (.eof, [])] :=
  ⟨bytes "*-x*", NameText.graphic (g := code '*') (v := [code '-']) (c := code 'x') (w := [code '*'])
    (by decide +kernel) (by decide +kernel) (by decide +kernel) (by decide +kernel), rfl, by decide +kernel⟩

/-! ### Integers -/

theorem run_grouped {radix : Nat} {first digit under : St}
    (h1 : ∀ b d, IsDigit b d → d < radix → next first b = some digit)
    (h2 : ∀ b d, IsDigit b d → d < radix → next digit b = some digit)
    (h3 : ∀ b d, IsDigit b d → d < radix → next under b = some digit) (h4 : next digit (code '_') = some under)
    (q1 : quiet digit = true) (q2 : quiet under = true) {w : List Byte} {ds : List Nat} (h : Grouped radix w ds) :
    Run first w digit := by
  suffices H : ∀ first, (∀ b d, IsDigit b d → d < radix → next first b = some digit) → Run first w digit from H first h1
  clear h1 first
  induction h with
  | last hb hd => exact fun s h1 => .one (h1 _ _ hb hd) q1
  | digit hb hd _ ih => exact fun s h1 => .cons (h1 _ _ hb hd) q1 (ih digit h2)
  | underscore hb hd _ ih => exact fun s h1 => .cons (h1 _ _ hb hd) q1 (.cons h4 q2 (ih under h3))

/-- A fact about the transitions on digits, by evaluation. -/
theorem next_digit (radix : Nat) (st st' : St)
    (h : (List.range 16).all (fun d =>
      ((bytes "0123456789abcdef")[d]?.all (fun b => decide (radix ≤ d) || next st b == some st')) &&
      ((bytes "0123456789ABCDEF")[d]?.all (fun b => decide (radix ≤ d) || next st b == some st'))) = true)
    (b : Byte) (d : Nat) (hb : IsDigit b d) (hd : d < radix) : next st b = some st' := by
  have := digit_all (fun b d => decide (radix ≤ d) || next st b == some st') h hb
  rw [Bool.or_eq_true, decide_eq_true_eq, beq_iff_eq] at this
  rcases this with h | h
  · omega
  · exact h

theorem stops_delimited (st : St) {rest : List Byte} (hd : Delimited rest)
    (h : ∀ b : Byte, isName b = false → b ≠ code '.' → next st b = none) : Stops st rest :=
  fun c hc => h c (not_name (hd c hc).1) (hd c hc).2.1

theorem binary_facts : (∀ b k, IsDigit b k → k < 2 → next .sharpB b = some .binaryInteger) ∧
    (∀ b k, IsDigit b k → k < 2 → next .binaryInteger b = some .binaryInteger) ∧
    (∀ b k, IsDigit b k → k < 2 → next .binaryIntegerUnderscore b = some .binaryInteger) ∧
    (∀ b : Byte, isName b = false → b ≠ code '.' → next .binaryInteger b = none) :=
  ⟨next_digit 2 _ _ (by decide +kernel), next_digit 2 _ _ (by decide +kernel), next_digit 2 _ _ (by decide +kernel),
    by decide +kernel⟩

theorem octal_facts : (∀ b k, IsDigit b k → k < 8 → next .sharpO b = some .octalInteger) ∧
    (∀ b k, IsDigit b k → k < 8 → next .octalInteger b = some .octalInteger) ∧
    (∀ b k, IsDigit b k → k < 8 → next .octalIntegerUnderscore b = some .octalInteger) ∧
    (∀ b : Byte, isName b = false → b ≠ code '.' → next .octalInteger b = none) :=
  ⟨next_digit 8 _ _ (by decide +kernel), next_digit 8 _ _ (by decide +kernel), next_digit 8 _ _ (by decide +kernel),
    by decide +kernel⟩

theorem hex_facts : (∀ b k, IsDigit b k → k < 16 → next .sharpX b = some .hexInteger) ∧
    (∀ b k, IsDigit b k → k < 16 → next .hexInteger b = some .hexInteger) ∧
    (∀ b k, IsDigit b k → k < 16 → next .hexIntegerUnderscore b = some .hexInteger) ∧
    (∀ b : Byte, isName b = false → b ≠ code '.' → next .hexInteger b = none) :=
  ⟨next_digit 16 _ _ (by decide +kernel), next_digit 16 _ _ (by decide +kernel), next_digit 16 _ _ (by decide +kernel),
    by decide +kernel⟩

theorem signed_facts : (∀ b k, IsDigit b k → k < 10 → next .plus b = some .signedDecimal) ∧
    (∀ b k, IsDigit b k → k < 10 → next .minus b = some .signedDecimal) ∧
    (∀ b k, IsDigit b k → k < 10 → next .signedDecimal b = some .signedDecimal) ∧
    (∀ b k, IsDigit b k → k < 10 → next .signedDecimalUnderscore b = some .signedDecimal) ∧
    (∀ b : Byte, isName b = false → b ≠ code '.' → next .signedDecimal b = none) :=
  ⟨next_digit 10 _ _ (by decide +kernel), next_digit 10 _ _ (by decide +kernel), next_digit 10 _ _ (by decide +kernel),
    next_digit 10 _ _ (by decide +kernel), by decide +kernel⟩

theorem number_nonneg (r : Nat) (ds : List Nat) : (0 : Int) ≤ number r ds := Int.natCast_nonneg _

/-- **C116** An integer literal is one token, and its value is the integer that it stands for, if this has 128 bits. -/
theorem integer_literals (pre rest w : List Byte) (v : Int) (lx : Lexer) (hp : lx.pos = pre.length)
    (h : IntegerText w v) (hv : -2 ^ 127 ≤ v ∧ v < 2 ^ 127) (hd : Delimited rest) :
    Reads (pre ++ w ++ rest) lx w .integer lx.quoteStart ∧ ∃ len, integerLiteral w = .ok v len := by
  cases h with
  | @plain _ ds h =>
    have hr : Run .start w .decimal := run_grouped (under := .decimalUnderscore)
      (next_digit 10 _ _ (by decide +kernel)) (next_digit 10 _ _ (by decide +kernel))
      (next_digit 10 _ _ (by decide +kernel)) (by decide +kernel) (by decide) (by decide) h
    obtain ⟨b, d, w', rfl, hb, -⟩ := grouped_first h
    refine ⟨reads_run hp (by simp) hr rfl (stops_delimited _ hd (by decide +kernel)), (b :: w').length, ?_⟩
    have e := parseInteger_grouped (by omega) h (by omega)
    cases w' with
    | nil => exact e
    | cons x w' => rw [← e]; simp only [integerLiteral, (digit_sign hb).2.2, if_false]
  | @plus w ds h =>
    have hr : Run .plus w .signedDecimal := run_grouped (under := .signedDecimalUnderscore)
      signed_facts.1 signed_facts.2.2.1 signed_facts.2.2.2.1 (by decide +kernel) (by decide) (by decide) h
    refine ⟨reads_run hp (by simp) (.cons (by decide +kernel) (by decide) hr) rfl
      (stops_delimited _ hd signed_facts.2.2.2.2), 1 + w.length, ?_⟩
    obtain ⟨b, d, w', rfl, hb, -⟩ := grouped_first h
    have e := parseDigits_grouped (by omega) h 1 0 (show number 10 ds ≤ _ by omega)
    refine Eq.trans ?_ ((congrArg Parsed.negate e).trans (negate_neg (show number 10 ds < 2 ^ 127 by omega)))
    simp only [integerLiteral, if_neg (show ¬ code '+' = code '#' by decide)]
    simp only [parseInteger, if_neg (show ¬ code '+' = code '-' by decide), if_true]
    rfl
  | @minus w ds h =>
    have hr : Run .minus w .signedDecimal := run_grouped (under := .signedDecimalUnderscore)
      signed_facts.2.1 signed_facts.2.2.1 signed_facts.2.2.2.1 (by decide +kernel) (by decide) (by decide) h
    refine ⟨reads_run hp (by simp) (.cons (by decide +kernel) (by decide) hr) rfl
      (stops_delimited _ hd signed_facts.2.2.2.2), 1 + w.length, ?_⟩
    obtain ⟨b, d, w', rfl, hb, -⟩ := grouped_first h
    have e := parseDigits_grouped (by omega) h 1 0 (show number 10 ds ≤ _ by omega)
    refine Eq.trans ?_ e
    simp only [integerLiteral, if_neg (show ¬ code '-' = code '#' by decide)]
    simp only [parseInteger, if_true]
    rfl
  | @radix c r w ds hr h =>
    have hn : number r ds < 2 ^ 127 := by omega
    simp only [List.mem_cons, Prod.mk.injEq, List.not_mem_nil, or_false] at hr
    have hs : ∀ {r' : Nat} {a d u : St} {c : Char}, 0 < r' → Grouped r' w ds → number r' ds < 2 ^ 127 →
        next .sharp (code c) = some a → quiet a = true → radixOf (code c) = some r' →
        (∀ b k, IsDigit b k → k < r' → next a b = some d) → (∀ b k, IsDigit b k → k < r' → next d b = some d) →
        (∀ b k, IsDigit b k → k < r' → next u b = some d) → next d (code '_') = some u →
        quiet d = true → quiet u = true → builder d = some .integer →
        (∀ b : Byte, isName b = false → b ≠ code '.' → next d b = none) →
        Reads (pre ++ (code '#' :: code c :: w) ++ rest) lx (code '#' :: code c :: w) .integer lx.quoteStart ∧
          ∃ len, integerLiteral (code '#' :: code c :: w) = .ok (number r' ds) len := by
      intro r' a d u c hr' h hn n1 q0 n2 n3 n4 n5 n6 q1 q2 hb hst
      refine ⟨reads_run hp (by simp) (.cons (show next .start (code '#') = some .sharp by decide +kernel)
        (by decide) (.cons n1 q0 (run_grouped n3 n4 n5 n6 q1 q2 h))) hb (stops_delimited _ hd hst), w.length, ?_⟩
      simp only [integerLiteral, if_true, n2]
      exact parseInteger_grouped hr' h hn
    have h2 := @hs 2 .sharpB .binaryInteger .binaryIntegerUnderscore
    have h8 := @hs 8 .sharpO .octalInteger .octalIntegerUnderscore
    have h16 := @hs 16 .sharpX .hexInteger .hexIntegerUnderscore
    rcases hr with ⟨rfl, rfl⟩ | ⟨rfl, rfl⟩ | ⟨rfl, rfl⟩ | ⟨rfl, rfl⟩ | ⟨rfl, rfl⟩ | ⟨rfl, rfl⟩
    · exact h2 (by omega) h hn (by decide +kernel) (by decide) (by decide) binary_facts.1 binary_facts.2.1 binary_facts.2.2.1
        (by decide +kernel) (by decide) (by decide) rfl binary_facts.2.2.2
    · exact h2 (by omega) h hn (by decide +kernel) (by decide) (by decide) binary_facts.1 binary_facts.2.1 binary_facts.2.2.1
        (by decide +kernel) (by decide) (by decide) rfl binary_facts.2.2.2
    · exact h8 (by omega) h hn (by decide +kernel) (by decide) (by decide) octal_facts.1 octal_facts.2.1 octal_facts.2.2.1
        (by decide +kernel) (by decide) (by decide) rfl octal_facts.2.2.2
    · exact h8 (by omega) h hn (by decide +kernel) (by decide) (by decide) octal_facts.1 octal_facts.2.1 octal_facts.2.2.1
        (by decide +kernel) (by decide) (by decide) rfl octal_facts.2.2.2
    · exact h16 (by omega) h hn (by decide +kernel) (by decide) (by decide) hex_facts.1 hex_facts.2.1 hex_facts.2.2.1
        (by decide +kernel) (by decide) (by decide) rfl hex_facts.2.2.2
    · exact h16 (by omega) h hn (by decide +kernel) (by decide) (by decide) hex_facts.1 hex_facts.2.1 hex_facts.2.2.1
        (by decide +kernel) (by decide) (by decide) rfl hex_facts.2.2.2

/-- `#xFf_0` is 4080. -/
example : IntegerText (bytes "#xFf_0") 4080 :=
  IntegerText.radix (c := 'x') (r := 16) (w := bytes "Ff_0") (ds := [15, 15, 0]) (by decide)
    (.digit (.inr (by decide)) (by decide) (.underscore (.inl (by decide)) (by decide) (.last (.inl (by decide)) (by decide))))

end Verif.Reader
