/-
Lemmas about literals: their values, and the words that the states of the lexer read.
-/
import Verif.Reader.Literals
import Verif.Reader.LiteralsSpec
import Verif.Reader.LexerRun

namespace Verif.Reader
open LexerSpec

/-! ### Classes of characters, for faster evaluation -/

/-- A letter. -/
def isLetter (b : Byte) : Bool := Nat.testBit 10633823810298881996379053697534001152 b.val

/-- A character of names. -/
def isName (b : Byte) : Bool := Nat.testBit 116972063532513273750410576864733036544 b.val

theorem mem_letters (b : Byte) : b ∈ letters ↔ isLetter b = true := by revert b; decide +kernel

theorem mem_nameChars (b : Byte) : b ∈ nameChars ↔ isName b = true := by revert b; decide +kernel

/-! ### Digits -/

theorem digit_lt {b : Byte} {d : Nat} (h : IsDigit b d) : d < 16 := by
  rcases h with h | h
  · have := (List.getElem?_eq_some_iff.1 h).1; simpa [bytes] using this
  · have := (List.getElem?_eq_some_iff.1 h).1; simpa [bytes] using this

/-- A fact about all digits, by evaluation. -/
theorem digit_all (p : Byte → Nat → Bool)
    (h : (List.range 16).all (fun d =>
      ((bytes "0123456789abcdef")[d]?.all (fun b => p b d)) && ((bytes "0123456789ABCDEF")[d]?.all (fun b => p b d))) = true)
    {b : Byte} {d : Nat} (hb : IsDigit b d) : p b d = true := by
  have := List.all_eq_true.1 h d (List.mem_range.2 (digit_lt hb))
  rw [Bool.and_eq_true] at this
  rcases hb with hb | hb
  · have h1 := this.1; rw [hb] at h1; exact h1
  · have h1 := this.2; rw [hb] at h1; exact h1

theorem digitValue_digit {b : Byte} {d : Nat} (h : IsDigit b d) : digitValue b = some d := by
  have := digit_all (fun b d => digitValue b == some d) (by decide +kernel) h
  simpa using this

theorem digit_sign {b : Byte} {d : Nat} (h : IsDigit b d) : b ≠ code '-' ∧ b ≠ code '+' ∧ b ≠ code '#' := by
  have := digit_all (fun b _ => b != code '-' && b != code '+' && b != code '#') (by decide +kernel) h
  simpa [and_assoc] using this

/-- The digits go on from a number. -/
def numberFrom (radix : Nat) (n : Nat) (ds : List Nat) : Nat := ds.foldl (fun n d => n * radix + d) n

theorem numberFrom_cons (radix n d : Nat) (ds : List Nat) :
    numberFrom radix n (d :: ds) = numberFrom radix (n * radix + d) ds := rfl

theorem numberFrom_le (radix : Nat) (hr : 0 < radix) (n : Nat) (ds : List Nat) : n ≤ numberFrom radix n ds := by
  induction ds generalizing n with
  | nil => exact Nat.le_refl _
  | cons d ds ih =>
    rw [numberFrom_cons]
    have h1 := ih (n * radix + d)
    have h2 : n ≤ n * radix := Nat.le_mul_of_pos_right n hr
    omega

theorem fits_neg {n : Nat} (h : n ≤ 2 ^ 127) : fits128 (-(n : Int)) = true := by
  unfold fits128
  rw [Bool.and_eq_true, decide_eq_true_eq, decide_eq_true_eq]; omega

theorem parseDigits_cons {radix : Nat} {stop : Bool} {b : Byte} {d : Nat} (hb : IsDigit b d) (l : List Byte)
    (len n : Nat) (hn : n * radix + d ≤ 2 ^ 127) :
    parseDigits radix stop (b :: l) len (-(n : Int)) =
      parseDigits radix stop l (len + 1) (-((n * radix + d : Nat) : Int)) := by
  rw [parseDigits, digitValue_digit hb]
  have e1 : -(n : Int) * (radix : Int) = -((n * radix : Nat) : Int) := by rw [Int.natCast_mul, Int.neg_mul]
  have e2 : -((n * radix : Nat) : Int) - (d : Int) = -((n * radix + d : Nat) : Int) := by omega
  simp only [e1, e2]
  rw [fits_neg (by omega), fits_neg hn]; rfl

theorem parseDigits_grouped {radix : Nat} (hr : 0 < radix) {w : List Byte} {ds : List Nat}
    (h : Grouped radix w ds) (len n : Nat) (hn : numberFrom radix n ds ≤ 2 ^ 127) :
    parseDigits radix false w len (-(n : Int)) = .ok (-(numberFrom radix n ds : Int)) (len + w.length) := by
  induction h generalizing len n with
  | @last b d hb _ =>
    rw [parseDigits_cons hb [] len n hn]; rfl
  | @digit b d w ds hb _ _ ih =>
    rw [numberFrom_cons] at hn ⊢
    rw [parseDigits_cons hb w len n (Nat.le_trans (numberFrom_le radix hr _ ds) hn), ih _ _ hn]
    rw [List.length_cons]; congr 1; omega
  | @underscore b d w ds hb _ _ ih =>
    rw [numberFrom_cons] at hn ⊢
    rw [parseDigits_cons hb _ len n (Nat.le_trans (numberFrom_le radix hr _ ds) hn)]
    have hu : digitValue (code '_') = none := by decide
    rw [parseDigits, hu]
    simp only [Bool.false_eq_true, if_false, if_true]
    rw [ih _ _ hn, List.length_cons, List.length_cons]; congr 1; omega

theorem parseDigits_stop {radix : Nat} (hr : 0 < radix) {w : List Byte} {ds : List Nat}
    (h : Digits w ds) (c : Byte) (hc : digitValue c = none) (rest : List Byte) (len n : Nat)
    (hn : numberFrom radix n ds ≤ 2 ^ 127) :
    parseDigits radix true (w ++ c :: rest) len (-(n : Int)) =
      .ok (-(numberFrom radix n ds : Int)) (len + w.length) := by
  induction h generalizing len n with
  | nil => rw [List.nil_append, parseDigits, hc]; rfl
  | @cons b d w ds hb _ ih =>
    rw [numberFrom_cons] at hn ⊢
    rw [List.cons_append, parseDigits_cons hb _ len n (Nat.le_trans (numberFrom_le radix hr _ ds) hn), ih _ _ hn]
    rw [List.length_cons]; congr 1; omega

theorem grouped_first {radix : Nat} {w : List Byte} {ds : List Nat} (h : Grouped radix w ds) :
    ∃ b d w', w = b :: w' ∧ IsDigit b d ∧ d < radix := by
  cases h with
  | last h hd => exact ⟨_, _, _, rfl, h, hd⟩
  | digit h hd _ => exact ⟨_, _, _, rfl, h, hd⟩
  | underscore h hd _ => exact ⟨_, _, _, rfl, h, hd⟩

theorem negate_neg {n len : Nat} (h : n < 2 ^ 127) : (Parsed.ok (-(n : Int)) len).negate = .ok n len := by
  have : fits128 (n : Int) = true := by
    unfold fits128
    rw [Bool.and_eq_true, decide_eq_true_eq, decide_eq_true_eq]; omega
  simp only [Parsed.negate, Int.neg_neg, this, if_true]

theorem parseInteger_grouped {radix : Nat} (hr : 0 < radix) {w : List Byte} {ds : List Nat}
    (h : Grouped radix w ds) (hn : number radix ds < 2 ^ 127) :
    parseInteger radix false w = .ok (number radix ds) w.length := by
  obtain ⟨b, d, w', rfl, hb, -⟩ := grouped_first h
  obtain ⟨h1, h2, -⟩ := digit_sign hb
  have := parseDigits_grouped hr h 0 0 (Nat.le_of_lt hn)
  simp only [parseInteger, h1, h2, if_false]
  refine (congrArg Parsed.negate this).trans ?_
  rw [Nat.zero_add]; exact negate_neg hn

/-! ### Escapes -/

theorem hexCode_digits {w : List Byte} {ds : List Nat} (h : Digits w ds) (hne : w ≠ [])
    (hn : number 16 ds < 256) (c : Byte) (hc : digitValue c = none) (rest : List Byte) :
    hexCode (parseInteger 16 true (w ++ c :: rest)) = .value (Fin.ofNat 256 (number 16 ds), w.length) := by
  have e : parseInteger 16 true (w ++ c :: rest) = .ok (number 16 ds) w.length := by
    cases h with
    | nil => exact absurd rfl hne
    | @cons b d w ds hb hw =>
      obtain ⟨h1, h2, -⟩ := digit_sign hb
      have hle : number 16 (d :: ds) ≤ 2 ^ 127 := by omega
      have := parseDigits_stop (radix := 16) (by omega) (Digits.cons hb hw) c hc rest 0 0 hle
      rw [List.cons_append] at this ⊢
      simp only [parseInteger, h1, h2, if_false]
      refine (congrArg Parsed.negate this).trans ?_
      rw [Nat.zero_add]; exact negate_neg (Nat.lt_of_lt_of_le hn (by decide))
  rw [e]
  show (if (number 16 ds : Int) > 255 then Value.warning else _) = _
  rw [if_neg (by omega)]; rfl

theorem escapeCharacter_escapes {c : Char} {n : Nat} (h : (c, n) ∈ escapes) :
    escapeCharacter (code c) = some (Fin.ofNat 256 n) ∧ code c ≠ code '<' := by
  have : escapes.all (fun x => escapeCharacter (code x.1) == some (Fin.ofNat 256 x.2) && code x.1 != code '<') = true := by
    decide +kernel
  have := List.all_eq_true.1 this _ h
  simpa using this

/-- `processEscapes` of an item and more. -/
theorem processEscapes_item {i : Item} {b : Byte} (h : Means i b) (hp : ∀ c, i = .plain c → c ≠ code '\\')
    (fuel : Nat) (rest r : List Byte) (hr : processEscapes fuel rest = .value r) :
    processEscapes (fuel + 1) (i.text ++ rest) = .value (b :: r) := by
  cases h with
  | plain b =>
    simp only [Item.text, List.cons_append, List.nil_append, processEscapes, hp b rfl, if_false, hr]
  | @escape c n h =>
    obtain ⟨h1, h2⟩ := escapeCharacter_escapes h
    simp only [Item.text, List.cons_append, List.nil_append, processEscapes, h2, if_true, if_false, h1, hr]
  | @hex w ds h hne hn =>
    have e := hexCode_digits h hne hn (code '>') (by decide) rest
    simp only [Item.text, List.cons_append, List.append_assoc, List.nil_append, processEscapes, if_true, e]
    rw [if_pos (by simp), show w ++ code '>' :: rest = (w ++ [code '>']) ++ rest from by simp,
      show w.length + 1 = (w ++ [code '>']).length from by simp, List.drop_left, hr]

theorem Spells.processEscapes {ok : Byte → Prop} (hok : ∀ c, ok c → c ≠ code '\\') {is : List Item}
    {bs : List Byte} (h : Spells ok is bs) (fuel : Nat) (hf : is.length ≤ fuel) :
    Verif.Reader.processEscapes fuel (textOf is) = .value bs := by
  induction h generalizing fuel with
  | nil => cases fuel <;> rfl
  | @cons i b is bs h hp hs ih =>
    cases fuel with
    | zero => simp at hf
    | succ fuel =>
      exact processEscapes_item h (fun c hc => hok c (hp c hc)) fuel (textOf is) bs
        (ih fuel (by simpa using hf))

theorem textOf_length (is : List Item) : is.length ≤ (textOf is).length := by
  induction is with
  | nil => exact Nat.le_refl _
  | cons i is ih =>
    have h1 : 1 ≤ i.text.length := by cases i <;> simp [Item.text]
    have h2 : textOf (i :: is) = i.text ++ textOf is := rfl
    rw [h2, List.length_append, List.length_cons]; omega

end Verif.Reader
