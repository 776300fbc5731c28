import Verif.Format.Lemmas

namespace Verif.Format
open Verif.IntString

theorem digitClass_iff (c : Char) :
    digitClass c = true ↔ ('0'.toNat ≤ c.toNat ∧ c.toNat ≤ '9'.toNat) ∨ c = '-' := by
  simp only [digitClass, decide_eq_true_eq]

theorem fieldLoop_digits (c : Char) (cs : List Char) (hc : digitClass c = false) :
    ∀ (ds : List Char) (r : Nat), (∀ d ∈ ds, '0'.toNat ≤ d.toNat ∧ d.toNat ≤ '9'.toNat) →
      r * 10 ^ ds.length + numeral 10 (ds.map (fun d => d.toNat - '0'.toNat)) < 2 ^ 61 →
      fieldLoop (ds ++ c :: cs) r =
        some (((r * 10 ^ ds.length + numeral 10 (ds.map (fun d => d.toNat - '0'.toNat)) : Nat) : Int), c :: cs)
  | [], r, _, _ => by
    simp only [List.nil_append, fieldLoop]
    rw [if_neg (by simp [hc])]
    simp [numeral]
  | d :: ds, r, hd, hl => by
    have hd0 := hd d (by simp)
    have hdc : digitClass d = true := (digitClass_iff d).2 (.inl hd0)
    simp only [List.cons_append, fieldLoop]
    rw [if_pos hdc]
    have hp : 1 ≤ 10 ^ ds.length := Nat.one_le_pow _ _ (by omega)
    have e0 : (r * 10 + (d.toNat - '0'.toNat)) * 10 ^ ds.length
        = r * 10 ^ (ds.length + 1) + (d.toNat - '0'.toNat) * 10 ^ ds.length := by
      rw [Nat.add_mul, Nat.pow_succ]
      ring
    have ev : (r * 10 + (d.toNat - '0'.toNat)) * 10 ^ ds.length +
        numeral 10 (ds.map (fun d => d.toNat - '0'.toNat)) =
        r * 10 ^ (d :: ds).length + numeral 10 ((d :: ds).map (fun d => d.toNat - '0'.toNat)) := by
      simp only [List.map_cons, numeral, List.length_cons, List.length_map]
      omega
    have hsmall : r * 10 + (d.toNat - '0'.toNat) < 2 ^ 61 := by
      have : (r * 10 + (d.toNat - '0'.toNat)) * 1 ≤ (r * 10 + (d.toNat - '0'.toNat)) * 10 ^ ds.length :=
        Nat.mul_le_mul_left _ hp
      omega
    have ed : ((d.toNat : Int) - ('0'.toNat : Int)) = ((d.toNat - '0'.toNat : Nat) : Int) := by
      omega
    have h1 : fits ((r : Int) * 10) = true := by rw [fits_iff]; omega
    have h2 : fits ((r : Int) * 10 + ((d.toNat : Int) - ('0'.toNat : Int))) = true := by
      rw [fits_iff, ed]; omega
    rw [h1, h2]
    simp only [Bool.and_self, ↓reduceIte]
    have e2 : (r : Int) * 10 + ((d.toNat : Int) - ('0'.toNat : Int)) =
        ((r * 10 + (d.toNat - '0'.toNat) : Nat) : Int) := by
      rw [ed]; push_cast; rfl
    rw [e2, fieldLoop_digits c cs hc ds _ (fun x hx => hd x (by simp [hx])) (by omega), ev]

/-- The field as a number. -/
def Field.value (f : Field) : Int := if f.left then -(f.width : Int) else f.width

theorem parseField_field (f : Field) (hf : f.Ok) (c : Char) (cs : List Char) (hc : digitClass c = false) :
    parseField (f.write ++ c :: cs) = some (some f.value, c :: cs) := by
  have hloop := fieldLoop_digits c cs hc f.digits 0 hf.digits (by
    have := hf.small
    simp only [Field.width] at this
    omega)
  rw [Nat.zero_mul, Nat.zero_add] at hloop
  change _ = some ((f.width : Int), c :: cs) at hloop
  have hw : (f.width : Int) ≠ 0 := by
    have := hf.positive
    omega
  unfold parseField
  unfold Field.write
  cases hl : f.left with
  | true =>
    simp only [↓reduceIte, List.cons_append, List.nil_append]
    rw [if_pos (by show digitClass '-' = true; decide)]
    unfold parseInteger
    simp only [List.head?_cons, ↓reduceIte, List.tail_cons]
    rw [show ((0 : Nat) : Int) = 0 from rfl] at hloop
    rw [hloop]
    simp only [hw, ↓reduceIte, Field.value, hl]
  | false =>
    simp only [Bool.false_eq_true, ↓reduceIte, List.nil_append]
    cases hd : f.digits with
    | nil =>
      have := hf.positive
      simp [Field.width, hd, numeral] at this
    | cons d ds =>
      have hd0 := hf.digits d (by simp [hd])
      rw [List.cons_append]
      have hst : startsField (d :: (ds ++ c :: cs)) = true := (digitClass_iff d).2 (.inl hd0)
      rw [if_pos hst]
      unfold parseInteger
      have hm : d ≠ '-' := by
        rintro rfl
        revert hd0
        decide
      simp only [List.head?_cons, Option.some.injEq, hm, ↓reduceIte]
      rw [hd, List.cons_append] at hloop
      rw [show ((0 : Nat) : Int) = 0 from rfl] at hloop
      rw [hloop]
      simp only [hw, ↓reduceIte, Field.value, hl, Bool.false_eq_true]

theorem pad_justify (f : Field) (hf : f.Ok) (t : List Char) : pad f.value t = justify (some f) t := by
  have := hf.positive
  unfold pad justify Field.value
  cases hl : f.left with
  | true =>
    simp only [↓reduceIte, Int.natAbs_neg, Int.natAbs_natCast]
    split
    · rw [show f.width - t.length = 0 by omega]
      simp
    · rw [if_neg (by omega), show ((f.width : Int) - t.length).toNat = f.width - t.length by omega]
  | false =>
    simp only [Bool.false_eq_true, ↓reduceIte, Int.natAbs_natCast]
    split
    · rw [show f.width - t.length = 0 by omega]
      simp
    · rw [if_pos (by omega), show ((f.width : Int) - t.length).toNat = f.width - t.length by omega]
      simp [hl]

theorem formatInteger_int (p : Printer) (n : Int) (hn : fits n = true) (radix : Nat) (h2 : 2 ≤ radix)
    (h36 : radix ≤ 36) (l : Bool) (t : List Char) (ht : Numeral radix l n t) :
    formatInteger p (.int n) radix l = .ok t := by
  obtain ⟨t', h1, h3⟩ := formatInt_numeral n hn radix h2 h36 l
  simp only [formatInteger, h1, Numeral.unique h2 ht h3]

theorem dispatch_shows (p : Printer) (c : Char) (a : Arg) (t : List Char) (h : Shows p c a t)
    (hn : ∀ n, a = .int n → fits n = true) :
    doDispatch p c a = .ok (t, true) ∧ digitClass c = false ∧ c ≠ '%' := by
  have mem4 : ∀ {c x y z w : Char}, c ∈ [x, y, z, w] → c = x ∨ c = y ∨ c = z ∨ c = w := by simp
  have mem2 : ∀ {c x y : Char}, c ∈ [x, y] → c = x ∨ c = y := by simp
  cases h with
  | string c s hc =>
    rcases mem4 hc with rfl | rfl | rfl | rfl <;> exact ⟨rfl, by decide, by decide⟩
  | char c x hc =>
    rcases mem4 hc with rfl | rfl | rfl | rfl <;> exact ⟨rfl, by decide, by decide⟩
  | symbol c s hc =>
    rcases mem4 hc with rfl | rfl | rfl | rfl <;> exact ⟨rfl, by decide, by decide⟩
  | plain c a hc h1 h2 h3 =>
    have hm : printMessage p a = p.plain a := by
      cases a with
      | string s => exact absurd rfl (h1 s)
      | char x => exact absurd rfl (h2 x)
      | symbol s => exact absurd rfl (h3 s)
      | _ => rfl
    rcases mem4 hc with rfl | rfl | rfl | rfl <;>
      exact ⟨by simp [doDispatch, hm], by decide, by decide⟩
  | object a => exact ⟨by simp [doDispatch], by decide, by decide⟩
  | decimal c n t hc ht =>
    have := formatInteger_int p n (hn n rfl) 10 (by omega) (by omega) _ t ht
    rcases mem2 hc with rfl | rfl <;>
      exact ⟨by simp [doDispatch]; erw [this]; rfl, by decide, by decide⟩
  | binary c n t hc ht =>
    have := formatInteger_int p n (hn n rfl) 2 (by omega) (by omega) _ t ht
    rcases mem2 hc with rfl | rfl <;>
      exact ⟨by simp [doDispatch]; erw [this]; rfl, by decide, by decide⟩
  | octal c n t hc ht =>
    have := formatInteger_int p n (hn n rfl) 8 (by omega) (by omega) _ t ht
    rcases mem2 hc with rfl | rfl <;>
      exact ⟨by simp [doDispatch]; erw [this]; rfl, by decide, by decide⟩
  | hexLower n t ht =>
    have := formatInteger_int p n (hn n rfl) 16 (by omega) (by omega) _ t ht
    exact ⟨by simp [doDispatch]; erw [this]; rfl, by decide, by decide⟩
  | hexUpper n t ht =>
    have := formatInteger_int p n (hn n rfl) 16 (by omega) (by omega) _ t ht
    exact ⟨by simp [doDispatch]; erw [this]; rfl, by decide, by decide⟩
  | float c i hc =>
    rcases mem2 hc with rfl | rfl <;>
      exact ⟨by simp [doDispatch, formatInteger, Except.map], by decide, by decide⟩
  | big c i hc =>
    rcases mem2 hc with rfl | rfl <;>
      exact ⟨by simp [doDispatch, formatInteger, Except.map], by decide, by decide⟩
  | call c s hc =>
    rcases mem2 hc with rfl | rfl <;>
      exact ⟨by simp [doDispatch, callArg, Except.map], by decide, by decide⟩

theorem directive_piece (p : Printer) (f : Option Field) (c : Char) (hf : Piece.Ok (.directive f c))
    (hc : digitClass c = false) (cs : List Char) (args : List Arg) :
    format p (Piece.write (.directive f c) ++ cs) args =
      match doDispatch p c (argument args) with
      | .error e => ⟨[], some e⟩
      | .ok (o, used) => (format p cs (if used then args.tail else args)).after (justify f o) := by
  cases f with
  | none =>
    show format p ('%' :: c :: cs) args = _
    rw [format_directive]
    have hpf : parseField (c :: cs) = some (none, c :: cs) := by
      simp [parseField, startsField, hc]
    simp only [directive, hpf]
    cases doDispatch p c (argument args) with
    | error e => rfl
    | ok o => rfl
  | some f =>
    have hw : Piece.write (.directive (some f) c) ++ cs = '%' :: (f.write ++ c :: cs) := by
      simp [Piece.write]
    rw [hw, format_directive]
    have hpf := parseField_field f hf c cs hc
    have hne : ∃ d ds, f.write ++ c :: cs = d :: ds := by
      cases h : f.write ++ c :: cs with
      | nil => simp at h
      | cons d ds => exact ⟨d, ds, rfl⟩
    obtain ⟨d, ds, hds⟩ := hne
    rw [hds] at hpf ⊢
    simp only [directive, hpf]
    cases doDispatch p c (argument args) with
    | error e => rfl
    | ok o =>
      simp only [Except.map, pad_justify f hf]

/-- What the pieces at the beginning of a control string say is written first. -/
theorem format_prefix (p : Printer) (ps : List Piece) (args : List Arg) (out : List Char) (left : List Arg)
    (h : Says p ps args out left) (hok : ∀ q ∈ ps, q.Ok) (hfit : Fit args) (cs : List Char) :
    format p (write ps ++ cs) args = (format p cs left).after out := by
  induction h with
  | done args => simp [write, Res.after]
  | text c ps args out left _ ih =>
    have hc := hok (.text c) (by simp)
    show format p (c :: (write ps ++ cs)) args = _
    rw [format_text p c _ args hc, ih (fun q hq => hok q (by simp [hq])) hfit]
    simp [Res.after]
  | percent f ps args out left _ ih =>
    have e : write (.directive f '%' :: ps) ++ cs = Piece.write (.directive f '%') ++ (write ps ++ cs) := by
      simp [write]
    rw [e, directive_piece p f '%' (hok _ (by simp)) (by decide)]
    have : doDispatch p '%' (argument args) = .ok (['%'], false) := by simp [doDispatch]
    simp only [this]
    simp only [Bool.false_eq_true, ↓reduceIte]
    rw [ih (fun q hq => hok q (by simp [hq])) hfit]
    simp [Res.after]
  | directive f c a t ps args out left hs _ ih =>
    obtain ⟨hd, hc, _⟩ := dispatch_shows p c a t hs
      (fun n hn => hfit n (by simp [hn]))
    have e : write (.directive f c :: ps) ++ cs = Piece.write (.directive f c) ++ (write ps ++ cs) := by
      simp [write]
    rw [e, directive_piece p f c (hok _ (by simp)) hc]
    simp only [argument, List.head?_cons, Option.getD_some, hd, ↓reduceIte, List.tail_cons]
    rw [ih (fun q hq => hok q (by simp [hq])) (fun n hn => hfit n (by simp [hn]))]
    simp [Res.after]

/-- **C127** `format` writes the text of the control string and, for each directive, what it shows of the
    next argument, in its field. -/
theorem format_says (p : Printer) (ps : List Piece) (args : List Arg) (out : List Char) (left : List Arg)
    (h : Says p ps args out left) (hok : ∀ q ∈ ps, q.Ok) (hfit : Fit args) :
    format p (write ps) args = ⟨out, none⟩ := by
  have := format_prefix p ps args out left h hok hfit []
  rw [List.append_nil] at this
  rw [this, format_nil]
  simp [Res.after]

/-- `"%5d|%-4x%%"` with 42 and 255. -/
example (p : Printer) : ∃ ps : List Piece, (∀ q ∈ ps, q.Ok) ∧ Fit [.int 42, .int 255] ∧
    Says p ps [.int 42, .int 255] "   42|ff  %".toList [] ∧ write ps = "%5d|%-4x%%".toList := by
  refine ⟨[.directive (some ⟨false, ['5']⟩) 'd', .text '|', .directive (some ⟨true, ['4']⟩) 'x',
    .directive none '%'], ?_, ?_, ?_, by decide⟩
  · intro q hq
    simp only [List.mem_cons, List.not_mem_nil, or_false] at hq
    rcases hq with rfl | rfl | rfl | rfl
    · exact ⟨by decide, by decide, by decide⟩
    · exact (by decide : '|' ≠ '%')
    · exact ⟨by decide, by decide, by decide⟩
    · trivial
  · intro n hn
    simp only [List.mem_cons, Arg.int.injEq, List.not_mem_nil, or_false] at hn
    rcases hn with rfl | rfl <;> decide
  · have h1 : Shows p 'd' (.int 42) ['4', '2'] :=
      .decimal _ _ _ (by simp) ⟨[4, 2], by decide, by decide, .inr ⟨4, [2], rfl, by decide⟩, by decide⟩
    have h2 : Shows p 'x' (.int 255) ['f', 'f'] :=
      .hexLower _ _ ⟨[15, 15], by decide, by decide, .inr ⟨15, [15], rfl, by decide⟩, by decide⟩
    exact .directive (some ⟨false, ['5']⟩) 'd' (.int 42) ['4', '2'] _ _ _ _ h1
      (.text '|' _ _ _ _ (.directive (some ⟨true, ['4']⟩) 'x' (.int 255) ['f', 'f'] _ _ _ _ h2
        (.percent none _ _ _ _ (.done _))))

/-- Characters that are no directives. -/
def Unknown (c : Char) : Prop :=
  digitClass c = false ∧ c ∉ ['s', 'S', 'c', 'C', '=', 'd', 'D', 'b', 'B', 'o', 'O', 'x', 'X', 'm', 'M', '%']

/-- Arguments that a directive refuses. -/
inductive Refuses : Char → Arg → Prop where
  | integer (c a) : c ∈ ['b', 'B', 'o', 'O', 'x', 'X'] → (∀ n, a ≠ .int n) → (∀ i, a ≠ .big i) → Refuses c a
  | decimal (c a) : c ∈ ['d', 'D'] → (∀ n, a ≠ .int n) → (∀ i, a ≠ .big i) → (∀ i, a ≠ .float i) → Refuses c a
  | call (c a) : c ∈ ['m', 'M'] → (∀ s, a ≠ .func s) → Refuses c a

/-- **C127** A character that is no directive, a percent sign at the end, and an argument that the directive
    cannot show are errors; what comes before has been written. -/
theorem format_errors (p : Printer) (ps : List Piece) (args : List Arg) (out : List Char) (left : List Arg)
    (h : Says p ps args out left) (hok : ∀ q ∈ ps, q.Ok) (hfit : Fit args) (cs : List Char) :
    format p (write ps ++ ['%']) args = ⟨out, some .range⟩ ∧
    (∀ f c, Piece.Ok (.directive f c) → Unknown c →
      format p (write ps ++ (Piece.write (.directive f c) ++ cs)) args = ⟨out, some (.unknown c)⟩) ∧
    (∀ f c, Piece.Ok (.directive f c) → Refuses c (left.head?.getD .false) →
      format p (write ps ++ (Piece.write (.directive f c) ++ cs)) args = ⟨out, some .argument⟩) := by
  refine ⟨?_, ?_, ?_⟩
  · rw [format_prefix p ps args out left h hok hfit, format_directive]
    simp [directive, Res.after]
  · intro f c hf hc
    rw [format_prefix p ps args out left h hok hfit, directive_piece p f c hf hc.1]
    have hd : doDispatch p c (argument left) = .error (.unknown c) := by
      have := hc.2
      simp only [List.mem_cons, List.not_mem_nil, or_false, not_or] at this
      obtain ⟨a1, a2, a3, a4, a5, a6, a7, a8, a9, a10, a11, a12, a13, a14, a15, a16⟩ := this
      simp only [doDispatch, a1, a2, a3, a4, a5, a6, a7, a8, a9, a10, a11, a12, a13, a14, a15, a16, or_self,
        ↓reduceIte]
    rw [hd]
    simp [Res.after]
  · intro f c hf hr
    have key : digitClass c = false ∧ doDispatch p c (argument left) = .error .argument := by
      unfold argument
      generalize left.head?.getD .false = a at hr
      cases hr with
      | integer hc h1 h2 =>
        have hfi : ∀ r l, r ≠ 10 → formatInteger p a r l = .error .argument := by
          intro r l hr
          cases a with
          | int n => exact absurd rfl (h1 n)
          | big i => exact absurd rfl (h2 i)
          | float i => simp [formatInteger, hr]
          | _ => rfl
        simp only [List.mem_cons, List.not_mem_nil, or_false] at hc
        rcases hc with rfl | rfl | rfl | rfl | rfl | rfl <;>
          exact ⟨by decide, by simp [doDispatch, hfi, Except.map]⟩
      | decimal hc h1 h2 h3 =>
        have hfi : ∀ r l, formatInteger p a r l = .error .argument := by
          intro r l
          cases a with
          | int n => exact absurd rfl (h1 n)
          | big i => exact absurd rfl (h2 i)
          | float i => exact absurd rfl (h3 i)
          | _ => rfl
        simp only [List.mem_cons, List.not_mem_nil, or_false] at hc
        rcases hc with rfl | rfl <;> exact ⟨by decide, by simp [doDispatch, hfi, Except.map]⟩
      | call hc h1 =>
        have hfi : callArg a = .error .argument := by
          cases a with
          | func s => exact absurd rfl (h1 s)
          | _ => rfl
        simp only [List.mem_cons, List.not_mem_nil, or_false] at hc
        rcases hc with rfl | rfl <;> exact ⟨by decide, by simp [doDispatch, hfi, Except.map]⟩
    rw [format_prefix p ps args out left h hok hfit, directive_piece p f c hf key.1, key.2]
    simp [Res.after]

example : Unknown 'q' ∧ Refuses 'x' (.string ['a']) ∧ Refuses 'd' .false ∧ Refuses 'b' (.float 0) :=
  ⟨by refine ⟨by decide, by decide⟩,
   .integer _ _ (by simp) (by simp) (by simp), .decimal _ _ (by simp) (by simp) (by simp) (by simp),
   .integer _ _ (by simp) (by simp) (by simp)⟩

/-- **C127 violated** A missing argument counts as `#f`, and is printed. -/
theorem missing_argument_violated (p : Printer) :
    format p "%=".toList [] = ⟨p.object .false, none⟩ := by
  show format p ('%' :: ['=']) [] = _
  rw [format_directive]
  simp [directive, parseField, startsField, digitClass, doDispatch, argument, format_nil, Except.map, Res.after]

/-- **C127 violated** A minus sign in the middle of a field counts as minus three: `%5-1s` asks for a field of 471
    characters. -/
theorem minus_in_field_violated (p : Printer) :
    (format p "%5-1s".toList [.string ['a']]).out.length = 471 ∧
      (format p "%5-1s".toList [.string ['a']]).err = none := by
  show (format p ('%' :: ['5', '-', '1', 's']) _).out.length = 471 ∧ _
  have : format p ('%' :: ['5', '-', '1', 's']) [.string ['a']] = ⟨List.replicate 470 ' ' ++ ['a'], none⟩ := by
    rw [format_directive]
    have h1 : parseField ['5', '-', '1', 's'] = some (some 471, ['s']) := by decide +kernel
    simp only [directive, h1]
    have h2 : doDispatch p 's' (argument [.string ['a']]) = .ok (['a'], true) := by simp [doDispatch, argument, printMessage]
    rw [h2]
    simp only [Except.map, List.tail_cons, ↓reduceIte, format_nil, Res.after, List.append_nil]
    rfl
  rw [this]
  exact ⟨by rw [List.length_append, List.length_replicate]; rfl, rfl⟩

/-- **C127 violated** A field of no characters is an error. -/
theorem zero_field_violated (p : Printer) :
    format p "%0d".toList [.int 7] = ⟨[], some (.unknown '0')⟩ := by
  show format p ('%' :: ['0', 'd']) [.int 7] = _
  rw [format_directive]
  have h1 : parseField ['0', 'd'] = some (none, ['0', 'd']) := by decide +kernel
  simp only [directive, h1]
  simp [doDispatch, Except.map]

/-- **C127 violated** The radix of a directive is ignored for integers that are not `<integer>`s. -/
theorem big_radix_violated (p : Printer) (i : Nat) :
    format p "%x".toList [.big i] = ⟨p.object (.big i), none⟩ := by
  show format p ('%' :: ['x']) [.big i] = _
  rw [format_directive]
  simp [directive, parseField, startsField, digitClass, doDispatch, argument, format_nil, formatInteger, Except.map, Res.after]

/-! ### no other control strings -/

/-- No minus sign right behind a digit or another minus sign. -/
def Tidy (cs : List Char) : Prop :=
  ∀ before d after, cs = before ++ d :: '-' :: after → digitClass d = false

theorem Tidy.drop {a b : List Char} (h : Tidy (a ++ b)) : Tidy b := by
  intro x d y e
  exact h (a ++ x) d y (by rw [e]; simp)

theorem fieldLoop_inv : ∀ (cs : List Char) (r : Nat) (v : Int) (rest : List Char), Tidy cs →
    (∀ c r', cs = c :: r' → c ≠ '-') → fieldLoop cs r = some (v, rest) →
    ∃ ds, cs = ds ++ rest ∧ (∀ d ∈ ds, '0'.toNat ≤ d.toNat ∧ d.toNat ≤ '9'.toNat) ∧
      v = ((r * 10 ^ ds.length + numeral 10 (ds.map (fun d => d.toNat - '0'.toNat)) : Nat) : Int) ∧
      (v < 2 ^ 61 ∨ ds = []) ∧ (∀ c r', rest = c :: r' → digitClass c = false)
  | [], r, v, rest, _, _, h => by
    simp only [fieldLoop, Option.some.injEq, Prod.mk.injEq] at h
    obtain ⟨rfl, rfl⟩ := h
    exact ⟨[], rfl, by simp, by simp [numeral], .inr rfl, by simp⟩
  | c :: cs, r, v, rest, ht, hm, h => by
    unfold fieldLoop at h
    by_cases hc : digitClass c = true
    · rw [if_pos hc] at h
      have hd : '0'.toNat ≤ c.toNat ∧ c.toNat ≤ '9'.toNat := by
        rcases (digitClass_iff c).1 hc with h | h
        · exact h
        · exact absurd h (hm c cs rfl)
      dsimp only at h
      have e2 : (r : Int) * 10 + ((c.toNat : Int) - ('0'.toNat : Int)) =
          ((r * 10 + (c.toNat - '0'.toNat) : Nat) : Int) := by
        have : ((c.toNat : Int) - ('0'.toNat : Int)) = ((c.toNat - '0'.toNat : Nat) : Int) := by omega
        rw [this]; push_cast; rfl
      rw [e2] at h
      split at h
      · rename_i hf
        obtain ⟨ds, h1, h2, h3, h4, h5⟩ := fieldLoop_inv cs _ v rest
          (Tidy.drop (a := [c]) ht) (by
            rintro x r' rfl rfl
            have := ht [] c r' rfl
            rw [this] at hc
            cases hc) h
        refine ⟨c :: ds, by rw [h1]; rfl, ?_, ?_, .inl ?_, h5⟩
        · intro d hd'
          rcases List.mem_cons.1 hd' with rfl | hd'
          · exact hd
          · exact h2 d hd'
        · rw [h3]
          have e0 : (r * 10 + (c.toNat - '0'.toNat)) * 10 ^ ds.length
              = r * 10 ^ (ds.length + 1) + (c.toNat - '0'.toNat) * 10 ^ ds.length := by
            rw [Nat.add_mul, Nat.pow_succ]
            ring
          have e1 : (r * 10 + (c.toNat - '0'.toNat)) * 10 ^ ds.length +
              numeral 10 (ds.map (fun d => d.toNat - '0'.toNat)) =
              r * 10 ^ (c :: ds).length + numeral 10 ((c :: ds).map (fun d => d.toNat - '0'.toNat)) := by
            simp only [List.map_cons, numeral, List.length_cons, List.length_map]
            omega
          rw [e1]
        · rcases h4 with h4 | rfl
          · exact h4
          · rw [h3]
            simp only [Bool.and_eq_true] at hf
            have := (fits_iff _).1 hf.2
            simp [numeral]
            push_cast at this ⊢
            omega
      · cases h
    · rw [if_neg hc] at h
      simp only [Option.some.injEq, Prod.mk.injEq] at h
      obtain ⟨rfl, rfl⟩ := h
      refine ⟨[], rfl, by simp, by simp [numeral], .inr rfl, ?_⟩
      rintro x r' h
      cases h
      simpa using hc

theorem dispatch_inv (p : Printer) (c : Char) (a : Arg) (o : List Char × Bool) (h : doDispatch p c a = .ok o)
    (hn : ∀ n, a = .int n → fits n = true) (hb : ∀ i, a ≠ .big i) :
    (c = '%' ∧ o = (['%'], false)) ∨ (o.2 = true ∧ Shows p c a o.1) := by
  have hint : ∀ (radix : Nat) (l : Bool), 2 ≤ radix → radix ≤ 36 →
      (formatInteger p a (radix : Int) l).map (·, true) = .ok o →
      o.2 = true ∧ ((∃ n, a = .int n ∧ Numeral radix l n o.1) ∨
        (radix = 10 ∧ ∃ i, a = .float i ∧ o.1 = p.object (.float i))) := by
    intro radix l h2 h36 h
    cases a with
    | int n =>
      obtain ⟨t, ht, ht'⟩ := formatInt_numeral n (hn n rfl) radix h2 h36 l
      simp only [formatInteger, ht, Except.map, Except.ok.injEq] at h
      subst h
      exact ⟨rfl, .inl ⟨n, rfl, ht'⟩⟩
    | big i => exact absurd rfl (hb i)
    | float i =>
      simp only [formatInteger] at h
      split at h
      · rename_i hr
        simp only [Except.map, Except.ok.injEq] at h
        subst h
        exact ⟨rfl, .inr ⟨by exact_mod_cast hr, i, rfl, rfl⟩⟩
      · cases h
    | _ => cases h
  unfold doDispatch at h
  split at h
  · rename_i hc
    cases h
    have hc' : c ∈ ['s', 'S', 'c', 'C'] := by simpa using hc
    refine .inr ⟨rfl, ?_⟩
    cases a with
    | string s => exact .string c s hc'
    | char x => exact .char c x hc'
    | symbol s => exact .symbol c s hc'
    | _ => exact .plain c _ hc' (by simp) (by simp) (by simp)
  split at h
  · rename_i hc
    cases h
    subst hc
    exact .inr ⟨rfl, .object a⟩
  split at h
  · rename_i hc
    obtain ⟨h1, ⟨n, rfl, h2⟩ | ⟨_, i, rfl, h2⟩⟩ := hint 10 _ (by omega) (by omega) h
    · exact .inr ⟨h1, .decimal c n _ (by simpa using hc) h2⟩
    · exact .inr ⟨h1, h2 ▸ .float c i (by simpa using hc)⟩
  split at h
  · rename_i hc
    obtain ⟨h1, ⟨n, rfl, h2⟩ | ⟨h3, _⟩⟩ := hint 2 _ (by omega) (by omega) h
    · exact .inr ⟨h1, .binary c n _ (by simpa using hc) h2⟩
    · omega
  split at h
  · rename_i hc
    obtain ⟨h1, ⟨n, rfl, h2⟩ | ⟨h3, _⟩⟩ := hint 8 _ (by omega) (by omega) h
    · exact .inr ⟨h1, .octal c n _ (by simpa using hc) h2⟩
    · omega
  split at h
  · rename_i hc
    subst hc
    obtain ⟨h1, ⟨n, rfl, h2⟩ | ⟨h3, _⟩⟩ := hint 16 _ (by omega) (by omega) h
    · exact .inr ⟨h1, .hexLower n _ h2⟩
    · omega
  split at h
  · rename_i hc
    subst hc
    obtain ⟨h1, ⟨n, rfl, h2⟩ | ⟨h3, _⟩⟩ := hint 16 _ (by omega) (by omega) h
    · exact .inr ⟨h1, .hexUpper n _ h2⟩
    · omega
  split at h
  · rename_i hc
    cases a with
    | func s =>
      simp only [callArg, Except.map, Except.ok.injEq] at h
      subst h
      exact .inr ⟨rfl, .call c s (by simpa using hc)⟩
    | _ => cases h
  split at h
  · rename_i hc
    cases h
    exact .inl ⟨hc, rfl⟩
  · cases h

theorem dispatch_digit (p : Printer) (c : Char) (a : Arg) (o : List Char × Bool) (h : doDispatch p c a = .ok o) :
    digitClass c = false := by
  cases hc : digitClass c with
  | false => rfl
  | true =>
    exfalso
    have key : ∀ x ∈ ['s', 'S', 'c', 'C', '=', 'd', 'D', 'b', 'B', 'o', 'O', 'x', 'X', 'm', 'M', '%'],
        digitClass x = false := by decide
    have hne : ∀ x ∈ ['s', 'S', 'c', 'C', '=', 'd', 'D', 'b', 'B', 'o', 'O', 'x', 'X', 'm', 'M', '%'], c ≠ x := by
      rintro x hx rfl
      rw [key c hx] at hc
      cases hc
    simp only [List.mem_cons, List.not_mem_nil, or_false, forall_eq_or_imp, forall_eq] at hne
    obtain ⟨a1, a2, a3, a4, a5, a6, a7, a8, a9, a10, a11, a12, a13, a14, a15, a16⟩ := hne
    simp only [doDispatch, a1, a2, a3, a4, a5, a6, a7, a8, a9, a10, a11, a12, a13, a14, a15, a16, or_self,
      ↓reduceIte] at h
    cases h

theorem parseField_inv (cs : List Char) (v : Int) (rest : List Char) (ht : Tidy cs)
    (h : parseField cs = some (some v, rest)) :
    ∃ f : Field, f.Ok ∧ v = f.value ∧ cs = f.write ++ rest := by
  unfold parseField at h
  split at h
  swap
  · cases h
  rename_i hst
  unfold parseInteger at h
  dsimp only at h
  have build : ∀ (left : Bool) (ds : List Char) (w : Int), w ≠ 0 →
      (∀ d ∈ ds, '0'.toNat ≤ d.toNat ∧ d.toNat ≤ '9'.toNat) →
      w = ((0 * 10 ^ ds.length + numeral 10 (ds.map (fun d => d.toNat - '0'.toNat)) : Nat) : Int) →
      (w < 2 ^ 61 ∨ ds = []) → (Field.mk left ds).Ok ∧ ((Field.mk left ds).width : Int) = w := by
    intro left ds w hw h1 h2 h3
    rw [Nat.zero_mul, Nat.zero_add] at h2
    have e : ((Field.mk left ds).width : Int) = w := h2.symm
    refine ⟨⟨h1, by omega, ?_⟩, e⟩
    rcases h3 with h3 | rfl
    · omega
    · simp [numeral] at h2
      omega
  by_cases hm : cs.head? = some '-'
  · simp only [hm, ↓reduceIte] at h
    split at h
    · cases h
    · rename_i r rest' hl
      split at h
      · cases h
      · rename_i hr
        simp only [Option.some.injEq, Prod.mk.injEq] at h
        obtain ⟨rfl, rfl⟩ := h
        cases cs with
        | nil => cases hm
        | cons c cs =>
          simp only [List.head?_cons, Option.some.injEq] at hm
          subst hm
          simp only [List.tail_cons] at hl
          obtain ⟨ds, h1, h2, h3, h4, _⟩ := fieldLoop_inv cs 0 r rest' (Tidy.drop (a := ['-']) ht) (by
            rintro x r' rfl rfl
            have := ht [] '-' r' rfl
            revert this
            decide) hl
          obtain ⟨b1, b2⟩ := build true ds r hr h2 h3 h4
          refine ⟨⟨true, ds⟩, b1, ?_, ?_⟩
          · simp [Field.value, b2]
          · simp [Field.write, h1]
  · simp only [hm, ↓reduceIte] at h
    split at h
    · cases h
    · rename_i r rest' hl
      split at h
      · cases h
      · rename_i hr
        simp only [Option.some.injEq, Prod.mk.injEq] at h
        obtain ⟨rfl, rfl⟩ := h
        obtain ⟨ds, h1, h2, h3, h4, _⟩ := fieldLoop_inv cs 0 r rest' ht (by
          rintro x r' rfl rfl
          exact hm rfl) hl
        obtain ⟨b1, b2⟩ := build false ds r hr h2 h3 h4
        refine ⟨⟨false, ds⟩, b1, ?_, ?_⟩
        · simp [Field.value, b2]
        · simp [Field.write, h1]

theorem directive_inv (p : Printer) (rest : List Char) (args : List Arg) (o : List Char) (args' : List Arg)
    (rest' : List Char) (ht : Tidy rest) (hfit : Fit args) (hb : ∀ i, Arg.big i ∉ args)
    (h : directive p rest args = .ok (o, args', rest')) :
    ∃ f c, Piece.Ok (.directive f c) ∧ '%' :: rest = Piece.write (.directive f c) ++ rest' ∧
      ((c = '%' ∧ o = justify f ['%'] ∧ args' = args) ∨
        ∃ t, Shows p c (argument args) t ∧ o = justify f t ∧ args' = args.tail) := by
  have hn : ∀ n, argument args = .int n → fits n = true := by
    intro n e
    cases args with
    | nil => cases e
    | cons a args => exact hfit n (by rw [← e]; simp [argument])
  have hb' : ∀ i, argument args ≠ .big i := by
    intro i e
    cases args with
    | nil => cases e
    | cons a args => exact hb i (by rw [← e]; simp [argument])
  unfold directive at h
  cases rest with
  | nil => cases h
  | cons d ds =>
    dsimp only at h
    cases hf : parseField (d :: ds) with
    | none => rw [hf] at h; cases h
    | some fa =>
      obtain ⟨f, after⟩ := fa
      rw [hf] at h
      cases f with
      | none =>
        dsimp only at h
        cases hd : doDispatch p d (argument args) with
        | error e => rw [hd] at h; cases h
        | ok r =>
          rw [hd] at h
          simp only [Except.map, Except.ok.injEq, Prod.mk.injEq] at h
          obtain ⟨rfl, rfl, rfl⟩ := h
          refine ⟨none, d, trivial, rfl, ?_⟩
          rcases dispatch_inv p d _ r hd hn hb' with ⟨rfl, rfl⟩ | ⟨h1, h2⟩
          · exact .inl ⟨rfl, rfl, rfl⟩
          · exact .inr ⟨r.1, h2, rfl, by simp [h1]⟩
      | some v =>
        dsimp only at h
        obtain ⟨f, f1, f2, f3⟩ := parseField_inv _ v after ht hf
        cases after with
        | nil => cases h
        | cons d' ds' =>
          dsimp only at h
          cases hd : doDispatch p d' (argument args) with
          | error e => rw [hd] at h; cases h
          | ok r =>
            rw [hd] at h
            simp only [Except.map, Except.ok.injEq, Prod.mk.injEq] at h
            obtain ⟨rfl, rfl, rfl⟩ := h
            refine ⟨some f, d', f1, by simp [f3, Piece.write], ?_⟩
            rw [f2]
            rcases dispatch_inv p d' _ r hd hn hb' with ⟨rfl, rfl⟩ | ⟨h1, h2⟩
            · exact .inl ⟨rfl, pad_justify f f1 _, rfl⟩
            · exact .inr ⟨r.1, h2, pad_justify f f1 _, by simp [h1]⟩

/-- **C127** (part) There are no other control strings: one that `format` goes through without an error is made
    of text and directives, and what is written is what they say, with `#f` for the arguments that are missing.
    Missing: control strings with a minus sign within a field (`minus_in_field_violated`), and integers
    that are not `<integer>`s (`big_radix_violated`). -/
theorem format_only_partial (p : Printer) (cs : List Char) (args : List Arg) (out : List Char)
    (h : format p cs args = ⟨out, none⟩) (ht : Tidy cs) (hfit : Fit args) (hb : ∀ i, Arg.big i ∉ args) :
    ∃ ps k left, (∀ q ∈ ps, Piece.Ok q) ∧ write ps = cs ∧
      Says p ps (args ++ List.replicate k .false) out left := by
  induction hl : cs.length using Nat.strongRecOn generalizing cs args out with
  | ind n ih =>
    cases cs with
    | nil =>
      rw [format_nil] at h
      simp only [Res.mk.injEq, and_true] at h
      subst h
      exact ⟨[], 0, args, by simp, rfl, by simpa using .done args⟩
    | cons c cs =>
      subst hl
      by_cases hc : c = '%'
      · subst hc
        rw [format_directive] at h
        cases hd : directive p cs args with
        | error e => rw [hd] at h; cases h
        | ok r =>
          obtain ⟨o, args', rest'⟩ := r
          rw [hd] at h
          simp only [Res.after, Res.mk.injEq] at h
          have hlen := directive_length p cs args o args' rest' hd
          obtain ⟨f, x, g1, g2, g3⟩ := directive_inv p cs args o args' rest' (Tidy.drop (a := ['%']) ht) hfit hb hd
          have ht' : Tidy rest' := by
            rw [g2] at ht
            exact ht.drop
          have hfit' : Fit args' := by
            rcases g3 with ⟨_, _, rfl⟩ | ⟨_, _, _, rfl⟩
            · exact hfit
            · exact fun n hn => hfit n (List.mem_of_mem_tail hn)
          have hb' : ∀ i, Arg.big i ∉ args' := by
            rcases g3 with ⟨_, _, rfl⟩ | ⟨_, _, _, rfl⟩
            · exact hb
            · exact fun i hi => hb i (List.mem_of_mem_tail hi)
          obtain ⟨ps, k, left, i1, i2, i3⟩ := ih rest'.length (by simp only [List.length_cons]; omega) rest' args'
            (format p rest' args').out (by rw [← h.2]) ht' hfit' hb' rfl
          have hok : ∀ q ∈ Piece.directive f x :: ps, Piece.Ok q := by
            intro q hq
            rcases List.mem_cons.1 hq with rfl | hq
            · exact g1
            · exact i1 q hq
          have hw : write (Piece.directive f x :: ps) = '%' :: cs := by
            rw [g2, ← i2]
            simp [write]
          rw [← h.1]
          rcases g3 with ⟨rfl, rfl, rfl⟩ | ⟨t, hs, rfl, rfl⟩
          · exact ⟨_, k, left, hok, hw, .percent f ps _ _ _ i3⟩
          · cases args with
            | nil => exact ⟨_, k + 1, left, hok, hw, .directive f x _ t ps _ _ _ hs i3⟩
            | cons a args => exact ⟨_, k, left, hok, hw, .directive f x a t ps _ _ _ hs i3⟩
      · rw [format_text p c cs args hc] at h
        simp only [Res.after, Res.mk.injEq] at h
        obtain ⟨ps, k, left, i1, i2, i3⟩ := ih cs.length (by simp) cs args (format p cs args).out
          (by rw [← h.2]) (Tidy.drop (a := [c]) ht) hfit hb rfl
        refine ⟨.text c :: ps, k, left, ?_, by simp [write, Piece.write, ← i2], ?_⟩
        · intro q hq
          rcases List.mem_cons.1 hq with rfl | hq
          · exact hc
          · exact i1 q hq
        · rw [← h.1]
          exact .text c ps _ _ _ i3

example : Tidy "%-5s-%12=".toList := by
  intro a d b h
  match a, h with
  | [], h => simp at h; rw [← h.1]; decide
  | [_], h => simp at h
  | [_, _], h => simp at h
  | [_, _, _], h => simp at h; rw [← h.2.2.2.1]; decide
  | [_, _, _, _], h => simp at h
  | [_, _, _, _, _], h => simp at h
  | [_, _, _, _, _, _], h => simp at h
  | [_, _, _, _, _, _, _], h => simp at h
  | [_, _, _, _, _, _, _, _], h => simp at h
  | _ :: _ :: _ :: _ :: _ :: _ :: _ :: _ :: _ :: _, h => simp at h

end Verif.Format
