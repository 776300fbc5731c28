import Verif.Mangle.RoundTrip
/-
C22 (the C demangler touches no memory it was not given), C23 (demangling gives back what was mangled)
and C41 (names for the linker are distinct, and can be taken apart again).
-/
namespace Verif.Mangle

/-! ### C22: memory safety of the C demangler -/

/-- The C demangler ends, on every source and every destination. -/
theorem demangle_ends (signed : Bool) (size : Nat) (src : List Byte) : cDemangle signed size src ≠ .diverge := by
  have hfin : ∀ out, cFinish size out ≠ .diverge := by
    intro out; unfold cFinish; split <;> simp
  have key : ∀ (n : Nat) (src : List Byte) (st : CState), src.length ≤ n → cRun signed size src st ≠ .diverge := by
    intro n
    induction n with
    | zero =>
      intro src st hn
      have : src = [] := by simpa using hn
      subst this
      rw [cRun_eq]
      exact hfin _
    | succ n ih =>
      intro src st hn
      rw [cRun_eq]
      cases src with
      | nil => exact hfin _
      | cons c src =>
        simp only [List.length_cons] at hn
        unfold cBody
        dsimp only
        split
        · exact hfin _
        split
        · simp
        split
        · exact ih _ _ (by omega)
        split
        · have hl := cDigits_length src 0
          revert hl
          generalize cDigits src 0 = p
          obtain ⟨value, rest⟩ := p
          intro hl
          cases rest with
          | nil => simp
          | cons z rest =>
            simp only [List.length_cons] at hl
            dsimp only
            split
            · exact ih _ _ (by omega)
            · simp
        split
        · cases src with
          | nil => simp
          | cons a src =>
            simp only [List.length_cons] at hn
            dsimp only
            split
            · simp
            · exact ih _ _ (by omega)
        split
        · exact ih _ _ (by omega)
        split
        · exact ih _ _ (by omega)
        split
        · have two : ∀ (P Q : Prop) [Decidable P] [Decidable Q] (a b : Out), a ≠ .diverge → b ≠ .diverge →
              (if P then if Q then a else .writePast else b) ≠ .diverge := by
            intro P Q _ _ a b ha hb
            split
            · split
              · exact ha
              · simp
            · exact hb
          exact two _ _ _ _ (ih _ _ (by omega)) (ih _ _ (by omega))
        · simp
  unfold cDemangle
  split
  · simp
  · exact key _ _ _ (le_refl _)

/-- On a string without bytes above 127 (where `char` is signed), not ending in `K`, and without `M` or
with a destination of more than 28 times its length, the C demangler either fails or leaves a string that,
with its terminating NUL, fits into the destination; it reads and writes nothing else.
Missing for the full property: the excluded strings, for which it is false (see below). -/
theorem demangle_safe_partial (signed : Bool) (size : Nat) (src : List Byte)
    (small : signed = true → ∀ c ∈ src, c.val < 128)
    (last : src.getLast? ≠ some (code 'K'))
    (room : code 'M' ∉ src ∨ 28 * src.length < size) :
    cDemangle signed size src = .fail ∨
      ∃ text : List Byte, cDemangle signed size src = .ok (text ++ [0]) ∧ (text ++ [0]).length ≤ size := by
  have main : ∀ s : List Byte, (∀ c ∈ s, c ∈ src) → s.length ≤ src.length → (∀ pre, s ≠ pre ++ [code 'K']) →
      0 < size → Fine size (cRun signed size s cStart) := by
    intro s hs hlen hk hpos
    refine cRun_fine signed size s.length s _ (le_refl _)
      ⟨fun h c hc => small h c (hs c hc), hk, by simp [cStart]; omega, ?_⟩
    rcases room with h | h
    · exact Or.inl (fun hm => h (hs _ hm))
    · right; simp [cStart]; omega
  by_cases hz : size = 0
  · left; simp [cDemangle, hz]
  have hnk : ∀ pre, src ≠ pre ++ [code 'K'] := by
    rintro pre rfl
    simp at last
  have fin : Fine size (cDemangle signed size src) := by
    cases src with
    | nil =>
      rw [cDemangle_noK (by omega) (by simp)]
      exact main [] (by simp) (by simp) (by simp) (by omega)
    | cons c s =>
      by_cases hc : c = code 'K'
      · subst hc
        rw [cDemangle_K (by omega)]
        exact main s (fun x hx => by simp [hx]) (by simp) (noK_tail hnk) (by omega)
      · rw [cDemangle_noK (by omega) (by simpa using hc)]
        exact main _ (fun x hx => hx) (le_refl _) hnk (by omega)
  rcases fin with h | ⟨l, h, hl⟩
  · exact Or.inl h
  · exact Or.inr ⟨l, h, by simp; omega⟩

set_option maxRecDepth 100000 in
/-- The hypotheses hold of an ordinary entry point name and the buffer of the stack walker. -/
example : let src := str ['K', 'f', 'o', 'o', 'Y', 'm', 'V', 'l', 'I']
    (true = true → ∀ c ∈ src, c.val < 128) ∧ src.getLast? ≠ some (code 'K') ∧
      (code 'M' ∉ src ∨ 28 * src.length < 256) ∧
      cDemangle true 256 src = .ok (str ['f', 'o', 'o', ':', 'm', ':', 'l'] ++ [0]) := by decide

/-- Where `char` is signed, a byte above 127 is used as a table index out of range. -/
theorem demangle_safe_violated_index : ∃ src size, 0 < size ∧ cDemangle true size src = .badIndex :=
  ⟨[200], 10, by decide, by decide⟩

/-- A final `K` makes the demangler read behind the end of the source. -/
theorem demangle_safe_violated_read : ∃ src size, 0 < size ∧ ∀ signed, cDemangle signed size src = .readPast :=
  ⟨str ['a', 'K'], 10, by decide, by decide⟩

/-- The terminating NUL is written behind the end of the destination when the second copy of the library
name fills the destination before a method mark. -/
theorem demangle_safe_violated_write : ∃ src size, 0 < size ∧ ∀ signed, cDemangle signed size src = .writePast :=
  ⟨str ['a', 'V', 'b', 'M'], 5, by decide, by decide⟩

set_option maxRecDepth 100000 in
/-- This happens with the buffers of the stack walker (256 bytes for the source and for the destination,
stack-walker.c 1115-1130), on the entry point of a method as the compiler names it. -/
theorem stack_walker_violated : ∃ name lib : List Byte, Ordinary name ∧ Ordinary lib ∧
    (mangleGenericMethod (mangleBinding name lib lib) 0 lib lib ++ [code 'I']).length < 256 ∧
    ∀ signed, cDemangle signed 256 (mangleGenericMethod (mangleBinding name lib lib) 0 lib lib ++ [code 'I']) =
      .writePast := by
  have e0 : mangleInteger 0 = str ['0'] := by rw [mangleInteger_eq, dec]; decide
  refine ⟨str ['f'], List.replicate 126 (code 'b'), by decide, by decide, ?_, ?_⟩
  · unfold mangleGenericMethod; rw [e0]; decide
  · unfold mangleGenericMethod; rw [e0]; decide

/-! ### C23: demangling undoes mangling -/

/-- The Dylan demangler gives back every name. -/
theorem demangle_mangle (name : List Byte) : demangleName (mangleName name) = some name :=
  demangleName_mangleName name

/-- Different names are mangled differently. -/
theorem mangle_injective (name name' : List Byte) (h : mangleName name = mangleName name') : name = name' :=
  mangleName_injective h

example : mangleName (str ['<', 'a', '-', 'b', '>', '!', '_', '#']) = str ['L', 'a', '_', 'b', 'G', 'X', 'U', 'M'] ∧
    demangleName (str ['L', 'a', '_', 'b', 'G', 'X', 'U', 'M']) = some (str ['<', 'a', '-', 'b', '>', '!', '_', '#']) ∧
    demangleName (str ['Z', '6', '5', 'Z']) = some (str ['A']) := by decide

/-- No name made of the characters of Dylan names contains `#` or `,`. -/
theorem identifiers_ordinary (name : List Byte) (h : ∀ c ∈ name, c ∈ nameCharacters) : Ordinary name := by
  constructor <;> intro hm <;> exact absurd (h _ hm) (by decide)

set_option maxRecDepth 100000 in
example : ∀ c ∈ str ['<', 'a', '-', '1', '>'], c ∈ nameCharacters := by decide

/-- The C demangler gives back every name without a comma, cut off at the end of the destination.
(No Dylan name has a comma, see `identifiers_ordinary`.) -/
theorem c_demangle_mangle (signed : Bool) (size : Nat) (name : List Byte) (hs : 0 < size)
    (hc : code ',' ∉ name) :
    cDemangle signed size (mangleName name) = .ok (name.take (size - 1) ++ [0]) := by
  rw [cDemangle_noK hs (mangleName_head name)]
  have := cRun_mangleName (signed := signed) (size := size) [] name cStart ⟨hc, Or.inr (Or.inl rfl)⟩
    (by simp [cStart]; omega)
  rw [List.append_nil] at this
  rw [this, cRun_nil (by simp [cStart]; omega)]
  simp [cStart]

example : code ',' ∉ str ['<', 'a', '#', '>'] ∧
    cDemangle true 4 (mangleName (str ['<', 'a', '#', '>'])) = .ok (str ['<', 'a', '#'] ++ [0]) := by decide

/-- The C demangler refuses a mangled name with a comma. -/
theorem c_demangle_comma_refused : ∃ name, ∀ signed, cDemangle signed 100 (mangleName name) = .fail :=
  ⟨str ['a', ','], by decide⟩

/-- For the internal entry point of a function bound in a module of a library the C demangler gives
`name:module:library`, cut off at the end of the destination.
(No Dylan name has `,` or `#`, see `identifiers_ordinary`.) -/
theorem c_demangle_entry_point (signed : Bool) (size : Nat) (v m l : List Byte) (hs : 0 < size)
    (hv : code ',' ∉ v) (hm : Ordinary m) (hl : Ordinary l) :
    cDemangle signed size (mangleConstant (mangleBinding v m l) ++ [code 'I']) =
      .ok ((display v m l).take (size - 1) ++ [0]) := by
  have e : mangleConstant (mangleBinding v m l) ++ [code 'I'] =
      code 'K' :: (mangleBinding v m l ++ [code 'I']) := by simp [mangleConstant]
  rw [e, cDemangle_K hs, cRun_binding_I hv hm hl hs]
  simp [display]

example : let v := str ['f']; let m := str ['m', '-', 'x']; let l := str ['l', '_']
    (code ',' ∉ v ∧ Ordinary m ∧ Ordinary l) ∧
    cDemangle true 100 (mangleConstant (mangleBinding v m l) ++ [code 'I']) =
      .ok (str ['f', ':', 'm', '-', 'x', ':', 'l', '_'] ++ [0]) ∧
    cDemangle true 100 (mangleConstant (mangleBinding v (str ['d', 'y', 'l', 'a', 'n']) dylanName) ++ [code 'I']) =
      .ok (str ['f', ':', 'd', 'y', 'l', 'a', 'n', ':', 'd', 'y', 'l', 'a', 'n'] ++ [0]) ∧
    cDemangle true 100 (mangleConstant (mangleBinding v m m) ++ [code 'I']) =
      .ok (str ['f', ':', 'm', '-', 'x', ':', 'm', '-', 'x'] ++ [0]) := by decide

/-- For the internal entry point of a method the C demangler gives
`name:module:library#method-library#number`, where the method's library is left out when it is that of the
generic function, provided all this fits into the destination.
Missing: smaller destinations, for which it writes behind the end (see above). -/
theorem c_demangle_method_partial (signed : Bool) (size n : Nat) (v m l ml : List Byte)
    (hv : code ',' ∉ v) (hm : Ordinary m) (hl : Ordinary l) (hml : Ordinary ml)
    (fits : (display v m l ++ [code '#'] ++ (if l = ml then [] else ml) ++ [code '#'] ++ mangleInteger n).length < size) :
    cDemangle signed size (mangleGenericMethod (mangleBinding v m l) n ml l ++ [code 'I']) =
      .ok (display v m l ++ [code '#'] ++ (if l = ml then [] else ml) ++ [code '#'] ++ mangleInteger n ++ [0]) := by
  rw [mangleInteger_eq] at fits ⊢
  have e : mangleGenericMethod (mangleBinding v m l) n ml l ++ [code 'I'] =
      code 'K' :: (mangleBinding v m l ++ code 'M' :: (mangleName (if l = ml then [] else ml) ++
        code 'M' :: (mangleName (dec n) ++ [code 'I']))) := by
    have h1 : mangleName (dec n) = dec n := by
      have hd := dec_digits n
      generalize dec n = d at hd
      induction d with
      | nil => rfl
      | cons c d ih =>
        rw [mangleName_cons, ih (fun x hx => hd x (by simp [hx]))]
        simp [mangleByte, plain_of_isDigit c (hd c (by simp))]
    rw [h1]
    unfold mangleGenericMethod
    rw [mangleInteger_eq]
    by_cases h : l = ml <;> simp [h, mangleName]
  have hx : Ordinary (if l = ml then [] else ml) := by
    split
    · simp [Ordinary]
    · exact hml
  have hdn : Ordinary (dec n) := by
    constructor <;> intro h <;> exact absurd (dec_digits n _ h) (by decide)
  revert fits hx e
  generalize (if l = ml then ([] : List Byte) else ml) = x
  intro fits e hx
  simp only [display, List.length_append, List.length_singleton] at fits
  have hs : 0 < size := by omega
  rw [e, cDemangle_K hs]
  have finish : ∀ p : Option Nat, cRun signed size (mangleName x ++ code 'M' :: (mangleName (dec n) ++ [code 'I']))
      { out := display v m l ++ [code '#'], library := p, moduleSeen := true } =
      .ok (display v m l ++ [code '#'] ++ x ++ [code '#'] ++ dec n ++ [0]) := by
    intro p
    rw [cRun_mangleName _ x _ ⟨hx.2, Or.inl hx.1⟩ (by simp [display]; omega)]
    simp only
    rw [List.take_of_length_le (by simp [display]; omega), cRun_M (Or.inr rfl) (by simp [display]; omega),
      cRun_mangleName _ (dec n) _ ⟨hdn.2, Or.inl hdn.1⟩ (by simp [display]; omega)]
    simp only
    rw [List.take_of_length_le (by simp [display]; omega), cRun_I_seen rfl (by simp [display]; omega)]
  have hb := cRun_binding (signed := signed) (size := size) hv hm hl (by simp; omega)
    (code 'M' :: (mangleName x ++ code 'M' :: (mangleName (dec n) ++ [code 'I'])))
  have ed : v ++ code ':' :: (m ++ code ':' :: l) = display v m l := by simp [display]
  rcases hb with ⟨-, p, h⟩ | ⟨he, h⟩
  · rw [h, ed, cRun_M (Or.inr rfl) (by simp [display]; omega)]
    exact finish p
  · subst he
    have ed2 : (v ++ code ':' :: m) ++ (v ++ code ':' :: m).drop v.length = display v m m := by simp [display]
    rw [h, cRun_M_lib (l := v.length) rfl rfl (by simp only [ed2]; simp [display]; omega)]
    simp only [ed2]
    exact finish _

example : let v := str ['f']; let l := str ['l']; let ml := str ['x']
    (code ',' ∉ v ∧ Ordinary l ∧ Ordinary ml) ∧
    (display v l l ++ [code '#'] ++ (if l = ml then [] else ml) ++ [code '#'] ++ str ['7']).length < 20 ∧
    cDemangle true 20 (str ['K', 'f', 'V', 'l', 'M', 'x', 'M', '7', 'I']) =
      .ok (str ['f', ':', 'l', ':', 'l', '#', 'x', '#', '7'] ++ [0]) := by decide

/-! ### C41: linker names -/

/-- The number in a name is written as its decimal representation. -/
theorem integer_value (n : Nat) : decimalValue (mangleInteger n) = n ∧ mangleInteger n ≠ [] ∧
    ∀ c ∈ mangleInteger n, 48 ≤ c.val ∧ c.val ≤ 57 := by
  rw [mangleInteger_eq]
  exact ⟨decimalValue_dec n, dec_ne_nil n, fun c hc => (isDigit_iff c).mp (dec_digits n c hc)⟩

/-- Name, module and library can be read off the mangled name of a binding.
Missing: names with `#` or `,`, see below. -/
theorem binding_recovered_partial (v m l : List Byte) (hv : Ordinary v) (hm : Ordinary m) (hl : Ordinary l)
    (hne : l ≠ []) :
    demangleBinding (mangleBinding v m l) = some (v, some m, some l) ∧
      demangleBinding (mangleConstant (mangleBinding v m l)) = some (v, some m, some l) := by
  have h1 := demangleBinding_mangleBinding (p := []) (r := []) (Or.inl rfl) (Or.inl rfl) hv hm hl hne
  have h2 := demangleBinding_mangleBinding (p := [code 'K']) (r := []) (Or.inr rfl) (Or.inl rfl) hv hm hl hne
  exact ⟨by simpa using h1, by simpa [mangleConstant] using h2⟩

example : let v := str ['f', '_']; let m := str ['i', 'n', 't', 'e', 'r', 'n', 'a', 'l']
    Ordinary v ∧ Ordinary m ∧ Ordinary dylanName ∧ dylanName ≠ [] ∧
    mangleBinding v m dylanName = str ['f', 'U', 'V', 'K', 'i'] ∧
    demangleBinding (str ['f', 'U', 'V', 'K', 'i']) = some (v, some m, some dylanName) := by decide

/-- A `#` in the name of a variable is taken for the mark of a method. -/
theorem binding_recovered_violated : ∃ v m l : List Byte, l ≠ [] ∧
    demangleBinding (mangleBinding v m l) ≠ some (v, some m, some l) :=
  ⟨str ['a', '#', 'b'], str ['m'], str ['l'], by decide, by decide⟩

theorem self_demangle (l : List Byte) (h : ∀ c ∈ l, c ≠ code '_' ∧ ¬ (code 'A' ≤ c ∧ c ≤ code 'Z')) :
    demangleName l = some l := by
  induction l with
  | nil => rfl
  | cons c l ih =>
    have hc := h c (by simp)
    have ih := ih (fun x hx => h x (by simp [hx]))
    by_cases hp : plain c = true
    · rw [demangleName_cons c c l (by simp [demangleByte, hp]), ih]; rfl
    · have hn : demangleByte c = none := by
        unfold demangleByte
        rw [if_neg hp]
        cases hk : (manglesData.map (fun (a, b) => (b, a))).lookup c with
        | none => rfl
        | some x =>
          rw [List.lookup_eq_some_iff] at hk
          obtain ⟨l1, l2, he, -⟩ := hk
          have : ∀ q ∈ manglesData.map (fun (a, b) => (b, a)),
              q.1 = code '_' ∨ (code 'A' ≤ q.1 ∧ q.1 ≤ code 'Z') := by decide
          rcases this (c, x) (by rw [he]; simp) with h | h
          · exact absurd h hc.1
          · exact absurd h hc.2
      have hz : ∀ x, code 'A' ≤ x → x ≤ code 'Z' → c ≠ x := by
        rintro x h1 h2 rfl; exact hc.2 ⟨h1, h2⟩
      rw [demangleName_other c l hn (hz _ (by decide) (by decide)), ih]
      have : defaultHandler c = [c] := by
        unfold defaultHandler
        rw [if_neg]
        push Not
        exact ⟨hz _ (by decide) (by decide), hz _ (by decide) (by decide), hz _ (by decide) (by decide), hc.1,
          hz _ (by decide) (by decide)⟩
      simp [this]

/-- The library and the number of a method can be read off its mangled name, and off that of its entry
point, when the method's library is not that of the generic function or its name has neither capital
letters nor underscores.  Missing: the other library names, see below. -/
theorem method_details_partial (v m l ml : List Byte) (n : Nat) (hv : Ordinary v) (hm : Ordinary m)
    (hl : Ordinary l) (hml : Ordinary ml) (hne : l ≠ []) (hne' : ml ≠ [])
    (hlib : l = ml → ∀ c ∈ l, c ≠ code '_' ∧ ¬ (code 'A' ≤ c ∧ c ≤ code 'Z')) :
    methodDetails (mangleGenericMethod (mangleBinding v m l) n ml l) = some (some ml, mangleInteger n) ∧
      methodDetails (mangleGenericMethod (mangleBinding v m l) n ml l ++ [code 'I']) =
        some (some ml, mangleInteger n) := by
  have core : ∀ name, callableName name = mangleGenericMethod (mangleBinding v m l) n ml l →
      methodDetails name = some (some ml, mangleInteger n) := by
    intro name hname
    have bM : body (code 'M') = false := by decide
    have hnb : code 'M' ∉ mangleBinding v m l := by
      unfold mangleBinding
      rcases namespace_cases m l with ⟨e, -⟩ | ⟨e, -⟩ | ⟨a, e, -, ha⟩ <;> rw [e] <;>
        simp only [List.mem_append, List.mem_cons, not_or, List.not_mem_nil, not_false_eq_true, and_true]
      · exact ⟨sep_notin bM hv, by decide, sep_notin bM hm, by decide, sep_notin bM hl⟩
      · exact ⟨sep_notin bM hv, by decide, sep_notin bM hl⟩
      · refine ⟨sep_notin bM hv, by decide, by decide, ?_⟩
        rintro rfl
        have := (lookup_dylanModules ha).2
        rw [bM] at this; simp at this
    have hnl : code 'M' ∉ (if l = ml then [] else mangleName ml) := by
      split
      · simp
      · exact sep_notin bM hml
    unfold methodDetails
    rw [hname]
    dsimp only
    have hfull : mangleGenericMethod (mangleBinding v m l) n ml l =
        (code 'K' :: mangleBinding v m l) ++ code 'M' :: ((if l = ml then [] else mangleName ml) ++
          code 'M' :: mangleInteger n) := by
      simp [mangleGenericMethod]
    have hf1 : findMark (code 'M') (mangleGenericMethod (mangleBinding v m l) n ml l) =
        some (code 'K' :: mangleBinding v m l).length := by
      rw [hfull]
      refine findMark_append ?_
      simp only [List.mem_cons, not_or]
      exact ⟨by decide, hnb⟩
    rw [hf1]
    dsimp only
    have hdrop : (mangleGenericMethod (mangleBinding v m l) n ml l).drop ((code 'K' :: mangleBinding v m l).length + 1) =
        (if l = ml then [] else mangleName ml) ++ code 'M' :: mangleInteger n := by
      rw [hfull, ← List.drop_drop, List.drop_left' rfl]; rfl
    rw [hdrop, findMark_append hnl]
    dsimp only
    rw [List.take_left' rfl]
    have hd2 : ((if l = ml then [] else mangleName ml) ++ code 'M' :: mangleInteger n).drop
        ((if l = ml then [] else mangleName ml).length + 1) = mangleInteger n := by
      rw [← List.drop_drop, List.drop_left' rfl]; rfl
    rw [hd2]
    by_cases h : l = ml
    · have hb := demangleBinding_mangleBinding (p := [code 'K'])
        (r := code 'M' :: ((if l = ml then [] else mangleName ml) ++ code 'M' :: mangleInteger n))
        (Or.inr rfl) (Or.inr ⟨_, rfl⟩) hv hm hl hne
      have hb' : demangleBinding (mangleGenericMethod (mangleBinding v m l) n ml l) = some (v, some m, some l) := by
        rw [hfull]; simpa using hb
      rw [if_pos (by rw [if_pos h]), hb']
      simp only [Option.map_some, Option.bind_eq_bind, Option.bind_some]
      rw [self_demangle l (hlib h), h]
      rfl
    · have hnn : mangleName ml ≠ [] := fun h => hne' (mangleName_eq_nil h)
      rw [if_neg h, if_neg hnn]
      simp only [Option.bind_eq_bind, Option.bind_some]
      rw [demangleName_mangleName]
      rfl
  constructor
  · refine core _ ?_
    unfold callableName
    rw [if_neg]
    intro hlast
    have h1 : mangleGenericMethod (mangleBinding v m l) n ml l =
        (code 'K' :: (mangleBinding v m l ++ code 'M' :: ((if l = ml then [] else mangleName ml) ++ [code 'M']))) ++ dec n := by
      simp [mangleGenericMethod, mangleInteger_eq]
    rw [h1, List.getLast?_append] at hlast
    cases hg : (dec n).getLast? with
    | none => exact dec_ne_nil n (List.getLast?_eq_none_iff.mp hg)
    | some x =>
    rw [hg] at hlast
    simp only [Option.some_or, Option.some.injEq] at hlast
    rw [hlast] at hg
    have hlast := hg
    have := dec_digits n _ (List.mem_of_getLast? hlast)
    exact absurd this (by decide)
  · refine core _ ?_
    unfold callableName
    rw [if_pos (by simp)]
    simp

set_option maxRecDepth 100000 in
example : let v := str ['f']; let m := str ['m']; let l := str ['l', '-', 'x']; let ml := str ['k', '_']
    Ordinary v ∧ Ordinary m ∧ Ordinary l ∧ Ordinary ml ∧ l ≠ [] ∧ ml ≠ [] ∧
    (∀ c ∈ l, c ≠ code '_' ∧ ¬ (code 'A' ≤ c ∧ c ≤ code 'Z')) ∧
    methodDetails (str ['K', 'f', 'Y', 'm', 'V', 'l', '_', 'x', 'M', 'M', '3', 'I']) = some (some l, str ['3']) ∧
    methodDetails (str ['K', 'f', 'Y', 'm', 'V', 'l', '_', 'x', 'M', 'k', 'U', 'M', '3', 'I']) =
      some (some ml, str ['3']) := by decide

/-- The name of the library `a_b` is read off as `a-b`: it is demangled twice. -/
theorem method_details_violated : ∃ v m l : List Byte, ∃ n : Nat, Ordinary v ∧ Ordinary m ∧ Ordinary l ∧ l ≠ [] ∧
    ∃ l', l' ≠ l ∧ methodDetails (mangleGenericMethod (mangleBinding v m l) n l l) = some (some l', mangleInteger n) := by
  have e0 : mangleInteger 0 = str ['0'] := by rw [mangleInteger_eq, dec]; decide
  refine ⟨str ['f'], str ['m'], str ['a', '_', 'b'], 0, by decide, by decide, by decide, by decide,
    str ['a', '-', 'b'], by decide, ?_⟩
  unfold mangleGenericMethod
  rw [e0]
  decide

/-- Different objects have different linker names, for objects with ordinary names.
Missing: names with `#` and `,`, and slot descriptors, for which it is false (see below). -/
theorem link_names_distinct_partial (o o' : Obj) (h : o.Ordinary) (h' : o'.Ordinary)
    (he : o.linkName = o'.linkName) : o = o' := by
  have tM : ∀ t, Tail (code 'M' :: t) := fun t => tail_cons (by decide) (by decide)
  have tR : ∀ t, Tail (code 'R' :: t) := fun t => tail_cons (by decide) (by decide)
  have tW : ∀ t, Tail (code 'W' :: t) := fun t => tail_cons (by decide) (by decide)
  have bF : body (code 'F') = false := by decide
  have bM : body (code 'M') = false := by decide
  have bR : body (code 'R') = false := by decide
  have bJ : body (code 'J') = false := by decide
  have fYV : code 'F' ≠ code 'Y' ∧ code 'F' ≠ code 'V' := by decide
  have jYV : code 'J' ≠ code 'Y' ∧ code 'J' ≠ code 'V' := by decide
  have hMR : code 'M' ≠ code 'R' := by decide
  have hMW : code 'M' ≠ code 'W' := by decide
  have hRW : code 'R' ≠ code 'W' := by decide
  have hFJ : code 'F' ≠ code 'J' := by decide
  have nilB : ∀ c ∈ ([] : List Byte), body c = true := by simp
  -- the forms of the names, behind the constant prefix
  have form : ∀ o : Obj, o.linkName = code 'K' :: (match o with
      | .constant v m l => mangleBinding v m l ++ []
      | .method v m l n ml => mangleBinding v m l ++ code 'M' :: ((if l = ml then [] else mangleName ml) ++
          code 'M' :: dec n)
      | .localMethod name n => mangleName name ++ code 'F' :: dec n
      | .domain v m l n dl => mangleBinding v m l ++ code 'R' :: (str ['D', '_'] ++ (mangleName dl ++ code 'R' ::
          (str ['D', '_'] ++ dec n)))
      | .wrapper v m l => mangleBinding v m l ++ code 'W' :: []
      | .symbol name => [] ++ code 'J' :: (mangleName name ++ [code '_'])
      | .anonymous n => dec n) := by
    intro o
    cases o <;> simp [Obj.linkName, mangleConstant, mangleGenericMethod, mangleLocalMethod, mangleDomain,
      mangleWrapper, mangleSymbol, mangleInteger_eq, str]
  rw [form o, form o'] at he
  simp only [List.cons.injEq, true_and] at he
  cases o with
  | constant v m l =>
    obtain ⟨h1, h2, h3⟩ := h
    cases o' with
    | constant v' m' l' =>
      obtain ⟨h1', h2', h3'⟩ := h'
      obtain ⟨rfl, rfl, rfl, -⟩ := binding_unique h1 h2 h3 h1' h2' h3' tail_nil tail_nil he
      rfl
    | method v' m' l' n' ml' =>
      obtain ⟨h1', h2', h3', -⟩ := h'
      have := (binding_unique h1 h2 h3 h1' h2' h3' tail_nil (tM _) he).2.2.2
      simp at this
    | localMethod n' k' => exact absurd he.symm (local_ne_binding (body_mangleName h') h1 bF fYV)
    | domain v' m' l' n' dl' =>
      obtain ⟨h1', h2', h3', -⟩ := h'
      have := (binding_unique h1 h2 h3 h1' h2' h3' tail_nil (tR _) he).2.2.2
      simp at this
    | wrapper v' m' l' =>
      obtain ⟨h1', h2', h3'⟩ := h'
      have := (binding_unique h1 h2 h3 h1' h2' h3' tail_nil (tW _) he).2.2.2
      simp at this
    | symbol n' => exact absurd he.symm (local_ne_binding nilB h1 bJ jYV)
    | anonymous n' => exact absurd he.symm (body_ne_binding (body_dec n'))
  | method v m l n ml =>
    obtain ⟨h1, h2, h3, h4, h5⟩ := h
    cases o' with
    | constant v' m' l' =>
      obtain ⟨h1', h2', h3'⟩ := h'
      have := (binding_unique h1 h2 h3 h1' h2' h3' (tM _) tail_nil he).2.2.2
      simp at this
    | method v' m' l' n' ml' =>
      obtain ⟨h1', h2', h3', h4', h5'⟩ := h'
      obtain ⟨rfl, rfl, rfl, ht⟩ := binding_unique h1 h2 h3 h1' h2' h3' (tM _) (tM _) he
      simp only [List.cons.injEq, true_and] at ht
      have hb : ∀ x, Ordinary x → ∀ c ∈ (if l = x then [] else mangleName x), body c = true := by
        intro x hx
        split
        · simp
        · exact body_mangleName hx
      obtain ⟨e1, -, e2⟩ := split_unique (hb ml h4) (hb ml' h4') bM bM ht
      have hn := dec_injective e2
      have hml : ml = ml' := by
        by_cases c1 : l = ml <;> by_cases c2 : l = ml'
        · rw [← c1, ← c2]
        · rw [if_pos c1, if_neg c2] at e1
          exact absurd (mangleName_eq_nil e1.symm) h5'
        · rw [if_neg c1, if_pos c2] at e1
          exact absurd (mangleName_eq_nil e1) h5
        · rw [if_neg c1, if_neg c2] at e1
          exact mangleName_injective e1
      rw [hn, hml]
    | localMethod n' k' => exact absurd he.symm (local_ne_binding (body_mangleName h') h1 bF fYV)
    | domain v' m' l' n' dl' =>
      obtain ⟨h1', h2', h3', -⟩ := h'
      have := (binding_unique h1 h2 h3 h1' h2' h3' (tM _) (tR _) he).2.2.2
      simp [hMR] at this
    | wrapper v' m' l' =>
      obtain ⟨h1', h2', h3'⟩ := h'
      have := (binding_unique h1 h2 h3 h1' h2' h3' (tM _) (tW _) he).2.2.2
      simp [hMW] at this
    | symbol n' => exact absurd he.symm (local_ne_binding nilB h1 bJ jYV)
    | anonymous n' => exact absurd he.symm (body_ne_binding (body_dec n'))
  | localMethod n k =>
    cases o' with
    | constant v' m' l' => exact absurd he (local_ne_binding (body_mangleName h) h'.1 bF fYV)
    | method v' m' l' n' ml' => exact absurd he (local_ne_binding (body_mangleName h) h'.1 bF fYV)
    | localMethod n' k' =>
      obtain ⟨e1, -, e2⟩ := split_unique (body_mangleName h) (body_mangleName h') bF bF he
      rw [mangleName_injective e1, dec_injective e2]
    | domain v' m' l' n' dl' => exact absurd he (local_ne_binding (body_mangleName h) h'.1 bF fYV)
    | wrapper v' m' l' => exact absurd he (local_ne_binding (body_mangleName h) h'.1 bF fYV)
    | symbol n' =>
      have := (split_unique (body_mangleName h) nilB bF bJ he).2.1
      exact absurd this hFJ
    | anonymous n' =>
      have := body_dec n' (code 'F') (by simp only at he; rw [← he]; simp)
      rw [bF] at this; simp at this
  | domain v m l n dl =>
    obtain ⟨h1, h2, h3, h4⟩ := h
    cases o' with
    | constant v' m' l' =>
      obtain ⟨h1', h2', h3'⟩ := h'
      have := (binding_unique h1 h2 h3 h1' h2' h3' (tR _) tail_nil he).2.2.2
      simp at this
    | method v' m' l' n' ml' =>
      obtain ⟨h1', h2', h3', -⟩ := h'
      have := (binding_unique h1 h2 h3 h1' h2' h3' (tR _) (tM _) he).2.2.2
      simp [hMR.symm] at this
    | localMethod n' k' => exact absurd he.symm (local_ne_binding (body_mangleName h') h1 bF fYV)
    | domain v' m' l' n' dl' =>
      obtain ⟨h1', h2', h3', h4'⟩ := h'
      obtain ⟨rfl, rfl, rfl, ht⟩ := binding_unique h1 h2 h3 h1' h2' h3' (tR _) (tR _) he
      simp only [List.cons.injEq, true_and] at ht
      have ht2 := List.append_cancel_left ht
      obtain ⟨e1, -, e2⟩ := split_unique (body_mangleName h4) (body_mangleName h4') bR bR ht2
      rw [dec_injective (List.append_cancel_left e2), mangleName_injective e1]
    | wrapper v' m' l' =>
      obtain ⟨h1', h2', h3'⟩ := h'
      have := (binding_unique h1 h2 h3 h1' h2' h3' (tR _) (tW _) he).2.2.2
      simp [hRW] at this
    | symbol n' => exact absurd he.symm (local_ne_binding nilB h1 bJ jYV)
    | anonymous n' => exact absurd he.symm (body_ne_binding (body_dec n'))
  | wrapper v m l =>
    obtain ⟨h1, h2, h3⟩ := h
    cases o' with
    | constant v' m' l' =>
      obtain ⟨h1', h2', h3'⟩ := h'
      have := (binding_unique h1 h2 h3 h1' h2' h3' (tW _) tail_nil he).2.2.2
      simp at this
    | method v' m' l' n' ml' =>
      obtain ⟨h1', h2', h3', -⟩ := h'
      have := (binding_unique h1 h2 h3 h1' h2' h3' (tW _) (tM _) he).2.2.2
      simp [hMW.symm] at this
    | localMethod n' k' => exact absurd he.symm (local_ne_binding (body_mangleName h') h1 bF fYV)
    | domain v' m' l' n' dl' =>
      obtain ⟨h1', h2', h3', -⟩ := h'
      have := (binding_unique h1 h2 h3 h1' h2' h3' (tW _) (tR _) he).2.2.2
      simp [hRW.symm] at this
    | wrapper v' m' l' =>
      obtain ⟨h1', h2', h3'⟩ := h'
      obtain ⟨rfl, rfl, rfl, -⟩ := binding_unique h1 h2 h3 h1' h2' h3' (tW _) (tW _) he
      rfl
    | symbol n' => exact absurd he.symm (local_ne_binding nilB h1 bJ jYV)
    | anonymous n' => exact absurd he.symm (body_ne_binding (body_dec n'))
  | symbol n =>
    cases o' with
    | constant v' m' l' => exact absurd he (local_ne_binding nilB h'.1 bJ jYV)
    | method v' m' l' n' ml' => exact absurd he (local_ne_binding nilB h'.1 bJ jYV)
    | localMethod n' k' =>
      have := (split_unique nilB (body_mangleName h') bJ bF he).2.1
      exact absurd this hFJ.symm
    | domain v' m' l' n' dl' => exact absurd he (local_ne_binding nilB h'.1 bJ jYV)
    | wrapper v' m' l' => exact absurd he (local_ne_binding nilB h'.1 bJ jYV)
    | symbol n' =>
      simp only [List.nil_append, List.cons.injEq, true_and] at he
      rw [mangleName_injective (List.append_cancel_right he)]
    | anonymous n' =>
      have := body_dec n' (code 'J') (by simp only at he; rw [← he]; simp)
      rw [bJ] at this; simp at this
  | anonymous n =>
    cases o' with
    | constant v' m' l' => exact absurd he (body_ne_binding (body_dec n))
    | method v' m' l' n' ml' => exact absurd he (body_ne_binding (body_dec n))
    | localMethod n' k' =>
      have := body_dec n (code 'F') (by simp only at he; rw [he]; simp)
      rw [bF] at this; simp at this
    | domain v' m' l' n' dl' => exact absurd he (body_ne_binding (body_dec n))
    | wrapper v' m' l' => exact absurd he (body_ne_binding (body_dec n))
    | symbol n' =>
      have := body_dec n (code 'J') (by simp only at he; rw [he]; simp)
      rw [bJ] at this; simp at this
    | anonymous n' => rw [dec_injective he]

/-- The hypotheses hold of two methods on a generic function from different libraries. -/
example : let o := Obj.method (str ['+']) dylanName dylanName 0 (str ['a'])
    let o' := Obj.method (str ['+']) dylanName dylanName 0 (str ['b'])
    o.Ordinary ∧ o'.Ordinary ∧ o.linkName ≠ o'.linkName := by
  refine ⟨?_, ?_, ?_⟩
  · simp only [Obj.Ordinary]; decide
  · simp only [Obj.Ordinary]; decide
  · intro h
    have := link_names_distinct_partial _ _ (by simp only [Obj.Ordinary]; decide) (by simp only [Obj.Ordinary]; decide) h
    revert this
    decide

/-- With a `#` in a name two objects can have one linker name: a constant `f` of the library `a##0`, and the
first method on `f` of the library `a`. -/
theorem link_names_distinct_violated : ∃ o o' : Obj, o ≠ o' ∧ o.linkName = o'.linkName := by
  have e0 : mangleInteger 0 = str ['0'] := by rw [mangleInteger_eq, dec]; decide
  refine ⟨.constant (str ['f']) (str ['a', '#', '#', '0']) (str ['a', '#', '#', '0']),
    .method (str ['f']) (str ['a']) (str ['a']) 0 (str ['a']), by decide, ?_⟩
  simp only [Obj.linkName, mangleGenericMethod, e0]
  decide

/-- The descriptors of one slot of two classes of the same name in two modules of a library have the same
linker name. -/
theorem slot_descriptors_distinct_violated : ∃ slot lib owner mod mod' : List Byte,
    Ordinary owner ∧ Ordinary mod ∧ Ordinary mod' ∧ Ordinary lib ∧ mod ≠ mod' ∧
    mangleSlotDescriptor (mangleBinding slot mod lib) (some lib) (mangleName owner) mod lib =
      mangleSlotDescriptor (mangleBinding slot mod lib) (some lib) (mangleName owner) mod' lib :=
  ⟨str ['s'], str ['l'], str ['<', 'c', '>'], str ['a'], str ['b'], by decide, by decide, by decide, by decide,
    by decide, by decide⟩

/-- When the slot's getter is not defined in the library of the owner, descriptors of different owners have
different linker names.  Missing: the other case, see above. -/
theorem slot_descriptors_distinct_partial (v m l : List Byte) (slotLib : List Byte) (c cm cl c' cm' cl' : List Byte)
    (hc : Ordinary c) (hcm : Ordinary cm) (hcl : Ordinary cl) (hc' : Ordinary c') (hcm' : Ordinary cm')
    (hcl' : Ordinary cl') (h1 : slotLib ≠ cl) (h2 : slotLib ≠ cl')
    (he : mangleSlotDescriptor (mangleBinding v m l) (some slotLib) (mangleName c) cm cl =
      mangleSlotDescriptor (mangleBinding v m l) (some slotLib) (mangleName c') cm' cl') :
    c = c' ∧ cm = cm' ∧ cl = cl' := by
  unfold mangleSlotDescriptor at he
  rw [if_neg (by simpa using h1), if_neg (by simpa using h2)] at he
  simp only [List.cons.injEq, true_and] at he
  have he2 := List.append_cancel_left he
  simp only [List.cons.injEq, true_and] at he2
  have := binding_unique (v := c) (m := cm) (l := cl) (v' := c') (m' := cm') (l' := cl') (r := []) (r' := [])
    hc hcm hcl hc' hcm' hcl' tail_nil tail_nil (by simpa [mangleBinding] using he2)
  exact ⟨this.1, this.2.1, this.2.2.1⟩

example : Ordinary (str ['<', 'c', '>']) ∧ str ['k'] ≠ str ['l'] ∧
    mangleSlotDescriptor (mangleBinding (str ['s']) (str ['m']) (str ['k'])) (some (str ['k']))
      (mangleName (str ['<', 'c', '>'])) (str ['a']) (str ['l']) ≠
    mangleSlotDescriptor (mangleBinding (str ['s']) (str ['m']) (str ['k'])) (some (str ['k']))
      (mangleName (str ['<', 'c', '>'])) (str ['b']) (str ['l']) := by decide

end Verif.Mangle
