import Verif.Mangle.CLemmas
/-
Helper lemmas: the two demanglers on mangled names.
-/
set_option linter.unusedSimpArgs false

namespace Verif.Mangle

/-! ### The C demangler -/

theorem cRun_full {signed : Bool} {size : Nat} {st : CState} (h : st.out.length + 1 = size) (src : List Byte) :
    cRun signed size src st = .ok (st.out ++ [0]) := by
  rw [cRun_eq]
  have hf : cFinish size st.out = .ok (st.out ++ [0]) := by
    simp [cFinish, show st.out.length < size by omega]
  cases src with
  | nil => exact hf
  | cons c src =>
    unfold cBody
    dsimp only
    rw [if_pos (Or.inr (by omega))]
    exact hf

theorem cRun_nil {signed : Bool} {size : Nat} {st : CState} (h : st.out.length + 1 ≤ size) :
    cRun signed size [] st = .ok (st.out ++ [0]) := by
  rw [cRun_eq]
  simp [cBody, cFinish, show st.out.length < size by omega]

theorem cDigits_append (d rest : List Byte) (hd : ∀ c ∈ d, isDigit c = true)
    (hr : ∀ c ∈ rest.head?, isDigit c = false) : ∀ v, v < 2 ^ 32 →
    cDigits (d ++ rest) v = (d.foldl (fun v c => v * 10 + (c.val - 48)) v % 2 ^ 32, rest) := by
  have hmod : ∀ (d : List Byte) v, d.foldl (fun v (c : Byte) => v * 10 + (c.val - 48)) (v % 2 ^ 32) % 2 ^ 32 =
      d.foldl (fun v (c : Byte) => v * 10 + (c.val - 48)) v % 2 ^ 32 := by
    intro d
    induction d with
    | nil => intro v; simp
    | cons c d ih =>
      intro v
      simp only [List.foldl_cons]
      rw [← ih, ← ih (v * 10 + (c.val - 48))]
      congr 2
      omega
  induction d with
  | nil =>
    intro v hv
    have hv' : v % 2 ^ 32 = v := Nat.mod_eq_of_lt hv
    cases rest with
    | nil => simp only [List.append_nil, cDigits, List.foldl_nil, hv']
    | cons c t => simp only [List.nil_append, cDigits, hr c (by simp), List.foldl_nil, hv']; simp
  | cons c d ih =>
    intro v hv
    simp only [List.cons_append, cDigits, hd c (by simp), ↓reduceIte, List.foldl_cons]
    rw [ih (fun x hx => hd x (by simp [hx])) _ (Nat.mod_lt _ (by norm_num)), hmod]

theorem cDigits_dec (c : Byte) (rest : List Byte) (hr : ∀ c ∈ rest.head?, isDigit c = false) :
    cDigits (dec c ++ rest) 0 = (c.val, rest) := by
  rw [cDigits_append _ _ (dec_digits c.val) hr 0 (by norm_num)]
  have := decimalValue_dec c.val
  simp only [decimalValue] at this
  rw [this, Nat.mod_eq_of_lt (by omega)]

theorem plain_facts {c : Byte} (h : plain c = true) : demangleMap c = c ∧ c ≠ 0 ∧ c.val < 128 := by
  refine ⟨by simp [demangleMap, h], ?_, ?_⟩
  · rintro rfl
    simp [plain, code] at h
  · simp [plain, code, Fin.le_def] at h
    omega

theorem special_facts {c m : Byte} (h : manglesData.lookup c = some m) (h1 : c ≠ code '#') (h2 : c ≠ code ',') :
    demangleMap m = c ∧ c ≠ 0 ∧ m ≠ 0 ∧ m.val < 128 :=
  special_all (P := fun c m => c ≠ code '#' → c ≠ code ',' → demangleMap m = c ∧ c ≠ 0 ∧ m ≠ 0 ∧ m.val < 128) h
    (by decide) h1 h2

theorem cRun_mapped {signed : Bool} {size : Nat} {st : CState} {m c : Byte} (hm : demangleMap m = c) (hc : c ≠ 0)
    (h0 : m ≠ 0) (h128 : m.val < 128) (h : st.out.length + 1 < size) (rest : List Byte) :
    cRun signed size (m :: rest) st = cRun signed size rest { st with out := st.out ++ [c] } := by
  rw [cRun_eq]
  unfold cBody
  dsimp only
  rw [if_neg (by push Not; exact ⟨h0, by omega⟩), if_neg (by omega), if_pos (by rw [hm]; exact hc), hm]

theorem cRun_escape {signed : Bool} {size : Nat} {st : CState} (c : Byte)
    (h : st.out.length + 1 < size) (rest : List Byte) :
    cRun signed size (code 'Z' :: (dec c ++ code 'Z' :: rest)) st =
      cRun signed size rest { st with out := st.out ++ [c] } := by
  rw [cRun_eq]
  unfold cBody
  dsimp only
  rw [if_neg (by push Not; exact ⟨by decide, by omega⟩), if_neg (by simp [code]), if_neg (by decide), if_pos rfl,
    cDigits_dec c _ (by simp; decide)]
  simp

theorem cRun_mangleByte {signed : Bool} {size : Nat} {st : CState} (c : Byte) (h1 : c ≠ code '#')
    (h2 : c ≠ code ',') (h : st.out.length + 1 < size) (rest : List Byte) :
    cRun signed size (mangleByte c ++ rest) st = cRun signed size rest { st with out := st.out ++ [c] } := by
  rcases mangleByte_cases c with ⟨e, hp⟩ | ⟨m, e, hp, hl⟩ | ⟨e, -, -⟩
  · rw [e]
    have := plain_facts hp
    exact cRun_mapped this.1 this.2.1 this.2.1 this.2.2 h rest
  · rw [e]
    have := special_facts hl h1 h2
    exact cRun_mapped this.1 this.2.1 this.2.2.1 this.2.2.2 h rest
  · rw [e]
    have : code 'Z' :: (dec c ++ [code 'Z']) ++ rest = code 'Z' :: (dec c ++ code 'Z' :: rest) := by simp
    rw [this, cRun_escape c h]

/-- A method mark when no library is to be written. -/
theorem cRun_M {signed : Bool} {size : Nat} {st : CState} (hl : st.library = none ∨ st.moduleSeen = true)
    (h : st.out.length + 1 < size) (rest : List Byte) :
    cRun signed size (code 'M' :: rest) st = cRun signed size rest { st with out := st.out ++ [code '#'] } := by
  rw [cRun_eq]
  unfold cBody
  dsimp only
  rw [if_neg (by push Not; exact ⟨by decide, by omega⟩), if_neg (by simp [code]), if_neg (by decide),
    if_neg (by decide), if_neg (by decide), if_neg (by decide), if_neg (by decide), if_pos (by decide)]
  obtain ⟨out, library, moduleSeen⟩ := st
  simp only at h hl
  have key : ∀ st' : CState, st' = { out := out, library := library, moduleSeen := moduleSeen } →
      (if code 'M' = code 'M' then
        if st'.out.length < size then cRun signed size rest { st' with out := st'.out ++ [code '#'] } else .writePast
       else cRun signed size rest st') =
      cRun signed size rest { out := out ++ [code '#'], library := library, moduleSeen := moduleSeen } := by
    rintro st' rfl
    rw [if_pos rfl, if_pos (by simp only; omega)]
  apply key
  rcases hl with hl | hl
  · subst hl; cases moduleSeen <;> rfl
  · subst hl; rfl

/-- A name with no comma, in which a `#` occurs only where no library is to be written. -/
def Readable (name : List Byte) (st : CState) : Prop :=
  code ',' ∉ name ∧ (code '#' ∉ name ∨ st.library = none ∨ st.moduleSeen = true)

theorem cRun_mangleName {signed : Bool} {size : Nat} (rest : List Byte) : ∀ (name : List Byte) (st : CState),
    Readable name st → st.out.length + 1 ≤ size →
    cRun signed size (mangleName name ++ rest) st =
      cRun signed size rest { st with out := (st.out ++ name).take (size - 1) } := by
  intro name
  induction name with
  | nil =>
    intro st _ h
    simp only [mangleName, List.flatMap_nil, List.nil_append, List.append_nil]
    rw [List.take_of_length_le (by omega)]
  | cons c n ih =>
    intro st hr h
    by_cases hf : st.out.length + 1 = size
    · have e : (st.out ++ c :: n).take (size - 1) = st.out := by
        rw [show size - 1 = st.out.length by omega]; simp
      rw [cRun_full hf, e, cRun_full (by simpa using hf)]
    · have hlt : st.out.length + 1 < size := by omega
      have hr' : Readable n { st with out := st.out ++ [c] } := by
        simp only [Readable, List.mem_cons, not_or] at hr ⊢
        exact ⟨hr.1.2, hr.2.imp (·.2) id⟩
      have e : (st.out ++ [c] ++ n) = st.out ++ c :: n := by simp
      have step : cRun signed size (mangleByte c ++ (mangleName n ++ rest)) st =
          cRun signed size (mangleName n ++ rest) { st with out := st.out ++ [c] } := by
        by_cases h1 : c = code '#'
        · subst h1
          have : mangleByte (code '#') = [code 'M'] := by decide
          rw [this]
          have hl : st.library = none ∨ st.moduleSeen = true := by
            rcases hr.2 with h | h
            · simp at h
            · exact h
          exact cRun_M hl hlt _
        · exact cRun_mangleByte c h1 (fun h => hr.1 (by simp [h])) hlt _
      rw [mangleName_cons, List.append_assoc, step, ih _ hr' (by simp; omega), ← e]

theorem cRun_Y {signed : Bool} {size : Nat} {st : CState} (h : st.out.length + 1 < size) (rest : List Byte) :
    cRun signed size (code 'Y' :: rest) st =
      cRun signed size rest { st with out := st.out ++ [code ':'], moduleSeen := true } := by
  rw [cRun_eq]
  unfold cBody
  dsimp only
  rw [if_neg (by push Not; exact ⟨by decide, by omega⟩), if_neg (by simp [code]), if_neg (by decide),
    if_neg (by decide), if_neg (by decide), if_pos rfl]

theorem cRun_V {signed : Bool} {size : Nat} {st : CState} (h : st.out.length + 1 < size) (rest : List Byte) :
    cRun signed size (code 'V' :: rest) st =
      cRun signed size rest { st with out := st.out ++ [code ':'], library := some st.out.length } := by
  rw [cRun_eq]
  unfold cBody
  dsimp only
  rw [if_neg (by push Not; exact ⟨by decide, by omega⟩), if_neg (by simp [code]), if_neg (by decide),
    if_neg (by decide), if_neg (by decide), if_neg (by decide), if_pos rfl]

theorem cRun_K {signed : Bool} {size : Nat} {st : CState} {m : List Byte} {a : Byte}
    (ha : dylanModules.lookup m = some a) (h : st.out.length + 1 < size) (rest : List Byte) :
    cRun signed size (code 'K' :: a :: rest) st =
      cRun signed size rest
        { st with out := (st.out ++ (m ++ code ':' :: dylanName)).take (size - 1), moduleSeen := true } := by
  rw [cRun_eq]
  unfold cBody
  dsimp only
  have hb : a.val < abbrevLength := by
    rw [List.lookup_eq_some_iff] at ha
    obtain ⟨l1, l2, he, -⟩ := ha
    have : ∀ q ∈ dylanModules, q.2.val < abbrevLength := by decide
    exact this (m, a) (by rw [he]; simp)
  rw [if_neg (by push Not; exact ⟨by decide, by omega⟩), if_neg (by simp [code]), if_neg (by decide),
    if_neg (by decide), if_pos rfl, if_neg (by simp only [abbrevLength] at hb ⊢; omega),
    (lookup_dylanModules ha).1]
  dsimp only
  have h1 : copyString (size - 1) st.out m = (st.out ++ m).take (size - 1) := copyString_eq _ _ _ (by omega)
  rw [copyString_eq _ _ _ (by rw [h1]; simp), h1]
  have : (List.take (size - 1) (st.out ++ m) ++ str [':', 'd', 'y', 'l', 'a', 'n']).take (size - 1) =
      (st.out ++ (m ++ code ':' :: dylanName)).take (size - 1) := by
    rw [show st.out ++ (m ++ code ':' :: dylanName) = (st.out ++ m) ++ str [':', 'd', 'y', 'l', 'a', 'n'] by
      simp [dylanName, str]]
    rw [List.take_append, List.take_take, Nat.min_self, List.length_take, List.take_append (l₁ := st.out ++ m)]
    congr 2
    omega
  rw [this]

/-- The end mark of an internal entry point, module seen. -/
theorem cRun_I_seen {signed : Bool} {size : Nat} {st : CState} (hs : st.moduleSeen = true)
    (h : st.out.length + 1 ≤ size) :
    cRun signed size [code 'I'] st = .ok (st.out ++ [0]) := by
  by_cases hf : st.out.length + 1 = size
  · exact cRun_full hf _
  rw [cRun_eq]
  unfold cBody
  dsimp only
  rw [if_neg (by push Not; exact ⟨by decide, by omega⟩), if_neg (by simp [code]), if_neg (by decide),
    if_neg (by decide), if_neg (by decide), if_neg (by decide), if_neg (by decide), if_pos (by decide)]
  obtain ⟨out, library, moduleSeen⟩ := st
  simp only at hs
  subst hs
  dsimp only
  rw [if_neg (by decide), cRun_nil (by simpa using h)]

theorem cRun_I_lib {signed : Bool} {size : Nat} {st : CState} {l : Nat} (hs : st.moduleSeen = false)
    (hl : st.library = some l) (h : st.out.length + 1 ≤ size) :
    cRun signed size [code 'I'] st = .ok ((st.out ++ st.out.drop l).take (size - 1) ++ [0]) := by
  by_cases hf : st.out.length + 1 = size
  · rw [cRun_full hf, show size - 1 = st.out.length by omega]; simp
  rw [cRun_eq]
  unfold cBody
  dsimp only
  rw [if_neg (by push Not; exact ⟨by decide, by omega⟩), if_neg (by simp [code]), if_neg (by decide),
    if_neg (by decide), if_neg (by decide), if_neg (by decide), if_neg (by decide), if_pos (by decide)]
  obtain ⟨out, library, moduleSeen⟩ := st
  simp only at hs hl
  subst hs hl
  dsimp only
  simp only at h
  rw [if_neg (by decide), cRun_nil (by simp only [copyString_eq _ _ _ (show out.length ≤ size - 1 by omega)]; simp; omega),
    copyString_eq _ _ _ (by omega)]

/-- A method mark when the library is to be written again, and there is room. -/
theorem cRun_M_lib {signed : Bool} {size : Nat} {st : CState} {l : Nat} (hs : st.moduleSeen = false)
    (hl : st.library = some l) (h : (st.out ++ st.out.drop l).length + 1 < size) (rest : List Byte) :
    cRun signed size (code 'M' :: rest) st =
      cRun signed size rest { st with out := st.out ++ st.out.drop l ++ [code '#'], moduleSeen := true } := by
  simp only [List.length_append] at h
  rw [cRun_eq]
  unfold cBody
  dsimp only
  rw [if_neg (by push Not; exact ⟨by decide, by omega⟩), if_neg (by simp [code]), if_neg (by decide),
    if_neg (by decide), if_neg (by decide), if_neg (by decide), if_neg (by decide), if_pos (by decide)]
  obtain ⟨out, library, moduleSeen⟩ := st
  simp only at hs hl
  subst hs hl
  simp only at h
  have key : ∀ st' : CState, st' = { out := out ++ out.drop l, library := some l, moduleSeen := true } →
      (if code 'M' = code 'M' then
        if st'.out.length < size then cRun signed size rest { st' with out := st'.out ++ [code '#'] } else .writePast
       else cRun signed size rest st') =
      cRun signed size rest { out := out ++ out.drop l ++ [code '#'], library := some l, moduleSeen := true } := by
    rintro st' rfl
    rw [if_pos rfl, if_pos (by simp only [List.length_append]; omega)]
  apply key
  dsimp only
  rw [copyString_eq _ _ _ (by omega), List.take_of_length_le (by simp only [List.length_append]; omega)]

/-- The state at the beginning. -/
def cStart : CState := { out := [], library := none, moduleSeen := false }

theorem cDemangle_K {signed : Bool} {size : Nat} (h : 0 < size) (src : List Byte) :
    cDemangle signed size (code 'K' :: src) = cRun signed size src cStart := by
  unfold cDemangle
  rw [if_neg (by omega)]
  dsimp only
  rw [if_pos rfl]
  rfl

theorem cDemangle_noK {signed : Bool} {size : Nat} (h : 0 < size) {src : List Byte}
    (hk : ∀ c ∈ src.head?, c ≠ code 'K') : cDemangle signed size src = cRun signed size src cStart := by
  unfold cDemangle
  rw [if_neg (by omega)]
  cases src with
  | nil => rfl
  | cons c src =>
    dsimp only
    rw [if_neg (hk c (by simp))]
    rfl

theorem mangleByte_head (c : Byte) : ∀ x ∈ (mangleByte c).head?, x ≠ code 'K' := by
  rcases mangleByte_cases c with ⟨e, hp⟩ | ⟨m, e, hp, hl⟩ | ⟨e, -, -⟩
  · rw [e]; simp only [List.head?_cons, Option.mem_some_iff, forall_eq']
    rintro rfl
    revert hp; decide
  · rw [e]; simp only [List.head?_cons, Option.mem_some_iff, forall_eq']
    exact special_all (P := fun c m => m ≠ code 'K') hl (by decide)
  · rw [e]; simp only [List.head?_cons, Option.mem_some_iff, forall_eq']; decide

theorem mangleName_head (name : List Byte) : ∀ x ∈ (mangleName name).head?, x ≠ code 'K' := by
  cases name with
  | nil => simp [mangleName]
  | cons c n =>
    rw [mangleName_cons]
    intro x hx
    refine mangleByte_head c x ?_
    cases h : mangleByte c with
    | nil => exact absurd h (mangleByte_ne_nil c)
    | cons y t => rw [h] at hx; simpa using hx

/-- After a binding, in a destination with room for all of it, a module not equal to the library or
abbreviated. -/
theorem cRun_binding {signed : Bool} {size : Nat} {v m l : List Byte} (hv : code ',' ∉ v) (hm : Ordinary m)
    (hl : Ordinary l) (h : (v ++ (code ':' :: (m ++ code ':' :: l))).length + 1 ≤ size) (rest : List Byte) :
    (m ≠ l ∨ (∃ a, dylanModules.lookup m = some a) ∧ l = dylanName) ∧
      (∃ p, cRun signed size (mangleBinding v m l ++ rest) cStart =
        cRun signed size rest { out := v ++ (code ':' :: (m ++ code ':' :: l)), library := p, moduleSeen := true }) ∨
    m = l ∧ cRun signed size (mangleBinding v m l ++ rest) cStart =
        cRun signed size rest { out := v ++ (code ':' :: l), library := some v.length, moduleSeen := false } := by
  simp only [List.length_append, List.length_cons] at h
  unfold mangleBinding
  rw [List.append_assoc, cRun_mangleName _ v cStart ⟨hv, Or.inr (Or.inl rfl)⟩ (by simp [cStart]; omega)]
  simp only [cStart, List.nil_append]
  rw [List.take_of_length_le (by omega)]
  rcases namespace_cases m l with ⟨e, hne⟩ | ⟨e, he⟩ | ⟨a, e, hd, ha⟩
  · left
    refine ⟨Or.inl hne, some (v ++ code ':' :: m).length, ?_⟩
    rw [e, List.cons_append, cRun_Y (by simp only; omega), List.append_assoc,
      cRun_mangleName _ m _ ⟨hm.2, Or.inl hm.1⟩ (by simp; omega)]
    simp only
    rw [List.take_of_length_le (by simp; omega), List.cons_append, cRun_V (by simp; omega),
      cRun_mangleName _ l _ ⟨hl.2, Or.inl hl.1⟩ (by simp; omega)]
    simp only
    rw [List.take_of_length_le (by simp; omega)]
    simp
  · right
    refine ⟨he, ?_⟩
    rw [e, List.cons_append, cRun_V (by simp only; omega),
      cRun_mangleName _ l _ ⟨hl.2, Or.inl hl.1⟩ (by simp; omega)]
    simp only
    rw [List.take_of_length_le (by simp; omega)]
    simp
  · left
    refine ⟨Or.inr ⟨⟨a, ha⟩, hd⟩, some v.length, ?_⟩
    have hll : dylanName.length = l.length := by rw [hd]
    rw [e, List.cons_append, cRun_V (by simp only; omega), List.cons_append, List.cons_append, List.nil_append,
      cRun_K ha (by simp only [List.length_append, List.length_singleton]; have : dylanName.length = 5 := rfl; omega)]
    simp only
    rw [List.take_of_length_le (by simp; omega), hd]
    simp

theorem take_append_full {n : Nat} {a b : List Byte} (h : n ≤ a.length) : (a ++ b).take n = a.take n := by
  rw [List.take_append, show n - a.length = 0 by omega]; simp

/-- An internal entry point, cut off at the end of the destination. -/
theorem cRun_binding_I {signed : Bool} {size : Nat} {v m l : List Byte} (hv : code ',' ∉ v) (hm : Ordinary m)
    (hl : Ordinary l) (h : 0 < size) :
    cRun signed size (mangleBinding v m l ++ [code 'I']) cStart =
      .ok ((v ++ (code ':' :: (m ++ code ':' :: l))).take (size - 1) ++ [0]) := by
  unfold mangleBinding
  rw [List.append_assoc, cRun_mangleName _ v cStart ⟨hv, Or.inr (Or.inl rfl)⟩ (by simp [cStart]; omega)]
  simp only [cStart, List.nil_append]
  by_cases hf : size - 1 ≤ v.length
  · rw [cRun_full (by simp; omega), take_append_full hf]
  rw [List.take_of_length_le (by omega)]
  rcases namespace_cases m l with ⟨e, hne⟩ | ⟨e, he⟩ | ⟨a, e, hd, ha⟩
  · rw [e, List.cons_append, cRun_Y (by simp only; omega), List.append_assoc,
      cRun_mangleName _ m _ ⟨hm.2, Or.inl hm.1⟩ (by simp; omega)]
    simp only
    have e1 : v ++ code ':' :: (m ++ code ':' :: l) = (v ++ [code ':'] ++ m) ++ code ':' :: l := by simp
    rw [e1]
    by_cases hf2 : size - 1 ≤ (v ++ [code ':'] ++ m).length
    · rw [cRun_full (by simp only [List.length_take]; omega), take_append_full hf2]
    rw [List.take_of_length_le (by omega), List.cons_append, cRun_V (by simp only; omega),
      cRun_mangleName _ l _ ⟨hl.2, Or.inl hl.1⟩ (by simp only [List.length_append, List.length_singleton] at hf2 ⊢; omega)]
    rw [cRun_I_seen rfl (by simp only [List.length_take]; omega)]
    simp
  · rw [e, List.cons_append, cRun_V (by simp only; omega),
      cRun_mangleName _ l _ ⟨hl.2, Or.inl hl.1⟩ (by simp; omega)]
    simp only
    rw [cRun_I_lib rfl rfl (by simp only [List.length_take]; omega)]
    simp only
    subst he
    by_cases hf2 : size - 1 ≤ (v ++ [code ':'] ++ m).length
    · have e1 : v ++ code ':' :: (m ++ code ':' :: m) = (v ++ [code ':'] ++ m) ++ code ':' :: m := by simp
      rw [e1, take_append_full hf2, take_append_full (by simp only [List.length_take]; omega), List.take_take, Nat.min_self]
    · rw [List.take_of_length_le (l := v ++ [code ':'] ++ m) (by omega)]
      simp
  · rw [e, List.cons_append, cRun_V (by simp only; omega), List.cons_append, List.cons_append, List.nil_append]
    by_cases hf2 : size - 1 ≤ (v ++ [code ':']).length
    · have e1 : v ++ code ':' :: (m ++ code ':' :: l) = (v ++ [code ':']) ++ (m ++ code ':' :: l) := by simp
      rw [cRun_full (by simp only [List.length_append, List.length_singleton] at hf2 ⊢; omega), e1, take_append_full hf2,
        List.take_of_length_le (by simp only [List.length_append, List.length_singleton]; omega)]
    rw [cRun_K ha (by simp only; omega), cRun_I_seen rfl (by simp only [List.length_take]; omega), hd]
    simp

/-! ### The Dylan demangler on bindings -/

theorem findMark_append {mark : Byte} {a b : List Byte} (h : mark ∉ a) :
    findMark mark (a ++ mark :: b) = some a.length := by
  induction a with
  | nil => simp [findMark, List.findIdx?_cons]
  | cons c a ih =>
    simp only [List.mem_cons, not_or] at h
    simp only [findMark] at ih
    simp [findMark, List.findIdx?_cons, Ne.symm h.1, ih h.2]

theorem findMark_none {mark : Byte} {a : List Byte} (h : mark ∉ a) : findMark mark a = none := by
  simp only [findMark, List.findIdx?_eq_none_iff]
  intro x hx
  simp only [beq_eq_false_iff_ne]
  rintro rfl
  exact h hx

/-- Separators are not in mangled ordinary names. -/
theorem sep_notin {x : Byte} {n : List Byte} (hx : body x = false) (h : Ordinary n) : x ∉ mangleName n := by
  intro hm
  rw [body_mangleName h x hm] at hx
  simp at hx

/-- What may stand before a binding: nothing, or the constant prefix. -/
def Prefix (p : List Byte) : Prop := p = [] ∨ p = [code 'K']

theorem demangleName_prefix {p : List Byte} (hp : Prefix p) (x : List Byte) :
    demangleName (p ++ x) = demangleName x := by
  rcases hp with rfl | rfl
  · rfl
  · rw [List.singleton_append, demangleName_other _ _ (by decide) (by decide)]
    have : defaultHandler (code 'K') = [] := by decide
    rw [this]
    cases demangleName x <;> simp

theorem prefix_notin {p : List Byte} (hp : Prefix p) {x : Byte} (hx : x ≠ code 'K') : x ∉ p := by
  rcases hp with rfl | rfl <;> simp [hx]

/-- What may follow a binding here: nothing, or a method mark. -/
def MTail (r : List Byte) : Prop := r = [] ∨ ∃ t, r = code 'M' :: t

theorem bindingEnd_eq {a r : List Byte} (ha : code 'M' ∉ a) (hr : MTail r) :
    (findMark (code 'M') (a ++ r)).getD (a ++ r).length = a.length := by
  rcases hr with rfl | ⟨t, rfl⟩
  · rw [List.append_nil, findMark_none ha]; rfl
  · rw [findMark_append ha]; rfl

theorem demangleBinding_mangleBinding {p r v m l : List Byte} (hp : Prefix p) (hr : MTail r)
    (hv : Ordinary v) (hm : Ordinary m) (hl : Ordinary l) (hne : l ≠ []) :
    demangleBinding (p ++ mangleBinding v m l ++ r) = some (v, some m, some l) := by
  have bM : body (code 'M') = false := by decide
  have bV : body (code 'V') = false := by decide
  have bY : body (code 'Y') = false := by decide
  have hvv : demangleName (p ++ mangleName v) = some v := by
    rw [demangleName_prefix hp, demangleName_mangleName]
  have hlen : 0 < (mangleName l).length := by
    rcases Nat.eq_zero_or_pos (mangleName l).length with h | h
    · exact absurd (mangleName_eq_nil (List.length_eq_zero_iff.mp h)) hne
    · exact h
  unfold mangleBinding
  rcases namespace_cases m l with ⟨e, hml⟩ | ⟨e, he⟩ | ⟨a, e, hd, ha⟩
  · rw [e]
    have e1 : p ++ (mangleName v ++ code 'Y' :: (mangleName m ++ code 'V' :: mangleName l)) ++ r =
      (p ++ mangleName v ++ code 'Y' :: (mangleName m ++ code 'V' :: mangleName l)) ++ r := by simp
    have e2 : p ++ (mangleName v ++ code 'Y' :: (mangleName m ++ code 'V' :: mangleName l)) ++ r =
      (p ++ mangleName v ++ code 'Y' :: mangleName m) ++ code 'V' :: (mangleName l ++ r) := by simp
    have e3 : p ++ (mangleName v ++ code 'Y' :: (mangleName m ++ code 'V' :: mangleName l)) ++ r =
      (p ++ mangleName v) ++ code 'Y' :: (mangleName m ++ code 'V' :: (mangleName l ++ r)) := by simp
    have hbe := bindingEnd_eq (a := p ++ mangleName v ++ code 'Y' :: (mangleName m ++ code 'V' :: mangleName l)) (r := r)
      (by
        simp only [List.mem_append, List.mem_cons, not_or]
        exact ⟨⟨prefix_notin hp (by decide), sep_notin bM hv⟩, by decide, sep_notin bM hm, by decide, sep_notin bM hl⟩) hr
    have hV := findMark_append (mark := code 'V') (a := p ++ mangleName v ++ code 'Y' :: mangleName m)
      (b := mangleName l ++ r) (by
        simp only [List.mem_append, List.mem_cons, not_or]
        exact ⟨⟨prefix_notin hp (by decide), sep_notin bV hv⟩, by decide, sep_notin bV hm⟩)
    have hY := findMark_append (mark := code 'Y') (a := p ++ mangleName v)
      (b := mangleName m ++ code 'V' :: (mangleName l ++ r)) (by
        simp only [List.mem_append, not_or]
        exact ⟨prefix_notin hp (by decide), sep_notin bY hv⟩)
    rw [← e1] at hbe
    rw [← e2] at hV
    rw [← e3] at hY
    unfold demangleBinding
    rw [hbe, hV]
    dsimp only
    rw [if_pos (by simp only [List.length_append, List.length_cons, List.length_nil]; omega)]
    simp only [moduleSep, hY]
    rw [if_pos (by simp only [List.length_append, List.length_cons, List.length_nil]; omega)]
    dsimp only
    have t1 : (p ++ (mangleName v ++ code 'Y' :: (mangleName m ++ code 'V' :: mangleName l)) ++ r).take
        (p ++ mangleName v).length = p ++ mangleName v := by
      rw [e3]; exact List.take_left' rfl
    have t2 : ((p ++ (mangleName v ++ code 'Y' :: (mangleName m ++ code 'V' :: mangleName l)) ++ r).take
        (p ++ mangleName v ++ code 'Y' :: mangleName m).length).drop ((p ++ mangleName v).length + 1) = mangleName m := by
      rw [e2, List.take_left' rfl]
      have : p ++ mangleName v ++ code 'Y' :: mangleName m = (p ++ mangleName v ++ [code 'Y']) ++ mangleName m := by simp
      rw [this]
      exact List.drop_left' (by simp only [List.length_append, List.length_cons, List.length_nil])
    have t3 : ((p ++ (mangleName v ++ code 'Y' :: (mangleName m ++ code 'V' :: mangleName l)) ++ r).take
        (p ++ mangleName v ++ code 'Y' :: (mangleName m ++ code 'V' :: mangleName l)).length).drop
          ((p ++ mangleName v ++ code 'Y' :: mangleName m).length + 1) = mangleName l := by
      rw [e1, List.take_left' rfl]
      have : p ++ mangleName v ++ code 'Y' :: (mangleName m ++ code 'V' :: mangleName l) =
        (p ++ mangleName v ++ code 'Y' :: mangleName m ++ [code 'V']) ++ mangleName l := by simp
      rw [this]
      exact List.drop_left' (by simp only [List.length_append, List.length_cons, List.length_nil])
    rw [t1, t2, t3, hvv, demangleName_mangleName, demangleName_mangleName]
    rfl
  · rw [e]
    have e1 : p ++ (mangleName v ++ code 'V' :: mangleName l) ++ r =
      (p ++ mangleName v ++ code 'V' :: mangleName l) ++ r := by simp
    have e2 : p ++ (mangleName v ++ code 'V' :: mangleName l) ++ r =
      (p ++ mangleName v) ++ code 'V' :: (mangleName l ++ r) := by simp
    have hbe := bindingEnd_eq (a := p ++ mangleName v ++ code 'V' :: mangleName l) (r := r)
      (by
        simp only [List.mem_append, List.mem_cons, not_or]
        exact ⟨⟨prefix_notin hp (by decide), sep_notin bM hv⟩, by decide, sep_notin bM hl⟩) hr
    have hV := findMark_append (mark := code 'V') (a := p ++ mangleName v)
      (b := mangleName l ++ r) (by
        simp only [List.mem_append, not_or]
        exact ⟨prefix_notin hp (by decide), sep_notin bV hv⟩)
    have hY : ∀ k, findMark (code 'Y') (p ++ (mangleName v ++ code 'V' :: mangleName l) ++ r) = some k →
        ¬ (p ++ mangleName v).length > k := by
      intro k hk hlt
      simp only [findMark, List.findIdx?_eq_some_iff_getElem] at hk
      obtain ⟨hk1, hk2, -⟩ := hk
      have : code 'Y' ∈ p ++ mangleName v := by
        have h3 : (p ++ (mangleName v ++ code 'V' :: mangleName l) ++ r)[k] = (p ++ mangleName v)[k] := by
          simp only [e2]
          rw [List.getElem_append_left hlt]
        rw [h3] at hk2
        simp only [beq_iff_eq] at hk2
        rw [← hk2]
        exact List.getElem_mem _
      simp only [List.mem_append] at this
      rcases this with h | h
      · exact prefix_notin hp (by decide) h
      · exact sep_notin bY hv h
    rw [← e1] at hbe
    rw [← e2] at hV
    have hms : moduleSep (p ++ (mangleName v ++ code 'V' :: mangleName l) ++ r) (p ++ mangleName v).length = none := by
      unfold moduleSep
      cases hk : findMark (code 'Y') (p ++ (mangleName v ++ code 'V' :: mangleName l) ++ r) with
      | none => rfl
      | some k => dsimp only; rw [if_neg (hY k hk)]
    have hnK : (p ++ (mangleName v ++ code 'V' :: mangleName l) ++ r)[(p ++ mangleName v).length + 1]? ≠ some (code 'K') := by
      have e4 : p ++ (mangleName v ++ code 'V' :: mangleName l) ++ r =
        (p ++ mangleName v ++ [code 'V']) ++ (mangleName l ++ r) := by simp
      rw [e4, List.getElem?_append_right (by simp only [List.length_append, List.length_cons, List.length_nil]; omega), List.getElem?_append_left (by simp only [List.length_append, List.length_cons, List.length_nil]; omega)]
      have hh : (mangleName l)[(p ++ mangleName v).length + 1 - (p ++ mangleName v ++ [code 'V']).length]? = (mangleName l).head? := by
        rw [show (p ++ mangleName v).length + 1 - (p ++ mangleName v ++ [code 'V']).length = 0 by simp only [List.length_append, List.length_cons, List.length_nil]; omega]
        exact List.head?_eq_getElem?.symm
      rw [hh]
      intro hk
      exact mangleName_head l _ hk rfl
    have t1 : (p ++ (mangleName v ++ code 'V' :: mangleName l) ++ r).take
        (p ++ mangleName v).length = p ++ mangleName v := by
      rw [e2]; exact List.take_left' rfl
    have t3 : ((p ++ (mangleName v ++ code 'V' :: mangleName l) ++ r).take
        (p ++ mangleName v ++ code 'V' :: mangleName l).length).drop
          ((p ++ mangleName v).length + 1) = mangleName l := by
      rw [e1, List.take_left' rfl]
      have : p ++ mangleName v ++ code 'V' :: mangleName l =
        (p ++ mangleName v ++ [code 'V']) ++ mangleName l := by simp
      rw [this]
      exact List.drop_left' (by simp only [List.length_append, List.length_cons, List.length_nil])
    unfold demangleBinding
    rw [hbe, hV]
    dsimp only
    rw [if_pos (by simp only [List.length_append, List.length_cons, List.length_nil]; omega), hms]
    dsimp only
    rw [if_neg hnK, t1, t3, hvv, demangleName_mangleName, he]
    rfl
  · rw [e]
    have e1 : p ++ (mangleName v ++ [code 'V', code 'K', a]) ++ r =
      (p ++ mangleName v ++ [code 'V', code 'K', a]) ++ r := by simp
    have e2 : p ++ (mangleName v ++ [code 'V', code 'K', a]) ++ r =
      (p ++ mangleName v) ++ code 'V' :: (code 'K' :: a :: r) := by simp
    have hb := (lookup_dylanModules ha).2
    have hbe := bindingEnd_eq (a := p ++ mangleName v ++ [code 'V', code 'K', a]) (r := r)
      (by
        simp only [List.mem_append, List.mem_cons, not_or, List.not_mem_nil, not_false_eq_true, and_true]
        exact ⟨⟨prefix_notin hp (by decide), sep_notin bM hv⟩, by decide, by decide, by
          rintro rfl; rw [bM] at hb; simp at hb⟩) hr
    have hV := findMark_append (mark := code 'V') (a := p ++ mangleName v)
      (b := code 'K' :: a :: r) (by
        simp only [List.mem_append, not_or]
        exact ⟨prefix_notin hp (by decide), sep_notin bV hv⟩)
    have hY : ∀ k, findMark (code 'Y') (p ++ (mangleName v ++ [code 'V', code 'K', a]) ++ r) = some k →
        ¬ (p ++ mangleName v).length > k := by
      intro k hk hlt
      simp only [findMark, List.findIdx?_eq_some_iff_getElem] at hk
      obtain ⟨hk1, hk2, -⟩ := hk
      have : code 'Y' ∈ p ++ mangleName v := by
        have h3 : (p ++ (mangleName v ++ [code 'V', code 'K', a]) ++ r)[k] = (p ++ mangleName v)[k] := by
          simp only [e2]
          rw [List.getElem_append_left hlt]
        rw [h3] at hk2
        simp only [beq_iff_eq] at hk2
        rw [← hk2]
        exact List.getElem_mem _
      simp only [List.mem_append] at this
      rcases this with h | h
      · exact prefix_notin hp (by decide) h
      · exact sep_notin bY hv h
    rw [← e1] at hbe
    rw [← e2] at hV
    have hms : moduleSep (p ++ (mangleName v ++ [code 'V', code 'K', a]) ++ r) (p ++ mangleName v).length = none := by
      unfold moduleSep
      cases hk : findMark (code 'Y') (p ++ (mangleName v ++ [code 'V', code 'K', a]) ++ r) with
      | none => rfl
      | some k => dsimp only; rw [if_neg (hY k hk)]
    have hK : (p ++ (mangleName v ++ [code 'V', code 'K', a]) ++ r)[(p ++ mangleName v).length + 1]? = some (code 'K') := by
      rw [e2, List.getElem?_append_right (by simp only [List.length_append, List.length_cons, List.length_nil]; omega)]
      simp
    have hA : (p ++ (mangleName v ++ [code 'V', code 'K', a]) ++ r)[(p ++ mangleName v).length + 2]? = some a := by
      rw [e2, List.getElem?_append_right (by simp only [List.length_append, List.length_cons, List.length_nil]; omega)]
      simp
    have t1 : (p ++ (mangleName v ++ [code 'V', code 'K', a]) ++ r).take
        (p ++ mangleName v).length = p ++ mangleName v := by
      rw [e2]; exact List.take_left' rfl
    have hdyl : demangleName dylanName = some dylanName := by decide
    unfold demangleBinding
    rw [hbe, hV]
    dsimp only
    rw [if_pos (by simp only [List.length_append, List.length_cons, List.length_nil]; omega), hms]
    dsimp only
    rw [if_pos hK, hA, t1, hvv, hdyl]
    simp only [Option.bind_eq_bind, Option.bind_some, (lookup_dylanModules ha).1, hd]

end Verif.Mangle
