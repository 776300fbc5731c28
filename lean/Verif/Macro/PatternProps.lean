import Verif.Macro.PatternLemmas

/-
C132: a macro call is matched by a pattern exactly if it is an instance of the pattern, and which instance is taken.
-/

namespace Verif.Macro

/-! ### From patterns as written to their parts -/

/-- `split-at-semicolons` and `split-at-commas` on patterns (pattern-back-end.dylan 771-784, 817-830). -/
def splitAll (sep : Raw → Bool) : List Raw → List (List Raw)
  | [] => [[]]
  | r :: rs =>
    if sep r then [] :: splitAll sep rs
    else
      match splitAll sep rs with
      | p :: ps => (r :: p) :: ps
      | [] => [[r]]

def rawSemicolon : Raw → Bool
  | .semicolon => true
  | _ => false

def rawComma : Raw → Bool
  | .comma => true
  | _ => false

/-- `=>` after `otherwise`. -/
def withoutArrow : List Elem → List Elem
  | .punct .arrow :: es => es
  | es => es

/-- The elements of a part that has no separators in it. -/
def elements : List Raw → List Elem
  | [] => []
  | .elem .otherwise :: rs => .otherwise :: withoutArrow (elements rs)
  | .elem e :: rs => e :: elements rs
  | .nested d body :: rs => .nested d (parts body) :: elements rs
  | .comma :: rs => elements rs
  | .semicolon :: rs => elements rs

theorem splitAll_ne (sep : Raw → Bool) : ∀ rs, ∃ p ps, splitAll sep rs = p :: ps
  | [] => ⟨[], [], rfl⟩
  | r :: rs => by
    obtain ⟨p, ps, e⟩ := splitAll_ne sep rs
    by_cases h : sep r = true
    · exact ⟨[], p :: ps, by simp [splitAll, h, e]⟩
    · exact ⟨r :: p, ps, by simp [splitAll, h, e]⟩

theorem dropArrow_first (p : List Elem) (ps : List (List Elem)) (qs : List (List (List Elem))) :
    dropArrow ((p :: ps) :: qs) = (withoutArrow p :: ps) :: qs := by
  unfold dropArrow
  split
  · rename_i e; simp at e; obtain ⟨⟨rfl, rfl⟩, rfl⟩ := e; rfl
  · rename_i hne
    have : withoutArrow p = p := by
      unfold withoutArrow
      split
      · rename_i es; exact absurd rfl (hne es ps qs)
      · rfl
    rw [this]

/-- C132: a pattern is split at its semicolons, and each part at its commas; separators in brackets belong to the nested
pattern. -/
theorem parts_split : ∀ rs : List Raw,
    parts rs = (splitAll rawSemicolon rs).map fun part => (splitAll rawComma part).map elements := by
  intro rs
  induction rs with
  | nil => simp [parts, splitAll, elements]
  | cons r rs ih =>
    obtain ⟨p, ps, e⟩ := splitAll_ne rawSemicolon rs
    obtain ⟨q, qs, e'⟩ := splitAll_ne rawComma p
    cases r with
    | semicolon => simp [parts, pushRaw, splitAll, rawSemicolon, ih, elements]
    | comma => simp [parts, pushRaw, splitAll, rawSemicolon, rawComma, ih, e, pushComma, elements]
    | nested d body => simp [parts, pushRaw, splitAll, rawSemicolon, rawComma, ih, e, e', pushElem, elements]
    | elem x =>
      by_cases hx : x = .otherwise
      · subst hx
        simp [parts, pushRaw, splitAll, rawSemicolon, rawComma, ih, e, e', pushElem, elements, dropArrow_first]
      · have h1 : parts (.elem x :: rs) = pushElem x (parts rs) := by
          rw [parts, pushRaw]; exact hx
        have h2 : elements (.elem x :: q) = x :: elements q := by
          rw [elements]; exact hx
        simp [h1, splitAll, rawSemicolon, rawComma, ih, e, e', pushElem, h2]

/-! ### Matching -/

/-- C132: what the variables are bound to when a pattern has matched makes the fragments an instance of the pattern. -/
theorem match_sound (P : Parsers) (hP : P.Proper) (p : List (List (List Elem))) (hv : (bodyVars p).Nodup)
    (fs : List Frag) (env : Env) (h : matchPattern P p fs = .ok env) : ReadsBody P env p fs :=
  (body_good P hP p hv).sound h

/-- C132: if a pattern has not matched, the fragments are not an instance of it, whatever the variables stood for. -/
theorem match_complete (P : Parsers) (hP : P.Proper) (p : List (List (List Elem))) (hv : (bodyVars p).Nodup)
    (fs : List Frag) (env : Env) (h : matchPattern P p fs = .fail env) (ρ : Env) : ¬ ReadsBody P ρ p fs :=
  (body_good P hP p hv).complete h ρ

/-- C132: of several instances the one is taken where the first wildcard stands for as few fragments as possible, among
these the one where the second stands for as few as possible, and so on. -/
theorem match_least (P : Parsers) (hP : P.Proper) (p : List (List (List Elem))) (hv : (bodyVars p).Nodup)
    (fs : List Frag) (env : Env) (h : matchPattern P p fs = .ok env) (ρ : Env) (hρ : ReadsBody P ρ p fs) :
    LexLe ((bodyWilds p).map (span env)) ((bodyWilds p).map (span ρ)) :=
  (body_good P hP p hv).least h ρ hρ

/-- C132: only the variables of the pattern are bound. -/
theorem match_binds (P : Parsers) (hP : P.Proper) (p : List (List (List Elem))) (hv : (bodyVars p).Nodup)
    (fs : List Frag) (env : Env) (h : matchPattern P p fs = .ok env) (i : Nat) (hi : i ∉ bodyVars p) : env i = none :=
  (body_good P hP p hv).frameOk h i hi

/-! ### No errors -/

theorem simple_no_crash (P : Parsers) (s : Simple) (hs : s.OneSided) (env : Env) (fs : List Frag) :
    matchSimple P s env fs ≠ .crash := by
  cases s with
  | wild i => simp [matchSimple]
  | splice pre suf i =>
    intro h
    simp only [matchSimple] at h
    cases fs with
    | nil => cases h
    | cons f fs =>
      cases hn : nameOf f with
      | none => simp only [matchSplice, hn] at h; cases h
      | some n =>
        simp only [matchSplice, hn] at h
        cases hc : spliceName pre suf n with
        | none => exact spliceName_crash _ _ _ hs hc
        | some o =>
          rw [hc] at h
          cases o <;> cases h
  | token i => simp only [matchSimple]; cases matchToken fs <;> simp [bindOne]
  | nameVar i => simp only [matchSimple]; cases matchNameVar fs <;> simp [bindOne]
  | symbolVar i => simp only [matchSimple]; cases matchSymbolVar fs <;> simp [bindOne]
  | con c i => simp only [matchSimple]; cases P.con c fs <;> simp [bindOne]

theorem next_no_crash {s : Step} {k : Env → List Frag → Out} (hs : s ≠ .crash) (hk : ∀ env fs, k env fs ≠ .crash) :
    s.next k ≠ .crash := by
  cases s with
  | crash => exact absurd rfl hs
  | fail env => simp [Step.next]
  | ok rest env => exact hk env rest

theorem outNext_no_crash {o : Out} {k : Env → Out} (hs : o ≠ .crash) (hk : ∀ env, k env ≠ .crash) :
    o.next k ≠ .crash := by
  cases o with
  | crash => exact absurd rfl hs
  | fail env => simp [Out.next]
  | ok env => exact hk env

theorem plain_no_crash (env : Env) (o : Option (List Frag)) : plain env o ≠ .crash := by cases o <;> simp [plain]

theorem vari_no_crash (P : Parsers) (n t : Simple) (hn : n.OneSided) (ht : t.OneSided) (env : Env) (fs : List Frag) :
    matchVari P n t env fs ≠ .crash := by
  unfold matchVari
  cases P.vari fs with
  | none => simp
  | some r =>
    obtain ⟨rest, nf, tf⟩ := r
    simp only
    cases h1 : matchSimple P n env [nf] with
    | crash => exact absurd h1 (simple_no_crash P n hn _ _)
    | fail e => simp
    | ok r1 e1 =>
      simp only
      cases h2 : matchSimple P t e1 [tf] with
      | crash => exact absurd h2 (simple_no_crash P t ht _ _)
      | fail e => simp
      | ok r2 e2 => simp

theorem props_no_crash (P : Parsers) (r : Option Nat) (ks : List Key) (env : Env) (fs : List Frag) :
    matchProps P r ks env fs ≠ .crash := by
  unfold matchProps
  split
  · rename_i pl _
    cases bindKeys pl ks (bindRest r pl env) <;> simp
  · simp

theorem wildLoop_no_crash {k : Env → List Frag → Out} (hk : ∀ env fs, k env fs ≠ .crash) (i : Nat) :
    ∀ (fs acc : List Frag) (env : Env), wildLoop k i acc env fs ≠ .crash
  | [], acc, env => by
    unfold wildLoop
    cases h : k env [] with
    | crash => exact absurd h (hk _ _)
    | fail e => simp
    | ok e => simp
  | f :: fs, acc, env => by
    unfold wildLoop
    cases h : k env (f :: fs) with
    | crash => exact absurd h (hk _ _)
    | fail e => exact wildLoop_no_crash hk i fs _ e
    | ok e => simp

theorem parts_no_crash {m k : Env → List Frag → Out} (hm : ∀ env fs, m env fs ≠ .crash)
    (hk : ∀ env fs, k env fs ≠ .crash) (sep : Frag → Bool) (last : Bool) (env : Env) (fs : List Frag) :
    matchParts sep last m k env fs ≠ .crash := by
  unfold matchParts
  split
  · exact outNext_no_crash (hm _ _) (fun env => hk _ _)
  · cases last with
    | true => exact outNext_no_crash (hm _ _) (fun env => hk _ _)
    | false => simp

mutual
theorem body_no_crash (P : Parsers) : ∀ p : List (List (List Elem)), BodyOneSided p →
    ∀ env fs, matchBody P p env fs ≠ .crash
  | [], _, env, fs => by rw [matchBody]; simp
  | p :: ps, h, env, fs => by
    rw [BodyOneSided] at h
    rw [matchBody]
    split
    · exact list_no_crash P p h.1 env fs
    · exact parts_no_crash (list_no_crash P p h.1) (body_no_crash P ps h.2) _ _ _ _
theorem list_no_crash (P : Parsers) : ∀ p : List (List Elem), ListOneSided p →
    ∀ env fs, matchList P p env fs ≠ .crash
  | [], _, env, fs => by rw [matchList]; simp
  | p :: ps, h, env, fs => by
    rw [ListOneSided] at h
    rw [matchList]
    split
    · exact elems_no_crash P p h.1 env fs
    · exact parts_no_crash (elems_no_crash P p h.1) (list_no_crash P ps h.2) _ _ _ _
theorem elems_no_crash (P : Parsers) : ∀ p : List Elem, ElemsOneSided p → ∀ env fs, matchElems P p env fs ≠ .crash
  | [], _, env, fs => by rw [matchElems]; split <;> simp
  | e :: es, h, env, fs => by
    rw [ElemsOneSided] at h
    rw [matchElems]
    exact elem_no_crash P e h.1 _ _ (elems_no_crash P es h.2) env fs
theorem elem_no_crash (P : Parsers) : ∀ e : Elem, ElemOneSided e → ∀ (last : Bool) (k : Env → List Frag → Out),
    (∀ env fs, k env fs ≠ .crash) → ∀ env fs, matchElem P e last k env fs ≠ .crash
  | .word n, _, last, k, hk, env, fs => by rw [matchElem]; exact next_no_crash (plain_no_crash _ _) hk
  | .otherwise, _, last, k, hk, env, fs => by rw [matchElem]; exact next_no_crash (plain_no_crash _ _) hk
  | .operator n, _, last, k, hk, env, fs => by rw [matchElem]; exact next_no_crash (plain_no_crash _ _) hk
  | .punct p, _, last, k, hk, env, fs => by rw [matchElem]; exact next_no_crash (plain_no_crash _ _) hk
  | .lit v, _, last, k, hk, env, fs => by rw [matchElem]; exact next_no_crash (plain_no_crash _ _) hk
  | .simple s, h, last, k, hk, env, fs => by
    rw [ElemOneSided] at h
    cases s with
    | wild i =>
      cases last with
      | true => rw [matchElem]; simp
      | false => rw [matchElem]; exact wildLoop_no_crash hk i _ _ _
    | _ => rw [matchElem] <;> first | exact next_no_crash (simple_no_crash P _ h _ _) hk | simp
  | .vari n t, h, last, k, hk, env, fs => by
    rw [ElemOneSided] at h
    rw [matchElem]; exact next_no_crash (vari_no_crash P n t h.1 h.2 _ _) hk
  | .props r ks, _, last, k, hk, env, fs => by
    rw [matchElem]; exact next_no_crash (props_no_crash P r ks _ _) hk
  | .nested d body, h, last, k, hk, env, fs => by
    rw [ElemOneSided] at h
    rw [matchElem]
    cases matchNested d fs with
    | none => simp
    | some r => exact outNext_no_crash (body_no_crash P body h _ _) (fun env => hk _ _)
end

/-- C132: a call is matched exactly if it is an instance of the pattern - provided that no variable of the pattern is
spliced between a prefix and a suffix. -/
theorem match_iff_partial (P : Parsers) (hP : P.Proper) (p : List (List (List Elem))) (hv : (bodyVars p).Nodup)
    (h1 : BodyOneSided p) (fs : List Frag) :
    (∃ env, matchPattern P p fs = .ok env) ↔ ∃ ρ, ReadsBody P ρ p fs := by
  constructor
  · rintro ⟨env, h⟩; exact ⟨env, match_sound P hP p hv fs env h⟩
  · rintro ⟨ρ, hρ⟩
    cases h : matchPattern P p fs with
    | crash => exact absurd h (body_no_crash P p h1 _ _)
    | fail env => exact absurd hρ (match_complete P hP p hv fs env h ρ)
    | ok env => exact ⟨env, rfl⟩

/-! ### A pattern and calls -/

/-- A parser for the examples: an expression is one fragment, a variable is `name :: type` with one fragment each, a
property list is one keyword with one fragment after it, or nothing. -/
def demo : Parsers where
  con := fun _ fs => match fs with
    | f :: rest => some (rest, .one f)
    | [] => none
  vari := fun fs => match fs with
    | n :: .punct .colonColon :: t :: rest => some (rest, n, t)
    | _ => none
  plist := fun fs => match fs with
    | [] => some ([], [])
    | [.lit (.symbol s), .name v] => some ([], [.lit (.symbol s), .name v])
    | [.lit (.symbol s), .lit (.int n)] => some ([], [.lit (.symbol s), .lit (.int n)])
    | _ => none

theorem demo_proper : demo.Proper := by
  intro fs pl h
  unfold demo at h
  simp only at h
  split at h
  · cases h; exact ⟨[], by simp [Entries], rfl⟩
  · rename_i s v
    cases h; exact ⟨[(s, [.name v])], by simp [Entries], rfl⟩
  · rename_i s v
    cases h; exact ⟨[(s, [.lit (.int v)])], by simp [Entries], rfl⟩
  · cases h

/-- `{ ?a:* in ?b:*, (?c:name; ?d:*) ?e:* }` -/
def demoPattern : List (List (List Elem)) :=
  parts [.elem (.simple (.wild 0)), .elem (.word ['i', 'n']), .elem (.simple (.wild 1)), .comma,
    .nested .paren [.elem (.simple (.nameVar 2)), .semicolon, .elem (.simple (.wild 3))], .elem (.simple (.wild 4))]

/-- `x in in y, (f) z, z` -/
def demoCall : List Frag :=
  [.name ['x'], .name ['I', 'n'], .name ['i', 'n'], .name ['y'], .comma, .nested .paren [.name ['f']], .name ['z'],
    .comma, .name ['z']]

-- the hypotheses of the theorems above hold of this pattern, and it matches this call: the first `in` is the one of the
-- pattern, the semicolon may be missing, and the last part takes what is left, with its comma
example : demo.Proper ∧ (bodyVars demoPattern).Nodup ∧ BodyOneSided demoPattern ∧
    ∃ env, matchPattern demo demoPattern demoCall = .ok env ∧ env 0 = some (.many [.name ['x']]) ∧
      env 1 = some (.many [.name ['i', 'n'], .name ['y']]) ∧ env 2 = some (.one (.name ['f'])) ∧
      env 3 = some (.many []) ∧ env 4 = some (.many [.name ['z'], .comma, .name ['z']]) :=
  ⟨demo_proper, by decide, by simp [demoPattern, parts, pushRaw, pushElem, pushComma, BodyOneSided, ListOneSided,
    ElemsOneSided, ElemOneSided, Simple.OneSided], _, rfl, rfl, rfl, rfl, rfl, rfl⟩

-- there are two instances: the first `in` of the pattern may be either one of the call
example : ReadsElems demo (fun i => if i = 0 then some (.many [.name ['x'], .name ['i', 'n']]) else some (.many []))
    [.simple (.wild 0), .word ['i', 'n'], .simple (.wild 1)] [.name ['x'], .name ['i', 'n'], .name ['i', 'n']] := by
  simp only [ReadsElems, Takes, SimpleTakes, Simple.index]
  refine ⟨_, ⟨_, ⟨[.name ['x'], .name ['i', 'n']], rfl, rfl⟩, rfl⟩, [], ⟨_, ['i', 'n'], rfl, .inl rfl, rfl⟩, [],
    ⟨_, ⟨[], rfl, rfl⟩, rfl⟩, rfl⟩

-- a call that is not an instance
example : ∃ env, matchPattern demo demoPattern [.name ['x'], .comma, .nested .paren []] = .fail env := ⟨_, rfl⟩

/-! ### Where the matcher does not do as it should -/

/-- C132: a name that begins with the prefix and ends with the suffix of a spliced variable, but where these overlap, is
not an instance of the pattern, and yet it is not a failure to match: the compiler gets an error from `copy-sequence`.
Other rules, that might match, are not tried. -/
theorem overlapping_splice_violated (P : Parsers) :
    let p : List (List (List Elem)) := [[[.simple (.splice (some ['a', '-']) (some ['-', 'a']) 0)]]]
    matchPattern P p [.name ['a', '-', 'a']] = .crash ∧ ∀ ρ, ¬ ReadsBody P ρ p [.name ['a', '-', 'a']] := by
  refine ⟨rfl, ?_⟩
  intro ρ h
  simp only [ReadsBody, ReadsList, ReadsElems, Takes, SimpleTakes, ne_eq, not_true_eq_false, false_and, or_false,
    true_and] at h
  obtain ⟨rest, ⟨v, ⟨f, n, core, e, hn, ⟨a, b, e', ha, hb⟩, _⟩, _⟩, _⟩ := h
  cases e
  have : n = ['a', '-', 'a'] := by
    rcases hn with h | h <;> cases h; rfl
  have l1 := ha.length
  have l2 := hb.length
  have l3 := congrArg List.length e'
  rw [this] at l3
  simp only [Option.getD_some, List.length_append, List.length_cons, List.length_nil] at l1 l2 l3
  omega

/-- C132: a variable with the constraint `name` is bound to an operator as well. -/
theorem name_constraint_violated (P : Parsers) (n : Name) (fs : List Frag) (i : Nat) (env : Env) :
    matchSimple P (.nameVar i) env (.operator n :: fs) = .ok fs (env.set i (.one (.operator n))) := rfl

/-- C132: a string in a pattern does not match the same string in a call, unless it is the same object - and the two
are read from different places of the source. -/
theorem string_literal_violated (P : Parsers) (s : List Char) (a b : Nat) (h : a ≠ b) :
    ∃ env, matchPattern P [[[.lit (.string a s)]]] [.lit (.string b s)] = .fail env := by
  refine ⟨Env.empty, ?_⟩
  have hb : Lit.same (.string b s) (.string a s) = false := by
    simp [Lit.same]; exact fun e => h e.symm
  simp [matchPattern, matchBody, matchList, matchElems, matchElem, matchLit, hb, plain, Step.next]

/-- C132: the constraint of a key variable is not looked at: `#key ?k:name` is matched by `k: 1`. -/
theorem key_constraint_violated :
    ∃ env, matchPattern demo [[[.props none [⟨['k'], 0, false, some (.nameVar 0), none⟩]]]]
      [.lit (.symbol ['k']), .lit (.int 1)] = .ok env ∧ env 0 = some (.many [.lit (.int 1)]) ∧
      ∀ v rest, ¬ SimpleTakes demo (.nameVar 0) [.lit (.int 1)] v rest := by
  refine ⟨_, rfl, rfl, ?_⟩
  rintro v rest ⟨f, n, e, hn, _⟩
  cases e
  rcases hn with h | h <;> cases h

end Verif.Macro
