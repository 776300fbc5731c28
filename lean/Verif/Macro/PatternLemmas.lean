import Verif.Macro.PatternSpec
import Mathlib.Tactic.Common

namespace Verif.Macro

theorem sameSymbol_iff (a b : Name) : sameSymbol a b = true ↔ SameName a b := by simp [sameSymbol, SameName]

theorem nameOf_iff (f : Frag) (n : Name) : nameOf f = some n ↔ NameLike f n := by
  cases f <;> simp [nameOf, NameLike]

theorem Env.set_same (env : Env) (i : Nat) (v : Val) : (env.set i v) i = some v := by simp [Env.set]

theorem Env.set_other (env : Env) {i j : Nat} (v : Val) (h : j ≠ i) : (env.set i v) j = env j := by
  simp [Env.set, h]

/-! ### Splitting -/

theorem splitAt_some (sep : Frag → Bool) : ∀ fs a b, splitAt sep fs = (a, some b) ↔
    ∃ s, sep s = true ∧ fs = a ++ s :: b ∧ ∀ f ∈ a, sep f = false
  | [], a, b => by
    simp [splitAt]
  | f :: fs, a, b => by
    unfold splitAt
    by_cases h : sep f = true
    · simp only [h, if_true, Prod.mk.injEq, Option.some.injEq]
      constructor
      · rintro ⟨rfl, rfl⟩; exact ⟨f, h, rfl, by simp⟩
      · rintro ⟨s, hs, e, ha⟩
        cases a with
        | nil => simp at e; exact ⟨rfl, e.2⟩
        | cons x a =>
          simp at e
          have := ha x (by simp)
          rw [← e.1, h] at this; cases this
    · simp only [h, Bool.false_eq_true, if_false, Prod.mk.injEq]
      constructor
      · rintro ⟨rfl, h2⟩
        obtain ⟨s, hs, e, ha⟩ := (splitAt_some sep fs (splitAt sep fs).1 b).1 (by rw [← h2])
        refine ⟨s, hs, by rw [e]; simp [← e], ?_⟩
        intro g hg
        rcases List.mem_cons.1 hg with rfl | hg
        · simpa using h
        · exact ha g hg
      · rintro ⟨s, hs, e, ha⟩
        cases a with
        | nil => simp at e; rw [e.1, hs] at h; exact absurd rfl h
        | cons x a =>
          simp at e
          have := (splitAt_some sep fs a b).2 ⟨s, hs, e.2, fun f hf => ha f (by simp [hf])⟩
          simp [this, e.1]

theorem splitAt_none (sep : Frag → Bool) : ∀ fs a, splitAt sep fs = (a, none) ↔ a = fs ∧ ∀ f ∈ fs, sep f = false
  | [], a => by
    simp only [splitAt, Prod.mk.injEq, and_true, List.not_mem_nil, false_implies, implies_true]
    exact eq_comm
  | f :: fs, a => by
    unfold splitAt
    by_cases h : sep f = true
    · simp [h]
    · simp only [h, Bool.false_eq_true, if_false, Prod.mk.injEq]
      have ih := splitAt_none sep fs (splitAt sep fs).1
      constructor
      · rintro ⟨rfl, h2⟩
        obtain ⟨e, ha⟩ := ih.1 (by rw [← h2])
        refine ⟨by rw [e], ?_⟩
        intro g hg
        rcases List.mem_cons.1 hg with rfl | hg
        · simpa using h
        · exact ha g hg
      · rintro ⟨rfl, ha⟩
        have := (splitAt_none sep fs fs).2 ⟨rfl, fun f hf => ha f (by simp [hf])⟩
        simp [this]

/-- What a test for a separator must be. -/
def IsSep (sep : Frag → Bool) (s : Frag) : Prop := ∀ f, sep f = true ↔ f = s

theorem isSemicolon_sep : IsSep isSemicolon .semicolon := by intro f; cases f <;> simp [isSemicolon]
theorem isComma_sep : IsSep isComma .comma := by intro f; cases f <;> simp [isComma]

theorem IsSep.without {sep : Frag → Bool} {s : Frag} (h : IsSep sep s) (fs : List Frag) :
    (∀ f ∈ fs, sep f = false) ↔ Without s fs := by
  constructor
  · intro hf f hm e
    have := hf f hm
    rw [(h f).2 e] at this; cases this
  · intro hf f hm
    cases hs : sep f with
    | false => rfl
    | true => exact absurd ((h f).1 hs) (hf f hm)

theorem split_some {sep : Frag → Bool} {s : Frag} (h : IsSep sep s) (fs a b : List Frag) :
    splitAt sep fs = (a, some b) ↔ fs = a ++ s :: b ∧ Without s a := by
  rw [splitAt_some]
  constructor
  · rintro ⟨t, ht, e, ha⟩
    rw [(h t).1 ht] at e
    exact ⟨e, (h.without a).1 ha⟩
  · rintro ⟨e, ha⟩
    exact ⟨s, (h s).2 rfl, e, (h.without a).2 ha⟩

theorem split_none {sep : Frag → Bool} {s : Frag} (h : IsSep sep s) (fs a : List Frag) :
    splitAt sep fs = (a, none) ↔ a = fs ∧ Without s fs := by
  rw [splitAt_none, h.without]

/-! ### Spliced names -/

theorem agree_iff : ∀ a b : Name, b.length ≤ a.length → (agree a b = true ↔ SameName (a.take b.length) b)
  | _, [], _ => by simp [agree, SameName, lower]
  | [], b :: bs, h => by simp at h
  | a :: as, b :: bs, h => by
    have ih := agree_iff as bs (by simpa using h)
    simp only [agree, SameName, lower] at ih ⊢
    simp [List.zip_cons_cons, List.all_cons, ih]

theorem matchingPrefix_iff (n p : Name) : matchingPrefix n p = true ↔ ∃ r, n = n.take p.length ++ r ∧
    p.length ≤ n.length ∧ SameName (n.take p.length) p := by
  unfold matchingPrefix
  by_cases h : n.length < p.length
  · simp [h]
    intro r _ h2
    omega
  · rw [if_neg h, agree_iff n p (by omega)]
    constructor
    · intro hs; exact ⟨n.drop p.length, by simp, by omega, hs⟩
    · rintro ⟨_, _, _, hs⟩; exact hs

theorem SameName.length {a b : Name} (h : SameName a b) : a.length = b.length := by
  have := congrArg List.length h
  simpa [lower] using this

theorem SameName.reverse {a b : Name} : SameName a.reverse b.reverse ↔ SameName a b := by
  simp [SameName, lower, List.map_reverse]

theorem startPos_iff (n : Name) (pre : Option Name) (s : Nat) : startPos n pre = some s ↔
    s = (pre.getD []).length ∧ s ≤ n.length ∧ SameName (n.take s) (pre.getD []) := by
  cases pre with
  | none =>
    simp only [startPos, Option.some.injEq, Option.getD_none, List.length_nil]
    constructor
    · rintro rfl; exact ⟨rfl, Nat.zero_le _, by simp [SameName]⟩
    · rintro ⟨rfl, _⟩; rfl
  | some p =>
    simp only [startPos, Option.getD_some]
    by_cases h : matchingPrefix n p = true
    · obtain ⟨r, _, hl, hs⟩ := (matchingPrefix_iff n p).1 h
      simp only [h, if_true, Option.some.injEq]
      constructor
      · rintro rfl; exact ⟨rfl, hl, hs⟩
      · rintro ⟨rfl, _, _⟩; rfl
    · simp only [h, Bool.false_eq_true, if_false]
      constructor
      · intro h; cases h
      · rintro ⟨rfl, hl, hs⟩
        exact absurd ((matchingPrefix_iff n p).2 ⟨n.drop p.length, by simp, hl, hs⟩) h

theorem matchingSuffix_iff (n p : Name) : matchingSuffix n p = true ↔
    p.length ≤ n.length ∧ SameName (n.drop (n.length - p.length)) p := by
  unfold matchingSuffix
  by_cases h : n.length < p.length
  · simp [h]; intro h2; omega
  · rw [if_neg h, agree_iff n.reverse p.reverse (by simp; omega)]
    have e : n.reverse.take p.reverse.length = (n.drop (n.length - p.length)).reverse := by
      rw [List.reverse_drop, List.length_reverse]
      congr 1
      omega
    rw [e, SameName.reverse]
    constructor
    · intro hs; exact ⟨by omega, hs⟩
    · exact fun hs => hs.2

theorem endPos_iff (n : Name) (suf : Option Name) (e : Nat) : endPos n suf = some e ↔
    e + (suf.getD []).length = n.length ∧ SameName (n.drop e) (suf.getD []) := by
  cases suf with
  | none =>
    simp only [endPos, Option.some.injEq, Option.getD_none, List.length_nil, Nat.add_zero]
    constructor
    · rintro rfl; simp [SameName]
    · rintro ⟨rfl, _⟩; rfl
  | some p =>
    simp only [endPos, Option.getD_some]
    by_cases h : matchingSuffix n p = true
    · obtain ⟨hl, hs⟩ := (matchingSuffix_iff n p).1 h
      simp only [h, if_true, Option.some.injEq]
      constructor
      · rintro rfl; exact ⟨by omega, hs⟩
      · rintro ⟨e, _⟩; omega
    · simp only [h, Bool.false_eq_true, if_false]
      constructor
      · intro h; cases h
      · rintro ⟨he, hs⟩
        refine absurd ((matchingSuffix_iff n p).2 ⟨by omega, ?_⟩) h
        have : n.length - p.length = e := by omega
        rw [this]; exact hs

/-- A name that is prefix, core and suffix is recognised, and only such a name. -/
theorem spliceName_some (pre suf : Option Name) (n core : Name) :
    spliceName pre suf n = some (some core) ↔ Spliced pre suf core n := by
  constructor
  · intro h
    unfold spliceName at h
    cases hs : startPos n pre with
    | none => rw [hs] at h; simp at h
    | some s =>
      rw [hs] at h
      cases he : endPos n suf with
      | none => rw [he] at h; simp at h
      | some e =>
        rw [he] at h
        by_cases hle : s ≤ e
        · simp only [hle, if_true, Option.some.injEq] at h
          obtain ⟨h1, h2, h3⟩ := (startPos_iff n pre s).1 hs
          obtain ⟨h4, h5⟩ := (endPos_iff n suf e).1 he
          refine ⟨n.take s, n.drop e, ?_, h3, h5⟩
          rw [← h]
          have : n.take s = (n.take e).take s := by rw [List.take_take, Nat.min_eq_left hle]
          rw [this, List.take_append_drop, List.take_append_drop]
        · simp [hle] at h
  · rintro ⟨a, b, rfl, ha, hb⟩
    have h1 : startPos (a ++ core ++ b) pre = some a.length := by
      rw [startPos_iff]
      refine ⟨ha.length, by simp only [List.length_append]; omega, ?_⟩
      rw [List.append_assoc, List.take_left']
      · exact ha
      · rfl
    have h2 : endPos (a ++ core ++ b) suf = some (a ++ core).length := by
      rw [endPos_iff]
      refine ⟨by rw [← hb.length]; simp only [List.length_append], ?_⟩
      rw [List.drop_left']
      · exact hb
      · rfl
    have h3 : (a ++ core ++ b).take (a ++ core).length = a ++ core := List.take_left' rfl
    simp only [spliceName, h1, h2, h3]
    simp

/-- With a prefix or a suffix, but not both, the name is cut without error. -/
theorem spliceName_crash (pre suf : Option Name) (n : Name) (h : pre = none ∨ suf = none) :
    spliceName pre suf n ≠ none := by
  intro hc
  unfold spliceName at hc
  cases hs : startPos n pre with
  | none => rw [hs] at hc; simp at hc
  | some s =>
    rw [hs] at hc
    cases he : endPos n suf with
    | none => rw [he] at hc; simp at hc
    | some e =>
      rw [he] at hc
      obtain ⟨h1, h2, _⟩ := (startPos_iff n pre s).1 hs
      obtain ⟨h4, _⟩ := (endPos_iff n suf e).1 he
      have : s ≤ e := by
        rcases h with rfl | rfl
        · simp at h1; omega
        · simp at h4; omega
      simp [this] at hc

/-! ### Steps -/

/-- What a matcher of a single element does: `T` is what it should recognise, `vs` the variables it may bind. -/
structure StepGood (vs : List Nat) (m : Env → List Frag → Step) (T : Env → List Frag → List Frag → Prop) : Prop where
  frameOk : ∀ {env fs rest env'}, m env fs = .ok rest env' → ∀ j, j ∉ vs → env' j = env j
  frameFail : ∀ {env fs env'}, m env fs = .fail env' → ∀ j, j ∉ vs → env' j = env j
  sound : ∀ {env fs rest env'}, m env fs = .ok rest env' → T env' fs rest
  complete : ∀ {env fs env'}, m env fs = .fail env' → ∀ ρ rest, ¬ T ρ fs rest
  congr : ∀ {ρ ρ' fs rest}, (∀ j ∈ vs, ρ j = ρ' j) → T ρ fs rest → T ρ' fs rest
  det : ∀ {ρ ρ' fs rest rest'}, T ρ fs rest → T ρ' fs rest' → rest = rest'

/-- What a matcher of all the fragments does: `R` is what it should recognise, `vs` the variables it may bind, `ws` the
wildcards among them. -/
structure Good (vs ws : List Nat) (m : Env → List Frag → Out) (R : Env → List Frag → Prop) : Prop where
  frameOk : ∀ {env fs env'}, m env fs = .ok env' → ∀ j, j ∉ vs → env' j = env j
  frameFail : ∀ {env fs env'}, m env fs = .fail env' → ∀ j, j ∉ vs → env' j = env j
  sound : ∀ {env fs env'}, m env fs = .ok env' → R env' fs
  complete : ∀ {env fs env'}, m env fs = .fail env' → ∀ ρ, ¬ R ρ fs
  congr : ∀ {ρ ρ' fs}, (∀ j ∈ vs, ρ j = ρ' j) → R ρ fs → R ρ' fs
  wilds : ∀ i ∈ ws, i ∈ vs
  least : ∀ {env fs env'}, m env fs = .ok env' → ∀ ρ, R ρ fs → LexLe (ws.map (span env')) (ws.map (span ρ))

theorem LexLe.refl : ∀ l, LexLe l l
  | [] => .nil
  | _ :: l => .same (LexLe.refl l)

theorem LexLe.append {a b c d : List Nat} (h : LexLe a b) (h2 : LexLe c d) : LexLe (a ++ c) (b ++ d) := by
  induction h with
  | nil => exact h2
  | less h => exact .less h
  | same _ ih => exact .same ih

theorem Good.next {vs us ws : List Nat} {m : Env → List Frag → Step} {T : Env → List Frag → List Frag → Prop}
    {k : Env → List Frag → Out} {R : Env → List Frag → Prop} (hm : StepGood vs m T) (hk : Good us ws k R)
    (hd : ∀ j ∈ vs, j ∉ us) :
    Good (vs ++ us) ws (fun env fs => (m env fs).next k) (fun ρ fs => ∃ rest, T ρ fs rest ∧ R ρ rest) := by
  constructor
  · intro env fs env' h j hj
    simp only [List.mem_append, not_or] at hj
    cases e : m env fs with
    | crash => rw [e] at h; cases h
    | fail e1 => rw [e] at h; cases h
    | ok rest e1 =>
      rw [e] at h
      rw [hk.frameOk h j hj.2, hm.frameOk e j hj.1]
  · intro env fs env' h j hj
    simp only [List.mem_append, not_or] at hj
    cases e : m env fs with
    | crash => rw [e] at h; cases h
    | fail e1 => rw [e] at h; cases h; exact hm.frameFail e j hj.1
    | ok rest e1 =>
      rw [e] at h
      rw [hk.frameFail h j hj.2, hm.frameOk e j hj.1]
  · intro env fs env' h
    cases e : m env fs with
    | crash => rw [e] at h; cases h
    | fail e1 => rw [e] at h; cases h
    | ok rest e1 =>
      rw [e] at h
      exact ⟨rest, hm.congr (fun j hj => (hk.frameOk h j (hd j hj)).symm) (hm.sound e), hk.sound h⟩
  · rintro env fs env' h ρ ⟨rest, h1, h2⟩
    cases e : m env fs with
    | crash => rw [e] at h; cases h
    | fail e1 => exact hm.complete e ρ rest h1
    | ok rest' e1 =>
      rw [e] at h
      have := hm.det (hm.sound e) h1
      subst this
      exact hk.complete h ρ h2
  · rintro ρ ρ' fs h ⟨rest, h1, h2⟩
    exact ⟨rest, hm.congr (fun j hj => h j (by simp [hj])) h1, hk.congr (fun j hj => h j (by simp [hj])) h2⟩
  · intro i hi; simp [hk.wilds i hi]
  · rintro env fs env' h ρ ⟨rest, h1, h2⟩
    cases e : m env fs with
    | crash => rw [e] at h; cases h
    | fail e1 => rw [e] at h; cases h
    | ok rest' e1 =>
      rw [e] at h
      have := hm.det (hm.sound e) h1
      subst this
      exact hk.least h ρ h2

/-- A matcher that binds nothing. -/
theorem plain_good {f : List Frag → Option (List Frag)} {T : List Frag → List Frag → Prop}
    (h : ∀ fs rest, f fs = some rest ↔ T fs rest) :
    StepGood [] (fun env fs => plain env (f fs)) (fun _ fs rest => T fs rest) := by
  constructor
  · intro env fs rest env' e
    cases hf : f fs with
    | none => rw [hf] at e; cases e
    | some r => rw [hf] at e; cases e; intro _ _; rfl
  · intro env fs env' e
    cases hf : f fs with
    | none => rw [hf] at e; cases e; intro _ _; rfl
    | some r => rw [hf] at e; cases e
  · intro env fs rest env' e
    cases hf : f fs with
    | none => rw [hf] at e; cases e
    | some r => rw [hf] at e; cases e; exact (h _ _).1 hf
  · intro env fs env' e _ rest ht
    rw [(h _ _).2 ht] at e; cases e
  · intro _ _ fs rest _ ht; exact ht
  · intro _ _ fs rest rest' h1 h2
    have := (h _ _).2 h1
    rw [(h _ _).2 h2] at this
    exact (Option.some.inj this).symm

/-- A matcher that binds one variable to what it recognises. -/
theorem bind_good {i : Nat} {f : List Frag → Option (List Frag × Val)} {T : List Frag → Val → List Frag → Prop}
    (h : ∀ fs v rest, f fs = some (rest, v) ↔ T fs v rest) :
    StepGood [i] (fun env fs => bindOne env i (f fs)) (fun ρ fs rest => ∃ v, T fs v rest ∧ ρ i = some v) := by
  constructor
  · intro env fs rest env' e j hj
    cases hf : f fs with
    | none => rw [hf] at e; cases e
    | some r => rw [hf] at e; cases e; exact Env.set_other _ _ (by simpa using hj)
  · intro env fs env' e
    cases hf : f fs with
    | none => rw [hf] at e; cases e; intro _ _; rfl
    | some r => rw [hf] at e; cases e
  · intro env fs rest env' e
    cases hf : f fs with
    | none => rw [hf] at e; cases e
    | some r =>
      obtain ⟨r, v⟩ := r
      rw [hf] at e; cases e; exact ⟨v, (h _ _ _).1 hf, Env.set_same _ _ _⟩
  · rintro env fs env' e ρ rest ⟨v, ht, _⟩
    rw [(h _ _ _).2 ht] at e; cases e
  · rintro ρ ρ' fs rest hj ⟨v, ht, hv⟩; exact ⟨v, ht, by rw [← hj i (by simp)]; exact hv⟩
  · rintro _ _ fs rest rest' ⟨v, h1, _⟩ ⟨v', h2, _⟩
    have := (h _ _ _).2 h1
    rw [(h _ _ _).2 h2] at this
    exact (Prod.mk.inj (Option.some.inj this)).1.symm

theorem matchName_iff (n : Name) (fs rest : List Frag) : matchName n fs = some rest ↔
    ∃ f m, fs = f :: rest ∧ NameLike f m ∧ SameName m n := by
  cases fs with
  | nil => simp [matchName]
  | cons f fs =>
    unfold matchName
    cases hn : nameOf f with
    | none =>
      simp only [hn, reduceCtorEq, false_iff]
      rintro ⟨g, m, e, hg, _⟩
      cases e
      rw [(nameOf_iff _ _).2 hg] at hn; cases hn
    | some m =>
      by_cases hs : sameSymbol m n = true
      · simp only [hn, hs, if_true, Option.some.injEq]
        constructor
        · rintro rfl; exact ⟨f, m, rfl, (nameOf_iff _ _).1 hn, (sameSymbol_iff _ _).1 hs⟩
        · rintro ⟨g, m', e, _⟩; cases e; rfl
      · simp only [hn, hs, Bool.false_eq_true, if_false, reduceCtorEq, false_iff]
        rintro ⟨g, m', e, hg, hm⟩
        cases e
        rw [(nameOf_iff _ _).2 hg] at hn
        cases hn
        exact hs ((sameSymbol_iff _ _).2 hm)

theorem skipArrow_eq (fs : List Frag) : (∃ r, fs = .punct .arrow :: r ∧ skipArrow fs = r) ∨
    ((∀ r, fs ≠ .punct .arrow :: r) ∧ skipArrow fs = fs) := by
  cases fs with
  | nil => right; simp [skipArrow]
  | cons f fs =>
    by_cases h : f = .punct .arrow
    · subst h; left; exact ⟨fs, rfl, rfl⟩
    · right
      refine ⟨by intro r hr; simp at hr; exact h hr.1, ?_⟩
      unfold skipArrow
      split
      · rename_i e; simp at e; exact absurd e.1 h
      · rfl

theorem matchOtherwise_iff (fs rest : List Frag) : matchOtherwise fs = some rest ↔
    ∃ f m, NameLike f m ∧ SameName m otherwiseName ∧
      (fs = f :: .punct .arrow :: rest ∨ fs = f :: rest ∧ ∀ r, rest ≠ .punct .arrow :: r) := by
  unfold matchOtherwise
  rw [Option.map_eq_some_iff]
  constructor
  · rintro ⟨r, h, e⟩
    obtain ⟨f, m, rfl, h1, h2⟩ := (matchName_iff _ _ _).1 h
    refine ⟨f, m, h1, h2, ?_⟩
    rcases skipArrow_eq r with ⟨r', rfl, e'⟩ | ⟨h3, e'⟩
    · left; rw [← e, e']
    · right; rw [e'] at e; subst e; exact ⟨rfl, h3⟩
  · rintro ⟨f, m, h1, h2, rfl | ⟨rfl, h3⟩⟩
    · exact ⟨_, (matchName_iff _ _ _).2 ⟨f, m, rfl, h1, h2⟩, rfl⟩
    · refine ⟨rest, (matchName_iff _ _ _).2 ⟨f, m, rfl, h1, h2⟩, ?_⟩
      rcases skipArrow_eq rest with ⟨r', rfl, e'⟩ | ⟨_, e'⟩
      · exact absurd rfl (h3 r')
      · exact e'

theorem matchOperator_iff (n : Name) (fs rest : List Frag) : matchOperator n fs = some rest ↔
    ∃ m, fs = .operator m :: rest ∧ SameName m n := by
  unfold matchOperator
  split
  · rename_i m fs'
    by_cases hs : sameSymbol m n = true
    · simp only [hs, if_true, Option.some.injEq]
      constructor
      · rintro rfl; exact ⟨m, rfl, (sameSymbol_iff _ _).1 hs⟩
      · rintro ⟨m', e, _⟩; cases e; rfl
    · simp only [hs, Bool.false_eq_true, if_false, reduceCtorEq, false_iff]
      rintro ⟨m', e, h⟩; cases e; exact hs ((sameSymbol_iff _ _).2 h)
  · rename_i hne
    simp only [reduceCtorEq, false_iff]
    rintro ⟨m', e, h⟩; exact hne _ _ e

theorem matchPunct_iff (p : Punct) (fs rest : List Frag) : matchPunct p fs = some rest ↔ fs = .punct p :: rest := by
  unfold matchPunct
  split
  · rename_i q fs'
    by_cases hs : q = p
    · subst hs; simp
    · simp [hs]
  · rename_i hne
    simp only [reduceCtorEq, false_iff]
    intro e; exact hne _ _ e

theorem matchLit_iff (v : Lit) (fs rest : List Frag) : matchLit v fs = some rest ↔
    ∃ w, fs = .lit w :: rest ∧ w.same v = true := by
  unfold matchLit
  split
  · rename_i w fs'
    by_cases hs : w.same v = true
    · simp only [hs, if_true, Option.some.injEq]
      constructor
      · rintro rfl; exact ⟨w, rfl, hs⟩
      · rintro ⟨m', e, _⟩; cases e; rfl
    · simp only [hs, Bool.false_eq_true, if_false, reduceCtorEq, false_iff]
      rintro ⟨m', e, h⟩; cases e; exact hs h
  · rename_i hne
    simp only [reduceCtorEq, false_iff]
    rintro ⟨m', e, h⟩; exact hne _ _ e

theorem matchToken_iff (fs : List Frag) (v : Val) (rest : List Frag) : matchToken fs = some (rest, v) ↔
    ∃ f, fs = f :: rest ∧ isElementary f = true ∧ v = .one f := by
  cases fs with
  | nil => simp [matchToken]
  | cons f fs =>
    unfold matchToken
    by_cases h : isElementary f = true
    · simp only [h, if_true, Option.some.injEq, Prod.mk.injEq]
      constructor
      · rintro ⟨rfl, rfl⟩; exact ⟨f, rfl, h, rfl⟩
      · rintro ⟨g, e, _, rfl⟩; cases e; exact ⟨rfl, rfl⟩
    · simp only [h, Bool.false_eq_true, if_false, reduceCtorEq, false_iff]
      rintro ⟨g, e, hg, _⟩; cases e; exact h hg

theorem matchNameVar_iff (fs : List Frag) (v : Val) (rest : List Frag) : matchNameVar fs = some (rest, v) ↔
    ∃ f n, fs = f :: rest ∧ NameLike f n ∧ v = .one f := by
  cases fs with
  | nil => simp [matchNameVar]
  | cons f fs =>
    unfold matchNameVar
    cases hn : nameOf f with
    | none =>
      simp only [hn, Option.isSome_none, Bool.false_eq_true, if_false, reduceCtorEq, false_iff]
      rintro ⟨g, m, e, hg, _⟩
      cases e
      rw [(nameOf_iff _ _).2 hg] at hn; cases hn
    | some m =>
      simp only [hn, Option.isSome_some, if_true, Option.some.injEq, Prod.mk.injEq]
      constructor
      · rintro ⟨rfl, rfl⟩; exact ⟨f, m, rfl, (nameOf_iff _ _).1 hn, rfl⟩
      · rintro ⟨g, _, e, _, rfl⟩; cases e; exact ⟨rfl, rfl⟩

theorem matchSymbolVar_iff (fs : List Frag) (v : Val) (rest : List Frag) : matchSymbolVar fs = some (rest, v) ↔
    ∃ s, fs = .lit (.symbol s) :: rest ∧ v = .one (.lit (.symbol s)) := by
  unfold matchSymbolVar
  split
  · rename_i s fs'
    simp only [Option.some.injEq, Prod.mk.injEq]
    constructor
    · rintro ⟨rfl, rfl⟩; exact ⟨s, rfl, rfl⟩
    · rintro ⟨g, e, rfl⟩; cases e; exact ⟨rfl, rfl⟩
  · rename_i hne
    simp only [reduceCtorEq, false_iff]
    rintro ⟨s, e, _⟩; exact hne _ _ e

/-- The name of a spliced variable is cut out of the first fragment. -/
theorem splice_good (P : Parsers) (pre suf : Option Name) (i : Nat) :
    StepGood [i] (fun env fs => matchSplice pre suf i env fs)
      (fun ρ fs rest => ∃ v, SimpleTakes P (.splice pre suf i) fs v rest ∧ ρ i = some v) := by
  have key : ∀ env fs, (∃ rest core, matchSplice pre suf i env fs = .ok rest (env.set i (.one (.name core))) ∧
      SimpleTakes P (.splice pre suf i) fs (.one (.name core)) rest) ∨
      (matchSplice pre suf i env fs = .fail env ∧ ∀ v rest, ¬ SimpleTakes P (.splice pre suf i) fs v rest) ∨
      matchSplice pre suf i env fs = .crash := by
    intro env fs
    cases fs with
    | nil => right; left; exact ⟨rfl, by rintro v rest ⟨f, n, core, e, _⟩; cases e⟩
    | cons f fs =>
      cases hn : nameOf f with
      | none =>
        right; left
        refine ⟨by simp only [matchSplice, hn], ?_⟩
        rintro v rest ⟨g, n, core, e, hg, _⟩
        cases e
        rw [(nameOf_iff _ _).2 hg] at hn; cases hn
      | some n =>
        cases hs : spliceName pre suf n with
        | none => right; right; simp only [matchSplice, hn, hs]
        | some o =>
          cases o with
          | none =>
            right; left
            refine ⟨by simp only [matchSplice, hn, hs], ?_⟩
            rintro v rest ⟨g, n', core, e, hg, hsp, _⟩
            cases e
            rw [(nameOf_iff _ _).2 hg] at hn; cases hn
            rw [(spliceName_some _ _ _ _).2 hsp] at hs; cases hs
          | some core =>
            left
            exact ⟨fs, core, by simp only [matchSplice, hn, hs], f, n, core, rfl, (nameOf_iff _ _).1 hn,
              (spliceName_some _ _ _ _).1 hs, rfl⟩
  constructor
  · intro env fs rest env' e j hj
    rcases key env fs with ⟨r, c, h, _⟩ | ⟨h, _⟩ | h <;> rw [h] at e <;> cases e
    exact Env.set_other _ _ (by simpa using hj)
  · intro env fs env' e j hj
    rcases key env fs with ⟨r, c, h, _⟩ | ⟨h, _⟩ | h <;> rw [h] at e <;> cases e
    rfl
  · intro env fs rest env' e
    rcases key env fs with ⟨r, c, h, ht⟩ | ⟨h, _⟩ | h <;> rw [h] at e <;> cases e
    exact ⟨_, ht, Env.set_same _ _ _⟩
  · rintro env fs env' e ρ rest ⟨v, ht, _⟩
    rcases key env fs with ⟨r, c, h, _⟩ | ⟨h, hn⟩ | h <;> rw [h] at e <;> cases e
    exact hn _ _ ht
  · rintro ρ ρ' fs rest hj ⟨v, ht, hv⟩; exact ⟨v, ht, by rw [← hj i (by simp)]; exact hv⟩
  · rintro _ _ fs rest rest' ⟨v, ⟨f, n, c, e, _⟩, _⟩ ⟨v', ⟨f', n', c', e', _⟩, _⟩
    rw [e] at e'; cases e'; rfl

/-- A variable that is not a wildcard. -/
theorem simple_good (P : Parsers) (s : Simple) (hw : ∀ i, s ≠ .wild i) :
    StepGood [s.index] (fun env fs => matchSimple P s env fs)
      (fun ρ fs rest => ∃ v, SimpleTakes P s fs v rest ∧ ρ s.index = some v) := by
  cases s with
  | wild i => exact absurd rfl (hw i)
  | token i => exact bind_good matchToken_iff
  | nameVar i => exact bind_good matchNameVar_iff
  | symbolVar i => exact bind_good matchSymbolVar_iff
  | con c i => exact bind_good (T := fun fs v rest => P.con c fs = some (rest, v)) (fun fs v rest => Iff.rfl)
  | splice pre suf i => exact splice_good P pre suf i

/-- A variable of a `name :: type` pattern. -/
theorem simpleIs_cases (P : Parsers) (s : Simple) (f : Frag) (env : Env) :
    (∃ rest v, matchSimple P s env [f] = .ok rest (env.set s.index v) ∧ SimpleIs P s f v) ∨
    (∃ env', matchSimple P s env [f] = .fail env' ∧ (∀ j, j ≠ s.index → env' j = env j) ∧ ∀ v, ¬ SimpleIs P s f v) ∨
    matchSimple P s env [f] = .crash := by
  by_cases hw : ∃ i, s = .wild i
  · obtain ⟨i, rfl⟩ := hw
    left; exact ⟨[], .many [f], rfl, rfl⟩
  · have hg := simple_good P s (fun i h => hw ⟨i, h⟩)
    have hi : ∀ v, SimpleIs P s f v ↔ ∃ rest, SimpleTakes P s [f] v rest := by
      intro v
      cases s with
      | wild i => exact absurd ⟨i, rfl⟩ hw
      | _ => exact Iff.rfl
    cases e : matchSimple P s env [f] with
    | crash => right; right; rfl
    | fail env' =>
      right; left
      refine ⟨env', rfl, fun j hj => hg.frameFail e j (by simpa using hj), ?_⟩
      intro v hv
      obtain ⟨rest, hr⟩ := (hi v).1 hv
      exact hg.complete e (env.set s.index v) rest ⟨v, hr, Env.set_same _ _ _⟩
    | ok rest env' =>
      left
      obtain ⟨v, hv, hs⟩ := hg.sound e
      refine ⟨rest, v, ?_, (hi v).2 ⟨rest, hv⟩⟩
      congr 1
      funext j
      by_cases hj : j = s.index
      · rw [hj, hs, Env.set_same]
      · rw [Env.set_other _ _ hj]; exact hg.frameOk e j (by simpa using hj)

theorem vari_good (P : Parsers) (n t : Simple) (hnt : n.index ≠ t.index) :
    StepGood [n.index, t.index] (fun env fs => matchVari P n t env fs) (fun ρ fs rest =>
      ∃ nf tf v w, P.vari fs = some (rest, nf, tf) ∧ SimpleIs P n nf v ∧ SimpleIs P t tf w ∧
        ρ n.index = some v ∧ ρ t.index = some w) := by
  have key : ∀ env fs,
      (∃ rest nf tf v w, matchVari P n t env fs = .ok rest ((env.set n.index v).set t.index w) ∧
        P.vari fs = some (rest, nf, tf) ∧ SimpleIs P n nf v ∧ SimpleIs P t tf w) ∨
      (∃ env', matchVari P n t env fs = .fail env' ∧ (∀ j, j ∉ [n.index, t.index] → env' j = env j) ∧
        ∀ rest nf tf v w, P.vari fs = some (rest, nf, tf) → SimpleIs P n nf v → SimpleIs P t tf w → False) ∨
      matchVari P n t env fs = .crash := by
    intro env fs
    unfold matchVari
    cases hp : P.vari fs with
    | none =>
      right; left
      exact ⟨env, rfl, fun _ _ => rfl, by intro rest nf tf v w h; cases h⟩
    | some r =>
      obtain ⟨rest, nf, tf⟩ := r
      simp only
      rcases simpleIs_cases P n nf env with ⟨r1, v, e1, h1⟩ | ⟨env1, e1, f1, h1⟩ | e1
      · rw [e1]
        simp only
        rcases simpleIs_cases P t tf (env.set n.index v) with ⟨r2, w, e2, h2⟩ | ⟨env2, e2, f2, h2⟩ | e2
        · rw [e2]; left; exact ⟨rest, nf, tf, v, w, rfl, rfl, h1, h2⟩
        · rw [e2]
          right; left
          refine ⟨env2, rfl, ?_, ?_⟩
          · intro j hj
            simp at hj
            rw [f2 j hj.2, Env.set_other _ _ hj.1]
          · intro rest' nf' tf' v' w' he _ hw
            cases he
            exact h2 _ hw
        · rw [e2]; right; right; rfl
      · rw [e1]
        right; left
        refine ⟨env1, rfl, ?_, ?_⟩
        · intro j hj; simp at hj; exact f1 j hj.1
        · intro rest' nf' tf' v' w' he hv _
          cases he
          exact h1 _ hv
      · rw [e1]; right; right; rfl
  constructor
  · intro env fs rest env' e j hj
    rcases key env fs with ⟨r, nf, tf, v, w, h, _⟩ | ⟨env1, h, _⟩ | h <;> rw [h] at e <;> cases e
    simp at hj
    rw [Env.set_other _ _ hj.2, Env.set_other _ _ hj.1]
  · intro env fs env' e j hj
    rcases key env fs with ⟨r, nf, tf, v, w, h, _⟩ | ⟨env1, h, hf, _⟩ | h <;> rw [h] at e <;> cases e
    exact hf j hj
  · intro env fs rest env' e
    rcases key env fs with ⟨r, nf, tf, v, w, h, h1, h2, h3⟩ | ⟨env1, h, hf, _⟩ | h <;> rw [h] at e <;> cases e
    exact ⟨nf, tf, v, w, h1, h2, h3, by rw [Env.set_other _ _ hnt, Env.set_same], Env.set_same _ _ _⟩
  · rintro env fs env' e ρ rest ⟨nf, tf, v, w, h1, h2, h3, _⟩
    rcases key env fs with ⟨r, _, _, _, _, h, _⟩ | ⟨env1, h, _, hn⟩ | h <;> rw [h] at e <;> cases e
    exact hn _ _ _ _ _ h1 h2 h3
  · rintro ρ ρ' fs rest hj ⟨nf, tf, v, w, h1, h2, h3, h4, h5⟩
    exact ⟨nf, tf, v, w, h1, h2, h3, by rw [← hj _ (by simp)]; exact h4, by rw [← hj _ (by simp)]; exact h5⟩
  · rintro _ _ fs rest rest' ⟨nf, tf, v, w, h1, _⟩ ⟨nf', tf', v', w', h1', _⟩
    rw [h1] at h1'; cases h1'; rfl

/-! ### Property lists -/

theorem written_cons (k : Name) (v : List Frag) (e : Name × List Frag) (es : List (Name × List Frag)) :
    written ((k, v) :: e :: es) = .lit (.symbol k) :: (v ++ .comma :: written (e :: es)) := rfl

theorem splitComma_value {v : List Frag} (hv : ∀ f ∈ v, f ≠ .comma) (r : List Frag) :
    splitAt isComma (v ++ .comma :: r) = (v, some r) := (split_some isComma_sep _ _ _).2 ⟨rfl, hv⟩

theorem splitComma_last {v : List Frag} (hv : ∀ f ∈ v, f ≠ .comma) : splitAt isComma v = (v, none) :=
  (split_none isComma_sep _ _).2 ⟨rfl, hv⟩

theorem isComma_false {f : Frag} (h : f ≠ .comma) : isComma f = false := by
  cases hc : isComma f with
  | false => rfl
  | true => exact absurd ((isComma_sep f).1 hc) h

theorem plistElement_skip (s : Name) : ∀ {v : List Frag}, (∀ f ∈ v, f ≠ .comma) → ∀ r,
    plistElement s false (v ++ .comma :: r) = plistElement s true r
  | [], _, r => by simp [plistElement, isComma]
  | f :: v, h, r => by
    simp only [List.cons_append, plistElement, isComma_false (h f (by simp))]
    exact plistElement_skip s (fun g hg => h g (by simp [hg])) r

theorem plistElement_end (s : Name) : ∀ {v : List Frag}, (∀ f ∈ v, f ≠ .comma) → plistElement s false v = none
  | [], _ => rfl
  | f :: v, h => by
    simp only [plistElement, isComma_false (h f (by simp))]
    exact plistElement_end s (fun g hg => h g (by simp [hg]))

theorem plistElements_skip (s : Name) : ∀ {v : List Frag}, (∀ f ∈ v, f ≠ .comma) → ∀ r,
    plistElements s false (v ++ .comma :: r) = plistElements s true r
  | [], _, r => by simp [plistElements, isComma]
  | f :: v, h, r => by
    simp only [List.cons_append, plistElements, isComma_false (h f (by simp))]
    exact plistElements_skip s (fun g hg => h g (by simp [hg])) r

theorem plistElements_end (s : Name) : ∀ {v : List Frag}, (∀ f ∈ v, f ≠ .comma) → plistElements s false v = []
  | [], _ => rfl
  | f :: v, h => by
    simp only [plistElements, isComma_false (h f (by simp))]
    exact plistElements_end s (fun g hg => h g (by simp [hg]))

theorem plistElements_written (s : Name) : ∀ es, Entries es → plistElements s true (written es) = given s es
  | [], _ => rfl
  | [(k, v)], h => by
    have hv : ∀ f ∈ v, f ≠ .comma := h (k, v) (by simp)
    simp only [written, plistElements, isKey, splitComma_last hv, plistElements_end s hv, given, List.filter]
    by_cases hk : sameSymbol k s = true <;> simp [hk]
  | (k, v) :: e :: es, h => by
    have hv : ∀ f ∈ v, f ≠ .comma := h (k, v) (by simp)
    have ih := plistElements_written s (e :: es) (fun x hx => h x (by simp [hx]))
    rw [written_cons]
    simp only [plistElements, isKey, splitComma_value hv, plistElements_skip s hv, ih]
    by_cases hk : sameSymbol k s = true <;> simp [hk, given, List.filter_cons]

theorem plistElement_written (s : Name) : ∀ es, Entries es → plistElement s true (written es) = (given s es).head?
  | [], _ => rfl
  | [(k, v)], h => by
    have hv : ∀ f ∈ v, f ≠ .comma := h (k, v) (by simp)
    simp only [written, plistElement, isKey, splitComma_last hv, plistElement_end s hv, given, List.filter]
    by_cases hk : sameSymbol k s = true <;> simp [hk]
  | (k, v) :: e :: es, h => by
    have hv : ∀ f ∈ v, f ≠ .comma := h (k, v) (by simp)
    have ih := plistElement_written s (e :: es) (fun x hx => h x (by simp [hx]))
    rw [written_cons]
    simp only [plistElement, isKey, splitComma_value hv, plistElement_skip s hv, ih]
    by_cases hk : sameSymbol k s = true <;> simp [hk, given, List.filter_cons]

theorem keyValue_iff (k : Key) (es : List (Name × List Frag)) (he : Entries es) (v : Val) :
    keyValue k (written es) = some v ↔ KeyIs k es v := by
  unfold keyValue KeyIs
  rw [plistElements_written _ _ he, plistElement_written _ _ he]
  by_cases hs : k.sequence = true
  · simp only [hs, if_true]
    cases hg : given k.symbol es with
    | nil =>
      cases hd : k.default with
      | none => simp [eq_comm]
      | some d => simp [eq_comm]
    | cons x xs => simp [eq_comm]
  · simp only [hs, Bool.false_eq_true, if_false]
    cases hg : given k.symbol es with
    | nil =>
      simp only [List.head?_nil, Option.map_eq_some_iff]
      constructor
      · rintro ⟨d, h1, h2⟩; exact ⟨d, h1, h2.symm⟩
      · rintro ⟨d, h1, h2⟩; exact ⟨d, h1, h2.symm⟩
    | cons x xs => simp [eq_comm]

theorem bindKeys_some {es : List (Name × List Frag)} (he : Entries es) : ∀ (ks : List Key) (env env' : Env),
    (keyVars ks).Nodup → bindKeys (written es) ks env = some env' →
    (∀ j, j ∉ keyVars ks → env' j = env j) ∧ ∀ k ∈ ks, ∃ v, KeyIs k es v ∧ env' k.index = some v
  | [], env, env', _, h => by cases h; exact ⟨fun _ _ => rfl, by simp⟩
  | k :: ks, env, env', hn, h => by
    simp only [bindKeys] at h
    simp only [keyVars, List.map_cons, List.nodup_cons] at hn
    cases hv : keyValue k (written es) with
    | none => rw [hv] at h; cases h
    | some v =>
      rw [hv] at h
      obtain ⟨h1, h2⟩ := bindKeys_some he ks (env.set k.index v) env' hn.2 h
      constructor
      · intro j hj
        simp only [keyVars, List.map_cons, List.mem_cons, not_or] at hj
        rw [h1 j hj.2, Env.set_other _ _ hj.1]
      · intro k' hk'
        rcases List.mem_cons.1 hk' with rfl | hk'
        · exact ⟨v, (keyValue_iff _ _ he _).1 hv, by rw [h1 _ hn.1, Env.set_same]⟩
        · exact h2 k' hk'

theorem bindKeys_none {es : List (Name × List Frag)} (he : Entries es) : ∀ (ks : List Key) (env : Env),
    bindKeys (written es) ks env = none → ∃ k ∈ ks, ∀ v, ¬ KeyIs k es v
  | [], env, h => by cases h
  | k :: ks, env, h => by
    simp only [bindKeys] at h
    cases hv : keyValue k (written es) with
    | none =>
      refine ⟨k, by simp, ?_⟩
      intro v hk
      rw [(keyValue_iff _ _ he _).2 hk] at hv; cases hv
    | some v =>
      rw [hv] at h
      obtain ⟨k', h1, h2⟩ := bindKeys_none he ks _ h
      exact ⟨k', by simp [h1], h2⟩

theorem props_good (P : Parsers) (hP : P.Proper) (r : Option Nat) (ks : List Key)
    (hn : (r.toList ++ keyVars ks).Nodup) :
    StepGood (r.toList ++ keyVars ks) (fun env fs => matchProps P r ks env fs) (fun ρ fs rest =>
      rest = [] ∧ ∃ es, Entries es ∧ P.plist fs = some ([], written es) ∧
      (∀ i, r = some i → ρ i = some (.many (written es))) ∧
      ∀ k ∈ ks, ∃ v, KeyIs k es v ∧ ρ k.index = some v) := by
  obtain ⟨hn1, hn2, hn3⟩ := List.nodup_append.1 hn
  have key : ∀ env fs,
      (∃ es env', matchProps P r ks env fs = .ok [] env' ∧ Entries es ∧ P.plist fs = some ([], written es) ∧
        (∀ j, j ∉ r.toList ++ keyVars ks → env' j = env j) ∧ (∀ i, r = some i → env' i = some (.many (written es))) ∧
        ∀ k ∈ ks, ∃ v, KeyIs k es v ∧ env' k.index = some v) ∨
      (matchProps P r ks env fs = .fail env ∧ ∀ es, P.plist fs = some ([], written es) →
        Entries es → ∃ k ∈ ks, ∀ v, ¬ KeyIs k es v) := by
    intro env fs
    unfold matchProps
    split
    · rename_i pl hp
      obtain ⟨es, he, rfl⟩ := hP _ _ hp
      cases hb : bindKeys (written es) ks (bindRest r (written es) env) with
      | none =>
        right
        refine ⟨rfl, ?_⟩
        intro es' h he'
        rw [hp] at h
        have e : written es = written es' := (Prod.mk.inj (Option.some.inj h)).2
        rw [e] at hb
        exact bindKeys_none he' ks _ hb
      | some env' =>
        left
        obtain ⟨h1, h2⟩ := bindKeys_some he ks _ _ hn2 hb
        refine ⟨es, env', rfl, he, hp, ?_, ?_, h2⟩
        · intro j hj
          simp only [List.mem_append, not_or] at hj
          rw [h1 j hj.2]
          cases r with
          | none => rfl
          | some i => exact Env.set_other _ _ (by simpa using hj.1)
        · rintro i rfl
          rw [h1 i (fun hi => hn3 i (by simp) i hi rfl)]
          exact Env.set_same _ _ _
    · rename_i hne
      right
      refine ⟨rfl, ?_⟩
      intro es h _
      exact absurd h (hne _)
  constructor
  · intro env fs rest env' e j hj
    rcases key env fs with ⟨es, env1, h, _, _, hf, _⟩ | ⟨h, _⟩ <;> rw [h] at e <;> cases e
    exact hf j hj
  · intro env fs env' e j hj
    rcases key env fs with ⟨es, env1, h, _, _, hf, _⟩ | ⟨h, _⟩ <;> rw [h] at e <;> cases e
    rfl
  · intro env fs rest env' e
    rcases key env fs with ⟨es, env1, h, h1, h2, hf, h3, h4⟩ | ⟨h, _⟩ <;> rw [h] at e <;> cases e
    exact ⟨rfl, es, h1, h2, h3, h4⟩
  · rintro env fs env' e ρ rest ⟨_, es, h1, h2, h3, h4⟩
    rcases key env fs with ⟨_, env1, h, _⟩ | ⟨h, hn⟩ <;> rw [h] at e <;> cases e
    obtain ⟨k, hk, hv⟩ := hn es h2 h1
    obtain ⟨v, hv', _⟩ := h4 k hk
    exact hv v hv'
  · rintro ρ ρ' fs rest hj ⟨h0, es, h1, h2, h3, h4⟩
    refine ⟨h0, es, h1, h2, ?_, ?_⟩
    · intro i hi; rw [← hj i (by simp [hi])]; exact h3 i hi
    · intro k hk
      obtain ⟨v, hv, hr⟩ := h4 k hk
      exact ⟨v, hv, by rw [← hj k.index (by simp [keyVars]; right; exact ⟨k, hk, rfl⟩)]; exact hr⟩
  · rintro _ _ fs rest rest' ⟨h, _⟩ ⟨h', _⟩
    rw [h, h']

/-! ### Wildcards -/

theorem wildLoop_spec {us ws : List Nat} {k : Env → List Frag → Out} {R : Env → List Frag → Prop}
    (hk : Good us ws k R) (i : Nat) (hi : i ∉ us) : ∀ (fs acc : List Frag) (env : Env),
    (∃ pre rest env1, wildLoop k i acc env fs = .ok (env1.set i (.many (acc ++ pre))) ∧ fs = pre ++ rest ∧
      (∃ env0, k env0 rest = .ok env1) ∧ (∀ j, j ∉ us → env1 j = env j) ∧
      ∀ p q, fs = p ++ q → (∃ ρ, R ρ q) → pre.length ≤ p.length) ∨
    (∃ env1, wildLoop k i acc env fs = .fail env1 ∧ (∀ j, j ∉ us → env1 j = env j) ∧
      ∀ p q, fs = p ++ q → ∀ ρ, ¬ R ρ q) ∨
    wildLoop k i acc env fs = .crash
  | [], acc, env => by
    unfold wildLoop
    cases hc : k env [] with
    | crash => right; right; rfl
    | ok env1 =>
      left
      exact ⟨[], [], env1, by simp, rfl, ⟨env, hc⟩, hk.frameOk hc, by simp⟩
    | fail env1 =>
      right; left
      refine ⟨env1, rfl, hk.frameFail hc, ?_⟩
      intro p q e
      have : q = [] := by
        have := congrArg List.length e
        simp at this; exact List.length_eq_zero_iff.1 (by omega)
      subst this
      exact hk.complete hc
  | f :: fs, acc, env => by
    unfold wildLoop
    cases hc : k env (f :: fs) with
    | crash => right; right; rfl
    | ok env1 =>
      left
      exact ⟨[], f :: fs, env1, by simp, rfl, ⟨env, hc⟩, hk.frameOk hc, by simp⟩
    | fail env1 =>
      simp only
      have hcomp := hk.complete hc
      have hfr := hk.frameFail hc
      rcases wildLoop_spec hk i hi fs (acc ++ [f]) env1 with
        ⟨pre, rest, env2, h1, h2, h3, h4, h5⟩ | ⟨env2, h1, h2, h3⟩ | h1
      · left
        refine ⟨f :: pre, rest, env2, by rw [h1]; simp, by rw [h2]; rfl, h3, fun j hj => by rw [h4 j hj, hfr j hj], ?_⟩
        rintro p q e ⟨ρ, hr⟩
        cases p with
        | nil => simp at e; rw [← e] at hr; exact absurd hr (hcomp ρ)
        | cons g p =>
          simp at e
          have := h5 p q e.2 ⟨ρ, hr⟩
          simpa using this
      · right; left
        refine ⟨env2, h1, fun j hj => by rw [h2 j hj, hfr j hj], ?_⟩
        intro p q e ρ hr
        cases p with
        | nil => simp at e; rw [← e] at hr; exact hcomp ρ hr
        | cons g p => simp at e; exact h3 p q e.2 ρ hr
      · right; right; exact h1

theorem wild_good {us ws : List Nat} {k : Env → List Frag → Out} {R : Env → List Frag → Prop}
    (hk : Good us ws k R) (i : Nat) (hi : i ∉ us) :
    Good (i :: us) (i :: ws) (fun env fs => wildLoop k i [] env fs)
      (fun ρ fs => ∃ rest, (∃ v, (∃ pre, fs = pre ++ rest ∧ v = .many pre) ∧ ρ i = some v) ∧ R ρ rest) := by
  have hcg : ∀ {ρ ρ' : Env} {fs : List Frag}, (∀ j ∈ us, ρ j = ρ' j) → R ρ fs → R ρ' fs := hk.congr
  constructor
  · intro env fs env' e j hj
    simp only [List.mem_cons, not_or] at hj
    rcases wildLoop_spec hk i hi fs [] env with ⟨pre, rest, env1, h, _, _, hf, _⟩ | ⟨env1, h, _⟩ | h <;>
      rw [h] at e <;> cases e
    rw [Env.set_other _ _ hj.1, hf j hj.2]
  · intro env fs env' e j hj
    simp only [List.mem_cons, not_or] at hj
    rcases wildLoop_spec hk i hi fs [] env with ⟨pre, rest, env1, h, _, _, hf, _⟩ | ⟨env1, h, hf, _⟩ | h <;>
      rw [h] at e <;> cases e
    exact hf j hj.2
  · intro env fs env' e
    rcases wildLoop_spec hk i hi fs [] env with ⟨pre, rest, env1, h, h2, ⟨env0, h3⟩, hf, _⟩ | ⟨env1, h, hf, _⟩ | h <;>
      rw [h] at e <;> cases e
    refine ⟨rest, ⟨_, ⟨pre, h2, rfl⟩, by simp [Env.set_same]⟩, ?_⟩
    refine hcg (fun j hj => ?_) (hk.sound h3)
    rw [Env.set_other]
    rintro rfl
    exact hi hj
  · rintro env fs env' e ρ ⟨rest, ⟨v, ⟨pre, h1, _⟩, _⟩, hr⟩
    rcases wildLoop_spec hk i hi fs [] env with ⟨_, _, env1, h, _⟩ | ⟨env1, h, hf, hn⟩ | h <;>
      rw [h] at e <;> cases e
    exact hn _ _ h1 ρ hr
  · rintro ρ ρ' fs hj ⟨rest, ⟨v, h1, h2⟩, hr⟩
    exact ⟨rest, ⟨v, h1, by rw [← hj i (by simp)]; exact h2⟩, hcg (fun j h => hj j (by simp [h])) hr⟩
  · intro j hj
    rcases List.mem_cons.1 hj with rfl | hj
    · simp
    · simp [hk.wilds j hj]
  · rintro env fs env' e ρ ⟨rest, ⟨v, ⟨pre, h1, rfl⟩, hv⟩, hr⟩
    rcases wildLoop_spec hk i hi fs [] env with ⟨p, r, env1, h, h2, ⟨env0, h3⟩, hf, hl⟩ | ⟨env1, h, hf, _⟩ | h <;>
      rw [h] at e <;> cases e
    have hle := hl pre rest h1 ⟨ρ, hr⟩
    simp only [List.map_cons]
    have s1 : span (env1.set i (.many ([] ++ p))) i = p.length := by simp [span, Env.set_same]
    have s2 : span ρ i = pre.length := by simp [span, hv]
    rw [s1, s2]
    rcases Nat.lt_or_eq_of_le hle with hlt | heq
    · exact .less hlt
    · rw [heq]
      refine .same ?_
      have : r = rest := by
        rw [h1] at h2
        exact (List.append_inj h2 heq.symm).2.symm
      subst this
      have hw : ws.map (span (env1.set i (.many ([] ++ p)))) = ws.map (span env1) := by
        apply List.map_congr_left
        intro j hj
        have hji : j ≠ i := by rintro rfl; exact hi (hk.wilds _ hj)
        simp [span, Env.set_other _ _ hji]
      rw [hw]
      exact hk.least h3 ρ hr

theorem last_wild_good (i : Nat) :
    Good [i] [i] (fun env fs => .ok (env.set i (.many fs)))
      (fun ρ fs => ∃ rest, (∃ v, (∃ pre, fs = pre ++ rest ∧ v = .many pre) ∧ ρ i = some v) ∧ rest = []) := by
  constructor
  · intro env fs env' e j hj
    cases e
    exact Env.set_other _ _ (by simpa using hj)
  · intro env fs env' e; cases e
  · intro env fs env' e
    cases e
    exact ⟨[], ⟨_, ⟨fs, by simp, rfl⟩, Env.set_same _ _ _⟩, rfl⟩
  · intro env fs env' e; cases e
  · rintro ρ ρ' fs hj ⟨rest, ⟨v, h1, h2⟩, hr⟩
    exact ⟨rest, ⟨v, h1, by rw [← hj i (by simp)]; exact h2⟩, hr⟩
  · intro j hj; exact hj
  · rintro env fs env' e ρ ⟨rest, ⟨v, ⟨pre, h1, rfl⟩, hv⟩, rfl⟩
    cases e
    simp only [List.append_nil] at h1
    subst h1
    simp only [List.map_cons, List.map_nil, span, Env.set_same, hv]
    exact LexLe.refl _

/-! ### Parts -/

theorem Good.parts {vs us ws xs : List Nat} {m k : Env → List Frag → Out} {R S : Env → List Frag → Prop}
    {sep : Frag → Bool} {s : Frag} (hsep : IsSep sep s) (last : Bool) (hm : Good vs ws m R) (hk : Good us xs k S)
    (hd : ∀ j ∈ vs, j ∉ us) :
    Good (vs ++ us) (ws ++ xs) (fun env fs => matchParts sep last m k env fs)
      (fun ρ fs => TwoParts s (last = true) (R ρ) (S ρ) fs) := by
  -- the two parts, in whatever way they were found
  have both : ∀ {env a b env'}, ((m env a).next fun env => k env b) = .ok env' →
      ∃ env1, m env a = .ok env1 ∧ k env1 b = .ok env' := by
    intro env a b env' h
    cases e : m env a with
    | crash => rw [e] at h; cases h
    | fail e1 => rw [e] at h; cases h
    | ok e1 => rw [e] at h; exact ⟨e1, rfl, h⟩
  have neither : ∀ {env a b env'}, ((m env a).next fun env => k env b) = .fail env' →
      (m env a = .fail env') ∨ ∃ env1, m env a = .ok env1 ∧ k env1 b = .fail env' := by
    intro env a b env' h
    cases e : m env a with
    | crash => rw [e] at h; cases h
    | fail e1 => rw [e] at h; cases h; left; rfl
    | ok e1 => rw [e] at h; right; exact ⟨e1, rfl, h⟩
  have how : ∀ env fs, (∃ a b, matchParts sep last m k env fs = ((m env a).next fun env => k env b) ∧
      ∀ ρ, TwoParts s (last = true) (R ρ) (S ρ) fs ↔ R ρ a ∧ S ρ b) ∨
      (matchParts sep last m k env fs = .fail env ∧ ∀ ρ, ¬ TwoParts s (last = true) (R ρ) (S ρ) fs) := by
    intro env fs
    unfold matchParts
    split
    · rename_i a b hs
      left
      refine ⟨a, b, rfl, ?_⟩
      obtain ⟨e, hw⟩ := (split_some hsep _ _ _).1 hs
      intro ρ
      constructor
      · rintro (⟨a', b', e', hw', h1, h2⟩ | ⟨_, hw', _⟩)
        · rw [(split_some hsep _ _ _).2 ⟨e', hw'⟩] at hs
          cases hs
          exact ⟨h1, h2⟩
        · exact absurd rfl (hw' s (by rw [e]; simp))
      · rintro ⟨h1, h2⟩; exact .inl ⟨a, b, e, hw, h1, h2⟩
    · rename_i a hs
      obtain ⟨rfl, hw⟩ := (split_none hsep _ _).1 hs
      cases last with
      | true =>
        left
        refine ⟨a, [], rfl, ?_⟩
        intro ρ
        constructor
        · rintro (⟨a', b', e', hw', h1, h2⟩ | ⟨_, _, h1, h2⟩)
          · exact absurd rfl (hw s (by rw [e']; simp))
          · exact ⟨h1, h2⟩
        · rintro ⟨h1, h2⟩; exact .inr ⟨rfl, hw, h1, h2⟩
      | false =>
        right
        refine ⟨rfl, ?_⟩
        rintro ρ (⟨a', b', e', hw', h1, h2⟩ | ⟨h, _⟩)
        · exact absurd rfl (hw s (by rw [e']; simp))
        · cases h
  constructor
  · intro env fs env' e j hj
    simp only [List.mem_append, not_or] at hj
    rcases how env fs with ⟨a, b, h, _⟩ | ⟨h, _⟩
    · rw [h] at e
      obtain ⟨env1, h1, h2⟩ := both e
      rw [hk.frameOk h2 j hj.2, hm.frameOk h1 j hj.1]
    · rw [h] at e; cases e
  · intro env fs env' e j hj
    simp only [List.mem_append, not_or] at hj
    rcases how env fs with ⟨a, b, h, _⟩ | ⟨h, _⟩
    · rw [h] at e
      rcases neither e with h1 | ⟨env1, h1, h2⟩
      · exact hm.frameFail h1 j hj.1
      · rw [hk.frameFail h2 j hj.2, hm.frameOk h1 j hj.1]
    · rw [h] at e; cases e; rfl
  · intro env fs env' e
    rcases how env fs with ⟨a, b, h, hi⟩ | ⟨h, _⟩
    · rw [h] at e
      obtain ⟨env1, h1, h2⟩ := both e
      exact (hi _).2 ⟨hm.congr (fun j hj => (hk.frameOk h2 j (hd j hj)).symm) (hm.sound h1), hk.sound h2⟩
    · rw [h] at e; cases e
  · intro env fs env' e ρ hr
    rcases how env fs with ⟨a, b, h, hi⟩ | ⟨h, hn⟩
    · rw [h] at e
      obtain ⟨h3, h4⟩ := (hi ρ).1 hr
      rcases neither e with h1 | ⟨env1, h1, h2⟩
      · exact hm.complete h1 ρ h3
      · exact hk.complete h2 ρ h4
    · exact hn ρ hr
  · intro ρ ρ' fs hj h
    have c1 : ∀ a, R ρ a → R ρ' a := fun a => hm.congr (fun j h => hj j (by simp [h]))
    have c2 : ∀ a, S ρ a → S ρ' a := fun a => hk.congr (fun j h => hj j (by simp [h]))
    rcases h with ⟨a, b, e, hw, h1, h2⟩ | ⟨hl, hw, h1, h2⟩
    · exact .inl ⟨a, b, e, hw, c1 _ h1, c2 _ h2⟩
    · exact .inr ⟨hl, hw, c1 _ h1, c2 _ h2⟩
  · intro i hi
    simp only [List.mem_append] at hi ⊢
    exact hi.imp (hm.wilds i) (hk.wilds i)
  · intro env fs env' e ρ hr
    rcases how env fs with ⟨a, b, h, hi⟩ | ⟨h, _⟩
    · rw [h] at e
      obtain ⟨h3, h4⟩ := (hi ρ).1 hr
      obtain ⟨env1, h1, h2⟩ := both e
      rw [List.map_append, List.map_append]
      refine LexLe.append ?_ (hk.least h2 ρ h4)
      have : ws.map (span env') = ws.map (span env1) := by
        apply List.map_congr_left
        intro j hj
        simp [span, hk.frameOk h2 j (hd j (hm.wilds j hj))]
      rw [this]
      exact hm.least h1 ρ h3
    · rw [h] at e; cases e

/-! ### Brackets -/

theorem matchNested_iff (d : Delim) (fs inner rest : List Frag) :
    matchNested d fs = some (inner, rest) ↔ fs = .nested d inner :: rest := by
  unfold matchNested
  split
  · rename_i e i r
    by_cases h : e = d
    · subst h; simp
    · simp [h]
  · rename_i hne
    simp only [reduceCtorEq, false_iff]
    intro e; exact hne _ _ _ e

theorem nested_good {vs us ws xs : List Nat} {m k : Env → List Frag → Out} {R S : Env → List Frag → Prop}
    (d : Delim) (hm : Good vs ws m R) (hk : Good us xs k S) (hd : ∀ j ∈ vs, j ∉ us) :
    Good (vs ++ us) (ws ++ xs)
      (fun env fs => match matchNested d fs with
        | none => .fail env
        | some (inner, rest) => (m env inner).next fun env => k env rest)
      (fun ρ fs => ∃ rest, (∃ inner, fs = .nested d inner :: rest ∧ R ρ inner) ∧ S ρ rest) := by
  have both : ∀ {env a b env'}, ((m env a).next fun env => k env b) = .ok env' →
      ∃ env1, m env a = .ok env1 ∧ k env1 b = .ok env' := by
    intro env a b env' h
    cases e : m env a with
    | crash => rw [e] at h; cases h
    | fail e1 => rw [e] at h; cases h
    | ok e1 => rw [e] at h; exact ⟨e1, rfl, h⟩
  have neither : ∀ {env a b env'}, ((m env a).next fun env => k env b) = .fail env' →
      (m env a = .fail env') ∨ ∃ env1, m env a = .ok env1 ∧ k env1 b = .fail env' := by
    intro env a b env' h
    cases e : m env a with
    | crash => rw [e] at h; cases h
    | fail e1 => rw [e] at h; cases h; left; rfl
    | ok e1 => rw [e] at h; right; exact ⟨e1, rfl, h⟩
  constructor
  · intro env fs env' e j hj
    simp only [List.mem_append, not_or] at hj
    cases hn : matchNested d fs with
    | none => simp only [hn] at e; cases e
    | some r =>
      obtain ⟨a, b⟩ := r
      simp only [hn] at e
      obtain ⟨env1, h1, h2⟩ := both e
      rw [hk.frameOk h2 j hj.2, hm.frameOk h1 j hj.1]
  · intro env fs env' e j hj
    simp only [List.mem_append, not_or] at hj
    cases hn : matchNested d fs with
    | none => simp only [hn] at e; cases e; rfl
    | some r =>
      obtain ⟨a, b⟩ := r
      simp only [hn] at e
      rcases neither e with h1 | ⟨env1, h1, h2⟩
      · exact hm.frameFail h1 j hj.1
      · rw [hk.frameFail h2 j hj.2, hm.frameOk h1 j hj.1]
  · intro env fs env' e
    cases hn : matchNested d fs with
    | none => simp only [hn] at e; cases e
    | some r =>
      obtain ⟨a, b⟩ := r
      simp only [hn] at e
      obtain ⟨env1, h1, h2⟩ := both e
      exact ⟨b, ⟨a, (matchNested_iff _ _ _ _).1 hn,
        hm.congr (fun j hj => (hk.frameOk h2 j (hd j hj)).symm) (hm.sound h1)⟩, hk.sound h2⟩
  · rintro env fs env' e ρ ⟨b, ⟨a, hf, h3⟩, h4⟩
    simp only [(matchNested_iff _ _ _ _).2 hf] at e
    rcases neither e with h1 | ⟨env1, h1, h2⟩
    · exact hm.complete h1 ρ h3
    · exact hk.complete h2 ρ h4
  · rintro ρ ρ' fs hj ⟨b, ⟨a, hf, h3⟩, h4⟩
    exact ⟨b, ⟨a, hf, hm.congr (fun j h => hj j (by simp [h])) h3⟩, hk.congr (fun j h => hj j (by simp [h])) h4⟩
  · intro i hi
    simp only [List.mem_append] at hi ⊢
    exact hi.imp (hm.wilds i) (hk.wilds i)
  · rintro env fs env' e ρ ⟨b, ⟨a, hf, h3⟩, h4⟩
    simp only [(matchNested_iff _ _ _ _).2 hf] at e
    obtain ⟨env1, h1, h2⟩ := both e
    rw [List.map_append, List.map_append]
    refine LexLe.append ?_ (hk.least h2 ρ h4)
    have : ws.map (span env') = ws.map (span env1) := by
      apply List.map_congr_left
      intro j hj
      simp [span, hk.frameOk h2 j (hd j (hm.wilds j hj))]
    rw [this]
    exact hm.least h1 ρ h3

/-! ### Everything -/

theorem none_good : Good [] [] (fun env fs => if fs.isEmpty then .ok env else .fail env)
    (fun _ fs => fs = []) := by
  constructor
  · intro env fs env' e j _
    cases fs <;> simp at e; rw [e]
  · intro env fs env' e j _
    cases fs <;> simp at e; rw [e]
  · intro env fs env' e
    cases fs <;> simp at e; rfl
  · intro env fs env' e _
    cases fs <;> simp at e; simp
  · intro _ _ _ _ h; exact h
  · simp
  · intro _ _ _ _ _ _; exact .nil

theorem never_good : Good [] [] (fun env _ => .fail env) (fun _ _ => False) := by
  constructor
  · intro env fs env' e; cases e
  · intro env fs env' e j _; cases e; rfl
  · intro env fs env' e; cases e
  · intro _ _ _ _ _ h; exact h
  · intro _ _ _ _ h; exact h
  · simp
  · intro _ _ _ e; cases e

theorem Good.cast {vs vs' ws ws' : List Nat} {m m' : Env → List Frag → Out} {R R' : Env → List Frag → Prop}
    (h : Good vs ws m R) (e1 : vs = vs') (e2 : ws = ws') (e3 : m = m') (e4 : ∀ ρ fs, R ρ fs ↔ R' ρ fs) :
    Good vs' ws' m' R' := by
  have : R = R' := by funext ρ fs; exact propext (e4 ρ fs)
  subst e1 e2 e3 this
  exact h

mutual

theorem body_good (P : Parsers) (hP : P.Proper) : ∀ p : List (List (List Elem)), (bodyVars p).Nodup →
    Good (bodyVars p) (bodyWilds p) (matchBody P p) (fun ρ fs => ReadsBody P ρ p fs)
  | [], _ => never_good.cast rfl rfl (by funext env fs; rw [matchBody]) (by intro ρ fs; rw [ReadsBody])
  | p :: ps, h => by
    rw [bodyVars] at h ⊢
    obtain ⟨h1, h2, h3⟩ := List.nodup_append.1 h
    have g1 := list_good P hP p h1
    cases ps with
    | nil =>
      refine g1.cast (by simp [bodyVars]) (by simp [bodyWilds]) ?_ ?_
      · funext env fs; rw [matchBody]; rfl
      · intro ρ fs; rw [ReadsBody]; simp
    | cons q qs =>
      have g2 := body_good P hP (q :: qs) h2
      refine (Good.parts isSemicolon_sep ((q :: qs).length == 1) g1 g2 (fun j h4 h5 => h3 j h4 j h5 rfl)).cast
        rfl (by simp [bodyWilds]) ?_ ?_
      · funext env fs; conv => rhs; rw [matchBody]
        simp
      · intro ρ fs; conv => rhs; rw [ReadsBody]
        simp

theorem list_good (P : Parsers) (hP : P.Proper) : ∀ p : List (List Elem), (listVars p).Nodup →
    Good (listVars p) (listWilds p) (matchList P p) (fun ρ fs => ReadsList P ρ p fs)
  | [], _ => never_good.cast rfl rfl (by funext env fs; rw [matchList]) (by intro ρ fs; rw [ReadsList])
  | p :: ps, h => by
    rw [listVars] at h ⊢
    obtain ⟨h1, h2, h3⟩ := List.nodup_append.1 h
    have g1 := elems_good P hP p h1
    cases ps with
    | nil =>
      refine g1.cast (by simp [listVars]) (by simp [listWilds]) ?_ ?_
      · funext env fs; rw [matchList]; rfl
      · intro ρ fs; rw [ReadsList]; simp
    | cons q qs =>
      have g2 := list_good P hP (q :: qs) h2
      refine (Good.parts isComma_sep ((q :: qs).length == 1) g1 g2 (fun j h4 h5 => h3 j h4 j h5 rfl)).cast
        rfl (by simp [listWilds]) ?_ ?_
      · funext env fs; conv => rhs; rw [matchList]
        simp
      · intro ρ fs; conv => rhs; rw [ReadsList]
        simp

theorem elems_good (P : Parsers) (hP : P.Proper) : ∀ p : List Elem, (elemsVars p).Nodup →
    Good (elemsVars p) (elemsWilds p) (matchElems P p) (fun ρ fs => ReadsElems P ρ p fs)
  | [], _ => none_good.cast rfl rfl (by funext env fs; rw [matchElems]) (by intro ρ fs; rw [ReadsElems])
  | e :: es, h => by
    rw [elemsVars] at h ⊢
    obtain ⟨h1, h2, h3⟩ := List.nodup_append.1 h
    have g2 := elems_good P hP es h2
    have hd : ∀ j ∈ elemVars e, j ∉ elemsVars es := fun j h4 h5 => h3 j h4 j h5 rfl
    have := elem_good P hP e h1 es g2 hd
    refine this.cast rfl (by rw [elemsWilds]) ?_ ?_
    · funext env fs; conv => rhs; rw [matchElems]
    · intro ρ fs; conv => rhs; rw [ReadsElems]

theorem elem_good (P : Parsers) (hP : P.Proper) : ∀ (e : Elem), (elemVars e).Nodup → ∀ (es : List Elem),
    Good (elemsVars es) (elemsWilds es) (matchElems P es) (fun ρ fs => ReadsElems P ρ es fs) →
    (∀ j ∈ elemVars e, j ∉ elemsVars es) →
    Good (elemVars e ++ elemsVars es) (elemWilds e ++ elemsWilds es) (matchElem P e es.isEmpty (matchElems P es))
      (fun ρ fs => ∃ rest, Takes P ρ e fs rest ∧ ReadsElems P ρ es rest)
  | .word n, _, es, g, hd =>
    (Good.next (plain_good (matchName_iff n)) g (by simp)).cast rfl (by simp [elemWilds])
      (by funext env fs; rw [matchElem]) (by intro ρ fs; simp only [Takes])
  | .otherwise, _, es, g, hd =>
    (Good.next (plain_good matchOtherwise_iff) g (by simp)).cast rfl (by simp [elemWilds])
      (by funext env fs; rw [matchElem]) (by intro ρ fs; simp only [Takes])
  | .operator n, _, es, g, hd =>
    (Good.next (plain_good (matchOperator_iff n)) g (by simp)).cast rfl (by simp [elemWilds])
      (by funext env fs; rw [matchElem]) (by intro ρ fs; simp only [Takes])
  | .punct p, _, es, g, hd =>
    (Good.next (plain_good (matchPunct_iff p)) g (by simp)).cast rfl (by simp [elemWilds])
      (by funext env fs; rw [matchElem]) (by intro ρ fs; simp only [Takes])
  | .lit v, _, es, g, hd =>
    (Good.next (plain_good (matchLit_iff v)) g (by simp)).cast rfl (by simp [elemWilds])
      (by funext env fs; rw [matchElem]) (by intro ρ fs; simp only [Takes])
  | .simple s, _, es, g, hd => by
    by_cases hw : ∃ i, s = .wild i
    · obtain ⟨i, rfl⟩ := hw
      cases es with
      | nil =>
        refine (last_wild_good i).cast (by simp [elemVars, elemsVars, Simple.index])
          (by simp [elemWilds, elemsWilds]) ?_ ?_
        · funext env fs; rw [List.isEmpty_nil, matchElem]
        · intro ρ fs; simp only [Takes, ReadsElems, SimpleTakes, Simple.index]
      | cons e' es' =>
        refine (wild_good g i (hd i (by simp [elemVars, Simple.index]))).cast
          (by simp [elemVars, Simple.index]) (by simp [elemWilds]) ?_ ?_
        · funext env fs; rw [List.isEmpty_cons, matchElem]
        · intro ρ fs; simp only [Takes, SimpleTakes, Simple.index]
    · have hw' : ∀ i, s ≠ .wild i := fun i h => hw ⟨i, h⟩
      have hwl : elemWilds (.simple s) = [] := by
        cases s with
        | wild i => exact absurd rfl (hw' i)
        | _ => rfl
      refine (Good.next (simple_good P s hw') g (by simpa [elemVars] using hd)).cast
        (by simp [elemVars]) (by rw [hwl]; rfl) ?_ (by intro ρ fs; simp only [Takes])
      funext env fs
      cases s with
      | wild i => exact absurd rfl (hw' i)
      | _ => rw [matchElem] <;> simp
  | .vari n t, h, es, g, hd => by
    simp only [elemVars, List.nodup_cons, List.mem_singleton] at h
    exact (Good.next (vari_good P n t h.1) g (by simpa [elemVars] using hd)).cast
      (by simp [elemVars]) (by simp [elemWilds]) (by funext env fs; rw [matchElem]) (by intro ρ fs; simp only [Takes])
  | .props r ks, h, es, g, hd => by
    rw [elemVars] at h hd
    exact (Good.next (props_good P hP r ks h) g hd).cast
      (by rw [elemVars]) (by simp [elemWilds]) (by funext env fs; rw [matchElem]) (by intro ρ fs; simp only [Takes])
  | .nested d body, h, es, g, hd => by
    rw [elemVars] at h hd
    exact (nested_good d (body_good P hP body h) g hd).cast
      (by rw [elemVars]) (by simp [elemWilds])
      (by funext env fs; rw [matchElem]; rfl) (by intro ρ fs; simp only [Takes])

end

end Verif.Macro
