import Verif.Format.Props

/-
`format-to-string` of common-dylan: control strings without fields, documentation/source/library-reference/
common-dylan/simple-format.rst and the "Condition Messages" of the DRM.
-/

namespace Verif.Format
open Verif.IntString

/-- The directives of `format-to-string`. -/
def Known (c : Char) : Prop :=
  c ∈ ['d', 'D', 'b', 'B', 'o', 'O', 'x', 'X', 'c', 'C', 's', 'S', '=', '%']

/-- What a directive other than `%%` shows of its argument. -/
inductive ShowsC (n : Names) : Char → Arg → List Char → Prop where
  | decimal (c i t) : c ∈ ['d', 'D'] → Numeral 10 false i t → ShowsC n c (.int i) t
  | float (c i) : c ∈ ['d', 'D'] → ShowsC n c (.float i) (n.number (.float i))
  | big (c i) : c ∈ ['d', 'D'] → ShowsC n c (.big i) (n.number (.big i))
  | binary (c i t) : c ∈ ['b', 'B'] → Numeral 2 false i t → ShowsC n c (.int i) t
  | octal (c i t) : c ∈ ['o', 'O'] → Numeral 8 false i t → ShowsC n c (.int i) t
  | hex (c i t) : c ∈ ['x', 'X'] → Numeral 16 false i t → ShowsC n c (.int i) t
  | char (c x) : c ∈ ['c', 'C'] → ShowsC n c (.char x) [x]
  | message (c a) : c ∈ ['s', 'S'] → ShowsC n c a (n.pretty a)
  | object (a) : ShowsC n '=' a (n.unique a)

/-- What the pieces, none with a field, say with the arguments, and the arguments that are left. -/
inductive SaysC (n : Names) : List Piece → List Arg → List Char → List Arg → Prop where
  | done (args) : SaysC n [] args [] args
  | text (c ps args out left) : c ≠ '%' → SaysC n ps args out left →
      SaysC n (.text c :: ps) args (c :: out) left
  | percent (ps args out left) : SaysC n ps args out left →
      SaysC n (.directive none '%' :: ps) args ('%' :: out) left
  | directive (c a t ps args out left) : ShowsC n c a t → SaysC n ps args out left →
      SaysC n (.directive none c :: ps) (a :: args) (t ++ out) left

/-- What is wrong behind a percent sign, with the arguments that are left: the string ends, the directive
    is unknown, there is no argument, or the argument is of the wrong class. -/
inductive Wrong (n : Names) : List Char → List Arg → Err → Prop where
  | incomplete (left) : Wrong n [] left .incomplete
  | unknown (c tail left) : ¬ Known c → Wrong n (c :: tail) left (.unknown c)
  | tooFew (c tail) : Known c → c ≠ '%' → Wrong n (c :: tail) [] .tooFew
  | wrongClass (c tail a left) : Known c → c ≠ '%' → (∀ t, ¬ ShowsC n c a t) →
      Wrong n (c :: tail) (a :: left) .wrongClass

theorem toNat_small (n : Nat) (h : n < 0xd800) : (Char.ofNat n).toNat = n := by
  have : n.isValidChar := .inl h
  simp [Char.ofNat, this, Char.ofNatAux, Char.toNat, UInt32.toNat]

theorem upper_iff (c l u : Char) (h : l.toNat = u.toNat + 0x20) (hl : 0x61 ≤ l.toNat ∧ l.toNat ≤ 0x7A) :
    asUppercase c = u ↔ c = l ∨ c = u := by
  have hu : Char.ofNat (l.toNat - 0x20) = u := by
    rw [h, Nat.add_sub_cancel]
    exact Char.ofNat_toNat u
  unfold asUppercase
  split
  · rename_i hc
    constructor
    · intro e
      left
      apply Char.toNat_inj.1
      have := congrArg Char.toNat e
      rw [toNat_small _ (by omega)] at this
      omega
    · rintro (rfl | rfl)
      · exact hu
      · omega
  · rename_i hc
    constructor
    · exact .inr
    · rintro (rfl | rfl)
      · exact absurd hl hc
      · rfl

theorem upper_same (c u : Char) (hu : ¬ (0x41 ≤ u.toNat ∧ u.toNat ≤ 0x5A))
    (hl : ¬ (0x61 ≤ u.toNat ∧ u.toNat ≤ 0x7A)) : asUppercase c = u ↔ c = u := by
  unfold asUppercase
  split
  · rename_i hc
    constructor
    · intro e
      exfalso
      have := congrArg Char.toNat e
      rw [toNat_small _ (by omega)] at this
      omega
    · rintro rfl
      omega
  · exact Iff.rfl

theorem intText_numeral (i : Int) (hi : fits i = true) (base : Nat) (h2 : 2 ≤ base) (h36 : base ≤ 36) :
    ∃ t, intText i base = .ok t ∧ Numeral base false i t := by
  obtain ⟨t, h, ht⟩ := formatInt_numeral i hi base h2 h36 false
  have := formatInt_eq i hi base h2 h36 false
  rw [h] at this
  exact ⟨t, by simp [intText, ← this], ht⟩

theorem withArg_spec (args : List Arg) (f : Arg → Except Err (List Char)) (R : Arg → List Char → Prop)
    (hf : ∀ a ∈ args, (∃ t, f a = .ok t ∧ ∀ t', R a t' ↔ t' = t) ∨ (f a = .error .wrongClass ∧ ∀ t, ¬ R a t)) :
    (∀ o args', withArg args f = .ok (o, args') ↔ ∃ a, args = a :: args' ∧ R a o) ∧
    (∀ e, withArg args f = .error e ↔
      (args = [] ∧ e = .tooFew) ∨ (∃ a as, args = a :: as ∧ (∀ t, ¬ R a t) ∧ e = .wrongClass)) := by
  cases args with
  | nil =>
    refine ⟨fun o args' => ⟨fun h => (by cases h), ?_⟩, fun e => ⟨fun h => (by cases h; simp), ?_⟩⟩
    · rintro ⟨a, h, _⟩; cases h
    · rintro (⟨_, rfl⟩ | ⟨a, as, h, _⟩)
      · rfl
      · cases h
  | cons a as =>
    rcases hf a (by simp) with ⟨t, h1, h2⟩ | ⟨h1, h2⟩
    · refine ⟨fun o args' => ?_, fun e => ?_⟩
      · simp only [withArg, h1, Except.map, Except.ok.injEq, Prod.mk.injEq]
        constructor
        · rintro ⟨rfl, rfl⟩; exact ⟨a, rfl, (h2 _).2 rfl⟩
        · rintro ⟨b, h, hb⟩
          cases h
          exact ⟨((h2 _).1 hb).symm, rfl⟩
      · simp only [withArg, h1, Except.map]
        constructor
        · intro h; cases h
        · rintro (⟨h, _⟩ | ⟨b, bs, h, hb, _⟩)
          · cases h
          · cases h
            exact absurd ((h2 t).2 rfl) (hb t)
    · refine ⟨fun o args' => ?_, fun e => ?_⟩
      · simp only [withArg, h1, Except.map]
        constructor
        · intro h; cases h
        · rintro ⟨b, h, hb⟩
          cases h
          exact absurd hb (h2 _)
      · simp only [withArg, h1, Except.map, Except.error.injEq]
        constructor
        · rintro rfl; exact .inr ⟨a, as, rfl, h2, rfl⟩
        · rintro (⟨h, _⟩ | ⟨b, bs, h, _, rfl⟩)
          · cases h
          · rfl

theorem int_case (n : Names) (c : Char) (base : Nat) (h2 : 2 ≤ base) (h36 : base ≤ 36)
    (hR : ∀ a t, ShowsC n c a t ↔ ∃ i, a = .int i ∧ Numeral base false i t) (args : List Arg) (hfit : Fit args) :
    ∀ a ∈ args, (∃ t, integerArg a base = .ok t ∧ ∀ t', ShowsC n c a t' ↔ t' = t) ∨
      (integerArg a base = .error .wrongClass ∧ ∀ t, ¬ ShowsC n c a t) := by
  intro a ha
  cases a with
  | int i =>
    obtain ⟨t, h, ht⟩ := intText_numeral i (hfit i ha) base h2 h36
    refine .inl ⟨t, h, fun t' => ?_⟩
    rw [hR]
    constructor
    · rintro ⟨j, e, hj⟩
      cases e
      exact Numeral.unique h2 hj ht
    · rintro rfl
      exact ⟨i, rfl, ht⟩
  | _ => exact .inr ⟨rfl, fun t => by rw [hR]; rintro ⟨j, e, _⟩; cases e⟩

theorem shows_binary (n : Names) (c : Char) (hc : c = 'b' ∨ c = 'B') (a : Arg) (t : List Char) :
    ShowsC n c a t ↔ ∃ i, a = .int i ∧ Numeral 2 false i t := by
  constructor
  · intro h
    rcases hc with rfl | rfl <;> cases h <;> first | exact ⟨_, rfl, by assumption⟩ | (exfalso; simp_all)
  · rintro ⟨i, rfl, h⟩
    exact .binary c i t (by simpa using hc) h

theorem shows_octal (n : Names) (c : Char) (hc : c = 'o' ∨ c = 'O') (a : Arg) (t : List Char) :
    ShowsC n c a t ↔ ∃ i, a = .int i ∧ Numeral 8 false i t := by
  constructor
  · intro h
    rcases hc with rfl | rfl <;> cases h <;> first | exact ⟨_, rfl, by assumption⟩ | (exfalso; simp_all)
  · rintro ⟨i, rfl, h⟩
    exact .octal c i t (by simpa using hc) h

theorem shows_hex (n : Names) (c : Char) (hc : c = 'x' ∨ c = 'X') (a : Arg) (t : List Char) :
    ShowsC n c a t ↔ ∃ i, a = .int i ∧ Numeral 16 false i t := by
  constructor
  · intro h
    rcases hc with rfl | rfl <;> cases h <;> first | exact ⟨_, rfl, by assumption⟩ | (exfalso; simp_all)
  · rintro ⟨i, rfl, h⟩
    exact .hex c i t (by simpa using hc) h

theorem shows_char (n : Names) (c : Char) (hc : c = 'c' ∨ c = 'C') (a : Arg) (t : List Char) :
    ShowsC n c a t ↔ ∃ x, a = .char x ∧ t = [x] := by
  constructor
  · intro h
    rcases hc with rfl | rfl <;> cases h <;> first | exact ⟨_, rfl, rfl⟩ | (exfalso; simp_all)
  · rintro ⟨x, rfl, rfl⟩
    exact .char c x (by simpa using hc)

theorem shows_message (n : Names) (c : Char) (hc : c = 's' ∨ c = 'S') (a : Arg) (t : List Char) :
    ShowsC n c a t ↔ t = n.pretty a := by
  constructor
  · intro h
    rcases hc with rfl | rfl <;> cases h <;> first | rfl | (exfalso; simp_all)
  · rintro rfl
    exact .message c a (by simpa using hc)

theorem shows_object (n : Names) (a : Arg) (t : List Char) : ShowsC n '=' a t ↔ t = n.unique a := by
  constructor
  · intro h
    cases h <;> first | rfl | (exfalso; simp_all)
  · rintro rfl
    exact .object a

theorem shows_none (n : Names) (c : Char) (h : ¬ Known c ∨ c = '%') (a : Arg) (t : List Char) :
    ¬ ShowsC n c a t := by
  intro hs
  have : c ∈ ['d', 'D', 'b', 'B', 'o', 'O', 'x', 'X', 'c', 'C', 's', 'S', '='] := by
    cases hs <;> first | (simp_all; done) | (rename_i hc _; simp at hc ⊢; tauto) | (rename_i hc; simp at hc ⊢; tauto)
  rcases h with h | rfl
  · exact h (by simp only [Known, List.mem_cons] at this ⊢; tauto)
  · simp at this

theorem select_spec (n : Names) (c : Char) (args : List Arg) (hfit : Fit args) :
    (∀ o args', select n c args = .ok (o, args') ↔
      (c = '%' ∧ o = ['%'] ∧ args' = args) ∨ ∃ a, args = a :: args' ∧ ShowsC n c a o) ∧
    (∀ e tail, select n c args = .error e ↔ Wrong n (c :: tail) args e) := by
  have wrap : ∀ f : Arg → Except Err (List Char), Known c → c ≠ '%' → select n c args = withArg args f →
      (∀ a ∈ args, (∃ t, f a = .ok t ∧ ∀ t', ShowsC n c a t' ↔ t' = t) ∨
        (f a = .error .wrongClass ∧ ∀ t, ¬ ShowsC n c a t)) →
      (∀ o args', select n c args = .ok (o, args') ↔
        (c = '%' ∧ o = ['%'] ∧ args' = args) ∨ ∃ a, args = a :: args' ∧ ShowsC n c a o) ∧
      (∀ e tail, select n c args = .error e ↔ Wrong n (c :: tail) args e) := by
    intro f hk hp hs hf
    obtain ⟨h1, h2⟩ := withArg_spec args f (ShowsC n c) hf
    rw [hs]
    refine ⟨fun o args' => ?_, fun e tail => ?_⟩
    · rw [h1]; simp [hp]
    · rw [h2]
      constructor
      · rintro (⟨rfl, rfl⟩ | ⟨a, as, rfl, h, rfl⟩)
        · exact .tooFew c tail hk hp
        · exact .wrongClass c tail a as hk hp h
      · intro h
        cases h with
        | unknown _ _ _ h => exact absurd hk h
        | tooFew => exact .inl ⟨rfl, rfl⟩
        | wrongClass _ _ a left _ _ h => exact .inr ⟨a, left, rfl, h, rfl⟩
  have uD := upper_iff c 'd' 'D' (by decide) (by decide)
  have uB := upper_iff c 'b' 'B' (by decide) (by decide)
  have uO := upper_iff c 'o' 'O' (by decide) (by decide)
  have uX := upper_iff c 'x' 'X' (by decide) (by decide)
  have uC := upper_iff c 'c' 'C' (by decide) (by decide)
  have uS := upper_iff c 's' 'S' (by decide) (by decide)
  have uE := upper_same c '=' (by decide) (by decide)
  have uP := upper_same c '%' (by decide) (by decide)
  by_cases hD : asUppercase c = 'D'
  · refine wrap (fun a => if isNumber a then numberText n a else .error .wrongClass) ?_ ?_ ?_ ?_
    · rcases uD.1 hD with rfl | rfl <;> simp [Known]
    · rcases uD.1 hD with rfl | rfl <;> decide
    · simp [select, hD]
    · intro a ha
      have hc : c ∈ ['d', 'D'] := by rcases uD.1 hD with rfl | rfl <;> simp
      have hneg : ∀ {a t}, (∀ i, a ≠ .int i) → (∀ i, a ≠ .float i) → (∀ i, a ≠ .big i) → ¬ ShowsC n c a t := by
        intro a t h1 h2 h3 h
        cases h with
        | decimal => exact h1 _ rfl
        | float => exact h2 _ rfl
        | big => exact h3 _ rfl
        | binary => exact h1 _ rfl
        | octal => exact h1 _ rfl
        | hex => exact h1 _ rfl
        | char _ x h => rcases uD.1 hD with rfl | rfl <;> simp at h
        | message _ _ h => rcases uD.1 hD with rfl | rfl <;> simp at h
        | object => simp at hc
      cases a with
      | int i =>
        obtain ⟨t, h, ht⟩ := intText_numeral i (hfit i ha) 10 (by omega) (by omega)
        refine .inl ⟨t, h, fun t' => ⟨fun h' => ?_, ?_⟩⟩
        · cases h' with
          | decimal _ _ _ _ h' => exact Numeral.unique (by omega) h' ht
          | binary _ _ _ h => rcases uD.1 hD with rfl | rfl <;> simp at h
          | octal _ _ _ h => rcases uD.1 hD with rfl | rfl <;> simp at h
          | hex _ _ _ h => rcases uD.1 hD with rfl | rfl <;> simp at h
          | message _ _ h => rcases uD.1 hD with rfl | rfl <;> simp at h
          | object => simp at hc
        · rintro rfl; exact .decimal c i _ hc ht
      | float i =>
        refine .inl ⟨_, rfl, fun t' => ⟨fun h' => ?_, ?_⟩⟩
        · cases h' with
          | float => rfl
          | message _ _ h => rcases uD.1 hD with rfl | rfl <;> simp at h
          | object => simp at hc
        · rintro rfl; exact .float c i hc
      | big i =>
        refine .inl ⟨_, rfl, fun t' => ⟨fun h' => ?_, ?_⟩⟩
        · cases h' with
          | big => rfl
          | message _ _ h => rcases uD.1 hD with rfl | rfl <;> simp at h
          | object => simp at hc
        · rintro rfl; exact .big c i hc
      | _ => exact .inr ⟨rfl, fun t => hneg (by simp) (by simp) (by simp)⟩
  by_cases hB : asUppercase c = 'B'
  · refine wrap (integerArg · 2) ?_ ?_ ?_ (int_case n c 2 (by omega) (by omega) ?_ args hfit)
    · rcases uB.1 hB with rfl | rfl <;> simp [Known]
    · rcases uB.1 hB with rfl | rfl <;> decide
    · simp [select, hB]
    · exact shows_binary n c (uB.1 hB)
  by_cases hO : asUppercase c = 'O'
  · refine wrap (integerArg · 8) ?_ ?_ ?_ (int_case n c 8 (by omega) (by omega) ?_ args hfit)
    · rcases uO.1 hO with rfl | rfl <;> simp [Known]
    · rcases uO.1 hO with rfl | rfl <;> decide
    · simp [select, hO]
    · exact shows_octal n c (uO.1 hO)
  by_cases hX : asUppercase c = 'X'
  · refine wrap (integerArg · 16) ?_ ?_ ?_ (int_case n c 16 (by omega) (by omega) ?_ args hfit)
    · rcases uX.1 hX with rfl | rfl <;> simp [Known]
    · rcases uX.1 hX with rfl | rfl <;> decide
    · simp [select, hX]
    · exact shows_hex n c (uX.1 hX)
  by_cases hC : asUppercase c = 'C'
  · refine wrap charArg ?_ ?_ ?_ ?_
    · rcases uC.1 hC with rfl | rfl <;> simp [Known]
    · rcases uC.1 hC with rfl | rfl <;> decide
    · simp [select, hC]
    · have hR := shows_char n c (uC.1 hC)
      intro a _
      cases a with
      | char x => exact .inl ⟨[x], rfl, fun t' => by rw [hR]; simp⟩
      | _ => exact .inr ⟨rfl, fun t => by rw [hR]; simp⟩
  by_cases hS : asUppercase c = 'S'
  · refine wrap (fun a => .ok (n.pretty a)) ?_ ?_ ?_ ?_
    · rcases uS.1 hS with rfl | rfl <;> simp [Known]
    · rcases uS.1 hS with rfl | rfl <;> decide
    · simp [select, hS]
    · intro a _
      exact .inl ⟨_, rfl, shows_message n c (uS.1 hS) a⟩
  by_cases hE : asUppercase c = '='
  · have hc := uE.1 hE
    subst hc
    refine wrap (fun a => .ok (n.unique a)) (by simp [Known]) (by decide) (by simp [select, hE]) ?_
    intro a _
    exact .inl ⟨_, rfl, shows_object n a⟩
  by_cases hP : asUppercase c = '%'
  · have hs : select n c args = .ok (['%'], args) := by simp [select, hP]
    have hc := uP.1 hP
    rw [hs]
    refine ⟨fun o args' => ?_, fun e tail => ⟨fun h => (by cases h), fun h => ?_⟩⟩
    · simp only [Except.ok.injEq, Prod.mk.injEq, hc, true_and]
      constructor
      · rintro ⟨rfl, rfl⟩; exact .inl ⟨rfl, rfl⟩
      · rintro (⟨rfl, rfl⟩ | ⟨a, _, h⟩)
        · exact ⟨rfl, rfl⟩
        · exact absurd h (shows_none n '%' (.inr rfl) a o)
    · cases h with
      | unknown _ _ _ h => exact absurd (by simp [Known, hc]) h
      | tooFew _ _ _ h => exact absurd hc h
      | wrongClass _ _ _ _ _ h => exact absurd hc h
  · have hs : select n c args = .error (.unknown c) := by
      simp [select, hD, hB, hO, hX, hC, hS, hE, hP]
    have hk : ¬ Known c := by
      rw [uD] at hD; rw [uB] at hB; rw [uO] at hO; rw [uX] at hX; rw [uC] at hC; rw [uS] at hS
      rw [uE] at hE; rw [uP] at hP
      intro h
      simp only [Known, List.mem_cons, List.not_mem_nil, or_false] at h
      rcases h with h | h | h | h | h | h | h | h | h | h | h | h | h | h
      exacts [hD (.inl h), hD (.inr h), hB (.inl h), hB (.inr h), hO (.inl h), hO (.inr h), hX (.inl h),
        hX (.inr h), hC (.inl h), hC (.inr h), hS (.inl h), hS (.inr h), hE h, hP h]
    rw [hs]
    refine ⟨fun o args' => ⟨fun h => (by cases h), ?_⟩, fun e tail => ⟨fun h => ?_, fun h => ?_⟩⟩
    · rintro (⟨rfl, _⟩ | ⟨a, _, h⟩)
      · exact absurd (by simp [Known]) hk
      · exact absurd h (shows_none n c (.inl hk) a o)
    · cases h; exact .unknown c tail args hk
    · cases h with
      | unknown => rfl
      | tooFew _ _ h => exact absurd h hk
      | wrongClass _ _ _ _ h => exact absurd h hk

theorem printLoop_out (n : Names) : ∀ (cs : List Char) (found : Bool) (args : List Arg) (out : List Char),
    printLoop n found cs args out = (printLoop n found cs args []).after out
  | [], found, args, out => by simp [printLoop, Res.after]
  | c :: cs, true, args, out => by
    simp only [printLoop]
    cases select n c args with
    | error e => simp [Res.after]
    | ok r =>
      obtain ⟨o, args'⟩ := r
      dsimp only
      rw [printLoop_out n cs false args' (out ++ o), printLoop_out n cs false args' ([] ++ o)]
      simp [Res.after]
  | c :: cs, false, args, out => by
    simp only [printLoop]
    split
    · exact printLoop_out n cs true args out
    · rw [printLoop_out n cs false args (out ++ [c]), printLoop_out n cs false args ([] ++ [c])]
      simp [Res.after]

theorem print_text (n : Names) (c : Char) (cs : List Char) (args : List Arg) (h : c ≠ '%') :
    printFormat n (c :: cs) args = (printFormat n cs args).after [c] := by
  show printLoop n false (c :: cs) args [] = _
  simp only [printLoop, if_neg h]
  rw [printLoop_out]
  rfl

theorem print_directive (n : Names) (c : Char) (cs : List Char) (args : List Arg) :
    printFormat n ('%' :: c :: cs) args =
      match select n c args with
      | .error e => ⟨[], some e⟩
      | .ok (o, args') => (printFormat n cs args').after o := by
  show printLoop n false ('%' :: c :: cs) args [] = _
  simp only [printLoop, ↓reduceIte]
  cases select n c args with
  | error e => rfl
  | ok r =>
    obtain ⟨o, args'⟩ := r
    dsimp only
    rw [printLoop_out]
    rfl

theorem SaysC.fit {n : Names} {ps args out left} (h : SaysC n ps args out left) (hf : Fit args) : Fit left := by
  induction h with
  | done => exact hf
  | text _ _ _ _ _ _ _ ih => exact ih hf
  | percent _ _ _ _ _ ih => exact ih hf
  | directive _ _ _ _ _ _ _ _ _ ih => exact ih (fun i hi => hf i (by simp [hi]))

theorem print_pieces (n : Names) {ps args out left} (h : SaysC n ps args out left) (hf : Fit args)
    (rest : List Char) : printFormat n (write ps ++ rest) args = (printFormat n rest left).after out := by
  induction h with
  | done args => simp [write, Res.after]
  | text c ps args out left hc h ih =>
    show printFormat n (c :: (write ps ++ rest)) args = _
    rw [print_text n c _ _ hc, ih hf]
    simp [Res.after]
  | percent ps args out left h ih =>
    show printFormat n ('%' :: '%' :: (write ps ++ rest)) args = _
    rw [print_directive, ((select_spec n '%' args hf).1 ['%'] args).2 (.inl ⟨rfl, rfl, rfl⟩)]
    dsimp only
    rw [ih hf]
    simp [Res.after]
  | directive c a t ps args out left hs h ih =>
    show printFormat n ('%' :: c :: (write ps ++ rest)) (a :: args) = _
    rw [print_directive, ((select_spec n c (a :: args) hf).1 t args).2 (.inr ⟨a, rfl, hs⟩)]
    dsimp only
    rw [ih (fun i hi => hf i (by simp [hi]))]
    simp [Res.after]

theorem print_cases (n : Names) (cs : List Char) (args : List Arg) (hf : Fit args) :
    ∃ ps tail left, cs = write ps ++ tail ∧ SaysC n ps args (printFormat n cs args).out left ∧
      (((printFormat n cs args).err = none ∧ tail = []) ∨
        ∃ e t, (printFormat n cs args).err = some e ∧ tail = '%' :: t ∧ Wrong n t left e) := by
  induction hl : cs.length using Nat.strongRecOn generalizing cs args with
  | ind k ih =>
    subst hl
    cases cs with
    | nil => exact ⟨[], [], args, rfl, .done args, .inl ⟨rfl, rfl⟩⟩
    | cons c cs =>
      by_cases hc : c = '%'
      · subst hc
        cases cs with
        | nil => exact ⟨[], ['%'], args, rfl, .done args, .inr ⟨.incomplete, [], rfl, rfl, .incomplete _⟩⟩
        | cons c cs =>
          rw [print_directive]
          cases hs : select n c args with
          | error e =>
            exact ⟨[], '%' :: c :: cs, args, rfl, .done args,
              .inr ⟨e, c :: cs, rfl, rfl, ((select_spec n c args hf).2 e cs).1 hs⟩⟩
          | ok r =>
            obtain ⟨o, args'⟩ := r
            dsimp only
            have h1 := ((select_spec n c args hf).1 o args').1 hs
            have hf' : Fit args' := by
              rcases h1 with ⟨_, _, rfl⟩ | ⟨a, rfl, _⟩
              · exact hf
              · exact fun i hi => hf i (by simp [hi])
            obtain ⟨ps, tail, left, i1, i2, i3⟩ := ih cs.length (by simp; omega) cs args' hf' rfl
            refine ⟨.directive none c :: ps, tail, left, by rw [i1]; rfl, ?_, i3⟩
            rcases h1 with ⟨rfl, rfl, rfl⟩ | ⟨a, rfl, h1⟩
            · exact .percent ps _ _ _ i2
            · exact .directive c a o ps _ _ _ h1 i2
      · rw [print_text n c cs args hc]
        obtain ⟨ps, tail, left, i1, i2, i3⟩ := ih cs.length (by simp) cs args hf rfl
        exact ⟨.text c :: ps, tail, left, by rw [i1]; rfl, .text c ps _ _ _ hc i2, i3⟩

/-- **C128** `format-to-string` gives a string exactly if the control string is made of text and directives
    and the arguments are right for them, and the string is what they say. Arguments that are left over do
    no harm. -/
theorem print_says (n : Names) (cs : List Char) (args : List Arg) (hf : Fit args) (out : List Char) :
    printFormat n cs args = ⟨out, none⟩ ↔ ∃ ps left, write ps = cs ∧ SaysC n ps args out left := by
  constructor
  · intro h
    obtain ⟨ps, tail, left, h1, h2, h3 | ⟨e, t, h3, _⟩⟩ := print_cases n cs args hf
    · rw [h] at h2
      rw [h3.2, List.append_nil] at h1
      exact ⟨ps, left, h1.symm, h2⟩
    · rw [h] at h3; cases h3
  · rintro ⟨ps, left, rfl, h⟩
    have := print_pieces n h hf []
    rw [List.append_nil] at this
    rw [this]
    simp [Res.after, printFormat, printLoop]

/-- **C128** It is an error exactly if, behind text and directives that are right, there is a percent sign
    and nothing else, an unknown directive, or a directive whose argument is missing or of the wrong class. -/
theorem print_errors (n : Names) (cs : List Char) (args : List Arg) (hf : Fit args) (out : List Char) (e : Err) :
    printFormat n cs args = ⟨out, some e⟩ ↔
      ∃ ps t left, cs = write ps ++ '%' :: t ∧ SaysC n ps args out left ∧ Wrong n t left e := by
  constructor
  · intro h
    obtain ⟨ps, tail, left, h1, h2, h3 | ⟨e', t, h3, h4, h5⟩⟩ := print_cases n cs args hf
    · rw [h] at h3; cases h3.1
    · rw [h] at h2 h3
      cases h3
      exact ⟨ps, t, left, by rw [h1, h4], h2, h5⟩
  · rintro ⟨ps, t, left, rfl, h1, h2⟩
    rw [print_pieces n h1 hf]
    have : printFormat n ('%' :: t) left = ⟨[], some e⟩ := by
      cases t with
      | nil => cases h2; rfl
      | cons c t =>
        rw [print_directive, ((select_spec n c left (h1.fit hf)).2 e t).2 h2]
    rw [this]
    simp [Res.after]

example (n : Names) : printFormat n "%d%% of %s%c".toList [.int (-42), .other 1, .char '!', .float 2]
    = ⟨['-', '4', '2', '%', ' ', 'o', 'f', ' '] ++ n.pretty (.other 1) ++ ['!'], none⟩ := by
  rw [print_says n _ _ (by simp [Fit]; decide)]
  exact ⟨[.directive none 'd', .directive none '%', .text ' ', .text 'o', .text 'f', .text ' ',
    .directive none 's', .directive none 'c'], [.float 2], rfl, by
    have h4 : Numeral 10 false (-42) ['-', '4', '2'] := ⟨[4, 2], by decide, by decide, .inr ⟨4, [2], rfl, by decide⟩, by decide⟩
    have := SaysC.directive (n := n) 'd' _ _ _ _ _ _ (.decimal 'd' (-42) _ (by simp) h4) (.percent _ _ _ _ (.text ' ' _ _ _ _ (by decide)
      (.text 'o' _ _ _ _ (by decide) (.text 'f' _ _ _ _ (by decide) (.text ' ' _ _ _ _ (by decide)
        (.directive 's' _ _ _ _ _ _ (.message 's' (.other 1) (by simp))
          (.directive 'c' _ _ _ _ _ _ (.char 'c' '!' (by simp)) (.done [.float 2]))))))))
    simpa using this⟩

example (n : Names) : printFormat n "a%d".toList [.string []] = ⟨['a'], some .wrongClass⟩ := by
  rw [print_errors n _ _ (by simp [Fit])]
  refine ⟨[.text 'a'], ['d'], [.string []], rfl, .text _ _ _ _ _ (by decide) (.done _), ?_⟩
  refine .wrongClass _ _ _ _ (by simp [Known]) (by decide) ?_
  intro t h
  cases h with
  | message _ _ h => simp at h

/-- **C128** Whatever the control string and the arguments, `format-to-string` comes to an end in one of these
    ways and in no other. -/
theorem print_outcomes (n : Names) (cs : List Char) (args : List Arg) (hf : Fit args) :
    (printFormat n cs args).err = none ∨ (printFormat n cs args).err = some .incomplete ∨
      (∃ c, (printFormat n cs args).err = some (.unknown c)) ∨ (printFormat n cs args).err = some .tooFew ∨
      (printFormat n cs args).err = some .wrongClass := by
  obtain ⟨_, _, _, _, _, h | ⟨e, t, h, _, hw⟩⟩ := print_cases n cs args hf
  · exact .inl h.1
  · rw [h]
    cases hw <;> simp

/-- Nothing but `%x` tells the two formatters apart, if they show objects alike. -/
structure Alike (p : Printer) (n : Names) : Prop where
  object : ∀ a, p.object a = n.unique a
  number : ∀ a, isNumber a = true → p.object a = n.number a
  string : ∀ s, n.pretty (.string s) = s
  char : ∀ x, n.pretty (.char x) = [x]
  symbol : ∀ s, n.pretty (.symbol s) = s
  plain : ∀ a, (∀ s, a ≠ .string s) → (∀ x, a ≠ .char x) → (∀ s, a ≠ .symbol s) → p.plain a = n.pretty a

theorem alike_shows {p : Printer} {n : Names} (ha : Alike p n) {c a t} (hx : c ≠ 'x') (h : ShowsC n c a t) :
    Shows p c a t := by
  cases h with
  | decimal _ i _ hc h => exact .decimal c i t hc h
  | float _ i hc =>
    rw [← ha.number _ rfl]
    exact .float c i hc
  | big _ i hc =>
    rw [← ha.number _ rfl]
    exact .big c i hc
  | binary _ i _ hc h => exact .binary c i t hc h
  | octal _ i _ hc h => exact .octal c i t hc h
  | hex _ i _ hc h =>
    rcases (by simpa using hc : c = 'x' ∨ c = 'X') with rfl | rfl
    · exact absurd rfl hx
    · exact .hexUpper i t h
  | char _ x hc => exact .char c x (by simp at hc ⊢; tauto)
  | message _ _ hc =>
    have hc' : c ∈ ['s', 'S', 'c', 'C'] := by simp at hc ⊢; tauto
    cases a with
    | string s => rw [ha.string]; exact .string c s hc'
    | char x => rw [ha.char]; exact .char c x hc'
    | symbol s => rw [ha.symbol]; exact .symbol c s hc'
    | _ =>
      rw [← ha.plain _ (by simp) (by simp) (by simp)]
      exact .plain c _ hc' (by simp) (by simp) (by simp)
  | object => rw [← ha.object]; exact .object a

/-- **C128** (part) What `format-to-string` of common-dylan accepts, `format` of io accepts too and writes the
    same, if the two show objects alike and there is no `%x`. Missing: `%x` (`x_case_violated`). -/
theorem formats_agree_partial (p : Printer) (n : Names) (ha : Alike p n) (cs : List Char) (args : List Arg)
    (hf : Fit args) (hx : ∀ a b, cs ≠ a ++ '%' :: 'x' :: b) (out : List Char)
    (h : printFormat n cs args = ⟨out, none⟩) : format p cs args = ⟨out, none⟩ := by
  obtain ⟨ps, left, rfl, hs⟩ := (print_says n cs args hf out).1 h
  have key : ∀ {ps args out left}, SaysC n ps args out left → (∀ a b, write ps ≠ a ++ '%' :: 'x' :: b) →
      Says p ps args out left ∧ ∀ q ∈ ps, Piece.Ok q := by
    intro ps args out left h
    induction h with
    | done args => exact fun _ => ⟨.done args, by simp⟩
    | text c ps args out left hc h ih =>
      intro hx
      obtain ⟨i1, i2⟩ := ih (fun a b e => hx (c :: a) b (by
        show c :: write ps = _
        rw [e]; rfl))
      exact ⟨.text c ps _ _ _ i1, by simpa [Piece.Ok] using ⟨hc, i2⟩⟩
    | percent ps args out left h ih =>
      intro hx
      obtain ⟨i1, i2⟩ := ih (fun a b e => hx ('%' :: '%' :: a) b (by
        show '%' :: '%' :: write ps = _
        rw [e]; rfl))
      exact ⟨.percent none ps _ _ _ i1, by simpa [Piece.Ok] using i2⟩
    | directive c a t ps args out left hs h ih =>
      intro hx
      obtain ⟨i1, i2⟩ := ih (fun a b e => hx ('%' :: c :: a) b (by
        show '%' :: c :: write ps = _
        rw [e]; rfl))
      refine ⟨.directive none c a t ps _ _ _ (alike_shows ha ?_ hs) i1, by simpa [Piece.Ok] using i2⟩
      rintro rfl
      exact hx [] (write ps) rfl
  obtain ⟨h1, h2⟩ := key hs hx
  exact format_says p ps args out left h1 h2 hf

/-- **C128 violated** `%x` gives capital letters in common-dylan and small letters in io. -/
theorem x_case_violated (p : Printer) (n : Names) :
    printFormat n "%x".toList [.int 255] = ⟨['F', 'F'], none⟩ ∧
      format p "%x".toList [.int 255] = ⟨['f', 'f'], none⟩ := by
  constructor
  · rw [print_says n _ _ (by simp [Fit]; decide)]
    refine ⟨[.directive none 'x'], [], rfl, ?_⟩
    exact .directive 'x' (.int 255) ['F', 'F'] [] [] [] [] (.hex _ _ _ (by simp)
      ⟨[15, 15], by decide, by decide, .inr ⟨15, [15], rfl, by decide⟩, by decide⟩) (.done [])
  · exact format_says p [.directive none 'x'] [.int 255] _ []
      (.directive none 'x' (.int 255) ['f', 'f'] [] [] [] [] (.hexLower _ _
        ⟨[15, 15], by decide, by decide, .inr ⟨15, [15], rfl, by decide⟩, by decide⟩) (.done []))
      (by simp [Piece.Ok]) (by simp [Fit]; decide)

/-- The two can show objects alike. -/
example : Alike ⟨fun _ => ['o'], fun _ => ['p']⟩
    ⟨fun a => match a with | .string s => s | .char x => [x] | .symbol s => s | _ => ['p'], fun _ => ['o'], fun _ => ['o']⟩ := by
  constructor <;> intros <;> try rfl
  rename_i a h1 h2 h3
  cases a <;> simp_all

end Verif.Format
