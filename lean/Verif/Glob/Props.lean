import Verif.Glob.Parse

/-!
# C146: patterns of file names

A pattern is a list of parts (`Tok`): `textOf` writes it down, `matchesAll` tells which strings it stands for.  The theorems
say that the function that `glob-match-function` makes answers true for exactly these strings.  Strings and patterns are lists of
codes of characters; those of the strings are below 256.
-/

namespace Verif.Glob

/-- C146: for patterns that are well written there is a number of rounds after which the automaton is complete, and the function
made of it answers true for exactly the strings that one of the patterns stands for. -/
theorem glob_matches (pattern : List Tok) (more : List (List Tok)) (h1 : ∀ t ∈ pattern, t.ok)
    (h2 : ∀ p ∈ more, ∀ t ∈ p, t.ok) :
    ∃ rounds, ∀ fuel, rounds < fuel → ∃ m, globMatcher fuel (textOf pattern) (more.map textOf) = some m ∧
      ∀ w : List Nat, (∀ c ∈ w, c < 256) → (callMatcher m w = true ↔ ∃ p ∈ pattern :: more, matchesAll p w) := by
  obtain ⟨r, p1, p2, p3⟩ := parseGlob_text h1 0
  rw [Nat.zero_add] at p1 p2
  obtain ⟨r', k', q1, q2, q3⟩ := parseMore_text more r pattern.length h2 p2
  have hd : (Re.cat r' (.leaf ⟨k', .accept⟩)).positions.Nodup := by
    rw [Re.positions, List.nodup_append]
    refine ⟨q2.1, by simp [Re.positions], ?_⟩
    intro a ha b hb e
    simp only [Re.positions, List.mem_singleton] at hb
    exact (q2.2 a ha).2.2 (by rw [e, hb])
  refine ⟨2 ^ (Re.cat r' (.leaf ⟨k', .accept⟩)).positions.length, fun fuel hfuel => ?_⟩
  obtain ⟨m, m1, m2⟩ := dfa_spec hd rfl (fun p hp => (q2.2 p hp).2.2) hfuel
  refine ⟨m, ?_, fun w hw => ?_⟩
  · simp only [globMatcher, globRe, p1, q1, Option.map_some, Option.bind_some]
    exact m1
  · rw [m2 w hw, q3 w hw, p3 w hw]
    simp [List.mem_cons]

/-- C146: one bound on the number of rounds is two to the number of parts of all patterns and one. -/
theorem glob_rounds (pattern : List Tok) (h1 : ∀ t ∈ pattern, t.ok) :
    ∀ fuel, 2 ^ (pattern.length + 1) < fuel → (globMatcher fuel (textOf pattern) []).isSome := by
  intro fuel hfuel
  obtain ⟨r, p1, p2, p3⟩ := parseGlob_text h1 0
  rw [Nat.zero_add] at p1 p2
  have hd : (Re.cat r (.leaf ⟨pattern.length, .accept⟩)).positions.Nodup := by
    rw [Re.positions, List.nodup_append]
    refine ⟨p2.1, by simp [Re.positions], ?_⟩
    intro a ha b hb e
    simp only [Re.positions, List.mem_singleton] at hb
    exact (p2.2 a ha).2.2 (by rw [e, hb])
  have hlen : r.positions.length ≤ pattern.length := by
    have hr : r = tokens .eps 0 pattern := by
      have := p1.symm.trans (parseLoop_text pattern _ .eps 0 h1 (Nat.le_refl _))
      simp only [Option.some.injEq, Prod.mk.injEq] at this
      exact this.1
    have hl := congrArg List.length (tokens_ids pattern .eps 0)
    simp only [Re.positions, List.map_nil, List.nil_append, List.length_map, List.length_range'] at hl
    rw [hr]
    omega
  obtain ⟨m, m1, _⟩ := dfa_spec hd rfl (fun p hp => (p2.2 p hp).2.2) (fuel := fuel) (by
    refine Nat.lt_of_le_of_lt (Nat.pow_le_pow_right (by omega) ?_) hfuel
    simp only [Re.positions, List.length_append, List.length_singleton]
    omega)
  simp only [globMatcher, globRe, p1, parseMore, Option.map_some, Option.bind_some]
  rw [m1]
  rfl

/-- C146: a pattern is refused exactly when it is not the text of any list of parts. -/
theorem glob_refused (pattern : List Nat) (more : List (List Nat)) :
    globRe pattern more = none ↔ ∃ p ∈ pattern :: more, ¬ ∃ ts : List Tok, (∀ t ∈ ts, t.ok) ∧ textOf ts = p := by
  have refuse : ∀ p : List Nat, (¬ ∃ ts : List Tok, (∀ t ∈ ts, t.ok) ∧ textOf ts = p) → ∀ k, parseGlob k p = none := by
    intro p hp k
    cases h : parseGlob k p with
    | none => rfl
    | some x => exact absurd (parseLoop_inv _ _ _ _ x h) hp
  constructor
  · intro h
    by_contra hc
    have hall : ∀ p ∈ pattern :: more, ∃ ts : List Tok, (∀ t ∈ ts, t.ok) ∧ textOf ts = p := by
      intro p hp
      by_contra hn
      exact hc ⟨p, hp, hn⟩
    obtain ⟨ts, h1, rfl⟩ := hall pattern (by simp)
    obtain ⟨ms, h2, h3⟩ : ∃ ms : List (List Tok), (∀ p ∈ ms, ∀ t ∈ p, t.ok) ∧ ms.map textOf = more := by
      clear h hc
      induction more with
      | nil => exact ⟨[], by simp, rfl⟩
      | cons q qs ih =>
        obtain ⟨ms, g1, g2⟩ := ih fun p hp => by
          rcases List.mem_cons.1 hp with hp | hp
          · exact hall p (by rw [hp]; simp)
          · exact hall p (by simp [hp])
        obtain ⟨us, g3, g4⟩ := hall q (by simp)
        refine ⟨us :: ms, ?_, by rw [List.map_cons, g4, g2]⟩
        intro p hp
        rcases List.mem_cons.1 hp with rfl | hp
        · exact g3
        · exact g1 p hp
    subst h3
    obtain ⟨rounds, hr⟩ := glob_matches ts ms h1 h2
    obtain ⟨m, hm, _⟩ := hr (rounds + 1) (by omega)
    rw [globMatcher, h] at hm
    exact absurd hm (by simp)
  · rintro ⟨p, hp, hn⟩
    rcases List.mem_cons.1 hp with rfl | hp
    · simp only [globRe, refuse p hn]
    · unfold globRe
      cases parseGlob 0 pattern with
      | none => rfl
      | some x =>
        simp only
        rw [parseMore_none more _ _ ⟨p, hp, refuse p hn⟩]
        rfl

/-- C146: the automaton of any regular expression whose places are different and that ends with the place that accepts: it gets
complete, and the strings it takes are exactly those of the expression. -/
theorem automaton (q : Re) (k : Nat) (hd : (Re.cat q (.leaf ⟨k, .accept⟩)).positions.Nodup)
    (hq : ∀ p ∈ q.positions, p.kind ≠ .accept) :
    ∃ rounds, ∀ fuel, rounds < fuel → ∃ m, dfa fuel (.cat q (.leaf ⟨k, .accept⟩)) = some m ∧
      ∀ w : List Nat, (∀ c ∈ w, c < 256) → (callMatcher m w = true ↔ Lang q (w.map some)) :=
  ⟨_, fun _ hfuel => dfa_spec hd rfl hq hfuel⟩

/-- C146: a hyphen before the bracket that closes does not stand for itself: a set like `[a-]` is refused. -/
theorem last_dash_violated : globRe ("[a-]".toList.map code) [] = none ∧
    ¬ ∃ ts : List Tok, (∀ t ∈ ts, t.ok) ∧ textOf ts = "[a-]".toList.map code := by
  have h : globRe ("[a-]".toList.map code) [] = none := by decide +kernel
  refine ⟨h, ?_⟩
  obtain ⟨p, hp, hn⟩ := (glob_refused _ _).1 h
  rw [List.mem_singleton] at hp
  exact hp ▸ hn

/-! ### Examples -/

/-- `*.[c-h]` and `a\*?` -/
def sample1 : List Tok := [.many, .lit (code '.'), .cls false [.range (code 'c') (code 'h')]]

/-- The second pattern of the example. -/
def sample2 : List Tok := [.lit (code 'a'), .quoted (code '*'), .any, .cls true [.single (code ']'), .single (code 'x')]]

example : textOf sample1 = "*.[c-h]".toList.map code ∧ textOf sample2 = "a\\*?[^]x]".toList.map code := by decide

theorem sample_ok : (∀ t ∈ sample1, t.ok) ∧ ∀ p ∈ [sample2], ∀ t ∈ p, t.ok := by
  constructor
  · intro t ht
    simp only [sample1, List.mem_cons, List.not_mem_nil, or_false] at ht
    rcases ht with rfl | rfl | rfl
    · trivial
    · exact ⟨by decide, by decide, by decide, by decide⟩
    · refine ⟨by simp, ⟨.inl rfl, ?_, trivial⟩, ?_⟩
      · intro _ j hj
        simp at hj
      · intro _ i hi
        simp only [List.head?_cons, Option.some.injEq] at hi
        rw [← hi]
        decide
  · intro p hp t ht
    rw [List.mem_singleton.1 hp] at ht
    simp only [sample2, List.mem_cons, List.not_mem_nil, or_false] at ht
    rcases ht with rfl | rfl | rfl | rfl
    · exact ⟨by decide, by decide, by decide, by decide⟩
    · trivial
    · trivial
    · refine ⟨by simp, ⟨.inl rfl, ?_, .inr (by decide), ?_, trivial⟩, by simp⟩
      · intro _ j hj
        simp only [List.head?_cons, Option.some.injEq] at hj
        rw [← hj]
        decide
      · intro _ j hj
        simp at hj

/-- The hypotheses of the theorem hold, and the two sides are true for one string and false for another. -/
example : (globMatcher 100 (textOf sample1) ([sample2].map textOf)).map (callMatcher · ("x.h".toList.map code)) = some true ∧
    (globMatcher 100 (textOf sample1) ([sample2].map textOf)).map (callMatcher · ("a*b?".toList.map code)) = some true ∧
    (globMatcher 100 (textOf sample1) ([sample2].map textOf)).map (callMatcher · ("a*b]".toList.map code)) = some false := by
  decide +kernel

example : matchesAll sample1 ("x.h".toList.map code) :=
  ⟨[code 'x'], [code '.', code 'h'], by decide, trivial, [code '.'], [code 'h'], rfl, rfl, [code 'h'], [], rfl,
    ⟨code 'h', rfl, _, List.mem_singleton.2 rfl, show _ ∧ _ by decide⟩, rfl⟩

/-- A pattern that is refused. -/
example : globRe ("a[b".toList.map code) [] = none ∧ globRe ("a\\".toList.map code) [] = none ∧
    (globRe ("a[]]".toList.map code) []).isSome := by
  refine ⟨by decide +kernel, by decide +kernel, by decide +kernel⟩

end Verif.Glob
