import Verif.Macro.Constraint
import Mathlib.Tactic.Common

/-
C134: a constrained pattern variable stands for the longest phrase there is.
-/

namespace Verif.Macro

/-! ### Specification -/

mutual
/-- The tokens of a fragment: brackets are tokens of their own. -/
def tokens : Frag → List Tok
  | .nested d fs => .opens d :: (tokensOf fs ++ [.closes d])
  | f => [.frag f]
def tokensOf : List Frag → List Tok
  | [] => []
  | f :: fs => tokens f ++ tokensOf fs
end

/-- The machine reads the tokens, starting in a state. -/
def Machine.reads (M : Machine) (s : M.State) : List Tok → Option M.State
  | [] => some s
  | t :: w => (M.step s t).bind fun s => M.reads s w

/-- The tokens are a phrase, and what is parsed. -/
def Machine.Phrase (M : Machine) (w : List Tok) (v : Val) : Prop := ∃ s, M.reads M.init w = some s ∧ M.done s = some v

/-- How many more brackets are opened than closed. -/
def surplus : List Tok → Int
  | [] => 0
  | .opens _ :: w => surplus w + 1
  | .closes _ :: w => surplus w - 1
  | _ :: w => surplus w

/-- What every grammar of phrases has: the marker is needed, and brackets come in pairs. -/
def Machine.Proper (M : Machine) : Prop :=
  ∀ w v, M.Phrase w v → w ≠ [] ∧ surplus w = 0

/-- The fragments are a phrase of the constraint. -/
def Machine.Parses (M : Machine) (c : Con) (fs : List Frag) (v : Val) : Prop := M.Phrase (.start c :: tokensOf fs) v

/-- No fragment where the variable has to stop, other than within brackets. -/
def NoStop (stop : Frag → Bool) (fs : List Frag) : Prop := ∀ f ∈ fs, (∃ d g, f = .nested d g) ∨ stop f = false

/-! ### The lexer -/

/-- The tokens of a piece. -/
def Piece.tokens : Piece → List Tok
  | .start c => [.start c]
  | .frag f => Macro.tokens f

/-- The tokens the lexer has still to deliver, if nothing stops it. -/
def pending (ts : List Piece) : List (Delim × List Piece) → List Tok
  | [] => (ts.map Piece.tokens).flatten
  | (d, us) :: ns => (ts.map Piece.tokens).flatten ++ .closes d :: pending us ns

theorem tokensOf_map (fs : List Frag) : ((fs.map Piece.frag).map Piece.tokens).flatten = tokensOf fs := by
  induction fs with
  | nil => rfl
  | cons f fs ih => simp [tokensOf, Piece.tokens, ← ih]

mutual
theorem tokens_length : ∀ f : Frag, (tokens f).length = tokCount f
  | .nested d fs => by simp [tokens, tokCount, tokensOf_length fs]
  | .name _ | .operator _ | .lit _ | .comma | .semicolon | .punct _ | .ellipsis | .form _ => by simp [tokens, tokCount]
theorem tokensOf_length : ∀ fs : List Frag, (tokensOf fs).length = tokCounts fs
  | [] => rfl
  | f :: fs => by simp [tokensOf, tokCounts, tokens_length f, tokensOf_length fs]
end

theorem pending_cons (p : Piece) (ts : List Piece) (ns : List (Delim × List Piece)) :
    pending (p :: ts) ns = p.tokens ++ pending ts ns := by
  cases ns with
  | nil => simp [pending]
  | cons n ns => obtain ⟨d, us⟩ := n; simp [pending]

/-- The lexer stops at the top level before a fragment that stops it. -/
def Lex.stopped (stop : Frag → Bool) (l : Lex) : Prop :=
  l.nesting = [] ∧ ∃ f ts, l.tokens = .frag f :: ts ∧ (∀ d g, f ≠ .nested d g) ∧ stop f = true

theorem next_some {stop : Frag → Bool} {limit : Option Nat} {l l' : Lex} {t : Tok}
    (h : l.next stop limit = some (t, l')) :
    pending l.tokens l.nesting = t :: pending l'.tokens l'.nesting ∧ l'.count = l.count + 1 ∧ limit ≠ some l.count := by
  unfold Lex.next at h
  split at h
  · cases h
  · rename_i hl
    refine ⟨?_, ?_, hl⟩
    · split at h
      · rename_i ht
        split at h
        · cases h
        · rename_i d ts ns hn
          cases h
          simp [ht, hn, pending]
      · rename_i c ts ht
        cases h
        rw [ht, pending_cons]; rfl
      · rename_i d inner ts ht
        cases h
        rw [ht, pending_cons]
        simp only [Piece.tokens, tokens, pending, tokensOf_map, List.cons_append, List.append_assoc, List.nil_append]
      · rename_i f ts hne ht
        split at h
        · cases h
        · cases h
          rw [ht, pending_cons]
          have : Piece.tokens (.frag f) = [.frag f] := by
            cases f <;> first | rfl | exact absurd rfl (hne _ _)
          rw [this]; rfl
    · split at h
      · split at h <;> cases h
        rfl
      · cases h; rfl
      · cases h; rfl
      · split at h <;> cases h
        rfl

theorem next_none {stop : Frag → Bool} {limit : Option Nat} {l : Lex} (h : l.next stop limit = none) :
    limit = some l.count ∨ pending l.tokens l.nesting = [] ∨ l.stopped stop := by
  unfold Lex.next at h
  split at h
  · left; assumption
  · right
    split at h
    · rename_i ht
      split at h
      · rename_i hn; left; simp [ht, hn, pending]
      · cases h
    · cases h
    · cases h
    · rename_i f ts hne ht
      split at h
      · rename_i hs
        right
        simp only [Bool.and_eq_true, List.isEmpty_iff] at hs
        exact ⟨hs.1, f, ts, ht, hne, hs.2⟩
      · cases h

/-! ### Where the lexer is -/

theorem tokensOf_append (a b : List Frag) : tokensOf (a ++ b) = tokensOf a ++ tokensOf b := by
  induction a with
  | nil => rfl
  | cons f a ih => simp [tokensOf, ih]

theorem tokens_ne (f : Frag) : tokens f ≠ [] := by cases f <;> simp [tokens]

theorem surplus_append (a b : List Tok) : surplus (a ++ b) = surplus a + surplus b := by
  induction a with
  | nil => simp [surplus]
  | cons t a ih => cases t <;> simp [surplus, ih] <;> omega

/-- The list at the bottom of the stack of the lexer: what is left at the top level. -/
def bottom (ts : List Piece) : List (Delim × List Piece) → List Piece
  | [] => ts
  | (_, us) :: ns => bottom us ns

/-- Where the lexer is when it has delivered `u`. -/
structure Here (stop : Frag → Bool) (c : Con) (fs : List Frag) (u : List Tok) (l : Lex) : Prop where
  count : l.count = u.length
  all : .start c :: tokensOf fs = u ++ pending l.tokens l.nesting
  nested : (l.nesting.length : Int) = surplus u
  top : (u = [] ∧ l.nesting = [] ∧ l.tokens = .start c :: fs.map .frag) ∨
    ∃ taken rest, fs = taken ++ rest ∧ bottom l.tokens l.nesting = rest.map .frag ∧ NoStop stop taken

theorem here_start (stop : Frag → Bool) (c : Con) (fs : List Frag) :
    Here stop c fs [] ⟨.start c :: fs.map .frag, [], 0⟩ := by
  refine ⟨rfl, ?_, by simp [surplus], .inl ⟨rfl, rfl, rfl⟩⟩
  simp only [List.nil_append, pending_cons, Piece.tokens]
  simp only [pending, tokensOf_map]
  rfl

theorem here_next {stop : Frag → Bool} {c : Con} {fs : List Frag} {u : List Tok} {l l' : Lex} {t : Tok}
    {limit : Option Nat} (h : Here stop c fs u l) (hn : l.next stop limit = some (t, l')) :
    Here stop c fs (u ++ [t]) l' := by
  obtain ⟨h1, h2, _⟩ := next_some hn
  refine ⟨by simp [h2, h.count], by rw [h.all, h1]; simp, ?_, ?_⟩
  · have hnest := h.nested
    unfold Lex.next at hn
    split at hn
    · cases hn
    · rw [surplus_append]
      split at hn
      · split at hn
        · cases hn
        · rename_i hns; cases hn; rw [hns] at hnest; simp [surplus] at hnest ⊢; omega
      · cases hn; simp [surplus, hnest]
      · cases hn; simp [surplus, hnest]
      · split at hn
        · cases hn
        · cases hn; simp [surplus, hnest]
  · right
    rcases h.top with ⟨rfl, hns, hts⟩ | ⟨taken, rest, hfs, hb, hst⟩
    · -- the marker
      unfold Lex.next at hn
      simp only [hts] at hn
      split at hn
      · cases hn
      · cases hn
        exact ⟨[], fs, rfl, by simp [hns, bottom], by intro f hf; cases hf⟩
    · unfold Lex.next at hn
      split at hn
      · cases hn
      · split at hn
        · rename_i ht
          split at hn
          · cases hn
          · rename_i d ts ns hns
            cases hn
            refine ⟨taken, rest, hfs, ?_, hst⟩
            rw [hns] at hb; exact hb
        · rename_i d ts ht
          cases hn
          cases hns : l.nesting with
          | nil =>
            exfalso
            rw [hns, ht] at hb
            cases rest <;> simp [bottom] at hb
          | cons n ns =>
            refine ⟨taken, rest, hfs, ?_, hst⟩
            obtain ⟨d', us⟩ := n
            rw [hns] at hb; exact hb
        · rename_i d inner ts ht
          cases hn
          cases hns : l.nesting with
          | nil =>
            rw [hns, ht] at hb
            cases rest with
            | nil => simp [bottom] at hb
            | cons f rest =>
              simp only [bottom, List.map_cons, List.cons.injEq, Piece.frag.injEq] at hb
              obtain ⟨rfl, rfl⟩ := hb
              refine ⟨taken ++ [.nested d inner], rest, by simp [hfs], by simp [bottom], ?_⟩
              intro f hf
              rcases List.mem_append.1 hf with hf | hf
              · exact hst f hf
              · left; simp at hf; exact ⟨d, inner, hf⟩
          | cons n ns =>
            refine ⟨taken, rest, hfs, ?_, hst⟩
            obtain ⟨d', us⟩ := n
            rw [hns] at hb; exact hb
        · rename_i g ts hne ht
          split at hn
          · cases hn
          · rename_i hs
            cases hn
            cases hns : l.nesting with
            | nil =>
              rw [hns, ht] at hb
              cases rest with
              | nil => simp [bottom] at hb
              | cons f rest =>
                simp only [bottom, List.map_cons, List.cons.injEq, Piece.frag.injEq] at hb
                obtain ⟨rfl, rfl⟩ := hb
                refine ⟨taken ++ [g], rest, by simp [hfs], by simp [bottom], ?_⟩
                intro f hf
                rcases List.mem_append.1 hf with hf | hf
                · exact hst f hf
                · right
                  simp at hf
                  rw [hf]
                  simpa [hns] using hs
            | cons n ns =>
              refine ⟨taken, rest, hfs, ?_, hst⟩
              obtain ⟨d', us⟩ := n
              rw [hns] at hb; exact hb

/-- At the top level the lexer has delivered the tokens of some of the fragments. -/
theorem here_top {stop : Frag → Bool} {c : Con} {fs : List Frag} {u : List Tok} {l : Lex} (h : Here stop c fs u l)
    (hu : u ≠ []) (hs : surplus u = 0) : l.nesting = [] ∧ ∃ taken rest, fs = taken ++ rest ∧ NoStop stop taken ∧
      l.tokens = rest.map .frag ∧ u = .start c :: tokensOf taken := by
  have hn : l.nesting = [] := by
    have := h.nested
    rw [hs] at this
    exact List.length_eq_zero_iff.1 (by omega)
  refine ⟨hn, ?_⟩
  rcases h.top with ⟨rfl, _⟩ | ⟨taken, rest, hfs, hb, hst⟩
  · exact absurd rfl hu
  · rw [hn] at hb
    simp only [bottom] at hb
    refine ⟨taken, rest, hfs, hst, hb, ?_⟩
    have := h.all
    rw [hn, hb] at this
    simp only [pending, tokensOf_map] at this
    rw [hfs, tokensOf_append, ← List.cons_append] at this
    exact (List.append_cancel_right this).symm

theorem reads_append (M : Machine) (s : M.State) (a b : List Tok) :
    M.reads s (a ++ b) = (M.reads s a).bind fun s => M.reads s b := by
  induction a generalizing s with
  | nil => rfl
  | cons t a ih =>
    simp only [List.cons_append, Machine.reads]
    cases M.step s t with
    | none => rfl
    | some s' => simp [ih]

/-- Fragments that may be taken. -/
def Available (stop : Frag → Bool) (fs taken : List Frag) : Prop := ∃ rest, fs = taken ++ rest ∧ NoStop stop taken

theorem available_prefix {stop : Frag → Bool} {fs taken : List Frag} (h : Available stop fs taken) (c : Con) :
    ∃ w, .start c :: tokensOf fs = (.start c :: tokensOf taken) ++ w := by
  obtain ⟨rest, rfl, _⟩ := h
  exact ⟨tokensOf rest, by rw [tokensOf_append]; rfl⟩

theorem longer_prefix {a b w u : List Tok} (h : a ++ b = u ++ w) (hl : u.length ≤ a.length) : ∃ x, a = u ++ x := by
  rw [List.append_eq_append_iff] at h
  rcases h with ⟨x, h1, h2⟩ | ⟨x, h1, h2⟩
  · have : x = [] := by
      have := congrArg List.length h1
      simp at this
      exact List.length_eq_zero_iff.1 (by omega)
    subst this
    exact ⟨[], by simp at h1; simp [h1]⟩
  · exact ⟨x, h1⟩

/-- Nothing longer is available where the lexer has come to its end. -/
theorem end_longest {stop : Frag → Bool} {c : Con} {fs : List Frag} {u : List Tok} {l : Lex} {limit : Option Nat}
    (h : Here stop c fs u l) (hn : l.next stop limit = none) (taken : List Frag) (ha : Available stop fs taken)
    (hlim : ∀ k, limit = some k → (tokensOf taken).length + 1 ≤ k) : (tokensOf taken).length + 1 ≤ u.length := by
  rcases next_none hn with hl | hp | ⟨hns, f, ts, ht, hne, hs⟩
  · rw [← h.count]; exact hlim _ hl
  · have h1 := h.all
    rw [hp, List.append_nil] at h1
    obtain ⟨w, hw⟩ := available_prefix ha c
    have := congrArg List.length (h1.symm.trans hw)
    simp at this
    omega
  · rcases h.top with ⟨_, _, h3⟩ | ⟨taken0, rest0, hfs, hb, hst⟩
    · rw [ht] at h3; simp at h3
    · rw [hns, ht] at hb
      cases rest0 with
      | nil => simp [bottom] at hb
      | cons g rest0 =>
        simp only [bottom, List.map_cons, List.cons.injEq, Piece.frag.injEq] at hb
        obtain ⟨rfl, rfl⟩ := hb
        have hu : u = .start c :: tokensOf taken0 := by
          have := h.all
          rw [hns, ht, hfs, tokensOf_append, ← List.cons_append] at this
          rw [show Piece.frag f :: rest0.map Piece.frag = (f :: rest0).map Piece.frag from rfl] at this
          simp only [pending, tokensOf_map] at this
          exact (List.append_cancel_right this).symm
        obtain ⟨rest, hr, hstop⟩ := ha
        by_cases hle : taken.length ≤ taken0.length
        · rw [hr] at hfs
          have : ∃ x, taken0 = taken ++ x := by
            rw [List.append_eq_append_iff] at hfs
            rcases hfs with ⟨x, h1, _⟩ | ⟨x, h1, _⟩
            · exact ⟨x, h1⟩
            · have : x = [] := by
                have := congrArg List.length h1
                simp at this
                exact List.length_eq_zero_iff.1 (by omega)
              subst this
              exact ⟨[], by simp at h1; simp [h1]⟩
          obtain ⟨x, rfl⟩ := this
          rw [hu, tokensOf_append]
          simp
        · exfalso
          have : f ∈ taken := by
            have e : fs[taken0.length]? = some f := by rw [hfs]; simp
            rw [hr, List.getElem?_append_left (by omega)] at e
            exact List.mem_of_getElem? e
          rcases hstop f this with ⟨d, g, e⟩ | e
          · exact hne d g e
          · rw [hs] at e; cases e

/-! ### One attempt -/

theorem attempt_spec (M : Machine) (hM : M.Proper) (stop : Frag → Bool) (c : Con) (fs : List Frag) (limit : Option Nat) :
    ∀ (n : Nat) (s : M.State) (l : Lex) (u : List Tok), Here stop c fs u l → M.reads M.init u = some s →
    (pending l.tokens l.nesting).length < n → (∀ k, limit = some k → u.length ≤ k) →
    (∃ v taken rest, attempt M stop limit n s l = .parsed v (rest.map .frag) ∧ fs = taken ++ rest ∧
      NoStop stop taken ∧ M.Parses c taken v ∧
      ∀ taken', Available stop fs taken' → (∀ k, limit = some k → (tokensOf taken').length + 1 ≤ k) →
        (tokensOf taken').length ≤ (tokensOf taken).length) ∨
    (∃ k, attempt M stop limit n s l = .error k ∧ k ≤ (tokensOf fs).length + 1 ∧ (∀ j, limit = some j → k ≤ j) ∧
      ∀ taken' v', Available stop fs taken' → M.Parses c taken' v' →
        (∀ k, limit = some k → (tokensOf taken').length + 1 ≤ k) → (tokensOf taken').length + 1 < k)
  | 0, _, _, _, _, _, hp, _ => by omega
  | n + 1, s, l, u, h, hr, hp, hlim => by
    have hlen : u.length + (pending l.tokens l.nesting).length = (tokensOf fs).length + 1 := by
      have := congrArg List.length h.all
      simp at this; omega
    rw [attempt]
    cases hn : l.next stop limit with
    | none =>
      simp only
      cases hd : M.done s with
      | some v =>
        left
        have hph : M.Phrase u v := ⟨s, hr, hd⟩
        obtain ⟨hu, hs⟩ := hM u v hph
        obtain ⟨_, taken, rest, hfs, hst, ht, hue⟩ := here_top h hu hs
        refine ⟨v, taken, rest, by simp [ht], hfs, hst, ?_, ?_⟩
        · rw [Machine.Parses, ← hue]; exact hph
        · intro taken' ha hl'
          have := end_longest h hn taken' ha hl'
          rw [hue] at this
          simpa using this
      | none =>
        right
        refine ⟨l.count, rfl, by rw [h.count]; omega, fun j hj => by rw [h.count]; exact hlim j hj, ?_⟩
        intro taken' v' ha hpar hl'
        have hle := end_longest h hn taken' ha hl'
        rw [h.count]
        rcases Nat.lt_or_ge ((tokensOf taken').length + 1) u.length with hlt | hge
        · exact hlt
        · exfalso
          obtain ⟨w, hw⟩ := available_prefix ha c
          obtain ⟨x, hx⟩ := longer_prefix (hw.symm.trans h.all) (by simpa using hge)
          have hxn : x = [] := by
            have := congrArg List.length hx
            simp at this
            exact List.length_eq_zero_iff.1 (by omega)
          subst hxn
          obtain ⟨s', h1, h2⟩ := hpar
          rw [hx, List.append_nil, hr] at h1
          cases h1
          rw [hd] at h2; cases h2
    | some r =>
      obtain ⟨t, l'⟩ := r
      simp only
      obtain ⟨hpend, hcount, hl⟩ := next_some hn
      have h' := here_next h hn
      have hrd : M.reads M.init (u ++ [t]) = M.step s t := by
        rw [reads_append, hr]
        simp only [Option.bind_some, Machine.reads]
        cases M.step s t <;> rfl
      have hlim' : ∀ k, limit = some k → (u ++ [t]).length ≤ k := by
        intro k hk
        have := hlim k hk
        have hne : k ≠ l.count := by rintro rfl; exact hl hk
        rw [h.count] at hne
        simp; omega
      have hpl : (pending l.tokens l.nesting).length = (pending l'.tokens l'.nesting).length + 1 := by
        rw [hpend]; simp
      cases hst : M.step s t with
      | some s' =>
        simp only
        refine attempt_spec M hM stop c fs limit n s' l' (u ++ [t]) h' (by rw [hrd, hst]) ?_ hlim'
        omega
      | none =>
        right
        refine ⟨l'.count, rfl, ?_, ?_, ?_⟩
        · rw [h'.count]; simp; omega
        · intro j hj; rw [h'.count]; exact hlim' j hj
        · intro taken' v' ha hpar _
          rw [h'.count]
          rcases Nat.lt_or_ge ((tokensOf taken').length + 1) (u ++ [t]).length with hlt | hge
          · exact hlt
          · exfalso
            obtain ⟨w, hw⟩ := available_prefix ha c
            obtain ⟨x, hx⟩ := longer_prefix (hw.symm.trans h'.all) (by simpa using hge)
            obtain ⟨s', h1, _⟩ := hpar
            rw [hx, reads_append, hrd, hst] at h1
            cases h1

/-! ### All attempts -/

theorem attempts_spec (M : Machine) (hM : M.Proper) (stop : Frag → Bool) (c : Con) (fs : List Frag) :
    ∀ (n : Nat) (limit : Option Nat),
    (∀ k, limit = some k → k < n) → (limit = none → (tokensOf fs).length + 1 < n) →
    (∀ k, limit = some k → ∀ taken v, Available stop fs taken → M.Parses c taken v → (tokensOf taken).length + 1 ≤ k) →
    (∃ v taken rest, attempts M stop c fs n limit = .found (rest.map .frag) v ∧ fs = taken ++ rest ∧
      NoStop stop taken ∧ M.Parses c taken v ∧
      ∀ taken' v', Available stop fs taken' → M.Parses c taken' v' →
        (tokensOf taken').length ≤ (tokensOf taken).length) ∨
    (attempts M stop c fs n limit = .failure ∧ ∀ taken v, Available stop fs taken → ¬ M.Parses c taken v)
  | 0, limit, h0, h1, _ => by
    cases limit with
    | none => exact absurd (h1 rfl) (by omega)
    | some k => exact absurd (h0 k rfl) (by omega)
  | n + 1, limit, h0, h1, hinv => by
    rw [attempts]
    have hlen := tokensOf_length fs
    rcases attempt_spec M hM stop c fs limit (tokCounts fs + 2) M.init ⟨.start c :: fs.map .frag, [], 0⟩ []
        (here_start stop c fs) rfl (by
          have := congrArg List.length (here_start stop c fs).all
          simp at this ⊢; omega) (by intro k _; simp) with
      ⟨v, taken, rest, he, hfs, hst, hpar, hlong⟩ | ⟨k, he, hk, hkl, hno⟩
    · left
      simp only [he]
      refine ⟨v, taken, rest, rfl, hfs, hst, hpar, ?_⟩
      intro taken' v' ha hp
      exact hlong taken' ha (fun k hk => hinv k hk taken' v' ha hp)
    · simp only [he]
      by_cases hz : limit = some 0
      · right
        rw [if_pos hz]
        refine ⟨rfl, ?_⟩
        intro taken v ha hp
        have := hinv 0 hz taken v ha hp
        omega
      · rw [if_neg hz]
        refine attempts_spec M hM stop c fs n (some (k - 1)) ?_ (by simp) ?_
        · intro j hj
          simp only [Option.some.injEq] at hj
          subst hj
          cases limit with
          | none => have := h1 rfl; omega
          | some i =>
            have := h0 i rfl
            have := hkl i rfl
            have : i ≠ 0 := fun e => hz (by rw [e])
            omega
        · intro j hj taken v ha hp
          simp only [Option.some.injEq] at hj
          have := hno taken v ha hp (fun i hi => hinv i hi taken v ha hp)
          omega

/-! ### The theorems -/

/-- C134: if a phrase is found, it is the beginning of the fragments, a phrase of the constraint that does not go past
a fragment where the variable has to stop, and no longer beginning is; what remains is the rest. -/
theorem constraint_longest (M : Machine) (hM : M.Proper) (stop : Frag → Bool) (c : Con) (fs : List Frag)
    (remains : List Piece) (v : Val) (h : parseConstraint M stop c fs = .found remains v) :
    ∃ taken rest, fs = taken ++ rest ∧ remains = rest.map .frag ∧ NoStop stop taken ∧ M.Parses c taken v ∧
      ∀ taken' rest' v', fs = taken' ++ rest' → NoStop stop taken' → M.Parses c taken' v' →
        taken'.length ≤ taken.length := by
  rcases attempts_spec M hM stop c fs (tokCounts fs + 4) none (by simp) (by rw [tokensOf_length]; intro; omega)
      (by simp) with ⟨v', taken, rest, he, hfs, hst, hpar, hlong⟩ | ⟨he, _⟩
  · unfold parseConstraint at h
    rw [he] at h
    cases h
    refine ⟨taken, rest, hfs, rfl, hst, hpar, ?_⟩
    intro taken' rest' v' hfs' hst' hp'
    have hle := hlong taken' v' ⟨rest', hfs', hst'⟩ hp'
    by_contra hc
    rw [hfs] at hfs'
    have : ∃ x y, taken' = taken ++ x :: y := by
      rw [List.append_eq_append_iff] at hfs'
      rcases hfs' with ⟨x, h1, _⟩ | ⟨x, h1, _⟩
      · cases x with
        | nil => simp at h1; rw [h1] at hc; omega
        | cons x y => exact ⟨x, y, h1⟩
      · rw [h1] at hc; simp at hc
    obtain ⟨x, y, rfl⟩ := this
    rw [tokensOf_append, tokensOf] at hle
    have := List.length_pos_iff.2 (tokens_ne x)
    simp at hle; omega
  · unfold parseConstraint at h
    rw [he] at h; cases h

/-- C134: if none is found, no beginning of the fragments is a phrase. -/
theorem constraint_failure (M : Machine) (hM : M.Proper) (stop : Frag → Bool) (c : Con) (fs : List Frag)
    (h : parseConstraint M stop c fs = .failure) (taken rest : List Frag) (v : Val) (hfs : fs = taken ++ rest)
    (hst : NoStop stop taken) : ¬ M.Parses c taken v := by
  rcases attempts_spec M hM stop c fs (tokCounts fs + 4) none (by simp) (by rw [tokensOf_length]; intro; omega)
      (by simp) with ⟨v', taken', rest', he, _⟩ | ⟨_, hno⟩
  · unfold parseConstraint at h
    rw [he] at h; cases h
  · exact hno taken v ⟨rest, hfs, hst⟩

/-- C134: the search comes to an end. -/
theorem constraint_ends (M : Machine) (hM : M.Proper) (stop : Frag → Bool) (c : Con) (fs : List Frag) :
    parseConstraint M stop c fs ≠ .running := by
  rcases attempts_spec M hM stop c fs (tokCounts fs + 4) none (by simp) (by rw [tokensOf_length]; intro; omega)
      (by simp) with ⟨v', taken', rest', he, _⟩ | ⟨he, _⟩
  · unfold parseConstraint; rw [he]; simp
  · unfold parseConstraint; rw [he]; simp

/-! ### A grammar -/

/-- The sums of names, with parentheses: how many are open, and whether an operand is expected. -/
def sums : Machine where
  State := Option (Nat × Bool)
  init := none
  step := fun s t =>
    match s, t with
    | none, .start _ => some (some (0, true))
    | some (d, true), .frag (.name _) => some (some (d, false))
    | some (d, false), .frag (.operator _) => some (some (d, true))
    | some (d, true), .opens .paren => some (some (d + 1, true))
    | some (d + 1, false), .closes .paren => some (some (d, false))
    | _, _ => none
  done := fun s =>
    match s with
    | some (0, false) => some (.one (.form 0))
    | _ => none

/-- How many are open. -/
def sumsDepth : Option (Nat × Bool) → Int
  | none => 0
  | some (d, _) => d

theorem sums_depth : ∀ (w : List Tok) (s s' : Option (Nat × Bool)), sums.reads s w = some s' →
    sumsDepth s' = sumsDepth s + surplus w
  | [], s, s', h => by cases Option.some.inj h; simp [surplus]
  | t :: w, s, s', h => by
    obtain ⟨s1, h1, h2⟩ := Option.bind_eq_some_iff.1 h
    rw [sums_depth w s1 s' h2]
    unfold sums at h1
    simp only at h1
    split at h1 <;> cases h1
    all_goals simp [sumsDepth, surplus]
    all_goals omega

theorem sums_proper : sums.Proper := by
  rintro w v ⟨s, h1, h2⟩
  constructor
  · rintro rfl
    cases Option.some.inj h1
    cases h2
  · have := sums_depth w _ _ h1
    have hs : ∀ s : Option (Nat × Bool), sums.done s = some v → sumsDepth s = 0 := by
      rintro (_ | ⟨_ | d, _ | _⟩) h <;> first | rfl | cases h
    rw [hs s h2] at this
    have hi : sumsDepth sums.init = 0 := rfl
    rw [hi] at this
    omega

-- the hypothesis holds of this grammar; of `a + (b + c) + , d` it is `a + (b + c)` that is taken
example : sums.Proper ∧ parseConstraint sums (fun _ => false) .expression
    [.name ['a'], .operator ['+'], .nested .paren [.name ['b'], .operator ['+'], .name ['c']], .operator ['+'], .comma,
      .name ['d']] = .found [.frag (.operator ['+']), .frag .comma, .frag (.name ['d'])] (.one (.form 0)) :=
  ⟨sums_proper, rfl⟩

-- bounded by operators, only `a`
example : parseConstraint sums (fun f => match f with | .operator _ => true | _ => false) .variable
    [.name ['a'], .operator ['+'], .name ['b']] =
    .found [.frag (.operator ['+']), .frag (.name ['b'])] (.one (.form 0)) := rfl

-- of `(a + ) b` nothing is taken
example : parseConstraint sums (fun _ => false) .expression
    [.nested .paren [.name ['a'], .operator ['+']], .name ['b']] = .failure := rfl

/-- C134, violated: `?e:expression` takes an operator that is all there is, although no grammar need have it as an
expression - this one has not. -/
theorem lone_operator_violated :
    matchExpression sums [.operator ['+']] = .found [] (.one (.operator ['+'])) ∧
    ∀ taken rest v, [.operator ['+']] = taken ++ rest → ¬ sums.Parses .expression taken v := by
  refine ⟨rfl, ?_⟩
  intro taken rest v h
  exact constraint_failure sums sums_proper (fun _ => false) .expression [.operator ['+']] rfl taken rest v h
    (by intro f hf; right; rfl)

/-- C134: for fragments other than one alone, `?e:expression` is the longest expression. -/
theorem expression_parsed (M : Machine) (f g : Frag) (fs : List Frag) :
    matchExpression M (f :: g :: fs) = parseConstraint M (fun _ => false) .expression (f :: g :: fs) := by
  cases f <;> rfl

end Verif.Macro
