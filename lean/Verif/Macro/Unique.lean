import Verif.Macro.PatternLemmas
import Verif.Macro.ExpandSpec

namespace Verif.Macro

/-! ### A reading is determined by how many fragments the wildcards stand for -/

theorem twoParts_unique {sep : Frag} {last : Prop} {F F' S S' : List Frag → Prop} {fs : List Frag}
    (h : TwoParts sep last F S fs) (h' : TwoParts sep last F' S' fs) : ∃ a b, F a ∧ F' a ∧ S b ∧ S' b := by
  have key : ∀ a b a' b' : List Frag, a ++ sep :: b = a' ++ sep :: b' → Without sep a → Without sep a' →
      a = a' ∧ b = b' := by
    intro a
    induction a with
    | nil =>
      intro b a' b' e _ ha'
      cases a' with
      | nil => simp at e; exact ⟨rfl, e⟩
      | cons x a' => simp at e; exact absurd e.1.symm (ha' x (by simp))
    | cons y a ih =>
      intro b a' b' e ha ha'
      cases a' with
      | nil => simp at e; exact absurd e.1 (ha y (by simp))
      | cons x a' =>
        simp only [List.cons_append, List.cons.injEq] at e
        obtain ⟨e1, e2⟩ := ih b a' b' e.2 (fun f hf => ha f (by simp [hf])) (fun f hf => ha' f (by simp [hf]))
        exact ⟨by rw [e.1, e1], e2⟩
  rcases h with ⟨a, b, e, w, f, s⟩ | ⟨_, w, f, s⟩
  · rcases h' with ⟨a', b', e', w', f', s'⟩ | ⟨_, w', _, _⟩
    · obtain ⟨rfl, rfl⟩ := key a b a' b' (e.symm.trans e') w w'
      exact ⟨a, b, f, f', s, s'⟩
    · exact absurd rfl (w' sep (by rw [e]; simp))
  · rcases h' with ⟨a', b', e', _, _, _⟩ | ⟨_, _, f', s'⟩
    · exact absurd rfl (w sep (by rw [e']; simp))
    · exact ⟨fs, [], f, f', s, s'⟩

theorem nameLike_unique {f : Frag} {n m : Name} (h : NameLike f n) (h' : NameLike f m) : n = m := by
  rw [← nameOf_iff] at h h'
  rw [h] at h'; exact Option.some.inj h'

theorem spliced_unique {pre suf : Option Name} {core core' n : Name} (h : Spliced pre suf core n)
    (h' : Spliced pre suf core' n) : core = core' := by
  rw [← spliceName_some] at h h'
  rw [h] at h'
  exact Option.some.inj (Option.some.inj h')

theorem simpleTakes_unique {P : Parsers} {s : Simple} (hw : ∀ i, s ≠ .wild i) {fs : List Frag} {v v' : Val}
    {rest rest' : List Frag} (h : SimpleTakes P s fs v rest) (h' : SimpleTakes P s fs v' rest') :
    v = v' ∧ rest = rest' := by
  cases s with
  | wild i => exact absurd rfl (hw i)
  | token i =>
    obtain ⟨f, rfl, _, rfl⟩ := h
    obtain ⟨f', e, _, rfl⟩ := h'
    cases e; exact ⟨rfl, rfl⟩
  | nameVar i =>
    obtain ⟨f, _, rfl, _, rfl⟩ := h
    obtain ⟨f', _, e, _, rfl⟩ := h'
    cases e; exact ⟨rfl, rfl⟩
  | symbolVar i =>
    obtain ⟨f, rfl, rfl⟩ := h
    obtain ⟨f', e, rfl⟩ := h'
    cases e; exact ⟨rfl, rfl⟩
  | con c i =>
    simp only [SimpleTakes] at h h'
    rw [h] at h'; cases h'; exact ⟨rfl, rfl⟩
  | splice pre suf i =>
    obtain ⟨f, n, core, rfl, hn, hs, rfl⟩ := h
    obtain ⟨f', n', core', e, hn', hs', rfl⟩ := h'
    cases e
    have := nameLike_unique hn hn'
    subst this
    exact ⟨by rw [spliced_unique hs hs'], rfl⟩

theorem simpleIs_unique {P : Parsers} {s : Simple} {f : Frag} {v v' : Val} (h : SimpleIs P s f v)
    (h' : SimpleIs P s f v') : v = v' := by
  by_cases hw : ∃ i, s = .wild i
  · obtain ⟨i, rfl⟩ := hw
    simp only [SimpleIs] at h h'
    rw [h, h']
  · have e : ∀ w, SimpleIs P s f w ↔ ∃ rest, SimpleTakes P s [f] w rest := by
      intro w
      cases s with
      | wild i => exact absurd ⟨i, rfl⟩ hw
      | _ => rfl
    obtain ⟨_, t⟩ := (e v).1 h
    obtain ⟨_, t'⟩ := (e v').1 h'
    exact (simpleTakes_unique (fun i c => hw ⟨i, c⟩) t t').1

mutual

theorem body_unique (P : Parsers) : ∀ (p : List (List (List Elem))) {ρ ρ' : Env} {fs : List Frag},
    ReadsBody P ρ p fs → ReadsBody P ρ' p fs → (∀ i ∈ bodyWilds p, span ρ i = span ρ' i) →
    ∀ i ∈ bodyVars p, ρ i = ρ' i
  | [], _, _, _, h, _, _ => by simp [ReadsBody] at h
  | p :: ps, ρ, ρ', fs, h, h', hs => by
    rw [ReadsBody] at h h'
    have hsp : ∀ i ∈ listWilds p, span ρ i = span ρ' i := fun i hi => hs i (by simp [bodyWilds, hi])
    have hsq : ∀ i ∈ bodyWilds ps, span ρ i = span ρ' i := fun i hi => hs i (by simp [bodyWilds, hi])
    rcases h with ⟨e, h⟩ | ⟨e, h⟩
    · rcases h' with ⟨_, h'⟩ | ⟨e', _⟩
      · subst e
        intro i hi
        simp [bodyVars] at hi
        exact list_unique P p h h' hsp i hi
      · exact absurd e e'
    · rcases h' with ⟨e', _⟩ | ⟨_, h'⟩
      · exact absurd e' e
      · obtain ⟨a, b, h1, h2, h3, h4⟩ := twoParts_unique h h'
        intro i hi
        simp only [bodyVars, List.mem_append] at hi
        rcases hi with hi | hi
        · exact list_unique P p h1 h2 hsp i hi
        · exact body_unique P ps h3 h4 hsq i hi

theorem list_unique (P : Parsers) : ∀ (p : List (List Elem)) {ρ ρ' : Env} {fs : List Frag},
    ReadsList P ρ p fs → ReadsList P ρ' p fs → (∀ i ∈ listWilds p, span ρ i = span ρ' i) →
    ∀ i ∈ listVars p, ρ i = ρ' i
  | [], _, _, _, h, _, _ => by simp [ReadsList] at h
  | p :: ps, ρ, ρ', fs, h, h', hs => by
    rw [ReadsList] at h h'
    have hsp : ∀ i ∈ elemsWilds p, span ρ i = span ρ' i := fun i hi => hs i (by simp [listWilds, hi])
    have hsq : ∀ i ∈ listWilds ps, span ρ i = span ρ' i := fun i hi => hs i (by simp [listWilds, hi])
    rcases h with ⟨e, h⟩ | ⟨e, h⟩
    · rcases h' with ⟨_, h'⟩ | ⟨e', _⟩
      · subst e
        intro i hi
        simp [listVars] at hi
        exact elems_unique P p h h' hsp i hi
      · exact absurd e e'
    · rcases h' with ⟨e', _⟩ | ⟨_, h'⟩
      · exact absurd e' e
      · obtain ⟨a, b, h1, h2, h3, h4⟩ := twoParts_unique h h'
        intro i hi
        simp only [listVars, List.mem_append] at hi
        rcases hi with hi | hi
        · exact elems_unique P p h1 h2 hsp i hi
        · exact list_unique P ps h3 h4 hsq i hi

theorem elems_unique (P : Parsers) : ∀ (p : List Elem) {ρ ρ' : Env} {fs : List Frag},
    ReadsElems P ρ p fs → ReadsElems P ρ' p fs → (∀ i ∈ elemsWilds p, span ρ i = span ρ' i) →
    ∀ i ∈ elemsVars p, ρ i = ρ' i
  | [], _, _, _, _, _, _ => by simp [elemsVars]
  | e :: es, ρ, ρ', fs, h, h', hs => by
    rw [ReadsElems] at h h'
    obtain ⟨rest, t, h⟩ := h
    obtain ⟨rest', t', h'⟩ := h'
    obtain ⟨rfl, he⟩ := elem_unique P e t t' (fun i hi => hs i (by simp [elemsWilds, hi]))
    intro i hi
    simp only [elemsVars, List.mem_append] at hi
    rcases hi with hi | hi
    · exact he i hi
    · exact elems_unique P es h h' (fun i hi => hs i (by simp [elemsWilds, hi])) i hi

theorem elem_unique (P : Parsers) : ∀ (e : Elem) {ρ ρ' : Env} {fs rest rest' : List Frag},
    Takes P ρ e fs rest → Takes P ρ' e fs rest' → (∀ i ∈ elemWilds e, span ρ i = span ρ' i) →
    rest = rest' ∧ ∀ i ∈ elemVars e, ρ i = ρ' i
  | .word n, ρ, ρ', fs, rest, rest', h, h', _ => by
    rw [Takes, ← matchName_iff] at h h'
    rw [h] at h'; exact ⟨Option.some.inj h', by simp [elemVars]⟩
  | .otherwise, ρ, ρ', fs, rest, rest', h, h', _ => by
    rw [Takes, ← matchOtherwise_iff] at h h'
    rw [h] at h'; exact ⟨Option.some.inj h', by simp [elemVars]⟩
  | .operator n, ρ, ρ', fs, rest, rest', h, h', _ => by
    rw [Takes, ← matchOperator_iff] at h h'
    rw [h] at h'; exact ⟨Option.some.inj h', by simp [elemVars]⟩
  | .punct p, ρ, ρ', fs, rest, rest', h, h', _ => by
    rw [Takes] at h h'
    rw [h] at h'; simp at h'; exact ⟨h', by simp [elemVars]⟩
  | .lit v, ρ, ρ', fs, rest, rest', h, h', _ => by
    rw [Takes, ← matchLit_iff] at h h'
    rw [h] at h'; exact ⟨Option.some.inj h', by simp [elemVars]⟩
  | .simple s, ρ, ρ', fs, rest, rest', h, h', hs => by
    rw [Takes] at h h'
    obtain ⟨v, t, b⟩ := h
    obtain ⟨v', t', b'⟩ := h'
    by_cases hw : ∃ i, s = .wild i
    · obtain ⟨i, rfl⟩ := hw
      obtain ⟨pre, e, rfl⟩ := t
      obtain ⟨pre', e', rfl⟩ := t'
      have hl := hs i (by simp [elemWilds])
      simp only [Simple.index] at b b'
      simp only [span, b, b'] at hl
      obtain ⟨rfl, rfl⟩ := List.append_inj (e.symm.trans e') hl
      refine ⟨rfl, ?_⟩
      intro j hj
      simp [elemVars, Simple.index] at hj
      subst hj; rw [b, b']
    · obtain ⟨rfl, rfl⟩ := simpleTakes_unique (fun i c => hw ⟨i, c⟩) t t'
      refine ⟨rfl, ?_⟩
      intro j hj
      simp [elemVars] at hj
      subst hj; rw [b, b']
  | .vari n t, ρ, ρ', fs, rest, rest', h, h', _ => by
    rw [Takes] at h h'
    obtain ⟨nf, tf, v, w, e, h1, h2, b1, b2⟩ := h
    obtain ⟨nf', tf', v', w', e', h1', h2', b1', b2'⟩ := h'
    rw [e] at e'; cases e'
    have e1 := simpleIs_unique h1 h1'
    have e2 := simpleIs_unique h2 h2'
    subst e1 e2
    refine ⟨rfl, ?_⟩
    intro j hj
    simp [elemVars] at hj
    rcases hj with rfl | rfl
    · rw [b1, b1']
    · rw [b2, b2']
  | .props r ks, ρ, ρ', fs, rest, rest', h, h', _ => by
    rw [Takes] at h h'
    obtain ⟨rfl, es, he, hp, hr, hk⟩ := h
    obtain ⟨rfl, es', he', hp', hr', hk'⟩ := h'
    rw [hp] at hp'
    have hw : written es = written es' := by simpa using hp'
    refine ⟨rfl, ?_⟩
    intro j hj
    simp only [elemVars, List.mem_append, Option.mem_toList, keyVars, List.mem_map] at hj
    rcases hj with hj | ⟨k, hk1, rfl⟩
    · rw [hr j hj, hr' j hj, hw]
    · obtain ⟨v, h1, b⟩ := hk k hk1
      obtain ⟨v', h1', b'⟩ := hk' k hk1
      rw [← keyValue_iff k es he] at h1
      rw [← keyValue_iff k es' he', ← hw, h1] at h1'
      rw [b, b', h1']
  | .nested d body, ρ, ρ', fs, rest, rest', h, h', hs => by
    rw [Takes] at h h'
    obtain ⟨inner, e, h⟩ := h
    obtain ⟨inner', e', h'⟩ := h'
    rw [e] at e'; cases e'
    refine ⟨rfl, ?_⟩
    intro j hj
    rw [elemVars] at hj
    exact body_unique P body h h' (fun i hi => hs i (by rw [elemWilds]; exact hi)) j hj

end

theorem LexLe.antisymm {a b : List Nat} (h : LexLe a b) (h' : LexLe b a) : a = b := by
  induction h with
  | nil => rfl
  | less h =>
    cases h' with
    | less h' => omega
    | same _ => omega
  | same _ ih =>
    cases h' with
    | less h' => omega
    | same h' => rw [ih h']

theorem reading_unique (P : Parsers) (p : List (List (List Elem))) (fs : List Frag) {ρ ρ' : Env}
    (h : Reading P p fs ρ) (h' : Reading P p fs ρ') : ∀ i ∈ bodyVars p, ρ i = ρ' i := by
  refine body_unique P p h.1 h'.1 ?_
  have := (h.2 ρ' h'.1).antisymm (h'.2 ρ h.1)
  intro i hi
  exact (List.map_inj_left.1 this) i hi

/-! ### Every variable is bound, to fragments -/

theorem simpleTakes_single {P : Parsers} (hc : P.Flat) {s : Simple} {fs : List Frag} {v : Val} {rest : List Frag}
    (h : SimpleTakes P s fs v rest) : v.Single := by
  cases s with
  | wild i => obtain ⟨_, _, rfl⟩ := h; trivial
  | token i => obtain ⟨_, _, _, rfl⟩ := h; trivial
  | nameVar i => obtain ⟨_, _, _, _, rfl⟩ := h; trivial
  | symbolVar i => obtain ⟨_, _, rfl⟩ := h; trivial
  | con c i => exact hc c fs rest v h
  | splice pre suf i => obtain ⟨_, _, _, _, _, _, rfl⟩ := h; trivial

theorem simpleIs_single {P : Parsers} (hc : P.Flat) {s : Simple} {f : Frag} {v : Val}
    (h : SimpleIs P s f v) : v.Single := by
  cases s with
  | wild i => simp only [SimpleIs] at h; subst h; trivial
  | _ => obtain ⟨_, h⟩ := h; exact simpleTakes_single hc h

theorem keyIs_single {k : Key} (hk : k.sequence = false) {es : List (Name × List Frag)} {v : Val} (h : KeyIs k es v) :
    v.Single := by
  simp only [KeyIs, hk, Bool.false_eq_true, if_false] at h
  split at h
  · subst h; trivial
  · obtain ⟨_, _, rfl⟩ := h; trivial

mutual

theorem body_single (P : Parsers) (hc : P.Flat) : ∀ (p : List (List (List Elem))) {ρ : Env} {fs : List Frag},
    BodyNoSeq p → ReadsBody P ρ p fs → ∀ i ∈ bodyVars p, ∃ v, ρ i = some v ∧ v.Single
  | [], _, _, _, h => by simp [ReadsBody] at h
  | p :: ps, ρ, fs, hn, h => by
    rw [ReadsBody] at h
    rw [BodyNoSeq] at hn
    intro i hi
    simp only [bodyVars, List.mem_append] at hi
    rcases h with ⟨e, h⟩ | ⟨e, h⟩
    · subst e
      simp [bodyVars] at hi
      exact list_single P hc p hn.1 h i hi
    · have : ∃ a b, ReadsList P ρ p a ∧ ReadsBody P ρ ps b := by
        rcases h with ⟨a, b, _, _, f, s⟩ | ⟨_, _, f, s⟩
        · exact ⟨a, b, f, s⟩
        · exact ⟨fs, [], f, s⟩
      obtain ⟨a, b, f, s⟩ := this
      rcases hi with hi | hi
      · exact list_single P hc p hn.1 f i hi
      · exact body_single P hc ps hn.2 s i hi

theorem list_single (P : Parsers) (hc : P.Flat) : ∀ (p : List (List Elem)) {ρ : Env} {fs : List Frag},
    ListNoSeq p → ReadsList P ρ p fs → ∀ i ∈ listVars p, ∃ v, ρ i = some v ∧ v.Single
  | [], _, _, _, h => by simp [ReadsList] at h
  | p :: ps, ρ, fs, hn, h => by
    rw [ReadsList] at h
    rw [ListNoSeq] at hn
    intro i hi
    simp only [listVars, List.mem_append] at hi
    rcases h with ⟨e, h⟩ | ⟨e, h⟩
    · subst e
      simp [listVars] at hi
      exact elems_single P hc p hn.1 h i hi
    · have : ∃ a b, ReadsElems P ρ p a ∧ ReadsList P ρ ps b := by
        rcases h with ⟨a, b, _, _, f, s⟩ | ⟨_, _, f, s⟩
        · exact ⟨a, b, f, s⟩
        · exact ⟨fs, [], f, s⟩
      obtain ⟨a, b, f, s⟩ := this
      rcases hi with hi | hi
      · exact elems_single P hc p hn.1 f i hi
      · exact list_single P hc ps hn.2 s i hi

theorem elems_single (P : Parsers) (hc : P.Flat) : ∀ (p : List Elem) {ρ : Env} {fs : List Frag},
    ElemsNoSeq p → ReadsElems P ρ p fs → ∀ i ∈ elemsVars p, ∃ v, ρ i = some v ∧ v.Single
  | [], _, _, _, _ => by simp [elemsVars]
  | e :: es, ρ, fs, hn, h => by
    rw [ReadsElems] at h
    rw [ElemsNoSeq] at hn
    obtain ⟨rest, t, h⟩ := h
    intro i hi
    simp only [elemsVars, List.mem_append] at hi
    rcases hi with hi | hi
    · exact elem_single P hc e hn.1 t i hi
    · exact elems_single P hc es hn.2 h i hi

theorem elem_single (P : Parsers) (hc : P.Flat) : ∀ (e : Elem) {ρ : Env} {fs rest : List Frag},
    ElemNoSeq e → Takes P ρ e fs rest → ∀ i ∈ elemVars e, ∃ v, ρ i = some v ∧ v.Single
  | .word n, ρ, fs, rest, _, _ => by simp [elemVars]
  | .otherwise, ρ, fs, rest, _, _ => by simp [elemVars]
  | .operator n, ρ, fs, rest, _, _ => by simp [elemVars]
  | .punct p, ρ, fs, rest, _, _ => by simp [elemVars]
  | .lit v, ρ, fs, rest, _, _ => by simp [elemVars]
  | .simple s, ρ, fs, rest, _, h => by
    rw [Takes] at h
    obtain ⟨v, t, b⟩ := h
    intro j hj
    simp [elemVars] at hj
    subst hj; exact ⟨v, b, simpleTakes_single hc t⟩
  | .vari n t, ρ, fs, rest, _, h => by
    rw [Takes] at h
    obtain ⟨nf, tf, v, w, e, h1, h2, b1, b2⟩ := h
    intro j hj
    simp [elemVars] at hj
    rcases hj with rfl | rfl
    · exact ⟨v, b1, simpleIs_single hc h1⟩
    · exact ⟨w, b2, simpleIs_single hc h2⟩
  | .props r ks, ρ, fs, rest, hn, h => by
    rw [Takes] at h
    rw [ElemNoSeq] at hn
    obtain ⟨rfl, es, he, hp, hr, hk⟩ := h
    intro j hj
    simp only [elemVars, List.mem_append, Option.mem_toList, keyVars, List.mem_map] at hj
    rcases hj with hj | ⟨k, hk1, rfl⟩
    · exact ⟨_, hr j hj, trivial⟩
    · obtain ⟨v, h1, b⟩ := hk k hk1
      exact ⟨v, b, keyIs_single (hn k hk1) h1⟩
  | .nested d body, ρ, fs, rest, hn, h => by
    rw [Takes] at h
    rw [ElemNoSeq] at hn
    obtain ⟨inner, e, h⟩ := h
    intro j hj
    rw [elemVars] at hj
    exact body_single P hc body hn h j hj

end

end Verif.Macro
