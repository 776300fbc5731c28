import Verif.Macro.ExpandLemmas
import Verif.Macro.PatternProps

/-
C133: the expansion of a macro call is what its first matching rule says.
-/

namespace Verif.Macro

/-! ### Templates -/

/-- C133: a filled template has the fragments its elements stand for, one after the other, without the separators
before substitutions that stand for nothing. -/
theorem template_fills_partial (shown : List Frag → Name) (hs : ShowsNames shown) (env : BEnv) (ht : env.Tidy)
    (t : List TElem) (it : Item) (h : fillTemplate shown env t = some it) : Fills shown (texts env) t (flat it) := by
  simp only [fillTemplate, Option.map_eq_some_iff] at h
  obtain ⟨l, hl, rfl⟩ := h
  rw [makeTemplate_flat]
  exact ((fillAll_good hs ht t).1 l hl).1

/-- C133: a template that cannot be filled stands for nothing at all: it uses an unbound variable, or splices something
that is not a name. -/
theorem template_fails (shown : List Frag → Name) (hs : ShowsNames shown) (env : BEnv) (ht : env.Tidy)
    (t : List TElem) (h : fillTemplate shown env t = none) (fs : List Frag) : ¬ Fills shown (texts env) t fs := by
  simp only [fillTemplate, Option.map_eq_none_iff] at h
  exact (fillAll_good hs ht t).2 h fs

/-- C133: a template stands for at most one sequence of fragments. -/
theorem template_unique (shown : List Frag → Name) (σ : Nat → Option Text) (t : List TElem) (a b : List Frag)
    (ha : Fills shown σ t a) (hb : Fills shown σ t b) : a = b := fills_unique t ha hb

theorem fillTemplate_tidy {shown : List Frag → Name} (hs : ShowsNames shown) {env : BEnv} (ht : env.Tidy)
    {t : List TElem} {it : Item} (h : fillTemplate shown env t = some it) : it.Tidy ∧ it.Normal := by
  simp only [fillTemplate, Option.map_eq_some_iff] at h
  obtain ⟨l, hl, rfl⟩ := h
  exact ⟨makeTemplate_tidy ((fillAll_good hs ht t).1 l hl).2, makeTemplate_normal l⟩

/-! ### Rules -/

theorem exportTokens_flat (fs : List Frag) : flat (exportTokens fs) = fs := by
  unfold exportTokens; split <;> simp [flat]

theorem exportTokens_tidy (fs : List Frag) : (exportTokens fs).Tidy ∧ (exportTokens fs).Normal := by
  unfold exportTokens
  split
  · exact ⟨fun _ => rfl, by simp [Item.Normal]⟩
  · exact ⟨fun h => by simp [flat] at h, trivial⟩
  · rename_i h1 h2
    refine ⟨fun h => absurd (by simpa [flat] using h) h1, ?_⟩
    intro hl
    match fs, hl with
    | [f], _ => exact h2 f rfl

theorem tryRules_ok {P : Parsers} {use : Rule → Env → Res} {fs : List Frag} {it : Item} : ∀ {rules : List Rule},
    tryRules P use fs rules = .ok it → ∃ before r after env, rules = before ++ r :: after ∧
      (∀ b ∈ before, ∃ e, matchPattern P b.pattern fs = .fail e) ∧ matchPattern P r.pattern fs = .ok env ∧
      use r env = .ok it
  | [], h => by simp [tryRules] at h
  | r :: rs, h => by
    rw [tryRules] at h
    cases hm : matchPattern P r.pattern fs with
    | crash => simp [hm] at h
    | ok env => simp only [hm] at h; exact ⟨[], r, rs, env, rfl, by simp, hm, h⟩
    | fail e =>
      simp only [hm] at h
      obtain ⟨before, r', after, env, rfl, hb, hr, hu⟩ := tryRules_ok h
      refine ⟨r :: before, r', after, env, rfl, ?_, hr, hu⟩
      intro b hmem
      rcases List.mem_cons.1 hmem with rfl | hmem
      · exact ⟨e, hm⟩
      · exact hb b hmem

theorem tryRules_use {P : Parsers} {use : Rule → Env → Res} {fs : List Frag} {r : Rule} {after : List Rule} {env : Env}
    (hr : matchPattern P r.pattern fs = .ok env) : ∀ {before : List Rule},
    (∀ b ∈ before, ∃ e, matchPattern P b.pattern fs = .fail e) →
    tryRules P use fs (before ++ r :: after) = use r env
  | [], _ => by simp [tryRules, hr]
  | b :: before, hb => by
    obtain ⟨e, he⟩ := hb b (by simp)
    rw [List.cons_append, tryRules, he]
    exact tryRules_use hr (fun c hc => hb c (by simp [hc]))

theorem rewriteAll_ok {f : List Rule → List Frag → Res} {m : MacroDef} {env : Env} : ∀ {ns : List Name} {i : Nat}
    {bs : List Bound}, rewriteAll f m env i ns = .ok bs → bs.length = ns.length ∧
      ∀ j n, ns[j]? = some n → ∃ v b, env (i + j) = some v ∧ bs[j]? = some b ∧ rewriteOne f m n v = .ok b
  | [], i, bs, h => by cases h; simp
  | n :: ns, i, bs, h => by
    rw [rewriteAll] at h
    cases hv : env i with
    | none => simp [hv] at h
    | some v =>
      simp only [hv] at h
      cases hb : rewriteOne f m n v with
      | error e => simp [hb] at h
      | ok b =>
        simp only [hb] at h
        cases hbs : rewriteAll f m env (i + 1) ns with
        | error e => simp [hbs] at h
        | ok bs' =>
          simp only [hbs] at h
          cases h
          obtain ⟨hl, hj⟩ := rewriteAll_ok hbs
          refine ⟨by simp [hl], ?_⟩
          intro j n' hn
          cases j with
          | zero => simp at hn; subst hn; exact ⟨v, b, hv, rfl, hb⟩
          | succ j =>
            obtain ⟨v', b', h1, h2, h3⟩ := hj j n' (by simpa using hn)
            exact ⟨v', b', by rw [← h1]; congr 1; omega, by simpa using h2, h3⟩

theorem rewriteAll_all {f : List Rule → List Frag → Res} {m : MacroDef} {env : Env} : ∀ {ns : List Name} {i : Nat},
    (∀ j n, ns[j]? = some n → ∃ v b, env (i + j) = some v ∧ rewriteOne f m n v = .ok b) →
    ∃ bs, rewriteAll f m env i ns = .ok bs
  | [], i, _ => ⟨[], rfl⟩
  | n :: ns, i, h => by
    obtain ⟨v, b, hv, hb⟩ := h 0 n rfl
    obtain ⟨bs, hbs⟩ := rewriteAll_all (f := f) (m := m) (env := env) (ns := ns) (i := i + 1) (by
      intro j n' hn
      obtain ⟨v, b, h1, h2⟩ := h (j + 1) n' (by simpa using hn)
      exact ⟨v, b, by rw [← h1]; congr 1; omega, h2⟩)
    refine ⟨b :: bs, ?_⟩
    simp only [Nat.add_zero] at hv
    rw [rewriteAll, hv]
    simp only [hb, hbs]

theorem rewriteOne_plain {f : List Rule → List Frag → Res} {m : MacroDef} {n : Name} {v : Val} (hv : v.Single)
    (h : m.auxRules n = none) : rewriteOne f m n v = .ok (.one (exportTokens v.tokens)) := by
  cases v with
  | seq l => exact absurd hv (by simp [Val.Single])
  | one g => simp [rewriteOne, h]
  | many fs => simp [rewriteOne, h]

theorem rewriteOne_ruled {f : List Rule → List Frag → Res} {m : MacroDef} {n : Name} {v : Val} (hv : v.Single)
    {rules : List Rule} (h : m.auxRules n = some rules) :
    rewriteOne f m n v = match f rules v.tokens with
      | .ok it => .ok (.one it)
      | e => .error e := by
  cases v with
  | seq l => exact absurd hv (by simp [Val.Single])
  | one g => simp only [rewriteOne, h]; cases f rules (Val.one g).tokens <;> rfl
  | many fs => simp only [rewriteOne, h]; cases f rules (Val.many fs).tokens <;> rfl

theorem MacroDef.Plain.rules {m : MacroDef} (h : m.Plain) {n : Name} {rules : List Rule} (hr : m.auxRules n = some rules) :
    ∀ r ∈ rules, r.Plain := by
  simp only [MacroDef.auxRules, Option.map_eq_some_iff] at hr
  obtain ⟨a, ha, rfl⟩ := hr
  exact h.2 a (List.mem_of_find?_eq_some ha)

theorem Rule.Plain.nodup {r : Rule} (h : r.Plain) : (bodyVars r.pattern).Nodup := by
  rw [h.vars]; exact List.nodup_range

set_option linter.unusedSectionVars false

section
variable {P : Parsers} (hP : P.Proper) (hc : P.Flat) {shown : List Frag → Name} (hs : ShowsNames shown)
  {m : MacroDef} (hm : m.Plain)
include hP hc hs hm

theorem expandRules_sound : ∀ (n : Nat) (rules : List Rule), (∀ r ∈ rules, r.Plain) → ∀ (fs : List Frag) (it : Item),
    expandRules P shown m n rules fs = .ok it → Expands P shown m rules fs (flat it) ∧ it.Tidy ∧ it.Normal
  | 0, _, _, _, _, h => by simp [expandRules] at h
  | n + 1, rules, hr, fs, it, h => by
    rw [expandRules] at h
    obtain ⟨before, r, after, env, rfl, hb, hmat, hu⟩ := tryRules_ok h
    have hrp := hr r (by simp)
    simp only [useRule] at hu
    cases hre : rewriteAll (expandRules P shown m n) m env 0 r.names with
    | error e =>
      exfalso
      simp only [hre] at hu
      subst hu
      -- no error is an expansion
      have : ∀ (ns : List Name) (i : Nat) (x : Item),
          rewriteAll (expandRules P shown m n) m env i ns ≠ .error (.ok x) := by
        intro ns
        induction ns with
        | nil => intro i x h; cases h
        | cons a ns ih =>
          intro i x h
          rw [rewriteAll] at h
          cases hv : env i with
          | none => simp [hv] at h
          | some v =>
            simp only [hv] at h
            cases hb : rewriteOne (expandRules P shown m n) m a v with
            | error e =>
              simp only [hb] at h
              cases h
              cases haux : m.auxRules a with
              | none => cases v <;> simp [rewriteOne, haux] at hb
              | some rules =>
                have hseq : ∀ (f : List Frag → Res) (l : List (List Frag)) (x : Item), rewriteSeq f l ≠ .error (.ok x) := by
                  intro f l x
                  induction l with
                  | nil => intro h; cases h
                  | cons y l ih =>
                    intro h
                    rw [rewriteSeq] at h
                    cases hf : f y with
                    | ok it =>
                      simp only [hf] at h
                      cases hq : rewriteSeq f l with
                      | ok is => simp [hq] at h
                      | error e => simp only [hq] at h; cases h; exact ih hq
                    | _ => simp [hf] at h
                cases v with
                | seq l =>
                  simp only [rewriteOne, haux] at hb
                  cases hq : rewriteSeq (expandRules P shown m n rules) l with
                  | ok is => simp [hq] at hb
                  | error e => simp only [hq] at hb; cases hb; exact hseq _ _ _ hq
                | one g =>
                  rw [rewriteOne_ruled (by trivial) haux] at hb
                  cases hf : expandRules P shown m n rules (Val.one g).tokens <;> simp [hf] at hb
                | many g =>
                  rw [rewriteOne_ruled (by trivial) haux] at hb
                  cases hf : expandRules P shown m n rules (Val.many g).tokens <;> simp [hf] at hb
            | ok b =>
              simp only [hb] at h
              cases hbs : rewriteAll (expandRules P shown m n) m env (i + 1) ns with
              | ok bs => simp [hbs] at h
              | error e => simp only [hbs] at h; cases h; exact ih _ _ hbs
      exact this _ _ _ hre
    | ok bs =>
      simp only [hre] at hu
      obtain ⟨hlen, hbs⟩ := rewriteAll_ok hre
      have hsound := match_sound P hP r.pattern hrp.nodup fs env hmat
      have hsingle := body_single P hc r.pattern hrp.noSeq hsound
      have hone : ∀ i nm, r.names[i]? = some nm → ∃ v it, env i = some v ∧ bs[i]? = some (.one it) ∧
          it.Tidy ∧ it.Normal ∧ Stands P shown m nm v (some (.single (flat it))) := by
        intro i nm hi
        obtain ⟨v, b, hv, hbi, hrw⟩ := hbs i nm hi
        simp only [Nat.zero_add] at hv
        have hlt : i < r.names.length := by
          have := List.getElem?_eq_some_iff.1 hi; exact this.1
        obtain ⟨v', hv', hsg⟩ := hsingle i (by rw [hrp.vars]; simp [hlt])
        rw [hv] at hv'; cases hv'
        cases haux : m.auxRules nm with
        | none =>
          rw [rewriteOne_plain hsg haux] at hrw
          cases hrw
          obtain ⟨t1, t2⟩ := exportTokens_tidy v.tokens
          refine ⟨v, _, hv, hbi, t1, t2, ?_⟩
          rw [exportTokens_flat]
          exact .plain nm v haux hsg
        | some rules' =>
          rw [rewriteOne_ruled hsg haux] at hrw
          cases hf : expandRules P shown m n rules' v.tokens with
          | ok it' =>
            simp only [hf] at hrw
            cases hrw
            obtain ⟨e1, e2, e3⟩ := expandRules_sound n rules' (hm.rules haux) v.tokens it' hf
            exact ⟨v, it', hv, hbi, e2, e3, .ruled nm v rules' _ haux hsg e1⟩
          | _ => simp [hf] at hrw
      have htidy : BEnv.Tidy (fun i => bs[i]?) := by
        have hnm : ∀ (i : Nat) (b : Bound), bs[i]? = some b → ∃ nm, r.names[i]? = some nm := by
          intro i b hb
          have := (List.getElem?_eq_some_iff.1 hb).1
          rw [hlen] at this
          exact ⟨_, List.getElem?_eq_getElem this⟩
        constructor
        · intro i it' hi
          obtain ⟨nm, hn⟩ := hnm i _ hi
          obtain ⟨v, it2, _, h2, h3, h4, _⟩ := hone i nm hn
          simp only at hi
          rw [hi] at h2; cases h2
          exact ⟨h3, h4⟩
        · intro i l hi
          obtain ⟨nm, hn⟩ := hnm i _ hi
          obtain ⟨v, it2, _, h2, _, _, _⟩ := hone i nm hn
          simp only at hi
          rw [hi] at h2; cases h2
      cases hf : fillTemplate shown (fun i => bs[i]?) r.template with
      | none => simp [hf] at hu
      | some it' =>
        simp only [hf] at hu
        cases hu
        refine ⟨?_, fillTemplate_tidy hs htidy hf⟩
        refine .intro before r after fs env (texts fun i => bs[i]?) (flat it) ?_ ?_ ?_ ?_ ?_
        · intro b hbm ρ'
          obtain ⟨e, he⟩ := hb b hbm
          exact match_complete P hP b.pattern (hr b (by simp [hbm])).nodup fs e he ρ'
        · exact ⟨hsound, fun ρ' h' => match_least P hP r.pattern hrp.nodup fs env hmat ρ' h'⟩
        · intro i hi
          simp only [texts, Option.map_eq_none_iff, List.getElem?_eq_none_iff]
          omega
        · intro i nm v hn hv
          obtain ⟨v', it2, h1, h2, _, _, h5⟩ := hone i nm hn
          rw [hv] at h1; cases h1
          simp only [texts, h2, Option.map_some, Bound.text]
          exact h5
        · exact template_fills_partial shown hs _ htidy r.template it hf

end

/-! ### More depth changes nothing -/

theorem tryRules_mono {P : Parsers} {use use' : Rule → Env → Res} {fs : List Frag} :
    ∀ {rules : List Rule}, (∀ r env, use r env ≠ .endless → use' r env = use r env) →
    tryRules P use fs rules ≠ .endless → tryRules P use' fs rules = tryRules P use fs rules
  | [], _, _ => rfl
  | r :: rs, h, hn => by
    rw [tryRules] at hn
    rw [tryRules, tryRules]
    cases hm : matchPattern P r.pattern fs with
    | crash => rfl
    | ok env => simp only [hm] at hn; exact h r env hn
    | fail e => simp only [hm] at hn; exact tryRules_mono h hn

theorem rewriteSeq_mono {f f' : List Frag → Res} (h : ∀ fs, f fs ≠ .endless → f' fs = f fs) :
    ∀ l, rewriteSeq f l ≠ .error .endless → rewriteSeq f' l = rewriteSeq f l
  | [], _ => rfl
  | x :: l, hn => by
    rw [rewriteSeq] at hn
    cases hf : f x with
    | endless => simp [hf] at hn
    | ok it =>
      have ih := rewriteSeq_mono h l (by
        intro he
        apply hn
        simp [hf, he])
      rw [rewriteSeq, rewriteSeq, h x (by simp [hf]), hf, ih]
    | _ => rw [rewriteSeq, rewriteSeq, h x (by simp [hf]), hf]

theorem rewriteOne_mono {f f' : List Rule → List Frag → Res} (h : ∀ rs fs, f rs fs ≠ .endless → f' rs fs = f rs fs)
    {m : MacroDef} {n : Name} {v : Val} (hn : rewriteOne f m n v ≠ .error .endless) :
    rewriteOne f' m n v = rewriteOne f m n v := by
  cases ha : m.auxRules n with
  | none => cases v <;> simp [rewriteOne, ha]
  | some rules =>
    cases v with
    | seq l =>
      simp only [rewriteOne, ha] at hn ⊢
      rw [rewriteSeq_mono (h rules) l (by intro he; apply hn; rw [he])]
    | one g =>
      rw [rewriteOne_ruled (by trivial) ha] at hn ⊢
      rw [rewriteOne_ruled (by trivial) ha, h rules _ (by intro he; apply hn; rw [he])]
    | many g =>
      rw [rewriteOne_ruled (by trivial) ha] at hn ⊢
      rw [rewriteOne_ruled (by trivial) ha, h rules _ (by intro he; apply hn; rw [he])]

theorem rewriteAll_mono {f f' : List Rule → List Frag → Res} (h : ∀ rs fs, f rs fs ≠ .endless → f' rs fs = f rs fs)
    {m : MacroDef} {env : Env} : ∀ (ns : List Name) (i : Nat), rewriteAll f m env i ns ≠ .error .endless →
    rewriteAll f' m env i ns = rewriteAll f m env i ns
  | [], _, _ => rfl
  | n :: ns, i, hn => by
    rw [rewriteAll] at hn
    rw [rewriteAll, rewriteAll]
    cases hv : env i with
    | none => rfl
    | some v =>
      simp only [hv] at hn ⊢
      have h1 : rewriteOne f' m n v = rewriteOne f m n v := rewriteOne_mono h (by
        intro he; apply hn; rw [he])
      rw [h1]
      cases hb : rewriteOne f m n v with
      | error e => rfl
      | ok b =>
        simp only [hb] at hn ⊢
        rw [rewriteAll_mono h ns (i + 1) (by intro he; apply hn; rw [he])]

theorem expandRules_succ (P : Parsers) (shown : List Frag → Name) (m : MacroDef) : ∀ (n : Nat) (rules : List Rule)
    (fs : List Frag), expandRules P shown m n rules fs ≠ .endless →
    expandRules P shown m (n + 1) rules fs = expandRules P shown m n rules fs
  | 0, _, _, h => by simp [expandRules] at h
  | n + 1, rules, fs, h => by
    rw [expandRules, expandRules]
    rw [expandRules] at h
    refine tryRules_mono ?_ h
    intro r env hu
    simp only [useRule] at hu ⊢
    rw [rewriteAll_mono (expandRules_succ P shown m n) r.names 0 (by
      intro he; apply hu; rw [he])]

/-- C133: once the expansion has come to an end, it is the same at any greater depth. -/
theorem expand_mono (P : Parsers) (shown : List Frag → Name) (m : MacroDef) (n k : Nat) (rules : List Rule)
    (fs : List Frag) (h : expandRules P shown m n rules fs ≠ .endless) :
    expandRules P shown m (n + k) rules fs = expandRules P shown m n rules fs := by
  induction k with
  | zero => rfl
  | succ k ih =>
    rw [← Nat.add_assoc, expandRules_succ P shown m (n + k) rules fs (by rw [ih]; exact h), ih]

/-! ### Every expansion is found -/

theorem match_no_crash (P : Parsers) (p : List (List (List Elem))) (h : BodyOneSided p) (fs : List Frag) :
    matchPattern P p fs ≠ .crash := body_no_crash P p h _ _

theorem bound_all {Q : Nat → Nat → Prop} (k : Nat) (h : ∀ i, i < k → ∃ n, ∀ d, Q i (n + d)) :
    ∃ n, ∀ d i, i < k → Q i (n + d) := by
  induction k with
  | zero => exact ⟨0, fun _ i hi => absurd hi (Nat.not_lt_zero i)⟩
  | succ k ih =>
    obtain ⟨n, hn⟩ := ih (fun i hi => h i (by omega))
    obtain ⟨n', hn'⟩ := h k (by omega)
    refine ⟨n + n', ?_⟩
    intro d i hi
    rcases Nat.lt_succ_iff_lt_or_eq.1 hi with hi | rfl
    · have := hn (n' + d) i hi; rwa [← Nat.add_assoc] at this
    · have := hn' (n + d); rwa [← Nat.add_assoc, Nat.add_comm n' n] at this

section
variable {P : Parsers} (hP : P.Proper) (hc : P.Flat) {shown : List Frag → Name} (hs : ShowsNames shown)
  {m : MacroDef} (hm : m.Plain)
include hP hc hs hm

mutual

theorem expands_found : ∀ {rules : List Rule} {fs out : List Frag}, Expands P shown m rules fs out →
    (∀ r ∈ rules, r.Plain) →
    ∃ n, ∀ d, ∃ it, expandRules P shown m (n + d) rules fs = .ok it ∧ flat it = out ∧ it.Tidy ∧ it.Normal
  | _, _, _, .intro before r after fs ρ σ out hb hrd hl hv htm, hr => by
    have hrp := hr r (by simp)
    -- the rules before it do not match, and this one does
    have hfail : ∀ b ∈ before, ∃ e, matchPattern P b.pattern fs = .fail e := by
      intro b hbm
      have hbp := hr b (by simp [hbm])
      cases hmt : matchPattern P b.pattern fs with
      | crash => exact absurd hmt (match_no_crash P b.pattern hbp.oneSided fs)
      | fail e => exact ⟨e, rfl⟩
      | ok env => exact absurd (match_sound P hP b.pattern hbp.nodup fs env hmt) (hb b hbm env)
    obtain ⟨env, hok⟩ : ∃ env, matchPattern P r.pattern fs = .ok env := by
      cases hmt : matchPattern P r.pattern fs with
      | crash => exact absurd hmt (match_no_crash P r.pattern hrp.oneSided fs)
      | ok env => exact ⟨env, rfl⟩
      | fail e => exact absurd hrd.1 (match_complete P hP r.pattern hrp.nodup fs e hmt ρ)
    have hsound := match_sound P hP r.pattern hrp.nodup fs env hok
    have henv : ∀ i, i < r.names.length → env i = ρ i := by
      intro i hi
      exact reading_unique P r.pattern fs ⟨hsound, match_least P hP r.pattern hrp.nodup fs env hok⟩ hrd i
        (by rw [hrp.vars]; simpa using hi)
    have hsingle := body_single P hc r.pattern hrp.noSeq hsound
    -- what the variables stand for is found
    have hvars : ∀ i, i < r.names.length → ∃ n, ∀ d, ∃ nm v it, r.names[i]? = some nm ∧ env i = some v ∧
        rewriteOne (expandRules P shown m (n + d)) m nm v = .ok (.one it) ∧ σ i = some (.single (flat it)) ∧
        it.Tidy ∧ it.Normal := by
      intro i hi
      obtain ⟨v, hvi, _⟩ := hsingle i (by rw [hrp.vars]; simpa using hi)
      have hn : r.names[i]? = some r.names[i] := List.getElem?_eq_getElem hi
      obtain ⟨n, hn'⟩ := stands_found (hv i _ v hn (by rw [← henv i hi]; exact hvi))
      refine ⟨n, fun d => ?_⟩
      obtain ⟨it, h1, h2, h3, h4⟩ := hn' d
      exact ⟨_, v, it, hn, hvi, h1, h2, h3, h4⟩
    obtain ⟨n, hn⟩ := bound_all (Q := fun i n => ∃ nm v it, r.names[i]? = some nm ∧ env i = some v ∧
        rewriteOne (expandRules P shown m n) m nm v = .ok (.one it) ∧ σ i = some (.single (flat it)) ∧
        it.Tidy ∧ it.Normal) r.names.length hvars
    refine ⟨n + 1, fun d => ?_⟩
    have hn := hn d
    obtain ⟨bs, hbs⟩ := rewriteAll_all (f := expandRules P shown m (n + d)) (m := m) (env := env) (ns := r.names)
      (i := 0) (by
        intro j nm hj
        obtain ⟨nm', v, it, h1, h2, h3, _⟩ := hn j (List.getElem?_eq_some_iff.1 hj).1
        rw [hj] at h1; cases h1
        exact ⟨v, _, by simpa using h2, h3⟩)
    obtain ⟨hlen, hbj⟩ := rewriteAll_ok hbs
    have hbi : ∀ i, i < r.names.length → ∃ it, bs[i]? = some (.one it) ∧ σ i = some (.single (flat it)) ∧
        it.Tidy ∧ it.Normal := by
      intro i hi
      obtain ⟨nm, v, it, h1, h2, h3, h4, h5, h6⟩ := hn i hi
      obtain ⟨v', b, e1, e2, e3⟩ := hbj i nm h1
      simp only [Nat.zero_add] at e1
      rw [h2] at e1; cases e1
      rw [h3] at e3; cases e3
      exact ⟨it, e2, h4, h5, h6⟩
    have hσ : texts (fun i => bs[i]?) = σ := by
      funext i
      by_cases hi : i < r.names.length
      · obtain ⟨it, h1, h2, _⟩ := hbi i hi
        simp [texts, h1, h2, Bound.text]
      · rw [hl i (by omega)]
        simp [texts]; omega
    have htidy : BEnv.Tidy (fun i => bs[i]?) := by
      have hlt : ∀ (i : Nat) (b : Bound), bs[i]? = some b → i < r.names.length := by
        intro i b hb
        have := (List.getElem?_eq_some_iff.1 hb).1
        omega
      constructor
      · intro i it hi
        simp only at hi
        obtain ⟨it2, h2, _, h3, h4⟩ := hbi i (hlt i _ hi)
        rw [hi] at h2; cases h2
        exact ⟨h3, h4⟩
      · intro i l hi
        simp only at hi
        obtain ⟨it2, h2, _⟩ := hbi i (hlt i _ hi)
        rw [hi] at h2; cases h2
    have hfill : ∃ it, fillTemplate shown (fun i => bs[i]?) r.template = some it := by
      cases hf : fillTemplate shown (fun i => bs[i]?) r.template with
      | some it => exact ⟨it, rfl⟩
      | none => exact absurd (hσ ▸ htm) (template_fails shown hs _ htidy r.template hf out)
    obtain ⟨it, hf⟩ := hfill
    refine ⟨it, ?_, ?_, fillTemplate_tidy hs htidy hf⟩
    · rw [show n + 1 + d = (n + d) + 1 by omega, expandRules, tryRules_use hok hfail]
      simp only [useRule, hbs, hf]
    · have := template_fills_partial shown hs _ htidy r.template it hf
      rw [hσ] at this
      exact template_unique shown σ r.template _ _ this htm

theorem stands_found : ∀ {nm : Name} {v : Val} {t : Option Text}, Stands P shown m nm v t →
    ∃ n, ∀ d, ∃ it, rewriteOne (expandRules P shown m (n + d)) m nm v = .ok (.one it) ∧
      t = some (.single (flat it)) ∧ it.Tidy ∧ it.Normal
  | _, _, _, .plain nm v h hv => by
    refine ⟨0, fun d => ⟨_, rewriteOne_plain hv h, ?_, exportTokens_tidy v.tokens⟩⟩
    rw [exportTokens_flat]
  | _, _, _, .ruled nm v rules out h hv he => by
    obtain ⟨n, hn⟩ := expands_found he (hm.rules h)
    refine ⟨n, fun d => ?_⟩
    obtain ⟨it, h1, h2, h3⟩ := hn d
    refine ⟨it, ?_, by rw [h2], h3⟩
    rw [rewriteOne_ruled hv h, h1]

end

end

/-! ### The theorems -/

/-- C133: a macro expands a call to `out` iff that is what the rules say: the first rule of which the call is an
instance, with what the auxiliary rules make of its variables, in its template. -/
theorem expand_iff_partial (P : Parsers) (hP : P.Proper) (hc : P.Flat) (shown : List Frag → Name)
    (hs : ShowsNames shown) (m : MacroDef) (hm : m.Plain) (fs out : List Frag) :
    (∃ depth it, expandCall P shown m depth fs = .ok it ∧ flat it = out) ↔ Expands P shown m m.main fs out := by
  constructor
  · rintro ⟨n, it, h, rfl⟩
    exact (expandRules_sound hP hc hs hm n m.main hm.1 fs it h).1
  · intro h
    obtain ⟨n, hn⟩ := expands_found hP hc hs hm h hm.1
    obtain ⟨it, h1, h2, _⟩ := hn 0
    exact ⟨n, it, h1, h2⟩

/-- C133: a call has at most one expansion. -/
theorem expand_unique (P : Parsers) (hP : P.Proper) (hc : P.Flat) (shown : List Frag → Name)
    (hs : ShowsNames shown) (m : MacroDef) (hm : m.Plain) (fs a b : List Frag) (ha : Expands P shown m m.main fs a)
    (hb : Expands P shown m m.main fs b) : a = b := by
  obtain ⟨n, hn⟩ := expands_found hP hc hs hm ha hm.1
  obtain ⟨k, hk⟩ := expands_found hP hc hs hm hb hm.1
  obtain ⟨it, h1, h2, _⟩ := hn k
  obtain ⟨it', h1', h2', _⟩ := hk n
  rw [Nat.add_comm, h1] at h1'
  cases h1'
  rw [← h2, h2']

/-- C133: a call that is refused, because no rule matches or because a template cannot be filled, has no expansion. -/
theorem refused_call (P : Parsers) (hP : P.Proper) (hc : P.Flat) (shown : List Frag → Name)
    (hs : ShowsNames shown) (m : MacroDef) (hm : m.Plain) (fs : List Frag) (depth : Nat) (r : Res)
    (h : expandCall P shown m depth fs = r) (hr : r = .invalid ∨ r = .badTemplate) (out : List Frag) :
    ¬ Expands P shown m m.main fs out := by
  intro he
  obtain ⟨n, hn⟩ := expands_found hP hc hs hm he hm.1
  obtain ⟨it, h1, _⟩ := hn depth
  have h2 := expand_mono P shown m depth n m.main fs (by
    rw [show expandRules P shown m depth m.main fs = r from h]
    rcases hr with rfl | rfl <;> simp)
  rw [Nat.add_comm, h1] at h2
  rw [show expandRules P shown m depth m.main fs = r from h] at h2
  rcases hr with rfl | rfl <;> cases h2

/-! ### A macro -/

/-- Names are printed as themselves, other things not at all. -/
def demoShown : List Frag → Name
  | [f] => (nameOf f).getD []
  | _ => []

theorem demoShown_names : ShowsNames demoShown := by
  intro f n h
  simp [demoShown, (nameOf_iff f n).2 h]

theorem demo_flat : demo.Flat := by
  intro c fs rest v h
  cases fs with
  | nil => cases h
  | cons f fs => cases h; trivial

/-- The macro
```
{ f ?rest:* } => { g, ?rest }
rest:
  { } => { }
  { ?x:name, ... } => { ?x, ... }
```
-/
def demoMacro : MacroDef where
  main := [⟨parts [.elem (.word ['f']), .elem (.simple (.wild 0))], [['r', 'e', 's', 't']],
    [.frag (.name ['g']), .sep .comma, .subst 0]⟩]
  aux := [(['r', 'e', 's', 't'],
    [⟨parts [], [], []⟩,
     ⟨parts [.elem (.simple (.nameVar 0)), .comma, .elem (.simple (.wild 1))], [['x'], ['r', 'e', 's', 't']],
      [.subst 0, .sep .comma, .subst 1]⟩])]

theorem demoMacro_plain : demoMacro.Plain := by
  constructor
  · intro r hr
    simp only [demoMacro, List.mem_singleton] at hr
    subst hr
    exact ⟨by decide, by simp [parts, pushRaw, pushElem, BodyNoSeq, ListNoSeq, ElemsNoSeq, ElemNoSeq],
      by simp [parts, pushRaw, pushElem, BodyOneSided, ListOneSided, ElemsOneSided, ElemOneSided, Simple.OneSided]⟩
  · intro a ha r hr
    simp only [demoMacro, List.mem_singleton] at ha
    subst ha
    simp only [List.mem_cons, List.not_mem_nil, or_false] at hr
    rcases hr with rfl | rfl
    · exact ⟨by decide, by simp [parts, BodyNoSeq, ListNoSeq, ElemsNoSeq],
        by simp [parts, BodyOneSided, ListOneSided, ElemsOneSided]⟩
    · exact ⟨by decide, by simp [parts, pushRaw, pushElem, pushComma, BodyNoSeq, ListNoSeq, ElemsNoSeq, ElemNoSeq],
        by simp [parts, pushRaw, pushElem, pushComma, BodyOneSided, ListOneSided, ElemsOneSided, ElemOneSided,
          Simple.OneSided]⟩

-- the hypotheses of the theorems above hold of this macro; `f a, b` is expanded to `g, a, b`: no comma behind the last
example : demo.Proper ∧ demo.Flat ∧ ShowsNames demoShown ∧ demoMacro.Plain ∧
    ∃ it, expandCall demo demoShown demoMacro 4 [.name ['f'], .name ['a'], .comma, .name ['b']] = .ok it ∧
      flat it = [.name ['g'], .comma, .name ['a'], .comma, .name ['b']] :=
  ⟨demo_proper, demo_flat, demoShown_names, demoMacro_plain, _, rfl, rfl⟩

-- `f` is expanded to `g`
example : ∃ it, expandCall demo demoShown demoMacro 3 [.name ['f']] = .ok it ∧ flat it = [.name ['g']] := ⟨_, rfl, rfl⟩

-- `f ,` is refused by the auxiliary rules, `g` by the main one
example : expandCall demo demoShown demoMacro 3 [.name ['f'], .comma] = .invalid ∧
    expandCall demo demoShown demoMacro 3 [.name ['g']] = .invalid := ⟨rfl, rfl⟩

-- the hypothesis on environments: a name, and a sequence of two names
example : BEnv.Tidy (fun i => if i = 0 then some (.one (.frag (.name ['a'])))
    else if i = 1 then some (.seq [.frag (.name ['b']), .frag (.name ['c'])]) else none) := by
  constructor
  · intro i it h
    by_cases h0 : i = 0
    · simp [h0] at h; subst h; exact ⟨fun h => by simp [flat] at h, trivial⟩
    · by_cases h1 : i = 1 <;> simp [h0, h1] at h
  · intro i l h it hi
    by_cases h0 : i = 0
    · simp [h0] at h
    · by_cases h1 : i = 1
      · simp [h1] at h; subst h
        simp at hi
        rcases hi with rfl | rfl <;> simp [flat]
      · simp [h0, h1] at h

-- with separators: `??x, ...` for `b` and `c`, between two other things
example : (fillTemplate demoShown (fun i => if i = 1 then some (.seq [.frag (.name ['b']), .frag (.name ['c'])]) else none)
      [.frag (.name ['a']), .sep .semicolon, .sequence 1 (some .comma)]).map flat =
    some [.name ['a'], .semicolon, .name ['b'], .comma, .name ['c']] := rfl

/-! ### Where an expansion is not what it should be -/

/-- The macro
```
{ #key ??k } => { a, ??k ... }
k:
  { ?y:* } => { }
```
-/
def sequenceMacro : MacroDef where
  main := [⟨parts [.elem (.props none [⟨['k'], 0, true, none, none⟩])], [['k']],
    [.frag (.name ['a']), .sep .comma, .sequence 0 none]⟩]
  aux := [(['k'], [⟨parts [.elem (.simple (.wild 0))], [['y']], []⟩])]

/-- C133, violated: `k: 1` is expanded to `a,` although `??k ...` stands for nothing, so that the separator should have
been left out and the expansion be `a`. -/
theorem separator_left_violated :
    (∃ it, expandCall demo demoShown sequenceMacro 3 [.lit (.symbol ['k']), .lit (.int 1)] = .ok it ∧
      flat it = [.name ['a'], .comma]) ∧
    Fills demoShown (fun i => if i = 0 then some (.several [[]]) else none)
      [.frag (.name ['a']), .sep .comma, .sequence 0 none] [.name ['a']] := by
  refine ⟨⟨_, rfl, rfl⟩, ?_⟩
  refine .cons _ _ [.name ['a']] [] ?_ (.frag _) (.leftOut _ _ _ _ ?_ .nil)
  · rintro ⟨s, x, r, e, _⟩; cases e
  · exact ⟨[[]], rfl, rfl⟩

/-- Auxiliary rules that only call themselves: `xs: { ?xs:* } => { ?xs }`. -/
def endlessMacro : MacroDef where
  main := [⟨parts [.elem (.simple (.wild 0))], [['x', 's']], [.subst 0]⟩]
  aux := [(['x', 's'], [⟨parts [.elem (.simple (.wild 0))], [['x', 's']], [.subst 0]⟩])]

/-- C133: with rules that call themselves for the same fragments expansion never comes to an end; the compiler notices
by running out of stack. -/
theorem endless_rules (fs : List Frag) (depth : Nat) : expandCall demo demoShown endlessMacro depth fs = .endless := by
  unfold expandCall
  have key : ∀ n, expandRules demo demoShown endlessMacro n endlessMacro.main fs = .endless := by
    intro n
    induction n with
    | zero => rfl
    | succ n ih =>
      have haux : endlessMacro.auxRules ['x', 's'] = some endlessMacro.main := rfl
      have hmt : matchPattern demo (parts [.elem (.simple (.wild 0))]) fs
          = .ok (Env.set (fun _ => none) 0 (.many fs)) := by
        rfl
      rw [expandRules]
      show tryRules _ _ _ [_] = _
      rw [tryRules, hmt]
      simp only [useRule, rewriteAll, Env.set_same, rewriteOne_ruled (v := .many fs) (by trivial) haux]
      rw [show (Val.many fs).tokens = fs from rfl, ih]
  exact key depth

end Verif.Macro
