import Verif.Init.Spec
import Mathlib.Data.List.Nodup
import Mathlib.Data.List.Forall2

namespace Verif.Init

theorem decides_bool (d : ArgSpec) (k : Nat) :
    (decide (d.keyword = k) && (d.required || d.init.isSome)) = decide (d.Decides k) := by
  rw [Bool.eq_iff_iff, decide_eq_true_iff]
  simp [ArgSpec.Decides]

/-! ### Effective descriptors -/

theorem effArgLoop_eq (H : Sys) (owner k : Nat) : ∀ cs : List Nat, effArgLoop H owner k cs =
    decider H k (cs.takeWhile (fun a => decide (a ≠ owner))) := by
  intro cs
  induction cs with
  | nil => rfl
  | cons c cs ih =>
    simp only [effArgLoop]
    by_cases hc : c = owner
    · simp [hc, decider]
    · rw [if_neg hc, List.takeWhile_cons_of_pos (by simpa using hc)]
      simp only [decider, List.flatMap_cons, List.find?_append, decides_bool]
      cases (H.args c).find? (fun d => decide (d.Decides k)) with
      | none => simpa [decider] using ih
      | some d => rfl

theorem effInitLoop_eq (H : Sys) (owner g : Nat) : ∀ cs : List Nat, effInitLoop H owner g cs =
    ((cs.takeWhile (fun a => decide (a ≠ owner))).flatMap H.inh).find?
      (fun d => decide (d.getter = g ∧ d.init.isSome = true)) := by
  intro cs
  induction cs with
  | nil => rfl
  | cons c cs ih =>
    simp only [effInitLoop]
    by_cases hc : c = owner
    · simp [hc]
    · rw [if_neg hc, List.takeWhile_cons_of_pos (by simpa using hc)]
      have e : (fun d : InhSpec => decide (d.getter = g) && d.init.isSome) =
          (fun d => decide (d.getter = g ∧ d.init.isSome = true)) := by
        funext d; rw [Bool.eq_iff_iff]; simp
      simp only [List.flatMap_cons, List.find?_append, e]
      cases (H.inh c).find? (fun d => decide (d.getter = g ∧ d.init.isSome = true)) with
      | none => simpa using ih
      | some d => rfl

theorem above_self {H : Sys} {c : Nat} (h : H.Sane c) {s : SlotD} (hs : s.owner = c) : above H s c = [] := by
  obtain ⟨t, ht⟩ := h
  simp [above, ht, hs]

theorem effArg_eq {H : Sys} {c : Nat} (h : H.Sane c) (s : SlotD) {k : Nat} (hk : s.keyword = some k) :
    effArg H s c = decider H k (above H s c) := by
  simp only [effArg]
  by_cases ho : s.owner = c
  · rw [if_pos ho, above_self h ho]; rfl
  · rw [if_neg ho, hk]
    exact effArgLoop_eq H s.owner k (H.cpl c)

theorem effArg_none (H : Sys) (c : Nat) (s : SlotD) (hk : s.keyword = none) : effArg H s c = none := by
  simp only [effArg, hk]; split <;> rfl

theorem effRequired_iff {H : Sys} {c : Nat} (h : H.Sane c) (s : SlotD) {k : Nat} (hk : s.keyword = some k) :
    effRequired H s c = true ↔ Needed H s c k := by
  simp only [effRequired, Needed, effArg_eq h s hk]
  cases decider H k (above H s c) <;> exact Iff.rfl

theorem effInit_eq {H : Sys} {c : Nat} (h : H.Sane c) (s : SlotD) :
    (effInit H s c).map H.eval = initial H s c := by
  simp only [effInit, initial]
  by_cases ho : s.owner = c
  · rw [if_pos ho, above_self h ho]; rfl
  · rw [if_neg ho, effInitLoop_eq]
    simp only [above]
    cases (((H.cpl c).takeWhile (fun a => decide (a ≠ s.owner))).flatMap H.inh).find?
      (fun d => decide (d.getter = s.getter ∧ d.init.isSome = true)) <;> rfl

/-! ### Defaults -/

/-- What the loops know after the clauses `ds`: for each keyword, who decided. -/
structure DInv (ds : List ArgSpec) (defs : List (Nat × Src)) (rq : List Nat) : Prop where
  nodup : (defs.map Prod.fst).Nodup
  defs : ∀ k e, (k, e) ∈ defs ↔ ∃ d, ds.find? (fun d => decide (d.Decides k)) = some d ∧ d.required = false ∧ d.init = some e
  req : ∀ k, (∃ d, ds.find? (fun d => decide (d.Decides k)) = some d ∧ d.required = true) → k ∈ rq
  known : ∀ k ∈ rq, ∃ d, ds.find? (fun d => decide (d.Decides k)) = some d

theorem find_snoc (ds : List ArgSpec) (d : ArgSpec) (k : Nat) :
    (ds ++ [d]).find? (fun d => decide (d.Decides k)) =
      (ds.find? (fun d => decide (d.Decides k))).or (if d.Decides k then some d else none) := by
  rw [List.find?_append]
  congr 1
  by_cases h : d.Decides k
  · simp [h]
  · simp [h]

theorem dstep_inv {ds : List ArgSpec} {st : DState} (h : DInv ds st.defs st.required) (d : ArgSpec) :
    DInv (ds ++ [d]) (dstep st d).defs (dstep st d).required := by
  -- a clause that decides nothing new
  have skip : (∀ k, (ds ++ [d]).find? (fun d => decide (d.Decides k)) = ds.find? (fun d => decide (d.Decides k))) →
      DInv (ds ++ [d]) st.defs st.required := by
    intro e
    refine ⟨h.nodup, ?_, ?_, ?_⟩
    · intro k x; rw [e]; exact h.defs k x
    · intro k; rw [e]; exact h.req k
    · intro k; rw [e]; exact h.known k
  have decided : (∃ d', ds.find? (fun x => decide (x.Decides d.keyword)) = some d') →
      ∀ k, (ds ++ [d]).find? (fun d => decide (d.Decides k)) = ds.find? (fun d => decide (d.Decides k)) := by
    rintro ⟨d', hd'⟩ k
    rw [find_snoc]
    by_cases hk : k = d.keyword
    · subst hk; rw [hd']; rfl
    · rw [if_neg (fun hh => hk hh.1.symm), Option.or_none]
  have other : ∀ k, k ≠ d.keyword → (ds ++ [d]).find? (fun d => decide (d.Decides k)) = ds.find? (fun d => decide (d.Decides k)) := by
    intro k hk
    rw [find_snoc, if_neg (fun hh => hk hh.1.symm), Option.or_none]
  simp only [dstep]
  by_cases h1 : d.keyword ∈ st.required
  · rw [if_pos h1]
    exact skip (decided (h.known _ h1))
  · rw [if_neg h1]
    by_cases h2 : d.required = true
    · rw [if_pos h2]
      refine ⟨h.nodup, ?_, ?_, ?_⟩
      · intro k e
        rw [h.defs k e]
        by_cases hk : k = d.keyword
        · subst hk
          rw [find_snoc]
          cases hf : ds.find? (fun x => decide (x.Decides d.keyword)) with
          | some d' => rfl
          | none =>
            rw [if_pos ⟨rfl, Or.inl h2⟩]
            simp [h2]
        · rw [other k hk]
      · rintro k ⟨d', e1, e2⟩
        by_cases hk : k = d.keyword
        · subst hk; exact List.mem_cons_self
        · rw [other k hk] at e1
          exact List.mem_cons_of_mem _ (h.req k ⟨d', e1, e2⟩)
      · intro k hk
        rcases List.mem_cons.mp hk with rfl | hk
        · rw [find_snoc]
          cases hf : ds.find? (fun x => decide (x.Decides d.keyword)) with
          | some d' => exact ⟨d', rfl⟩
          | none => rw [if_pos ⟨rfl, Or.inl h2⟩]; exact ⟨d, rfl⟩
        · obtain ⟨d', hd'⟩ := h.known k hk
          rw [find_snoc, hd']; exact ⟨d', rfl⟩
    · rw [if_neg h2]
      cases hi : d.init with
      | none =>
        refine skip (fun k => ?_)
        rw [find_snoc, if_neg, Option.or_none]
        rintro ⟨-, h3 | h3⟩
        · exact h2 h3
        · rw [hi] at h3; cases h3
      | some e =>
        simp only
        have hdec : d.Decides d.keyword := ⟨rfl, Or.inr (by rw [hi]; rfl)⟩
        by_cases h3 : d.keyword ∈ st.defs.map Prod.fst
        · rw [if_pos h3]
          obtain ⟨⟨k', e'⟩, hm, hk'⟩ := List.mem_map.mp h3
          simp only at hk'
          subst hk'
          obtain ⟨d', hd', -⟩ := (h.defs _ _).mp hm
          exact skip (decided ⟨d', hd'⟩)
        · rw [if_neg h3]
          have hnone : ds.find? (fun x => decide (x.Decides d.keyword)) = none := by
            cases hf : ds.find? (fun x => decide (x.Decides d.keyword)) with
            | none => rfl
            | some d' =>
              exfalso
              by_cases hr : d'.required = true
              · exact h1 (h.req _ ⟨d', hf, hr⟩)
              · have : d'.Decides d.keyword := by simpa using List.find?_some hf
                obtain ⟨-, h5 | h5⟩ := this
                · exact hr h5
                · obtain ⟨e', he'⟩ := Option.isSome_iff_exists.mp h5
                  exact h3 (List.mem_map.mpr ⟨(d.keyword, e'),
                    (h.defs _ _).mpr ⟨d', hf, by simpa using hr, he'⟩, rfl⟩)
          have hnew : (ds ++ [d]).find? (fun x => decide (x.Decides d.keyword)) = some d := by
            rw [find_snoc, hnone, if_pos hdec]; rfl
          refine ⟨?_, ?_, ?_, ?_⟩
          · rw [List.map_cons, List.nodup_cons]
            exact ⟨h3, h.nodup⟩
          · intro k x
            rw [List.mem_cons]
            by_cases hk : k = d.keyword
            · subst hk
              constructor
              · rintro (hx | hx)
                · cases hx
                  exact ⟨d, hnew, by simpa using h2, hi⟩
                · exact absurd (List.mem_map.mpr ⟨(d.keyword, x), hx, rfl⟩) h3
              · rintro ⟨d', e1, -, e3⟩
                rw [hnew] at e1
                obtain rfl := Option.some.inj e1
                rw [hi] at e3
                obtain rfl := Option.some.inj e3
                exact Or.inl rfl
            · rw [other k hk, ← h.defs k x]
              constructor
              · rintro (hx | hx)
                · cases hx; exact absurd rfl hk
                · exact hx
              · exact Or.inr
          · rintro k ⟨d', e1, e2⟩
            by_cases hk : k = d.keyword
            · subst hk
              rw [hnew] at e1
              obtain rfl := Option.some.inj e1
              exact absurd e2 h2
            · rw [other k hk] at e1
              exact h.req k ⟨d', e1, e2⟩
          · intro k hk
            obtain ⟨d', hd'⟩ := h.known k hk
            rw [find_snoc, hd']; exact ⟨d', rfl⟩

theorem dfold_inv : ∀ (ds pre : List ArgSpec) (st : DState), DInv pre st.defs st.required →
    DInv (pre ++ ds) (ds.foldl dstep st).defs (ds.foldl dstep st).required := by
  intro ds
  induction ds with
  | nil => intro pre st h; simpa using h
  | cons d ds ih =>
    intro pre st h
    have := ih (pre ++ [d]) (dstep st d) (dstep_inv h d)
    simpa using this

theorem dloop_inv (H : Sys) (c : Nat) :
    DInv ((H.cpl c).flatMap H.args) (dloop H c).defs (dloop H c).required := by
  have := dfold_inv ((H.cpl c).flatMap H.args) [] ⟨[], []⟩ ⟨by simp, by simp, by simp, by simp⟩
  simpa [dloop] using this

/-- The loop over the superclasses at run time does the same, with the vector in the other order. -/
theorem floop_eq (H : Sys) (n : Nat) : ∀ (ds : List ArgSpec) (st : DState),
    2 * (ds.foldl dstep st).defs.length ≤ n →
    floop H n ⟨st.defs.reverse.map (fun p => (p.1, H.eval p.2)), st.required⟩ ds =
      .ok ⟨(ds.foldl dstep st).defs.reverse.map (fun p => (p.1, H.eval p.2)), (ds.foldl dstep st).required⟩ := by
  have mono : ∀ (ds : List ArgSpec) (st : DState), st.defs.length ≤ (ds.foldl dstep st).defs.length := by
    intro ds
    induction ds with
    | nil => intro st; simp
    | cons d ds ih =>
      intro st
      refine Nat.le_trans ?_ (ih (dstep st d))
      simp only [dstep]
      split
      · exact Nat.le_refl _
      · split
        · exact Nat.le_refl _
        · cases d.init with
          | none => exact Nat.le_refl _
          | some e =>
            simp only
            split
            · exact Nat.le_refl _
            · simp
  intro ds
  induction ds with
  | nil => intro st _; rfl
  | cons d ds ih =>
    intro st hn
    have hstep : fstep H n ⟨st.defs.reverse.map (fun p => (p.1, H.eval p.2)), st.required⟩ d =
        .ok ⟨(dstep st d).defs.reverse.map (fun p => (p.1, H.eval p.2)), (dstep st d).required⟩ := by
      have hlen := Nat.le_trans (Nat.mul_le_mul_left 2 (mono ds (dstep st d))) hn
      simp only [fstep, dstep] at hlen ⊢
      split
      · rfl
      · split
        · rfl
        · cases hi : d.init with
          | none => rfl
          | some e =>
            simp only
            have em : (d.keyword ∈ (st.defs.reverse.map (fun p => (p.1, H.eval p.2))).map Prod.fst) ↔
                d.keyword ∈ st.defs.map Prod.fst := by
              simp [List.map_reverse, Function.comp_def]
            by_cases hm : d.keyword ∈ st.defs.map Prod.fst
            · rw [if_pos (em.mpr hm), if_pos hm]
            · rw [if_neg (fun hh => hm (em.mp hh)), if_neg hm]
              rw [if_neg ‹_›, if_neg ‹_›, hi] at hlen
              simp only [if_neg hm, List.length_cons] at hlen
              rw [if_pos (by simp; omega)]
              simp
    simp only [floop, hstep, List.foldl_cons]
    exact ih (dstep st d) hn

theorem lookup_mem : ∀ (l : List (Nat × Nat)), (l.map Prod.fst).Nodup → ∀ k v, l.lookup k = some v ↔ (k, v) ∈ l := by
  intro l
  induction l with
  | nil => intro _ k v; simp
  | cons p l ih =>
    intro hn k v
    simp only [List.map_cons, List.nodup_cons] at hn
    obtain ⟨k', v'⟩ := p
    by_cases hk : k = k'
    · subst hk
      rw [List.lookup_cons_self]
      constructor
      · intro h; cases h; exact List.mem_cons_self
      · intro h
        rcases List.mem_cons.mp h with h | h
        · cases h; rfl
        · exact absurd (List.mem_map.mpr ⟨(k, v), h, rfl⟩) hn.1
    · have hb : (k == k') = false := by simpa using hk
      rw [List.lookup_cons, hb]
      simp only
      rw [ih hn.2, List.mem_cons]
      constructor
      · exact Or.inr
      · rintro (h | h)
        · cases h; exact absurd rfl hk
        · exact h

/-- A vector with the right entries. -/
theorem lookup_default (H : Sys) (c : Nat) {l : List (Nat × Nat)}
    (hp : ∀ k v, (k, v) ∈ l ↔ ∃ e, (k, e) ∈ (dloop H c).defs ∧ v = H.eval e)
    (hn : (l.map Prod.fst).Nodup) (k : Nat) : l.lookup k = defaultFor H c k := by
  have hI := dloop_inv H c
  rw [Option.ext_iff]
  intro v
  rw [lookup_mem l hn, hp]
  simp only [hI.defs, defaultFor, decider, Option.bind_eq_some_iff]
  constructor
  · rintro ⟨e, ⟨d, h1, h2, h3⟩, rfl⟩
    exact ⟨d, h1, by simp [h2, h3]⟩
  · rintro ⟨d, h1, h2⟩
    split at h2
    · cases h2
    · rename_i hr
      rw [Option.map_eq_some_iff] at h2
      obtain ⟨e, h3, rfl⟩ := h2
      exact ⟨e, ⟨d, h1, by simpa using hr, h3⟩, rfl⟩

/-- What may be recorded in a class. -/
def Recorded (H : Sys) (c : Nat) (r : Rec) : Prop :=
  r = recordRun H c ∨ ∃ known, r = recordCompiler H known c

theorem defaulted_ok (H : Sys) (c : Nat) (r : Rec) (hr : Recorded H c r) :
    ∃ l, defaulted H r c = .ok l ∧ (l.map Prod.fst).Nodup ∧
      ∀ k v, (k, v) ∈ l ↔ ∃ e, (k, e) ∈ (dloop H c).defs ∧ v = H.eval e := by
  have hI := dloop_inv H c
  have hvec : ∃ l, defaulted H (.vec ((dloop H c).defs.map (fun p => (p.1, H.eval p.2)))) c = .ok l ∧
      (l.map Prod.fst).Nodup ∧ ∀ k v, (k, v) ∈ l ↔ ∃ e, (k, e) ∈ (dloop H c).defs ∧ v = H.eval e := by
    refine ⟨_, rfl, by simpa [Function.comp_def] using hI.nodup, ?_⟩
    intro k v
    simp only [List.mem_map, Prod.mk.injEq, Prod.exists]
    constructor
    · rintro ⟨a, e, hm, rfl, rfl⟩; exact ⟨e, hm, rfl⟩
    · rintro ⟨e, hm, rfl⟩; exact ⟨k, e, hm, rfl, rfl⟩
  have hsize : ∀ n : Int, n.natAbs = 2 * (dloop H c).defs.length → ∃ l, defaulted H (.size n) c = .ok l ∧
      (l.map Prod.fst).Nodup ∧ ∀ k v, (k, v) ∈ l ↔ ∃ e, (k, e) ∈ (dloop H c).defs ∧ v = H.eval e := by
    intro n hn
    have := floop_eq H n.natAbs ((H.cpl c).flatMap H.args) ⟨[], []⟩ (by rw [hn]; exact Nat.le_refl _)
    simp only [List.reverse_nil, List.map_nil] at this
    refine ⟨(dloop H c).defs.reverse.map (fun p => (p.1, H.eval p.2)), ?_, ?_, ?_⟩
    · simp only [defaulted, this]
      rw [if_pos (by simp only [List.length_map, List.length_reverse]; exact hn.symm)]
      rfl
    · simpa [Function.comp_def, List.map_reverse] using hI.nodup
    · intro k v
      simp only [List.mem_map, Prod.mk.injEq, Prod.exists, List.mem_reverse]
      constructor
      · rintro ⟨a, e, hm, rfl, rfl⟩; exact ⟨e, hm, rfl⟩
      · rintro ⟨e, hm, rfl⟩; exact ⟨k, e, hm, rfl, rfl⟩
  rcases hr with rfl | ⟨known, rfl⟩
  · simp only [recordRun]
    split
    · exact hvec
    · exact hsize _ (by omega)
  · simp only [recordCompiler]
    split
    · split
      · exact hvec
      · exact hsize _ (by omega)
    · exact hsize _ (by omega)

theorem lookup_append (l1 l2 : List (Nat × Nat)) (k : Nat) :
    (l1 ++ l2).lookup k = (l1.lookup k).or (l2.lookup k) := by
  induction l1 with
  | nil => simp
  | cons p l ih =>
    obtain ⟨a, b⟩ := p
    simp only [List.cons_append, List.lookup_cons]
    split
    · rfl
    · exact ih

/-! ### The constructors -/

theorem newValue_outcome {H : Sys} {c : Nat} (h : H.Sane c) {user d : List (Nat × Nat)}
    (hd : ∀ k, d.lookup k = defaultFor H c k) (s : SlotD) :
    Outcome H c user s (newValue H s c (user ++ d)) := by
  have hl : ∀ k, (user ++ d).lookup k = supplied H c user k := by
    intro k; rw [lookup_append, hd]; rfl
  simp only [newValue, keywordValue]
  cases hk : s.keyword with
  | none => simp only; rw [effInit_eq h]; exact .unkeyed hk
  | some k =>
    simp only [hl]
    cases hs : supplied H c user k with
    | none =>
      simp only
      by_cases hr : effRequired H s c = true
      · rw [if_pos hr]
        exact .missing k hk hs ((effRequired_iff h s hk).mp hr)
      · rw [if_neg hr]
        simp only
        rw [effInit_eq h]
        exact .initial k hk hs (fun hh => hr ((effRequired_iff h s hk).mpr hh))
    | some v =>
      simp only
      by_cases hi : H.inst s.type v = true
      · rw [if_pos hi]; exact .keyword k v hk hs hi
      · rw [if_neg hi]; exact .wrong k v hk hs (by simpa using hi)

theorem outcome_unique {H : Sys} {c : Nat} {user : List (Nat × Nat)} {s : SlotD} {r r' : Except Err (Option Nat)}
    (h : Outcome H c user s r) (h' : Outcome H c user s r') : r = r' := by
  cases h <;> cases h' <;> simp_all

theorem initSlots_ok {H : Sys} {c : Nat} {args : List (Nat × Nat)} : ∀ (ss : List SlotD) (vs : List (Option Nat)),
    initSlots H c args ss = .ok vs ↔ List.Forall₂ (fun s v => newValue H s c args = .ok v) ss vs := by
  intro ss
  induction ss with
  | nil => intro vs; simp [initSlots, eq_comm]
  | cons s ss ih =>
    intro vs
    simp only [initSlots]
    cases hn : newValue H s c args with
    | error e =>
      simp only
      constructor
      · intro h; cases h
      · intro h; cases h with | cons h1 _ => rw [hn] at h1; cases h1
    | ok v =>
      simp only
      cases hr : initSlots H c args ss with
      | error e =>
        simp only
        constructor
        · intro h; cases h
        · intro h
          cases h with | cons _ h2 => rw [(ih _).mpr h2] at hr; cases hr
      | ok ws =>
        simp only
        constructor
        · intro h
          obtain rfl := Except.ok.inj h
          exact .cons hn ((ih _).mp hr)
        · intro h
          cases h with
          | cons h1 h2 =>
            rw [hn] at h1
            obtain rfl := Except.ok.inj h1
            rw [(ih _).mpr h2] at hr
            obtain rfl := Except.ok.inj hr
            rfl

theorem initSlots_error {H : Sys} {c : Nat} {args : List (Nat × Nat)} : ∀ (ss : List SlotD) (e : Err),
    initSlots H c args ss = .error e ↔ ∃ pre s post, ss = pre ++ s :: post ∧
      (∀ p ∈ pre, ∃ v, newValue H p c args = .ok v) ∧ newValue H s c args = .error e := by
  intro ss
  induction ss with
  | nil => intro e; simp [initSlots]
  | cons s ss ih =>
    intro e
    simp only [initSlots]
    cases hn : newValue H s c args with
    | error e' =>
      simp only
      constructor
      · intro h
        cases h
        exact ⟨[], s, ss, rfl, by simp, hn⟩
      · rintro ⟨pre, t, post, e1, e2, e3⟩
        cases pre with
        | nil =>
          simp only [List.nil_append, List.cons.injEq] at e1
          obtain ⟨rfl, -⟩ := e1
          rw [hn] at e3; cases e3; rfl
        | cons p pre =>
          simp only [List.cons_append, List.cons.injEq] at e1
          obtain ⟨rfl, -⟩ := e1
          obtain ⟨v, hv⟩ := e2 s (by simp)
          rw [hn] at hv; cases hv
    | ok v =>
      simp only
      have key : initSlots H c args ss = .error e ↔ ∃ pre t post, s :: ss = pre ++ t :: post ∧
          (∀ p ∈ pre, ∃ v, newValue H p c args = .ok v) ∧ newValue H t c args = .error e := by
        rw [ih]
        constructor
        · rintro ⟨pre, t, post, rfl, e2, e3⟩
          refine ⟨s :: pre, t, post, rfl, ?_, e3⟩
          intro p hp
          rcases List.mem_cons.mp hp with rfl | hp
          · exact ⟨v, hn⟩
          · exact e2 p hp
        · rintro ⟨pre, t, post, e1, e2, e3⟩
          cases pre with
          | nil =>
            simp only [List.nil_append, List.cons.injEq] at e1
            obtain ⟨rfl, -⟩ := e1
            rw [hn] at e3; cases e3
          | cons p pre =>
            simp only [List.cons_append, List.cons.injEq] at e1
            obtain ⟨-, rfl⟩ := e1
            exact ⟨pre, t, post, rfl, fun q hq => e2 q (List.mem_cons_of_mem _ hq), e3⟩
      rw [← key]
      cases initSlots H c args ss <;> simp

/-- What the compiled constructor puts into a slot, if it returns. -/
def COut (H : Sys) (c : Nat) (user : List (Nat × Nat)) (s : SlotD) (v : Option Nat) : Prop :=
  match s.keyword with
  | none => v = initial H s c
  | some k =>
    v = (supplied H c user k).or (initial H s c) ∧ (∀ w, v = some w → H.inst s.type w = true) ∧
      (v = none → s.required = false)

theorem compiled_slots {H : Sys} {c : Nat} (h : H.Sane c) {user args : List (Nat × Nat)}
    (hl : ∀ k, args.lookup k = supplied H c user k) : ∀ (ss : List SlotD) (vals : List (Option Nat)),
    (∃ vs, keyVars H c args ss = .ok vs ∧ setSlots H c ss vs = .ok vals) ↔
      List.Forall₂ (COut H c user) ss vals := by
  intro ss
  induction ss with
  | nil =>
    intro vals
    simp [keyVars, setSlots, eq_comm]
  | cons s ss ih =>
    intro vals
    simp only [keyVars]
    cases hk : s.keyword with
    | none =>
      simp only
      constructor
      · rintro ⟨vs, h1, h2⟩
        cases hv : keyVars H c args ss with
        | error e => rw [hv] at h1; cases h1
        | ok ws =>
          rw [hv] at h1
          obtain rfl := Except.ok.inj h1
          simp only [setSlots, hk] at h2
          cases hs : setSlots H c ss ws with
          | error e => rw [hs] at h2; cases h2
          | ok r =>
            rw [hs] at h2
            obtain rfl := Except.ok.inj h2
            refine .cons ?_ ((ih r).mp ⟨ws, hv, hs⟩)
            simp only [COut, hk]
            exact effInit_eq h s
      · intro hf
        cases hf with
        | @cons _ v _ r h1 h2 =>
          obtain ⟨ws, hv, hs⟩ := (ih r).mpr h2
          refine ⟨none :: ws, by rw [hv], ?_⟩
          simp only [setSlots, hk, hs]
          simp only [COut, hk] at h1
          rw [h1, effInit_eq h]
    | some k =>
      simp only
      -- the variable
      have hvar : ∀ v, keyVar H s c k args = .ok v ↔ v = (supplied H c user k).or (initial H s c) ∧
          (v = none → s.required = false) := by
        intro v
        simp only [keyVar, hl]
        rw [← effInit_eq h]
        cases supplied H c user k with
        | some w =>
          simp only [Option.some_or]
          constructor
          · intro hh; obtain rfl := Except.ok.inj hh; exact ⟨rfl, by simp⟩
          · rintro ⟨rfl, -⟩; rfl
        | none =>
          simp only [Option.none_or]
          cases effInit H s c with
          | some e =>
            simp only [Option.map_some]
            constructor
            · intro hh; obtain rfl := Except.ok.inj hh; exact ⟨rfl, by simp⟩
            · rintro ⟨rfl, -⟩; rfl
          | none =>
            simp only [Option.map_none]
            by_cases hr : s.required = true
            · rw [if_pos hr]
              constructor
              · intro hh; cases hh
              · rintro ⟨rfl, hh⟩; rw [hh rfl] at hr; cases hr
            · rw [if_neg hr]
              constructor
              · intro hh; obtain rfl := Except.ok.inj hh; exact ⟨rfl, fun _ => by simpa using hr⟩
              · rintro ⟨rfl, -⟩; rfl
      have hchk : ∀ v, keyVar H s c k args = .ok v → (checkVar H s c v = true ↔ ∀ w, v = some w → H.inst s.type w = true) := by
        intro v hv
        obtain ⟨h1, h2⟩ := (hvar v).mp hv
        cases v with
        | some w => simp [checkVar]
        | none =>
          have hi : effInit H s c = none := by
            have h3 := h1.symm
            rw [Option.or_eq_none_iff, ← effInit_eq h] at h3
            simpa using h3.2
          simp [checkVar, hi, h2 rfl]
      constructor
      · rintro ⟨vs, h1, h2⟩
        cases hx : keyVar H s c k args with
        | error e => rw [hx] at h1; cases h1
        | ok v =>
          rw [hx] at h1
          simp only at h1
          cases hv : keyVars H c args ss with
          | error e => rw [hv] at h1; cases h1
          | ok ws =>
            rw [hv] at h1
            obtain rfl := Except.ok.inj h1
            simp only [setSlots, hk] at h2
            by_cases hc : checkVar H s c v = true
            · rw [if_pos hc] at h2
              cases hs : setSlots H c ss ws with
              | error e => rw [hs] at h2; cases h2
              | ok r =>
                rw [hs] at h2
                obtain rfl := Except.ok.inj h2
                refine .cons ?_ ((ih r).mp ⟨ws, hv, hs⟩)
                simp only [COut, hk]
                exact ⟨((hvar v).mp hx).1, (hchk v hx).mp hc, ((hvar v).mp hx).2⟩
            · rw [if_neg hc] at h2; cases h2
      · intro hf
        cases hf with
        | @cons _ v _ r h1 h2 =>
          obtain ⟨ws, hv, hs⟩ := (ih r).mpr h2
          simp only [COut, hk] at h1
          have hx := (hvar v).mpr ⟨h1.1, h1.2.2⟩
          refine ⟨v :: ws, by rw [hx, hv], ?_⟩
          simp only [setSlots, hk, if_pos ((hchk v hx).mpr h1.2.1), hs]

theorem makeCompiled_ok {H : Sys} {c : Nat} (h : H.Sane c) {r : Rec} (hr : Recorded H c r)
    (user : List (Nat × Nat)) (vals : List (Option Nat)) :
    makeCompiled H r c user = .ok vals ↔ List.Forall₂ (COut H c user) (H.slots c) vals := by
  obtain ⟨l, hl1, hl2, hl3⟩ := defaulted_ok H c r hr
  have hl := lookup_default H c hl3 hl2
  have key : ∀ args : List (Nat × Nat), (∀ k, args.lookup k = supplied H c user k) →
      ((match keyVars H c args (H.slots c) with
        | .error e => (.error e : Except Err (List (Option Nat)))
        | .ok vs => setSlots H c (H.slots c) vs) = .ok vals ↔ List.Forall₂ (COut H c user) (H.slots c) vals) := by
    intro args ha
    rw [← compiled_slots h ha]
    cases keyVars H c args (H.slots c) with
    | error e => simp
    | ok vs => simp
  simp only [makeCompiled]
  by_cases he : r = .vec []
  · rw [if_pos he]
    refine key user (fun k => ?_)
    subst he
    obtain rfl := Except.ok.inj hl1
    have := hl k
    simp only [supplied, ← this]
    simp
  · rw [if_neg he, hl1]
    exact key (user ++ l) (fun k => by rw [lookup_append, hl]; rfl)

theorem makeRun_ok {H : Sys} {c : Nat} (h : H.Sane c) {r : Rec} (hr : Recorded H c r)
    (user : List (Nat × Nat)) (vals : List (Option Nat)) :
    makeRun H r c user = .ok vals ↔
      List.Forall₂ (fun s v => Outcome H c user s (.ok v)) (H.slots c) vals := by
  obtain ⟨l, hl1, hl2, hl3⟩ := defaulted_ok H c r hr
  have hl := lookup_default H c hl3 hl2
  simp only [makeRun, hl1]
  rw [initSlots_ok]
  have e : ∀ s v, newValue H s c (user ++ l) = .ok v ↔ Outcome H c user s (.ok v) := by
    intro s v
    have := newValue_outcome h hl s (user := user)
    constructor
    · intro hh; rwa [hh] at this
    · exact fun hh => outcome_unique this hh
  simp only [e]

theorem makeRun_error {H : Sys} {c : Nat} (h : H.Sane c) {r : Rec} (hr : Recorded H c r)
    (user : List (Nat × Nat)) (e : Err) :
    makeRun H r c user = .error e ↔ ∃ pre s post, H.slots c = pre ++ s :: post ∧
      (∀ p ∈ pre, ∃ v, Outcome H c user p (.ok v)) ∧ Outcome H c user s (.error e) := by
  obtain ⟨l, hl1, hl2, hl3⟩ := defaulted_ok H c r hr
  have hl := lookup_default H c hl3 hl2
  simp only [makeRun, hl1]
  rw [initSlots_error]
  have e : ∀ s v, newValue H s c (user ++ l) = v ↔ Outcome H c user s v := by
    intro s v
    have := newValue_outcome h hl s (user := user)
    constructor
    · intro hh; rwa [hh] at this
    · exact fun hh => outcome_unique this hh
  simp only [e]

/-! ### Slots that are always initialised -/

theorem takeWhile_sublist {o : Nat} {l1 l2 : List Nat} (h : l1.Sublist l2) (hn : l2.Nodup) (ho : o ∈ l1) :
    (l1.takeWhile (fun a => decide (a ≠ o))).Sublist (l2.takeWhile (fun a => decide (a ≠ o))) := by
  induction h with
  | slnil => simp
  | @cons l1 l2 a h ih =>
    rw [List.nodup_cons] at hn
    have : a ≠ o := fun e => hn.1 (e ▸ h.subset ho)
    rw [List.takeWhile_cons_of_pos (by simpa using this) (a := a) (l := l2)]
    exact List.Sublist.cons _ (ih hn.2 ho)
  | @cons_cons l1 l2 a h ih =>
    rw [List.nodup_cons] at hn
    by_cases ha : a = o
    · simp [ha]
    · rw [List.takeWhile_cons_of_pos (by simpa using ha), List.takeWhile_cons_of_pos (by simpa using ha)]
      refine List.Sublist.cons_cons _ (ih hn.2 ?_)
      rcases List.mem_cons.mp ho with h1 | h1
      · exact absurd h1.symm ha
      · exact h1

theorem find_isSome_of_sublist {α β : Type} {f : α → List β} {p : β → Bool} {l1 l2 : List α} (h : l1.Sublist l2)
    (hs : ((l1.flatMap f).find? p).isSome = true) : ((l2.flatMap f).find? p).isSome = true := by
  rw [List.find?_isSome] at hs ⊢
  obtain ⟨x, hx, hp⟩ := hs
  obtain ⟨a, ha, hxa⟩ := List.mem_flatMap.mp hx
  exact ⟨x, List.mem_flatMap.mpr ⟨a, h.subset ha, hxa⟩, hp⟩

theorem decider_decides {H : Sys} {k : Nat} {cs : List Nat} {d : ArgSpec} (h : decider H k cs = some d) :
    d.Decides k := by
  have := List.find?_some h
  simpa using this

/-- What a guarantee for `c` means for a class below it. -/
theorem guaranteed_below {H : Sys} {c d : Nat} (hc : H.Sane c) {s : SlotD}
    (hsub : (H.cpl c).Sublist (H.cpl d)) (hn : (H.cpl d).Nodup) (ho : s.owner ∈ H.cpl c)
    (hkey : s.required = true → s.keyword.isSome = true) (hg : guaranteed H s c = true) :
    (initial H s d).isSome = true ∨
      ∃ k, s.keyword = some k ∧ (Needed H s d k ∨ (defaultFor H d k).isSome = true) := by
  have habove : (above H s c).Sublist (above H s d) := takeWhile_sublist hsub hn ho
  have hinit : (initial H s c).isSome = true → (initial H s d).isSome = true := by
    intro h
    simp only [initial] at h ⊢
    cases hf : ((above H s d).flatMap H.inh).find? (fun d => decide (d.getter = s.getter ∧ d.init.isSome = true)) with
    | some x =>
      simp only
      have := List.find?_some hf
      simp only [decide_eq_true_eq] at this
      simpa using this.2
    | none =>
      simp only
      have hf' : ((above H s c).flatMap H.inh).find? (fun d => decide (d.getter = s.getter ∧ d.init.isSome = true)) = none := by
        by_contra hh
        have := find_isSome_of_sublist habove (Option.isSome_iff_ne_none.mpr hh)
        rw [hf] at this; cases this
      rw [hf'] at h
      exact h
  have hlast : s.init.isSome = true → (initial H s c).isSome = true := by
    intro h
    simp only [initial]
    cases hf : ((above H s c).flatMap H.inh).find? (fun d => decide (d.getter = s.getter ∧ d.init.isSome = true)) with
    | some x =>
      simp only
      have := List.find?_some hf
      simp only [decide_eq_true_eq] at this
      simpa using this.2
    | none => simpa using h
  simp only [guaranteed, Bool.or_eq_true] at hg
  rcases hg with hg | hg
  · left
    apply hinit
    rw [← effInit_eq hc]
    simpa using hg
  · cases hk : s.keyword with
    | none =>
      rw [effArg_none H c s hk] at hg
      simp only [Bool.or_eq_true] at hg
      rcases hg with hg | hg
      · have := hkey hg
        rw [hk] at this; cases this
      · exact Or.inl (hinit (hlast hg))
    | some k =>
      by_cases hfin : (initial H s d).isSome = true
      · exact Or.inl hfin
      · refine Or.inr ⟨k, rfl, ?_⟩
        rw [effArg_eq hc s hk] at hg
        cases hx : decider H k (above H s d) with
        | some x =>
          by_cases hxr : x.required = true
          · left
            simp only [Needed, hx]; exact hxr
          · right
            have hpre : decider H k (H.cpl d) = some x := by
              have e : H.cpl d = above H s d ++ (H.cpl d).dropWhile (fun a => decide (a ≠ s.owner)) :=
                (List.takeWhile_append_dropWhile).symm
              rw [decider, e, List.flatMap_append, List.find?_append]
              have : List.find? (fun d => decide (d.Decides k)) ((above H s d).flatMap H.args) = some x := hx
              rw [this]; rfl
            simp only [defaultFor, hpre, Option.bind_some, if_neg hxr]
            obtain ⟨-, h1 | h1⟩ := decider_decides hx
            · exact absurd h1 hxr
            · simpa using h1
        | none =>
          have hx' : decider H k (above H s c) = none := by
            by_contra hh
            have := find_isSome_of_sublist habove (Option.isSome_iff_ne_none.mpr hh)
            rw [decider] at hx
            rw [hx] at this; cases this
          rw [hx'] at hg
          simp only [Bool.or_eq_true] at hg
          rcases hg with hg | hg
          · left; simp only [Needed, hx]; exact hg
          · exact absurd (hinit (hlast hg)) hfin

end Verif.Init
