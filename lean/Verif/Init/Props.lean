/-
C48: what the slots of a new instance hold.
C49: a slot the compiler takes to be always initialised is initialised.
-/
import Verif.Init.Lemmas

namespace Verif.Init

/-! ### Classes for the examples -/

/-- Class 0 has slots with getters 0 (keyword 10), 1 (keyword 11, initial value 5) and 2 (no keyword,
    initial value by calling function 3); class 1 below it has `keyword 10: = 7`; class 2 below it
    has `keyword 11:, init-function: 4` and `inherited slot 1, init-value: 6`. -/
def demoH : Sys where
  cpl c := (List.range (c + 1)).reverse
  args c := if c = 1 then [⟨10, false, some (.value 7)⟩] else if c = 2 then [⟨11, false, some (.call 4)⟩] else []
  inh c := if c = 2 then [⟨1, some (.value 6)⟩] else []
  slots _ := [⟨0, 0, some 10, false, none, 0⟩, ⟨1, 0, some 11, false, some (.value 5), 0⟩,
    ⟨2, 0, none, false, some (.call 3), 0⟩]
  call f := f + 100
  inst _ v := decide (v < 1000)

theorem demo_sane (c : Nat) : demoH.Sane c := ⟨(List.range c).reverse, by simp [demoH, List.range_succ]⟩

/-- Class 0 has one slot, with keyword 10 and nothing else; class 1 has `required keyword 10:`. -/
def requireH : Sys where
  cpl c := (List.range (c + 1)).reverse
  args c := if c = 1 then [⟨10, true, none⟩] else []
  inh _ := []
  slots _ := [⟨0, 0, some 10, false, none, 0⟩]
  call f := f
  inst _ _ := true

/-- Class 0 has one slot, with `required-init-keyword: 10`; class 1 has `inherited slot 0, init-value: 4`. -/
def inheritH : Sys where
  cpl c := (List.range (c + 1)).reverse
  args _ := []
  inh c := if c = 1 then [⟨0, some (.value 4)⟩] else []
  slots _ := [⟨0, 0, some 10, true, none, 0⟩]
  call f := f
  inst _ _ := true

/-- Class 0 has one slot of a type with no instances, with keyword 10 and initial value 4. -/
def wrongH : Sys where
  cpl c := (List.range (c + 1)).reverse
  args _ := []
  inh _ := []
  slots _ := [⟨0, 0, some 10, false, some (.value 4), 0⟩]
  call f := f
  inst _ _ := false

/-! ### C48 -/

/-- **Defaulted arguments.** Whatever was recorded for the class, at compile time or at run time, the
    defaulted initialisation arguments can be computed, contain no keyword twice, and give to each
    keyword the default of the first class in the precedence list that decides about it. -/
theorem defaults_sound (H : Sys) (c : Nat) (r : Rec)
    (hr : r = recordRun H c ∨ ∃ known, r = recordCompiler H known c) :
    ∃ l, defaulted H r c = .ok l ∧ (l.map Prod.fst).Nodup ∧ ∀ k, l.lookup k = defaultFor H c k := by
  obtain ⟨l, h1, h2, h3⟩ := defaulted_ok H c r hr
  exact ⟨l, h1, h2, lookup_default H c h3 h2⟩

example : defaulted demoH (recordRun demoH 2) 2 = .ok [(11, 104), (10, 7)] ∧
    defaulted demoH (recordRun demoH 1) 1 = .ok [(10, 7)] ∧
    recordRun demoH 2 = .size 4 ∧ recordCompiler demoH (fun _ => false) 1 = .size (-2) ∧
    defaultFor demoH 2 11 = some 104 ∧ defaultFor requireH 1 10 = none := by decide +kernel

/-- For each slot there is exactly one outcome. -/
theorem outcome_exists_unique (H : Sys) (c : Nat) (user : List (Nat × Nat)) (s : SlotD) :
    ∃! r, Outcome H c user s r := by
  classical
  have : ∃ r, Outcome H c user s r := by
    cases hk : s.keyword with
    | none => exact ⟨_, .unkeyed hk⟩
    | some k =>
      cases hs : supplied H c user k with
      | none =>
        by_cases hn : Needed H s c k
        · exact ⟨_, .missing k hk hs hn⟩
        · exact ⟨_, .initial k hk hs hn⟩
      | some v =>
        cases hi : H.inst s.type v with
        | true => exact ⟨_, .keyword k v hk hs hi⟩
        | false => exact ⟨_, .wrong k v hk hs hi⟩
  obtain ⟨r, hr⟩ := this
  exact ⟨r, hr, fun r' hr' => outcome_unique hr' hr⟩

/-- **Making an instance.** With the constructor of the run-time system, every slot of a new instance
    holds what its outcome says. -/
theorem make_sound (H : Sys) (c : Nat) (r : Rec) (hc : ∃ t, H.cpl c = c :: t)
    (hr : r = recordRun H c ∨ ∃ known, r = recordCompiler H known c) (user : List (Nat × Nat))
    (vals : List (Option Nat)) :
    makeRun H r c user = .ok vals ↔
      List.Forall₂ (fun s v => Outcome H c user s (.ok v)) (H.slots c) vals :=
  makeRun_ok hc hr user vals

/-- It signals an error exactly for the first slot whose outcome is that error. -/
theorem make_fails (H : Sys) (c : Nat) (r : Rec) (hc : ∃ t, H.cpl c = c :: t)
    (hr : r = recordRun H c ∨ ∃ known, r = recordCompiler H known c) (user : List (Nat × Nat)) (e : Err) :
    makeRun H r c user = .error e ↔ ∃ pre s post, H.slots c = pre ++ s :: post ∧
      (∀ p ∈ pre, ∃ v, Outcome H c user p (.ok v)) ∧ Outcome H c user s (.error e) :=
  makeRun_error hc hr user e

example : makeRun demoH (recordRun demoH 2) 2 [(11, 9)] = .ok [some 7, some 9, some 103] ∧
    makeRun demoH (recordRun demoH 2) 2 [(10, 1), (10, 2)] = .ok [some 1, some 104, some 103] ∧
    makeRun demoH (recordRun demoH 0) 0 [] = .ok [none, some 5, some 103] ∧
    makeRun demoH (recordRun demoH 0) 0 [(10, 5000)] = .error .type ∧
    makeRun requireH (recordRun requireH 1) 1 [] = .error .missing := by decide +kernel

/-- **The compiled constructor.** It agrees with the constructor of the run-time system on the
    instances made, where no `required keyword` below a slot's class changes whether the keyword of
    the slot is required, no slot with a required keyword has an initial value, and the initial
    values of slots with a keyword are of the type of the slot. -/
theorem compiled_agrees_partial (H : Sys) (c : Nat) (r : Rec) (hc : ∃ t, H.cpl c = c :: t)
    (hr : r = recordRun H c ∨ ∃ known, r = recordCompiler H known c)
    (hreq : ∀ s ∈ H.slots c, ∀ k, s.keyword = some k → (Needed H s c k ↔ s.required = true))
    (hinit : ∀ s ∈ H.slots c, s.required = true → initial H s c = none)
    (htype : ∀ s ∈ H.slots c, s.keyword.isSome = true → ∀ v, initial H s c = some v → H.inst s.type v = true)
    (user : List (Nat × Nat)) (vals : List (Option Nat)) :
    makeCompiled H r c user = .ok vals ↔ makeRun H r c user = .ok vals := by
  rw [makeCompiled_ok hc hr, makeRun_ok hc hr]
  have key : ∀ s ∈ H.slots c, ∀ v, COut H c user s v ↔ Outcome H c user s (.ok v) := by
    intro s hs v
    simp only [COut]
    cases hk : s.keyword with
    | none =>
      simp only
      constructor
      · rintro rfl; exact .unkeyed hk
      · intro h; exact Except.ok.inj (outcome_unique h (.unkeyed hk))
    | some k =>
      simp only
      cases hsup : supplied H c user k with
      | some w =>
        simp only [Option.some_or]
        constructor
        · rintro ⟨rfl, h2, -⟩; exact .keyword k w hk hsup (h2 w rfl)
        · intro h
          cases hi : H.inst s.type w with
          | true =>
            have := Except.ok.inj (outcome_unique h (.keyword k w hk hsup hi))
            subst this
            exact ⟨rfl, fun w' e => by cases e; exact hi, by simp⟩
          | false => cases outcome_unique h (.wrong k w hk hsup hi)
      | none =>
        simp only [Option.none_or]
        by_cases hn : Needed H s c k
        · have hq := (hreq s hs k hk).mp hn
          constructor
          · rintro ⟨h1, -, h3⟩
            rw [hinit s hs hq] at h1
            rw [h3 h1] at hq; cases hq
          · intro h; cases outcome_unique h (.missing k hk hsup hn)
        · constructor
          · rintro ⟨rfl, -, -⟩; exact .initial k hk hsup hn
          · intro h
            have := Except.ok.inj (outcome_unique h (.initial k hk hsup hn))
            subst this
            refine ⟨rfl, fun w e => htype s hs (by rw [hk]; rfl) w e, fun _ => ?_⟩
            cases hq : s.required with
            | false => rfl
            | true => exact absurd ((hreq s hs k hk).mpr hq) hn
  constructor
  · intro h
    have := List.forall₂_iff_zip.mp h
    refine List.forall₂_iff_zip.mpr ⟨this.1, fun {a b} hab => ?_⟩
    exact (key a (List.of_mem_zip hab).1 b).mp (this.2 hab)
  · intro h
    have := List.forall₂_iff_zip.mp h
    refine List.forall₂_iff_zip.mpr ⟨this.1, fun {a b} hab => ?_⟩
    exact (key a (List.of_mem_zip hab).1 b).mpr (this.2 hab)

example : (∀ s ∈ demoH.slots 2, ∀ k, s.keyword = some k → (Needed demoH s 2 k ↔ s.required = true)) ∧
    (∀ s ∈ demoH.slots 2, s.required = true → initial demoH s 2 = none) ∧
    (∀ s ∈ demoH.slots 2, s.keyword.isSome = true → ∀ v, initial demoH s 2 = some v → demoH.inst s.type v = true) ∧
    makeCompiled demoH (recordRun demoH 2) 2 [(11, 9)] = .ok [some 7, some 9, some 103] := by
  have d10 : decider demoH 10 [2, 1] = some ⟨10, false, some (.value 7)⟩ := by decide +kernel
  refine ⟨?_, ?_, ?_, by decide +kernel⟩
  · intro s hs k hk
    simp only [demoH, List.mem_cons, List.not_mem_nil, or_false] at hs
    rcases hs with rfl | rfl | rfl
    · obtain rfl := Option.some.inj hk
      have : decider demoH 10 (above demoH ⟨0, 0, some 10, false, none, 0⟩ 2) = some ⟨10, false, some (.value 7)⟩ := by
        decide +kernel
      simp only [Needed, this]
    · obtain rfl := Option.some.inj hk
      have : decider demoH 11 (above demoH ⟨1, 0, some 11, false, some (.value 5), 0⟩ 2) = some ⟨11, false, some (.call 4)⟩ := by
        decide +kernel
      simp only [Needed, this]
    · cases hk
  · intro s hs hq
    simp only [demoH, List.mem_cons, List.not_mem_nil, or_false] at hs
    rcases hs with rfl | rfl | rfl <;> cases hq
  · intro s hs _ v hv
    simp only [demoH, List.mem_cons, List.not_mem_nil, or_false] at hs
    rcases hs with rfl | rfl | rfl
    · have : initial demoH ⟨0, 0, some 10, false, none, 0⟩ 2 = none := by decide +kernel
      rw [this] at hv; cases hv
    · have : initial demoH ⟨1, 0, some 11, false, some (.value 5), 0⟩ 2 = some 6 := by decide +kernel
      rw [this] at hv; cases hv; decide +kernel
    · have : initial demoH ⟨2, 0, none, false, some (.call 3), 0⟩ 2 = some 103 := by decide +kernel
      rw [this] at hv; cases hv; decide +kernel

/-- **Violation.** A class below says `required keyword` for the keyword of an inherited slot; the
    keyword is not supplied. The compiled constructor makes an instance, with the slot unbound; the
    run-time system's signals an error. -/
theorem required_keyword_violated :
    makeCompiled requireH (recordRun requireH 1) 1 [] = .ok [none] ∧
    makeRun requireH (recordRun requireH 1) 1 [] = .error .missing := by decide +kernel

/-- **Violation.** A class says `required keyword` for a keyword of one of its own slots: neither
    constructor signals an error if the keyword is not supplied. -/
theorem required_own_keyword_violated :
    ∃ (H : Sys) (c : Nat) (d : ArgSpec), d ∈ H.args c ∧ d.required = true ∧ (∃ t, H.cpl c = c :: t) ∧
      (∃ s ∈ H.slots c, s.keyword = some d.keyword) ∧
      makeRun H (recordRun H c) c [] = .ok [none] ∧ makeCompiled H (recordRun H c) c [] = .ok [none] :=
  ⟨{ requireH with args := fun _ => [⟨10, true, none⟩] }, 0, ⟨10, true, none⟩, by decide +kernel, rfl,
    ⟨[], by decide +kernel⟩, ⟨_, List.mem_cons_self, rfl⟩, by decide +kernel, by decide +kernel⟩

/-- **Violation.** A slot requires its keyword and a class below gives it an initial value: without
    the keyword the compiled constructor makes an instance and the run-time system's signals an
    error. -/
theorem required_initial_violated :
    makeCompiled inheritH (recordRun inheritH 1) 1 [] = .ok [some 4] ∧
    makeRun inheritH (recordRun inheritH 1) 1 [] = .error .missing := by decide +kernel

/-- **Violation.** An initial value that is not of the type of its slot is stored by the run-time
    system's constructor, and refused by the compiled one. -/
theorem initial_type_violated :
    makeRun wrongH (recordRun wrongH 0) 0 [] = .ok [some 4] ∧
    makeCompiled wrongH (recordRun wrongH 0) 0 [] = .error .type := by decide +kernel

/-- **Violation.** A slot requires its keyword, and a class further up gives that keyword a default:
    the requirement never has an effect. -/
theorem required_default_violated :
    ∃ (H : Sys) (c : Nat) (s : SlotD), s ∈ H.slots c ∧ s.required = true ∧ s.owner = c ∧ (∃ t, H.cpl c = c :: t) ∧
      makeRun H (recordRun H c) c [] = .ok [some 3] ∧ makeCompiled H (recordRun H c) c [] = .ok [some 3] :=
  ⟨{ requireH with
      args := fun c => if c = 0 then [⟨10, false, some (.value 3)⟩] else [],
      slots := fun _ => [⟨0, 1, some 10, true, none, 0⟩] }, 1, ⟨0, 1, some 10, true, none, 0⟩,
    List.mem_cons_self, rfl, rfl, ⟨[0], by decide +kernel⟩, by decide +kernel, by decide +kernel⟩

/-! ### C49 -/

/-- **Slots that are always initialised.** The compiler decides that a slot is initialised in all
    instances of `c`. Then it is bound in every instance that the run-time system's constructor makes
    of `c` or of any class below. -/
theorem guaranteed_sound (H : Sys) (c d : Nat) (r : Rec) (hc : ∃ t, H.cpl c = c :: t) (hd : ∃ t, H.cpl d = d :: t)
    (hsub : (H.cpl c).Sublist (H.cpl d)) (hn : (H.cpl d).Nodup)
    (hr : r = recordRun H d ∨ ∃ known, r = recordCompiler H known d)
    (s : SlotD) (ho : s.owner ∈ H.cpl c) (hkey : s.required = true → s.keyword.isSome = true)
    (hg : guaranteed H s c = true) (user : List (Nat × Nat)) (vals : List (Option Nat))
    (hm : makeRun H r d user = .ok vals) (i : Nat) (hi : (H.slots d)[i]? = some s) :
    ∃ v, vals[i]? = some (some v) := by
  have hf := (makeRun_ok hd hr user vals).mp hm
  have hlen := hf.length_eq
  have hlt : i < (H.slots d).length := (List.getElem?_eq_some_iff.mp hi).1
  have hi' : i < vals.length := by omega
  have hout : Outcome H d user s (.ok vals[i]) := by
    have := hf.get hlt hi'
    simp only [List.get_eq_getElem, (List.getElem?_eq_some_iff.mp hi).2] at this
    exact this
  have hb : vals[i].isSome = true := by
    rcases guaranteed_below hc hsub hn ho hkey hg with h1 | ⟨k, hk, h1⟩
    · generalize hv : vals[i] = v at hout
      cases hout with
      | keyword => rfl
      | initial => exact h1
      | unkeyed => exact h1
    · cases hs : supplied H d user k with
      | some w =>
        cases hinst : H.inst s.type w with
        | true =>
          have := Except.ok.inj (outcome_unique hout (.keyword k w hk hs hinst))
          rw [this]; rfl
        | false => cases outcome_unique hout (.wrong k w hk hs hinst)
      | none =>
        rcases h1 with h1 | h1
        · cases outcome_unique hout (.missing k hk hs h1)
        · simp only [supplied, Option.or_eq_none_iff] at hs
          rw [hs.2] at h1; cases h1
  obtain ⟨v, hv⟩ := Option.isSome_iff_exists.mp hb
  exact ⟨v, by rw [List.getElem?_eq_getElem hi', hv]⟩

/-- **Slots that are always initialised, compiled constructor.** The same for the constructor the
    compiler writes, where no class below the slot's says `required keyword` for its keyword. -/
theorem guaranteed_compiled_partial (H : Sys) (c d : Nat) (r : Rec) (hc : ∃ t, H.cpl c = c :: t) (hd : ∃ t, H.cpl d = d :: t)
    (hsub : (H.cpl c).Sublist (H.cpl d)) (hn : (H.cpl d).Nodup)
    (hr : r = recordRun H d ∨ ∃ known, r = recordCompiler H known d)
    (s : SlotD) (ho : s.owner ∈ H.cpl c) (hkey : s.required = true → s.keyword.isSome = true)
    (hreq : ∀ k, s.keyword = some k → Needed H s d k → s.required = true)
    (hg : guaranteed H s c = true) (user : List (Nat × Nat)) (vals : List (Option Nat))
    (hm : makeCompiled H r d user = .ok vals) (i : Nat) (hi : (H.slots d)[i]? = some s) :
    ∃ v, vals[i]? = some (some v) := by
  have hf := (makeCompiled_ok hd hr user vals).mp hm
  have hlen := hf.length_eq
  have hlt : i < (H.slots d).length := (List.getElem?_eq_some_iff.mp hi).1
  have hi' : i < vals.length := by omega
  have hout : COut H d user s vals[i] := by
    have := hf.get hlt hi'
    simp only [List.get_eq_getElem, (List.getElem?_eq_some_iff.mp hi).2] at this
    exact this
  have hb : vals[i].isSome = true := by
    rcases guaranteed_below hc hsub hn ho hkey hg with h1 | ⟨k, hk, h1⟩
    · simp only [COut] at hout
      cases hk : s.keyword with
      | none => rw [hk] at hout; simp only at hout; rw [hout]; exact h1
      | some k =>
        rw [hk] at hout
        simp only at hout
        rw [hout.1, Option.isSome_or, h1, Bool.or_true]
    · simp only [COut, hk] at hout
      cases hv : vals[i] with
      | some v => rfl
      | none =>
        exfalso
        rcases h1 with h1 | h1
        · rw [hout.2.2 hv] at hreq
          exact absurd (hreq k hk h1) (by simp)
        · have h2 := hout.1
          rw [hv] at h2
          have h3 := Option.or_eq_none_iff.mp h2.symm
          simp only [supplied, Option.or_eq_none_iff] at h3
          rw [h3.1.2] at h1; cases h1
  obtain ⟨v, hv⟩ := Option.isSome_iff_exists.mp hb
  exact ⟨v, by rw [List.getElem?_eq_getElem hi', hv]⟩

example : guaranteed demoH ⟨0, 0, some 10, false, none, 0⟩ 1 = true ∧ guaranteed demoH ⟨0, 0, some 10, false, none, 0⟩ 0 = false ∧
    (demoH.cpl 1).Sublist (demoH.cpl 2) ∧ (demoH.slots 2)[0]? = some ⟨0, 0, some 10, false, none, 0⟩ ∧
    makeRun demoH (recordRun demoH 2) 2 [] = .ok [some 7, some 104, some 103] ∧
    makeCompiled demoH (recordRun demoH 2) 2 [] = .ok [some 7, some 104, some 103] := by decide +kernel

/-- **Violation.** The slot is judged always initialised because of a `required keyword`, and is
    unbound in an instance made by the compiled constructor: compiled code that reads it takes the
    unbound marker for a value. -/
theorem guaranteed_violated :
    guaranteed requireH ⟨0, 0, some 10, false, none, 0⟩ 1 = true ∧
    (requireH.slots 1)[0]? = some ⟨0, 0, some 10, false, none, 0⟩ ∧
    makeCompiled requireH (recordRun requireH 1) 1 [] = .ok [none] := by decide +kernel

end Verif.Init
