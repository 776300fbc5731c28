/-
C07–C09: what a user relies on about hash tables.  A history is a list of operations on a new
table; `run` gives what the program sees (`os`) and the final state.  The hash codes and their
changes by the collector are part of the world `W`.
-/
import Verif.Table.Trav

namespace Verif.Table

variable {K V : Type} {W : World K}

deriving instance DecidableEq for Obs
deriving instance DecidableEq for Slot

/-- The state of a program that has just made a table. -/
def start (T : Tab K V) : St K V := { T := T, now := 0, its := [] }

/-- The observations of a run. -/
def seen : Out K V (List (Obs K V) × St K V) → Option (List (Obs K V))
  | .ok (os, _) => some os
  | _ => none

/-- The final state of a run. -/
def final (d : St K V) : Out K V (List (Obs K V) × St K V) → St K V
  | .ok (_, s) => s
  | _ => d

/-! ### worlds for the examples -/

/-- Integers as keys; a collection at time 6 changes every hash code, and there is a spurious
    answer of `is-stale?` at time 40. -/
def demo : World Nat where
  eq a b := a == b
  hash t k := if t < 6 then 31 * k else 7 * k + 5
  spur t := t == 40

theorem demo_lawful : demo.Lawful where
  refl a := by simp [demo]
  symm a b h := by simp [demo] at h ⊢; exact h.symm
  trans a b c h h' := by simp [demo] at h h' ⊢; exact h.trans h'
  hash_eq t a b h := by simp [demo] at h; rw [h]

theorem demo_quiet : demo.Quiet 41 := by
  intro u hu
  constructor
  · simp [demo]; omega
  · intro k
    have h1 : ¬ u < 6 := by omega
    simp [demo, h1]

/-- Keys are equal if they have the same remainder modulo 10, as with a user's own key test. -/
def demoMod : World Nat where
  eq a b := a % 10 == b % 10
  hash t k := ((k % 10 + t / 4 : Nat) : Int)
  spur _ := false

theorem demoMod_lawful : demoMod.Lawful where
  refl a := by simp [demoMod]
  symm a b h := by simp [demoMod] at h ⊢; exact h.symm
  trans a b c h h' := by simp [demoMod] at h h' ⊢; exact h.trans h'
  hash_eq t a b h := by simp [demoMod] at h ⊢; omega

/-- The table of the examples. -/
def demoTable : Tab Nat Nat := { vecs := fun _ => mkTV 37, cur := 0, initial := 0, grow := defaultGrow }

theorem demoTable_make : make 0 defaultGrow = some demoTable := by
  have : computeEntryCount 0 = some 37 := by decide +kernel
  simp [make, this, demoTable]

/-! ### C07: a table is a finite map -/

/-- C07. Whatever a program sees of a table, in a history of any length, is what it would see of a
    map: lookups, removals, sizes and the current elements of iterations, also after errors. -/
theorem table_is_map (hW : W.Lawful) {initial : Int} {grow : Int → Int} {T : Tab K V}
    (hT : make initial grow = some T) {fuel : Nat} {ops : List (Op K V)} {os : List (Obs K V)}
    {s : St K V} (hrun : run W fuel (start T) ops = .ok (os, s)) :
    ∃ sp, SpecRun W.eq SpecSt.init ops os sp := by
  have := run_ok hW fuel ops (make_inv (W := W) hT)
  unfold start at hrun
  rw [hrun] at this
  obtain ⟨sp, h, _⟩ := this
  exact ⟨sp, h⟩

/-- The map after a history without errors and without stores through iterations. -/
theorem specRun_last {eq : K → K → Bool} {ops : List (Op K V)} : ∀ {os : List (Obs K V)}
    {sp sp' : SpecSt K V} {before : List (Op K V)}, SpecRun eq sp ops os sp' →
    (∀ k, sp.m k = lastStored eq k before) → (∀ op ∈ ops, op.plain = true) →
    Obs.tooLarge ∉ os → ∀ k, sp'.m k = lastStored eq k (ops.reverse ++ before) := by
  induction ops with
  | nil => intro os sp sp' before h hm _ _; cases h; exact hm
  | cons op ops ih =>
    intro os sp sp' before h hm hp ho k
    cases h with
    | cons hs hr =>
      rw [List.reverse_cons, List.append_assoc]
      refine ih hr ?_ (fun o h => hp o (by simp [h])) (fun h => ho (by simp [h])) k
      intro k
      have hpl := hp op (by simp)
      cases hs with
      | put k' v =>
        simp only [mapPut, List.singleton_append, lastStored]
        split
        · rfl
        · exact hm k
      | remove k' =>
        simp only [mapRemove, List.singleton_append, lastStored]
        split
        · rfl
        · exact hm k
      | tooLarge => exact absurd (by simp) ho
      | tooLargeSet => exact absurd (by simp) ho
      | iterSet => cases hpl
      | iterSetEnd => cases hpl
      | unknownSet => cases hpl
      | _ => first | exact hm k | rfl

theorem specRun_append {eq : K → K → Bool} {a b : List (Op K V)} : ∀ {oa ob : List (Obs K V)}
    {sp sp' : SpecSt K V}, SpecRun eq sp (a ++ b) (oa ++ ob) sp' → oa.length = a.length →
    ∃ sp1, SpecRun eq sp a oa sp1 ∧ SpecRun eq sp1 b ob sp' := by
  induction a with
  | nil =>
    intro oa ob sp sp' h hl
    have : oa = [] := List.length_eq_zero_iff.1 hl
    subst this
    exact ⟨sp, SpecRun.nil sp, h⟩
  | cons op a ih =>
    intro oa ob sp sp' h hl
    cases oa with
    | nil => cases hl
    | cons o oa =>
      cases h with
      | cons hs hr =>
        obtain ⟨sp1, h1, h2⟩ := ih hr (by simpa using hl)
        exact ⟨sp1, SpecRun.cons hs h1, h2⟩

theorem specRun_length {eq : K → K → Bool} {a : List (Op K V)} {oa : List (Obs K V)}
    {sp sp' : SpecSt K V} (h : SpecRun eq sp a oa sp') : oa.length = a.length := by
  induction h with
  | nil => rfl
  | cons _ _ ih => simp [ih]

/-- C07. A lookup shows the value stored last under an equal key and not removed since. -/
theorem table_lookup (hW : W.Lawful) {initial : Int} {grow : Int → Int} {T : Tab K V}
    (hT : make initial grow = some T) {fuel : Nat} {ops : List (Op K V)} {os : List (Obs K V)}
    {s : St K V} {k : K} {o : Obs K V} (hp : ∀ op ∈ ops, op.plain = true)
    (hrun : run W fuel (start T) (ops ++ [.get k]) = .ok (os ++ [o], s))
    (ho : Obs.tooLarge ∉ os ++ [o]) : o = .found (lastStored W.eq k ops.reverse) := by
  obtain ⟨sp, h⟩ := table_is_map hW hT hrun
  have hl := specRun_length h
  obtain ⟨sp1, h1, h2⟩ := specRun_append h (by simpa using hl)
  have hm := specRun_last h1 (before := []) (fun _ => rfl) hp (fun x => ho (by simp [x])) k
  rw [List.append_nil] at hm
  cases h2 with
  | cons hs _ =>
    cases hs with
    | get => rw [hm]
    | tooLarge => exact absurd (by simp) ho

/-- C07. The size is the number of keys with a value. -/
theorem table_size (hW : W.Lawful) {initial : Int} {grow : Int → Int} {T : Tab K V}
    (hT : make initial grow = some T) {fuel : Nat} {ops : List (Op K V)} {os : List (Obs K V)}
    {s : St K V} {o : Obs K V} (hp : ∀ op ∈ ops, op.plain = true)
    (hrun : run W fuel (start T) (ops ++ [.size]) = .ok (os ++ [o], s))
    (ho : Obs.tooLarge ∉ os ++ [o]) :
    ∃ n, o = .size n ∧ IsSize W.eq (fun k => lastStored W.eq k ops.reverse) n := by
  obtain ⟨sp, h⟩ := table_is_map hW hT hrun
  have hl := specRun_length h
  obtain ⟨sp1, h1, h2⟩ := specRun_append h (by simpa using hl)
  have hm := specRun_last h1 (before := []) (fun _ => rfl) hp (fun x => ho (by simp [x]))
  rw [List.append_nil] at hm
  have hm' : sp1.m = fun k => lastStored W.eq k ops.reverse := funext hm
  cases h2 with
  | cons hs _ =>
    cases hs with
    | size n hn => exact ⟨n, rfl, by rw [← hm']; exact hn⟩
    | tooLarge => exact absurd (by simp) ho

/-- A history with colliding keys, a collection, growth, removal and an iteration. -/
def demoOps : List (Op Nat Nat) :=
  [.put 1 10, .put 2 20, .put 32 30, .get 2, .iterStart, .remove 2, .put 2 21, .get 2, .get 5,
   .iterElem 0, .iterNext 0, .size] ++ (List.range 27).map (fun k => .put (k + 100) k) ++
  [.get 120, .size, .get 32, .iterElem 0, .clear, .size, .get 32]

example : seen (run demo 50 (start demoTable) demoOps) = some
    ([.done, .done, .done, .found (some 20), .cursor (some 2), .removed true, .done,
      .found (some 21), .found none, .exhausted, .cursor (some 1), .size 3] ++
     List.replicate 27 .done ++
     [.found (some 20), .size 30, .found (some 30), .elem 10, .done, .size 0, .found none]) := by
  decide +kernel

example : seen (run demoMod 50 (start demoTable) [.put 3 1, .put 13 2, .get 23, .size, .remove 33, .get 3])
    = some [.done, .done, .found (some 2), .size 1, .removed true, .found none] := by
  decide +kernel

/-! ### C08: every operation ends -/

/-- C08. In no history does a probe sequence go on for ever. -/
theorem table_probing_ends (hW : W.Lawful) {initial : Int} {grow : Int → Int} {T : Tab K V}
    (hT : make initial grow = some T) (fuel : Nat) (ops : List (Op K V)) :
    run W fuel (start T) ops ≠ .diverge := by
  intro e
  have := run_ok hW fuel ops (make_inv (W := W) hT)
  unfold start at e
  rw [e] at this
  exact this

/-- C08. If from some time on the collector invalidates no hash codes, then every operation of a
    history ends after so many attempts at most, unless an earlier one has failed because the
    table would have become too large. -/
theorem table_operations_end_partial (hW : W.Lawful) {initial : Int} {grow : Int → Int}
    {T : Tab K V} (hT : make initial grow = some T) {t : Nat} (hq : W.Quiet t) {fuel : Nat}
    (hf : t + 2 ≤ fuel) {ops : List (Op K V)} (hrun : run W fuel (start T) ops = .running) :
    ∃ pre suf os s, ops = pre ++ suf ∧ run W fuel (start T) pre = .ok (os, s) ∧
      Obs.tooLarge ∈ os := by
  have hr : T.tv.rehashing = false := by
    unfold make at hT
    cases hc : computeEntryCount initial with
    | none => rw [hc] at hT; cases hT
    | some c => rw [hc] at hT; cases hT; rfl
  exact run_ends hW hq hf ops (make_inv (W := W) hT) hr hrun

/-- C08. Only storing can fail, as long as the table has fewer than 347872735 keys. -/
theorem table_reads_do_not_fail (hW : W.Lawful) {initial : Int} {grow : Int → Int} {T : Tab K V}
    (hT : make initial grow = some T) {fuel : Nat} {ops : List (Op K V)} {os : List (Obs K V)}
    {s s' : St K V} {op : Op K V} (hrun : run W fuel (start T) ops = .ok (os, s))
    (hop : ∀ k v, op ≠ .put k v) (hop' : ∀ n v, op ≠ .iterSet n v) :
    ∃ sp, SpecRun W.eq SpecSt.init ops os sp ∧
      ((∀ n, IsSize W.eq sp.m n → n < 347872735) → step W fuel s op ≠ .ok (.tooLarge, s')) := by
  have := run_ok hW fuel ops (make_inv (W := W) hT)
  unfold start at hrun
  rw [hrun] at this
  obtain ⟨sp, h, hi⟩ := this
  refine ⟨sp, h, fun hm => step_noErr hW hi hm ?_⟩
  cases op with
  | put k v => exact absurd rfl (hop k v)
  | iterSet n v => exact absurd rfl (hop' n v)
  | _ => rfl

/-- A table whose grow-size function asks for too much: 28 keys fit, the next store fails. -/
def greedyTable : Tab Nat Nat :=
  { vecs := fun _ => mkTV 37, cur := 0, initial := 0, grow := fun _ => 1000000000 }

theorem greedyTable_make : make 0 (fun _ => 1000000000) = some greedyTable := by
  have : computeEntryCount 0 = some 37 := by decide +kernel
  simp [make, this, greedyTable]

/-- Integers as keys that are their own hash codes; the collector changes nothing. -/
def still : World Nat where
  eq a b := a == b
  hash _ k := k
  spur _ := false

theorem still_lawful : still.Lawful where
  refl a := by simp [still]
  symm a b h := by simp [still] at h ⊢; exact h.symm
  trans a b c h h' := by simp [still] at h h' ⊢; exact h.trans h'
  hash_eq t a b h := by simp [still] at h; rw [h]

theorem still_quiet : still.Quiet 0 := fun _ _ => ⟨rfl, fun _ => rfl⟩

/-- Twenty-eight keys are stored, the next store fails. -/
def greedyOps : List (Op Nat Nat) := (List.range 28).map (fun k => .put k k) ++ [.put 28 28]

/-- The state the failed store leaves behind. -/
def greedyState : St Nat Nat := final (start greedyTable) (run still 3 (start greedyTable) greedyOps)

theorem stuck {T : Tab Nat Nat} {k i v : Nat} (h1 : T.tv.rehashing = true)
    (h2 : search still T.tv.count T.tv.slots k (k : Int) = some i)
    (h3 : T.tv.slots i = .full k v) (fuel : Nat) : ∀ now, gethash still fuel now T k = .running := by
  induction fuel with
  | zero => intro now; rfl
  | succ fuel ih =>
    intro now
    have : search still T.tv.count T.tv.slots k (still.hash now k) = some i := h2
    simp only [gethash, this, h3, h1, if_true]
    exact ih _

theorem stuck_step {s : St Nat Nat} {k i v : Nat} (h1 : s.T.tv.rehashing = true)
    (h2 : search still s.T.tv.count s.T.tv.slots k (k : Int) = some i)
    (h3 : s.T.tv.slots i = .full k v) (fuel : Nat) : step still fuel s (.get k) = .running := by
  simp only [step, stuck h1 h2 h3 fuel s.now, Res.out]

/-- C08 fails after an error: a store that fails because the table would become too large leaves
    the table marked as being rehashed, and then looking up a key that is in the table never
    ends, in a single thread and without any collection. -/
theorem table_operations_end_violated :
    make 0 (fun _ => 1000000000) = some greedyTable ∧
    run still 3 (start greedyTable) greedyOps =
      .ok (List.replicate 28 .done ++ [.tooLarge], greedyState) ∧
    (∀ k, k < 28 → lastStored still.eq k greedyOps.dropLast.reverse = some k) ∧
    ∀ fuel, step still fuel greedyState (.get 0) = .running := by
  refine ⟨greedyTable_make, ?_, by decide +kernel, ?_⟩
  · have h : seen (run still 3 (start greedyTable) greedyOps) =
        some (List.replicate 28 .done ++ [.tooLarge]) := by decide +kernel
    unfold greedyState
    cases hr : run still 3 (start greedyTable) greedyOps with
    | ok r => rw [hr] at h; simp only [seen, Option.some.injEq] at h; rw [← h]; rfl
    | diverge => rw [hr] at h; cases h
    | running => rw [hr] at h; cases h
  · intro fuel
    have h1 : greedyState.T.tv.rehashing = true := by decide +kernel
    have h2 : search still greedyState.T.tv.count greedyState.T.tv.slots 0 0 = some 0 := by
      decide +kernel
    have h3 : greedyState.T.tv.slots 0 = .full 0 0 := by decide +kernel
    exact stuck_step h1 h2 h3 fuel

/-! ### C09: an iteration visits every key once -/

/-- C09. A whole iteration over a table, in the course of which the table is only looked at (by
    lookups, sizes and other iterations; the collector may change hash codes at any time), visits
    each key of the table once, with its value, and nothing else. -/
theorem iteration_enumerates (hW : W.Lawful) {initial : Int} {grow : Int → Int} {T : Tab K V}
    (hT : make initial grow = some T) {fuel : Nat} {ops : List (Op K V)} {os : List (Obs K V)}
    {s s1 : St K V} (hrun : run W fuel (start T) ops = .ok (os, s)) {c : Option K}
    (hst : step W fuel s .iterStart = .ok (.cursor c, s1)) {between : Nat → List (Op K V)}
    (hb : ∀ n, ∀ op ∈ between n, op.readOnly s.its.length = true) {steps : Nat}
    {l : List (K × V)} (ht : traverse W fuel between s.its.length steps s1 = .ok (some l)) :
    ∃ sp, SpecRun W.eq SpecSt.init ops os sp ∧ Enumerates W.eq sp.m l := by
  have := run_ok hW fuel ops (make_inv (W := W) hT)
  unfold start at hrun
  rw [hrun] at this
  obtain ⟨sp, h, hi⟩ := this
  refine ⟨sp, h, ?_⟩
  obtain ⟨sp1, it, a1, a2, _, a3, a4, a5⟩ := start_pos hW hi hst
  rcases a5 with ⟨b1, b2⟩ | ⟨j, k, v, b1, b2, b3, b4, b5⟩
  · have hnil : l = [] := by
      cases steps with
      | zero => cases ht
      | succ steps =>
        rw [traverse_exhausted a3 b1] at ht
        cases ht; rfl
    subst hnil
    refine ⟨List.Pairwise.nil, fun k v => ⟨fun e => ?_, by rintro ⟨_, hk, _⟩; cases hk⟩⟩
    obtain ⟨k', ⟨i, hi1, hi2⟩, _⟩ := (a4 k v).1 e
    have := b2 i hi1
    rw [hi2] at this; cases this
  · obtain ⟨t1, _, t3, t4⟩ := traverse_spec hW (fun n op hop => readOnly_keeps (hb n op hop)) steps
      a1 a3 b1 b2 b3 b4 ht
    refine ⟨t3, fun k v => ⟨fun e => ?_, ?_⟩⟩
    · obtain ⟨k', ⟨i, hi1, hi2⟩, hk⟩ := (a4 k v).1 e
      have hij : i ≤ j := by
        by_contra hcon
        have := b5 i (by omega) hi1
        rw [hi2] at this; cases this
      obtain ⟨w, hw⟩ := t1 i k' v hij hi2
      have hm := (t4 hb _ hw).2
      simp only [a2] at hm
      have hv : sp.m k' = some v := (a4 k' v).2 ⟨k', ⟨i, hi1, hi2⟩, hW.refl k'⟩
      rw [hv] at hm
      rcases hm with hm | hm
      · cases hm; exact ⟨k', hw, hk⟩
      · cases hm
    · rintro ⟨k', hmem, hk⟩
      obtain ⟨⟨i, v', hi1, hi2⟩, hm⟩ := t4 hb _ hmem
      simp only [a2] at hm hi2
      have hv : sp.m k' = some v' := (a4 k' v').2 ⟨k', ⟨i, by omega, hi2⟩, hW.refl k'⟩
      rw [hv] at hm
      rcases hm with hm | hm
      · cases hm
        exact (a4 k v).2 ⟨k', ⟨i, by omega, hi2⟩, hk⟩
      · cases hm

/-- C09. Such an iteration ends, if the collector comes to rest and the table is not too large. -/
theorem iteration_ends (hW : W.Lawful) {initial : Int} {grow : Int → Int} {T : Tab K V}
    (hT : make initial grow = some T) {t fuel : Nat} (hq : W.Quiet t) (hf : t + 2 ≤ fuel)
    {ops : List (Op K V)} {os : List (Obs K V)} {s s1 : St K V}
    (hrun : run W fuel (start T) ops = .ok (os, s)) {c : Option K}
    (hst : step W fuel s .iterStart = .ok (.cursor c, s1)) {between : Nat → List (Op K V)}
    (hb : ∀ n, ∀ op ∈ between n, op.readOnly s.its.length = true) :
    ∃ sp, SpecRun W.eq SpecSt.init ops os sp ∧
      ((∀ n, IsSize W.eq sp.m n → n < 347872735) → ∃ N, ∀ steps, N ≤ steps →
        ∃ l, traverse W fuel between s.its.length steps s1 = .ok (some l)) := by
  have := run_ok hW fuel ops (make_inv (W := W) hT)
  unfold start at hrun
  rw [hrun] at this
  obtain ⟨sp, h, hi⟩ := this
  refine ⟨sp, h, fun hm => ?_⟩
  obtain ⟨sp1, it, a1, a2, a2', a3, a4, a5⟩ := start_pos hW hi hst
  rcases a5 with ⟨b1, b2⟩ | ⟨j, k, v, b1, b2, b3, b4, b5⟩
  · refine ⟨1, fun steps hs => ⟨[], ?_⟩⟩
    obtain ⟨st, rfl⟩ : ∃ st, steps = st + 1 := ⟨steps - 1, by omega⟩
    exact traverse_exhausted a3 b1 st
  · refine ⟨j + 2, fun steps hs => ?_⟩
    exact traverse_ends hW hq hf hb steps a1 a2' (by rw [a2]; exact hm) a3 b1 b2 b4 (by omega)

/-- C09. An iteration in the course of which keys may also be stored, but none removed, visits no
    key twice and does not miss any key that was there at its start. -/
theorem iteration_misses_none (hW : W.Lawful) {initial : Int} {grow : Int → Int} {T : Tab K V}
    (hT : make initial grow = some T) {fuel : Nat} {ops : List (Op K V)} {os : List (Obs K V)}
    {s s1 : St K V} (hrun : run W fuel (start T) ops = .ok (os, s)) {c : Option K}
    (hst : step W fuel s .iterStart = .ok (.cursor c, s1)) {between : Nat → List (Op K V)}
    (hb : ∀ n, ∀ op ∈ between n, op.keeps s.its.length = true) {steps : Nat}
    {l : List (K × V)} (ht : traverse W fuel between s.its.length steps s1 = .ok (some l)) :
    ∃ sp, SpecRun W.eq SpecSt.init ops os sp ∧
      l.Pairwise (fun a b => W.eq a.1 b.1 = false) ∧
      ∀ k, sp.m k ≠ none → ∃ p ∈ l, W.eq k p.1 = true := by
  have := run_ok hW fuel ops (make_inv (W := W) hT)
  unfold start at hrun
  rw [hrun] at this
  obtain ⟨sp, h, hi⟩ := this
  refine ⟨sp, h, ?_⟩
  obtain ⟨sp1, it, a1, a2, _, a3, a4, a5⟩ := start_pos hW hi hst
  have hsome : ∀ k, sp.m k ≠ none → ∃ v, sp.m k = some v := by
    intro k hk
    cases e : sp.m k with
    | none => exact absurd e hk
    | some v => exact ⟨v, rfl⟩
  rcases a5 with ⟨b1, b2⟩ | ⟨j, k, v, b1, b2, b3, b4, b5⟩
  · have hnil : l = [] := by
      cases steps with
      | zero => cases ht
      | succ steps =>
        rw [traverse_exhausted a3 b1] at ht
        cases ht; rfl
    subst hnil
    refine ⟨List.Pairwise.nil, fun k hk => ?_⟩
    obtain ⟨v, e⟩ := hsome k hk
    obtain ⟨k', ⟨i, hi1, hi2⟩, _⟩ := (a4 k v).1 e
    have := b2 i hi1
    rw [hi2] at this; cases this
  · obtain ⟨t1, _, t3, t4⟩ := traverse_spec hW hb steps a1 a3 b1 b2 b3 b4 ht
    refine ⟨t3, fun k hk => ?_⟩
    obtain ⟨v, e⟩ := hsome k hk
    obtain ⟨k', ⟨i, hi1, hi2⟩, hk'⟩ := (a4 k v).1 e
    have hij : i ≤ j := by
      by_contra hcon
      have := b5 i (by omega) hi1
      rw [hi2] at this; cases this
    obtain ⟨w, hw⟩ := t1 i k' v hij hi2
    exact ⟨_, hw, hk'⟩

/-- The keys and values an iteration shows. -/
def visited : Out K V (Option (List (K × V))) → Option (List (K × V))
  | .ok l => l
  | _ => none

/-- The state after a step. -/
def after (d : St K V) : Out K V (Obs K V × St K V) → St K V
  | .ok (_, s) => s
  | _ => d

/-- A table with four keys, one of which has been removed, and an iteration over it. -/
def demoState : St Nat Nat := after (start demoTable) (step demo 50
  (final (start demoTable) (run demo 50 (start demoTable)
    [.put 1 10, .put 2 20, .put 32 30, .put 4 40, .remove 2])) .iterStart)

-- looked up in between, with the collection at time 6 leading to a rehash
example : visited (traverse demo 50 (fun _ => [.get 1, .get 7, .iterStart, .size]) 0 9 demoState)
    = some [(4, 40), (1, 10), (32, 30)] := by
  decide +kernel

-- keys are stored in between: some are met, others are not
example : visited (traverse demo 50 (fun n => [.put (2 * n) n]) 0 9 demoState)
    = some [(4, 40), (1, 10), (32, 30), (16, 8), (10, 5)] := by
  decide +kernel

end Verif.Table
