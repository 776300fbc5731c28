import Verif.HeapTable.Lemmas
/-!
# C21: the C hash table behaves as a finite map
-/
namespace Verif.HeapTable

/-- The table represents the finite map `m`: same pairs, no key twice, truthful count. -/
structure Represents (t : Table) (m : FMap) : Prop where
  good : Good t.array
  contents : (actives t.array).Perm m
  count : t.count = m.length

theorem filter_key {k v : Nat} {m rest : FMap} (nd : (m.map Prod.fst).Nodup)
    (hp : m.Perm ((k, v) :: rest)) : (m.filter fun p => p.1 ≠ k).Perm rest := by
  have h1 := hp.filter (fun p => decide (p.1 ≠ k))
  have nd' : (((k, v) :: rest).map Prod.fst).Nodup := (hp.map Prod.fst).nodup_iff.1 nd
  rw [List.map_cons, List.nodup_cons] at nd'
  refine h1.trans ?_
  have e : ((k, v) :: rest).filter (fun p => decide (p.1 ≠ k)) = rest := by
    rw [List.filter_cons_of_neg (by simp)]
    rw [List.filter_eq_self]
    intro p hp
    simp only [ne_eq, decide_eq_true_eq]
    intro h
    exact nd'.1 (List.mem_map.2 ⟨p, hp, h⟩)
  rw [e]

/-- One call refines one step of the specification. -/
theorem call_refines {t : Table} {m : FMap} (r : Represents t m) (op : Op) :
    ∃ out t' m', call t op = some (out, t') ∧ SpecStep m op out m' ∧ Represents t' m' := by
  have nd : (m.map Prod.fst).Nodup := (r.contents.map Prod.fst).nodup_iff.1 r.good.nodup
  have hasIff := has_perm r.contents
  cases op with
  | count => exact ⟨_, t, m, rfl, by unfold tableCount; rw [r.count]; exact .count, r⟩
  | lookup k =>
    rcases r.good.find_skip k with ⟨i, v, h1, h2⟩ | ⟨j, h0, h1, h2, h3, h4⟩ | ⟨h1, h2, h3⟩
    · refine ⟨.found v, t, m, ?_, .lookupFound (r.contents.mem_iff.1 (mem_actives.2 ⟨i, h2⟩)), r⟩
      simp [call, tableLookup, h1, h2]
    · refine ⟨.failed, t, m, ?_, .lookupMissing (by rw [← hasIff]; exact h4), r⟩
      unfold At at h2
      simp [call, tableLookup, h1, h2]
    · refine ⟨.failed, t, m, ?_, .lookupMissing (by rw [← hasIff]; exact h3), r⟩
      simp [call, tableLookup, h1]
  | redefine k v =>
    rcases r.good.find_skip k with ⟨i, v0, h1, h2⟩ | ⟨j, h0, h1, h2, h3, h4⟩ | ⟨h1, h2, h3⟩
    · obtain ⟨rest, p1, p2⟩ := actives_set_value (v' := v) h2
      have pr := filter_key nd (r.contents.symm.trans p1)
      refine ⟨.ok, { t with array := t.array.set i (.active k v) }, _, ?_,
        .redefineOld ((hasIff k).1 ⟨v0, mem_actives.2 ⟨i, h2⟩⟩), ?_, ?_, ?_⟩
      · simp [call, tableRedefine, h1, h2]
      · refine ⟨by simpa using r.good.pow, ?_, ?_⟩
        · have nd2 : (((k, v0) :: rest).map Prod.fst).Nodup :=
            (p1.map Prod.fst).nodup_iff.1 r.good.nodup
          exact (p2.map Prod.fst).nodup_iff.2 nd2
        · exact r.good.overwrite_path (by intro h; cases h)
            (by intro k' v' h; cases h; exact ⟨v0, h2⟩)
      · exact p2.trans (pr.symm.cons _)
      · have e1 := pr.length_eq
        have e2 := (r.contents.symm.trans p1).length_eq
        simp only [List.length_cons] at e2 ⊢
        rw [r.count, e1]; exact e2
    · refine ⟨.failed, t, m, ?_, .redefineMissing (by rw [← hasIff]; exact h4), r⟩
      unfold At at h2
      simp [call, tableRedefine, h1, h2]
    · refine ⟨.failed, t, m, ?_, .redefineMissing (by rw [← hasIff]; exact h3), r⟩
      simp [call, tableRedefine, h1]
  | remove k =>
    rcases r.good.find_skip k with ⟨i, v0, h1, h2⟩ | ⟨j, h0, h1, h2, h3, h4⟩ | ⟨h1, h2, h3⟩
    · have p1 := (actives_set_deleted h2).symm
      have pr := filter_key nd (r.contents.symm.trans p1)
      refine ⟨.ok, { array := t.array.set i .deleted, count := t.count - 1 }, _, ?_,
        .removeOld ((hasIff k).1 ⟨v0, mem_actives.2 ⟨i, h2⟩⟩), ?_, ?_, ?_⟩
      · simp [call, tableRemove, h1, h2]
      · refine ⟨by simpa using r.good.pow, ?_, ?_⟩
        · have nd2 := (p1.map Prod.fst).nodup_iff.1 r.good.nodup
          rw [List.map_cons, List.nodup_cons] at nd2
          exact nd2.2
        · exact r.good.overwrite_path (by intro h; cases h) (by intro k' v' h; cases h)
      · exact pr.symm
      · have e1 := pr.length_eq
        have e2 := (r.contents.symm.trans p1).length_eq
        simp only [List.length_cons] at e2 ⊢
        rw [r.count, e1]; omega
    · refine ⟨.failed, t, m, ?_, .removeMissing (by rw [← hasIff]; exact h4), r⟩
      unfold At at h2
      simp [call, tableRemove, h1, h2]
    · refine ⟨.failed, t, m, ?_, .removeMissing (by rw [← hasIff]; exact h3), r⟩
      simp [call, tableRemove, h1]
  | define k v b =>
    -- storing into a free entry on the path of an absent key
    have store : ∀ (a : List Entry) (j : Nat) (e : Entry), Good a → (actives a).Perm m →
        j < a.length → At a (hashOf a.length k) j e → (∀ k v, e ≠ .active k v) →
        (∀ j', j' < j → ∀ e, At a (hashOf a.length k) j' e → e ≠ .unused) →
        ¬ FMap.Has m k →
        ∃ t', storeNew a t.count (probe a.length (hashOf a.length k) j) k v = some (true, t') ∧
          Represents t' ((k, v) :: m) := by
      intro a j e ga pa hj hat he hb hk
      obtain ⟨g', p'⟩ := ga.store (v := v) hj hat he hb (by rw [has_perm pa]; exact hk)
      refine ⟨{ array := a.set (probe a.length (hashOf a.length k) j) (.active k v),
                count := t.count + 1 }, ?_, ⟨g', p'.trans (pa.cons _), by simp [r.count]⟩⟩
      unfold storeNew
      have hat' : a[probe a.length (hashOf a.length k) j]? = some e := hat
      rw [hat']
      cases e with
      | active k v => exact absurd rfl (he k v)
      | _ => rfl
    rcases r.good.find_skip k with ⟨i, v0, h1, h2⟩ | ⟨j, h0, h1, h2, h3, h4⟩ | ⟨h1, h2, h3⟩
    · refine ⟨.failed, t, m, ?_, .defineOld ((hasIff k).1 ⟨v0, mem_actives.2 ⟨i, h2⟩⟩), r⟩
      simp [call, tableDefine, h1, h2]
    · have hk : ¬ FMap.Has m k := by rw [← hasIff]; exact h4
      obtain ⟨t', s1, s2⟩ := store _ j _ r.good r.contents h0 h2 (by intro _ _ h; cases h) h3 hk
      refine ⟨.ok, t', _, ?_, .defineNew hk, s2⟩
      unfold At at h2
      simp [call, tableDefine, h1, h2, s1]
    · have hk : ¬ FMap.Has m k := by rw [← hasIff]; exact h3
      rcases r.good.find_noskip k h3 with ⟨j, e, f1, f2, f3, f4, f5⟩ | ⟨f1, f2⟩
      · obtain ⟨t', s1, s2⟩ := store _ j e r.good r.contents f1 f3 f4 f5 hk
        refine ⟨.ok, t', _, ?_, .defineNew hk, s2⟩
        simp [call, tableDefine, h1, f2, s1]
      · cases b with
        | false =>
          refine ⟨.failed, t, m, ?_, .defineNoMemory hk, r⟩
          simp [call, tableDefine, h1, f1]
        | true =>
          obtain ⟨a', q1, q2, q3, q4⟩ := grow_spec r.good f2
          have pa := q3.trans r.contents
          rcases q2.find_noskip k (by rw [has_perm pa]; exact hk) with
            ⟨j, e, u1, u2, u3, u4, u5⟩ | ⟨u1, u2⟩
          · obtain ⟨t', s1, s2⟩ := store _ j e q2 pa u1 u3 u4 u5 hk
            refine ⟨.ok, t', _, ?_, .defineNew hk, s2⟩
            simp [call, tableDefine, h1, f1, q1, u2, s1]
          · have := all_active_length u2
            omega

/-- **C21.**  Every history of calls on a table created with a power-of-two length runs without
assertion failure, out-of-bounds access or endless probing, and its results are those of a finite
map that starts empty. -/
theorem table_is_finite_map (lg : Nat) (ops : List Op) :
    ∃ h t' m', runCalls (tableCreate (2 ^ lg)) ops = some (h, t') ∧ h.map Prod.fst = ops ∧
      SpecRun [] h m' ∧ (tableMap t').Perm m' := by
  have main : ∀ (ops : List Op) (t : Table) (m : FMap), Represents t m →
      ∃ h t' m', runCalls t ops = some (h, t') ∧ h.map Prod.fst = ops ∧ SpecRun m h m' ∧
        Represents t' m' := by
    intro ops
    induction ops with
    | nil => intro t m r; exact ⟨[], t, m, rfl, rfl, .nil, r⟩
    | cons op ops ih =>
      intro t m r
      obtain ⟨out, t1, m1, h1, h2, h3⟩ := call_refines r op
      obtain ⟨h, t', m', g1, g2, g3, g4⟩ := ih t1 m1 h3
      refine ⟨(op, out) :: h, t', m', ?_, by simp [g2], .cons h2 g3, g4⟩
      simp [runCalls, h1, g1]
  have r0 : Represents (tableCreate (2 ^ lg)) [] :=
    ⟨good_replicate lg, by unfold tableCreate; rw [actives_replicate], rfl⟩
  obtain ⟨h, t', m', h1, h2, h3, h4⟩ := main ops _ [] r0
  exact ⟨h, t', m', h1, h2, h3, h4.contents⟩

/-- The specification is deterministic when memory is available (so C21 determines the results). -/
theorem spec_deterministic {m m1 m2 : FMap} {op : Op} {o1 o2 : Out}
    (hd : (m.map Prod.fst).Nodup) (halloc : ∀ k v, op ≠ .define k v false)
    (h1 : SpecStep m op o1 m1) (h2 : SpecStep m op o2 m2) : o1 = o2 ∧ m1 = m2 := by
  have uniq : ∀ k v v', (k, v) ∈ m → (k, v') ∈ m → v = v' := by
    intro k v v' a b
    exact (List.inj_on_of_nodup_map hd a b rfl |> Prod.mk.inj).2
  cases h1 <;> cases h2 <;>
    first
    | exact ⟨rfl, rfl⟩
    | contradiction
    | (exfalso; exact halloc _ _ rfl)
    | skip
  case lookupFound.lookupFound a _ b => exact ⟨by rw [uniq _ _ _ a b], rfl⟩
  case lookupFound.lookupMissing a b => exact absurd ⟨_, a⟩ b
  case lookupMissing.lookupFound a _ b => exact absurd ⟨_, b⟩ a

/-- Non-vacuity: a history with collisions, deletion, reuse of a deleted entry and growth. -/
example : (runCalls (tableCreate (2 ^ 1))
    [.define 1 10 true, .define 3 30 true, .remove 1, .define 5 50 true, .define 7 70 true,
     .lookup 3, .lookup 1, .define 5 0 true, .redefine 5 55, .lookup 5, .count]).map
      (fun p => p.1.map Prod.snd)
    = some [.ok, .ok, .ok, .ok, .ok, .found 30, .failed, .failed, .ok, .found 55, .number 3] := by
  decide

/-- Length zero or a length that is no power of two is outside the contract of `table_create`
(heap-table.c does not check it; all callers pass powers of two): with length 3 the second insertion
of keys that are multiples of 4 makes the assertion of line 96 fail. -/
theorem create_needs_power_of_two :
    runCalls (tableCreate 3) [.define 0 0 true, .define 4 0 true] = none := by decide

end Verif.HeapTable
