import Verif.HeapTable.Spec
import Mathlib.Data.Fintype.EquivFin
import Mathlib.Data.Nat.ModEq
import Mathlib.Data.Nat.Prime.Basic
/-! # Helper lemmas for the C hash table -/
namespace Verif.HeapTable

/-- The `j`-th index probed for hash `h` in a table of length `n`. -/
def probe (n h j : Nat) : Nat := (h + j * (h ||| 1)) % n

theorem or_one_odd (h : Nat) : (h ||| 1) % 2 = 1 := by
  have := Nat.or_mod_two_pow (a := h) (b := 1) (n := 1)
  simp only [Nat.pow_one] at this
  rcases Nat.mod_two_eq_zero_or_one h with e | e <;> rw [this, e] <;> decide

theorem probe_inj {m h j j' : Nat} (hj : j < 2 ^ m) (hj' : j' < 2 ^ m)
    (e : probe (2 ^ m) h j = probe (2 ^ m) h j') : j = j' := by
  have key : ∀ a b : Nat, a ≤ b → b < 2 ^ m → probe (2 ^ m) h a = probe (2 ^ m) h b → a = b := by
    intro a b hab hb e
    unfold probe at e
    have e2 : (2 ^ m) ∣ (h + b * (h ||| 1)) - (h + a * (h ||| 1)) :=
      (Nat.modEq_iff_dvd' (by have := Nat.mul_le_mul_right (h ||| 1) hab; omega)).1 e
    have e3 : (h + b * (h ||| 1)) - (h + a * (h ||| 1)) = (b - a) * (h ||| 1) := by
      rw [Nat.sub_mul]; omega
    rw [e3] at e2
    have cop : Nat.Coprime (2 ^ m) (h ||| 1) := by
      apply Nat.Coprime.pow_left
      rw [Nat.Prime.coprime_iff_not_dvd Nat.prime_two]
      have := or_one_odd h
      omega
    have := cop.dvd_of_dvd_mul_right e2
    have := Nat.eq_zero_of_dvd_of_lt this (by omega)
    omega
  rcases Nat.le_total j j' with hle | hle
  · exact key _ _ hle hj' e
  · exact (key _ _ hle hj e.symm).symm

theorem probe_lt {m h j : Nat} : probe (2 ^ m) h j < 2 ^ m := Nat.mod_lt _ (Nat.two_pow_pos m)

theorem probe_surj {m h i : Nat} (hi : i < 2 ^ m) : ∃ j, j < 2 ^ m ∧ probe (2 ^ m) h j = i := by
  let f : Fin (2 ^ m) → Fin (2 ^ m) := fun j => ⟨probe (2 ^ m) h j, probe_lt⟩
  have inj : Function.Injective f := by
    intro a b e
    exact Fin.ext (probe_inj a.2 b.2 (congrArg Fin.val e))
  obtain ⟨j, e⟩ := Finite.surjective_of_injective inj ⟨i, hi⟩
  exact ⟨j, j.2, congrArg Fin.val e⟩

/-- Does `table_find` stop at this entry? -/
def stops (key : Nat) (skip : Bool) : Entry → Bool
  | .unused => true
  | .deleted => !skip
  | .active k _ => k = key

/-- `e` is the entry that `j` probes reach. -/
def At (a : List Entry) (h j : Nat) (e : Entry) : Prop := a[probe a.length h j]? = some e

theorem findLoop_spec {m : Nat} {a : List Entry} {key h : Nat} {skip : Bool}
    (hl : a.length = 2 ^ m) (hh : h < 2 ^ m) :
    ∀ (fuel j : Nat), j + fuel = 2 ^ m → 0 < fuel →
    (∃ j' e, j ≤ j' ∧ j' < 2 ^ m ∧ At a h j' e ∧ stops key skip e = true ∧
      (∀ j'', j ≤ j'' → j'' < j' → ∀ e, At a h j'' e → stops key skip e = false) ∧
      findLoop a key h skip fuel (probe (2 ^ m) h j) = .entry (probe (2 ^ m) h j')) ∨
    ((∀ j', j ≤ j' → j' < 2 ^ m → ∀ e, At a h j' e → stops key skip e = false) ∧
      findLoop a key h skip fuel (probe (2 ^ m) h j) = .null) := by
  intro fuel
  induction fuel with
  | zero => intro j _ h0; omega
  | succ fuel ih =>
    intro j hj _
    have hget : ∃ e, At a h j e := by
      have hlt : probe a.length h j < a.length := by rw [hl]; exact probe_lt
      exact ⟨a[probe a.length h j], by unfold At; exact List.getElem?_eq_getElem hlt⟩
    obtain ⟨e, he⟩ := hget
    have he' : a[probe (2 ^ m) h j]? = some e := by unfold At at he; rwa [hl] at he
    have hnext : (probe (2 ^ m) h j + (h ||| 1)) &&& (a.length - 1) = probe (2 ^ m) h (j + 1) := by
      rw [hl, Nat.and_two_pow_sub_one_eq_mod]
      unfold probe
      rw [Nat.mod_add_mod]
      congr 1
      rw [Nat.add_mul]; omega
    by_cases hs : stops key skip e = true
    · left
      refine ⟨j, e, Nat.le_refl _, by omega, he, hs, by intros; omega, ?_⟩
      unfold findLoop
      rw [he']
      cases e with
      | unused => rfl
      | deleted => simp only [stops, Bool.not_eq_true'] at hs; simp [hs]
      | active k v => simp only [stops, decide_eq_true_eq] at hs; simp [hs]
    · have hs : stops key skip e = false := by simpa using hs
      have hstep : findLoop a key h skip (fuel + 1) (probe (2 ^ m) h j) =
          (if probe (2 ^ m) h (j + 1) = h then FindResult.null
            else findLoop a key h skip fuel (probe (2 ^ m) h (j + 1))) := by
        rw [findLoop]
        simp only [hnext]
        rw [he']
        cases e with
        | unused => simp [stops] at hs
        | deleted => simp only [stops, Bool.not_eq_false'] at hs; simp [hs]
        | active k v => simp only [stops, decide_eq_false_iff_not] at hs; simp [hs]
      rw [hstep]
      have h0 : probe (2 ^ m) h 0 = h := by unfold probe; simp [Nat.mod_eq_of_lt hh]
      by_cases hlast : j + 1 = 2 ^ m
      · right
        have : probe (2 ^ m) h (j + 1) = h := by
          rw [hlast]; unfold probe
          rw [Nat.add_mul_mod_self_left, Nat.mod_eq_of_lt hh]
        rw [if_pos this]
        refine ⟨?_, rfl⟩
        intro j' h1 h2 e' he2
        have : j' = j := by omega
        subst this
        rw [At] at he he2
        rw [he] at he2; cases he2; exact hs
      · have hne : probe (2 ^ m) h (j + 1) ≠ h := by
          intro e
          rw [← h0] at e
          have hp : probe (2 ^ m) (probe (2 ^ m) h 0) (j + 1) = probe (2 ^ m) (probe (2 ^ m) h 0) 0 := by
            rw [h0] at e ⊢; rw [e, h0]
          have := probe_inj (by omega) (Nat.two_pow_pos m) hp
          omega
        rw [if_neg hne]
        rcases ih (j + 1) (by omega) (by omega) with ⟨j', e', h1, h2, h3, h4, h5, h6⟩ | ⟨h1, h2⟩
        · left
          refine ⟨j', e', by omega, h2, h3, h4, ?_, h6⟩
          intro j'' g1 g2 e'' g3
          rcases Nat.eq_or_lt_of_le g1 with g | g
          · subst g; rw [At] at he g3; rw [he] at g3; cases g3; exact hs
          · exact h5 j'' g g2 e'' g3
        · right
          refine ⟨?_, h2⟩
          intro j'' g1 g2 e'' g3
          rcases Nat.eq_or_lt_of_le g1 with g | g
          · subst g; rw [At] at he g3; rw [he] at g3; cases g3; exact hs
          · exact h1 j'' g g2 e'' g3

/-- The hash of a key in a table of length `n` (a power of two). -/
def hashOf (n key : Nat) : Nat := key &&& (n - 1)

theorem hashOf_lt {m key : Nat} : hashOf (2 ^ m) key < 2 ^ m := by
  unfold hashOf
  rw [Nat.and_two_pow_sub_one_eq_mod]
  exact Nat.mod_lt _ (Nat.two_pow_pos m)

theorem tableFind_spec {m : Nat} {a : List Entry} (key : Nat) (skip : Bool)
    (hl : a.length = 2 ^ m) :
    (∃ j e, j < 2 ^ m ∧ At a (hashOf a.length key) j e ∧ stops key skip e = true ∧
      (∀ j', j' < j → ∀ e, At a (hashOf a.length key) j' e → stops key skip e = false) ∧
      tableFind a key skip = .entry (probe a.length (hashOf a.length key) j)) ∨
    ((∀ j, j < 2 ^ m → ∀ e, At a (hashOf a.length key) j e → stops key skip e = false) ∧
      tableFind a key skip = .null) := by
  have hh : hashOf a.length key < 2 ^ m := by rw [hl]; exact hashOf_lt
  have h0 : probe (2 ^ m) (hashOf a.length key) 0 = hashOf a.length key := by
    unfold probe; simp [Nat.mod_eq_of_lt hh]
  have := findLoop_spec (key := key) (skip := skip) hl hh (2 ^ m) 0 (by omega) (Nat.two_pow_pos m)
  rw [h0] at this
  unfold tableFind
  change _ ∨ _ ∧ findLoop a key (hashOf a.length key) skip a.length (hashOf a.length key) = _
  rcases this with ⟨j, e, _, h2, h3, h4, h5, h6⟩ | ⟨h1, h2⟩
  · left
    refine ⟨j, e, h2, h3, h4, fun j' hj' => h5 j' (Nat.zero_le _) hj', ?_⟩
    change findLoop a key (hashOf a.length key) skip a.length (hashOf a.length key) = _
    rw [hl] at h6 ⊢; exact h6
  · right
    refine ⟨fun j hj => h1 j (Nat.zero_le _) hj, ?_⟩
    rw [hl] at h2 ⊢; exact h2

/-- The pairs stored in active entries. -/
def actives (a : List Entry) : FMap :=
  a.filterMap fun
    | .active k v => some (k, v)
    | _ => none

/-- The representation invariant of the array. -/
structure Good (a : List Entry) : Prop where
  pow : ∃ m, a.length = 2 ^ m
  nodup : (actives a).map Prod.fst |>.Nodup
  path : ∀ i k v, a[i]? = some (.active k v) →
    ∃ j, j < a.length ∧ probe a.length (hashOf a.length k) j = i ∧
      ∀ j', j' < j → ∀ e, At a (hashOf a.length k) j' e → e ≠ .unused

theorem mem_actives {a : List Entry} {k v : Nat} :
    (k, v) ∈ actives a ↔ ∃ i : Nat, a[i]? = some (Entry.active k v) := by
  unfold actives
  rw [List.mem_filterMap]
  constructor
  · rintro ⟨e, he, h⟩
    cases e with
    | unused => simp at h
    | deleted => simp at h
    | active k' v' =>
      simp only [Option.some.injEq, Prod.mk.injEq] at h
      obtain ⟨rfl, rfl⟩ := h
      exact List.getElem?_of_mem he
  · rintro ⟨i, hi⟩
    exact ⟨_, List.mem_of_getElem? hi, rfl⟩

theorem split_at {α : Type} {a : List α} {i : Nat} {e : α} (h : a[i]? = some e) (e' : α) :
    ∃ l r, a = l ++ e :: r ∧ l.length = i ∧ a.set i e' = l ++ e' :: r := by
  have hi : i < a.length := by
    rcases Nat.lt_or_ge i a.length with h' | h'
    · exact h'
    · rw [List.getElem?_eq_none h'] at h; cases h
  have he : a[i] = e := by rw [List.getElem?_eq_getElem hi] at h; exact Option.some.inj h
  refine ⟨a.take i, a.drop (i + 1), ?_, by simp; omega, ?_⟩
  · rw [← he, List.getElem_cons_drop, List.take_append_drop]
  · rw [List.set_eq_take_append_cons_drop, if_pos hi]

theorem actives_append (l r : List Entry) : actives (l ++ r) = actives l ++ actives r := by
  unfold actives; rw [List.filterMap_append]

theorem actives_set_new {a : List Entry} {i k v : Nat} {e : Entry} (h : a[i]? = some e)
    (he : ∀ k v, e ≠ .active k v) :
    (actives (a.set i (.active k v))).Perm ((k, v) :: actives a) := by
  obtain ⟨l, r, h1, _, h2⟩ := split_at h (.active k v)
  rw [h2, h1, actives_append, actives_append]
  have : actives (e :: r) = actives r := by
    cases e with
    | active k v => exact absurd rfl (he k v)
    | _ => rfl
  rw [this]
  exact List.perm_middle

theorem actives_set_deleted {a : List Entry} {i k v : Nat} (h : a[i]? = some (.active k v)) :
    ((k, v) :: actives (a.set i .deleted)).Perm (actives a) := by
  obtain ⟨l, r, h1, _, h2⟩ := split_at h .deleted
  rw [h2, h1, actives_append, actives_append]
  exact List.perm_middle.symm

theorem actives_set_value {a : List Entry} {i k v v' : Nat} (h : a[i]? = some (.active k v)) :
    ∃ m, (actives a).Perm ((k, v) :: m) ∧
      (actives (a.set i (.active k v'))).Perm ((k, v') :: m) := by
  obtain ⟨l, r, h1, _, h2⟩ := split_at h (.active k v')
  refine ⟨actives l ++ actives r, ?_, ?_⟩
  · rw [h1, actives_append]; exact List.perm_middle
  · rw [h2, actives_append]; exact List.perm_middle

/-- Distinct slots hold distinct keys. -/
theorem Good.key_unique {a : List Entry} (g : Good a) {k v v' : Nat}
    (h : (k, v) ∈ actives a) (h' : (k, v') ∈ actives a) : v = v' := by
  have := g.nodup
  have key : ∀ l : FMap, (l.map Prod.fst).Nodup → (k, v) ∈ l → (k, v') ∈ l → v = v' := by
    intro l
    induction l with
    | nil => intro _ h; cases h
    | cons p l ih =>
      intro nd h1 h2
      rw [List.map_cons, List.nodup_cons] at nd
      rcases List.mem_cons.1 h1 with rfl | h1' <;> rcases List.mem_cons.1 h2 with h2' | h2'
      · exact (Prod.mk.inj h2').2.symm
      · exact absurd (List.mem_map.2 ⟨_, h2', rfl⟩) nd.1
      · subst h2'; exact absurd (List.mem_map.2 ⟨_, h1', rfl⟩) nd.1
      · exact ih nd.2 h1' h2'
  exact key _ this h h'

/-- The three ways a skipping search can end, in terms of the contents. -/
theorem Good.find_skip {a : List Entry} (g : Good a) (key : Nat) :
    (∃ i v, tableFind a key true = .entry i ∧ a[i]? = some (.active key v)) ∨
    (∃ j, j < a.length ∧ tableFind a key true = .entry (probe a.length (hashOf a.length key) j) ∧
      At a (hashOf a.length key) j .unused ∧
      (∀ j', j' < j → ∀ e, At a (hashOf a.length key) j' e → e ≠ .unused) ∧
      ¬ FMap.Has (actives a) key) ∨
    (tableFind a key true = .null ∧ (∀ (i : Nat) (e : Entry), a[i]? = some e → e ≠ .unused) ∧
      ¬ FMap.Has (actives a) key) := by
  obtain ⟨m, hm⟩ := g.pow
  rcases tableFind_spec key true hm with ⟨j, e, h1, h2, h3, h4, h5⟩ | ⟨h1, h2⟩
  · cases e with
    | deleted => simp [stops] at h3
    | active k v =>
      have : k = key := by simpa [stops] using h3
      subst this
      exact Or.inl ⟨_, v, h5, h2⟩
    | unused =>
      right; left
      refine ⟨j, by omega, h5, h2, ?_, ?_⟩
      · intro j' hj' e he hu
        subst hu
        have := h4 j' hj' _ he
        simp [stops] at this
      · rintro ⟨v, hv⟩
        obtain ⟨i, hi⟩ := mem_actives.1 hv
        obtain ⟨j2, g1, g2, g3⟩ := g.path i key v hi
        have hj2 : At a (hashOf a.length key) j2 (.active key v) := by unfold At; rw [g2]; exact hi
        rcases Nat.lt_trichotomy j2 j with hlt | heq | hgt
        · have := h4 j2 hlt _ hj2
          simp [stops] at this
        · subst heq; unfold At at h2 hj2; rw [h2] at hj2; cases hj2
        · exact g3 j hgt _ h2 rfl
  · right; right
    refine ⟨h2, ?_, ?_⟩
    · intro i e hi hu
      subst hu
      have hi' : i < 2 ^ m := by
        rw [← hm]
        rcases Nat.lt_or_ge i a.length with h' | h'
        · exact h'
        · rw [List.getElem?_eq_none h'] at hi; cases hi
      obtain ⟨j, hj, hp⟩ := probe_surj (h := hashOf a.length key) hi'
      have : At a (hashOf a.length key) j .unused := by unfold At; rw [hm] at hp ⊢; rw [hp]; exact hi
      have := h1 j hj _ this
      simp [stops] at this
    · rintro ⟨v, hv⟩
      obtain ⟨i, hi⟩ := mem_actives.1 hv
      obtain ⟨j2, g1, g2, g3⟩ := g.path i key v hi
      have hj2 : At a (hashOf a.length key) j2 (.active key v) := by unfold At; rw [g2]; exact hi
      have := h1 j2 (by omega) _ hj2
      simp [stops] at this

/-- The ways a non-skipping search for an absent key can end. -/
theorem Good.find_noskip {a : List Entry} (g : Good a) (key : Nat) (hk : ¬ FMap.Has (actives a) key) :
    (∃ j e, j < a.length ∧ tableFind a key false = .entry (probe a.length (hashOf a.length key) j) ∧
      At a (hashOf a.length key) j e ∧ (∀ k v, e ≠ .active k v) ∧
      (∀ j', j' < j → ∀ e, At a (hashOf a.length key) j' e → e ≠ .unused)) ∨
    (tableFind a key false = .null ∧ ∀ (i : Nat) (e : Entry), a[i]? = some e → ∃ k v, e = .active k v) := by
  obtain ⟨m, hm⟩ := g.pow
  rcases tableFind_spec key false hm with ⟨j, e, h1, h2, h3, h4, h5⟩ | ⟨h1, h2⟩
  · left
    refine ⟨j, e, by omega, h5, h2, ?_, ?_⟩
    · rintro k v rfl
      have : k = key := by simpa [stops] using h3
      subst this
      exact hk ⟨v, mem_actives.2 ⟨_, h2⟩⟩
    · intro j' hj' e he hu
      subst hu
      have := h4 j' hj' _ he
      simp [stops] at this
  · right
    refine ⟨h2, ?_⟩
    intro i e hi
    have hi' : i < 2 ^ m := by
      rw [← hm]
      rcases Nat.lt_or_ge i a.length with h' | h'
      · exact h'
      · rw [List.getElem?_eq_none h'] at hi; cases hi
    obtain ⟨j, hj, hp⟩ := probe_surj (h := hashOf a.length key) hi'
    have hat : At a (hashOf a.length key) j e := by unfold At; rw [hm] at hp ⊢; rw [hp]; exact hi
    have := h1 j hj _ hat
    cases e with
    | active k v => exact ⟨k, v, rfl⟩
    | _ => simp [stops] at this

theorem set_get {a : List Entry} {i i' : Nat} {e x : Entry} (h : (a.set i e)[i']? = some x) :
    (i' = i ∧ x = e) ∨ (i' ≠ i ∧ a[i']? = some x) := by
  rw [List.getElem?_set] at h
  by_cases hi : i = i'
  · subst hi
    rw [if_pos rfl] at h
    by_cases hl : i < a.length
    · rw [if_pos hl] at h; cases h; exact Or.inl ⟨rfl, rfl⟩
    · rw [if_neg hl] at h; cases h
  · rw [if_neg hi] at h; exact Or.inr ⟨fun e => hi e.symm, h⟩

theorem has_perm {m m' : FMap} (h : m.Perm m') (k : Nat) : m.Has k ↔ m'.Has k := by
  unfold FMap.Has
  constructor <;> rintro ⟨v, hv⟩
  · exact ⟨v, h.mem_iff.1 hv⟩
  · exact ⟨v, h.mem_iff.2 hv⟩

/-- Storing an absent key in the first free slot of its probe path. -/
theorem Good.store {a : List Entry} (g : Good a) {key v j : Nat} {e : Entry} (hj : j < a.length)
    (hat : At a (hashOf a.length key) j e) (he : ∀ k v, e ≠ .active k v)
    (hbefore : ∀ j', j' < j → ∀ e, At a (hashOf a.length key) j' e → e ≠ .unused)
    (hk : ¬ FMap.Has (actives a) key) :
    Good (a.set (probe a.length (hashOf a.length key) j) (.active key v)) ∧
    (actives (a.set (probe a.length (hashOf a.length key) j) (.active key v))).Perm
      ((key, v) :: actives a) := by
  have hp := actives_set_new (k := key) (v := v) hat he
  refine ⟨⟨by simpa using g.pow, ?_, ?_⟩, hp⟩
  · rw [(hp.map Prod.fst).nodup_iff, List.map_cons, List.nodup_cons]
    refine ⟨?_, g.nodup⟩
    intro hmem
    obtain ⟨⟨k', v'⟩, h1, h2⟩ := List.mem_map.1 hmem
    cases h2
    exact hk ⟨v', h1⟩
  · intro i k' v' hi
    rw [List.length_set]
    rcases set_get hi with ⟨h1, h2⟩ | ⟨h1, h2⟩
    · cases h2
      refine ⟨j, hj, h1.symm, ?_⟩
      intro j' hj' e' he'
      unfold At at he'
      rw [List.length_set] at he'
      rcases set_get he' with ⟨_, g2⟩ | ⟨_, g2⟩
      · rw [g2]; intro h; cases h
      · exact hbefore j' hj' e' g2
    · obtain ⟨j2, g1, g2, g3⟩ := g.path i k' v' h2
      refine ⟨j2, g1, g2, ?_⟩
      intro j' hj' e' he'
      unfold At at he'
      rw [List.length_set] at he'
      rcases set_get he' with ⟨_, f2⟩ | ⟨_, f2⟩
      · rw [f2]; intro h; cases h
      · exact g3 j' hj' e' f2

/-- Overwriting an active entry by a deleted one, or by the same key, keeps the paths. -/
theorem Good.overwrite_path {a : List Entry} (g : Good a) {i : Nat} {e : Entry}
    (hne : e ≠ .unused) (hk : ∀ k v, e = .active k v → ∃ v', a[i]? = some (.active k v')) :
    ∀ i' k v, (a.set i e)[i']? = some (.active k v) →
    ∃ j, j < (a.set i e).length ∧ probe (a.set i e).length (hashOf (a.set i e).length k) j = i' ∧
      ∀ j', j' < j → ∀ x, At (a.set i e) (hashOf (a.set i e).length k) j' x → x ≠ .unused := by
  intro i' k v hi'
  have hold : ∃ v', a[i']? = some (.active k v') := by
    rcases set_get hi' with ⟨h1, h2⟩ | ⟨_, h2⟩
    · subst h1; exact hk k v h2.symm
    · exact ⟨v, h2⟩
  obtain ⟨v', hv'⟩ := hold
  obtain ⟨j, g1, g2, g3⟩ := g.path i' k v' hv'
  rw [List.length_set]
  refine ⟨j, g1, g2, ?_⟩
  intro j' hj' x hx
  unfold At at hx
  rw [List.length_set] at hx
  rcases set_get hx with ⟨_, f2⟩ | ⟨_, f2⟩
  · rw [f2]; exact hne
  · exact g3 j' hj' x f2

theorem length_lt_of_get {α : Type} {a : List α} {i : Nat} {e : α} (h : a[i]? = some e) :
    i < a.length := by
  rcases Nat.lt_or_ge i a.length with h' | h'
  · exact h'
  · rw [List.getElem?_eq_none h'] at h; cases h

/-- The number of active entries is at most the number that are not unused. -/
theorem actives_length_lt {a : List Entry} : (∃ i : Nat, a[i]? = some Entry.unused) →
    (actives a).length < a.length := by
  rintro ⟨i, hi⟩
  obtain ⟨l, r, h1, _, _⟩ := split_at hi .unused
  rw [h1, actives_append]
  have e : actives (Entry.unused :: r) = actives r := rfl
  rw [e]
  have h2 : (actives l).length ≤ l.length := List.length_filterMap_le _ _
  have h3 : (actives r).length ≤ r.length := List.length_filterMap_le _ _
  simp only [List.length_append, List.length_cons]
  omega

theorem all_active_length {a : List Entry} (h : ∀ (i : Nat) (e : Entry), a[i]? = some e → ∃ k v, e = .active k v) :
    (actives a).length = a.length := by
  induction a with
  | nil => rfl
  | cons e a ih =>
    obtain ⟨k, v, rfl⟩ := h 0 e rfl
    have : actives (Entry.active k v :: a) = (k, v) :: actives a := rfl
    rw [this, List.length_cons, List.length_cons, ih]
    intro i e hi
    exact h (i + 1) e (by simpa using hi)

/-- The reinsertion loop keeps everything. -/
theorem growLoop_spec : ∀ (old new : List Entry), Good new →
    (∀ (i : Nat) (e : Entry), new[i]? = some e → e ≠ .deleted) →
    (∀ (i : Nat) (e : Entry), old[i]? = some e → ∃ k v, e = .active k v) →
    ((actives old ++ actives new).map Prod.fst).Nodup →
    (actives old).length + (actives new).length < new.length →
    ∃ new', growLoop old new = some new' ∧ Good new' ∧ new'.length = new.length ∧
      (actives new').Perm (actives old ++ actives new) := by
  intro old
  induction old with
  | nil => intro new g _ _ _ _; exact ⟨new, rfl, g, rfl, List.Perm.refl _⟩
  | cons e old ih =>
    intro new g hnd hold hdup hlen
    obtain ⟨k, v, rfl⟩ := hold 0 e rfl
    have hact : actives (Entry.active k v :: old) = (k, v) :: actives old := rfl
    rw [hact] at hdup hlen
    have hk : ¬ FMap.Has (actives new) k := by
      rintro ⟨v', hv'⟩
      rw [List.cons_append, List.map_cons, List.nodup_cons] at hdup
      exact hdup.1 (List.mem_map.2 ⟨(k, v'), List.mem_append_right _ hv', rfl⟩)
    rcases g.find_noskip k hk with ⟨j, e, h1, h2, h3, h4, h5⟩ | ⟨_, h2⟩
    · have heu : e = .unused := by
        cases e with
        | unused => rfl
        | deleted => exact absurd rfl (hnd _ _ h3)
        | active k v => exact absurd rfl (h4 k v)
      subst heu
      obtain ⟨g', hp⟩ := g.store (v := v) h1 h3 h4 h5 hk
      unfold growLoop
      rw [h2]
      have h3' : new[probe new.length (hashOf new.length k) j]? = some .unused := h3
      simp only [h3']
      obtain ⟨new', f1, f2, f3, f4⟩ := ih _ g' (by
          intro i e hi
          rcases set_get hi with ⟨_, q⟩ | ⟨_, q⟩
          · rw [q]; intro h; cases h
          · exact hnd i e q)
        (by intro i e hi; exact hold (i + 1) e (by simpa using hi))
        (by
          have pp : (((actives old ++ actives (new.set (probe new.length (hashOf new.length k) j)
              (.active k v)))).map Prod.fst).Perm
              (((k, v) :: actives old ++ actives new).map Prod.fst) := by
            apply List.Perm.map
            refine (List.Perm.append_left _ hp).trans ?_
            rw [List.cons_append]
            exact List.perm_middle
          exact pp.nodup_iff.2 hdup)
        (by
          have := hp.length_eq
          simp only [List.length_cons, List.length_set] at this hlen ⊢
          omega)
      refine ⟨new', f1, f2, by rw [f3, List.length_set], ?_⟩
      refine f4.trans ?_
      rw [hact, List.cons_append]
      exact (List.Perm.append_left _ hp).trans List.perm_middle
    · exfalso
      have := all_active_length h2
      simp only [List.length_cons] at hlen
      omega

theorem actives_replicate (n : Nat) : actives (List.replicate n .unused) = [] := by
  induction n with
  | zero => rfl
  | succ n ih => rw [List.replicate_succ]; exact ih

theorem good_replicate (m : Nat) : Good (List.replicate (2 ^ m) .unused) := by
  refine ⟨⟨m, by simp⟩, by rw [actives_replicate]; exact List.nodup_nil, ?_⟩
  intro i k v h
  have := (List.mem_of_getElem? h)
  rw [List.mem_replicate] at this
  cases this.2

/-- Growing a full table succeeds and keeps the map; the result has a free slot. -/
theorem grow_spec {a : List Entry} (g : Good a)
    (hfull : ∀ (i : Nat) (e : Entry), a[i]? = some e → ∃ k v, e = .active k v) :
    ∃ a', tableGrow a = some a' ∧ Good a' ∧ (actives a').Perm (actives a) ∧
      (actives a').length < a'.length := by
  obtain ⟨m, hm⟩ := g.pow
  have hpos := Nat.two_pow_pos m
  have h2 : a.length * 2 = 2 ^ (m + 1) := by rw [hm, Nat.pow_succ]
  obtain ⟨a', h3, h4, h5, h6⟩ := growLoop_spec a (List.replicate (a.length * 2) .unused)
    (by rw [h2]; exact good_replicate _)
    (by
      intro i e h
      have := (List.mem_of_getElem? h)
      rw [List.mem_replicate] at this
      rw [this.2]; intro h; cases h)
    hfull
    (by rw [actives_replicate, List.append_nil]; exact g.nodup)
    (by
      rw [actives_replicate, List.length_replicate, all_active_length hfull, List.length_nil]
      omega)
  rw [actives_replicate, List.append_nil] at h6
  refine ⟨a', h3, h4, h6, ?_⟩
  rw [h6.length_eq, h5, List.length_replicate, all_active_length hfull]
  omega

end Verif.HeapTable
