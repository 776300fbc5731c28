/-
C51: class-keyed dispatch tables are finite maps, whatever is put into them in whatever order.
-/
import Verif.Dispatch.Table.Lemmas
import Verif.Dispatch.Table.Spec

namespace Verif.Dispatch.Table
variable {V : Type}

theorem addAll_rep {fuel : Nat} : ∀ (adds : List (Nat × V)) (d : Ckd V) (f : Nat → Option V),
    Rep d f → ∃ d', addAll (fuel + 3) d adds = some d' ∧
      Rep d' (fun k => (lastValue k adds).or (f k))
  | [], d, f, h => ⟨d, rfl, h.congr (fun k => by simp [lastValue])⟩
  | (k, v) :: rest, d, f, h => by
    obtain ⟨d1, h1, h2⟩ := add_rep (fuel := fuel) h k v
    obtain ⟨d2, h3, h4⟩ := addAll_rep (fuel := fuel) rest d1 _ h2
    refine ⟨d2, by simp [addAll, h1, h3], h4.congr (fun k' => ?_)⟩
    simp only [lastValue]
    rcases lastValue k' rest with _ | w
    · unfold upd
      by_cases e : k' = k
      · simp [e]
      · have e' : ¬ k = k' := fun h => e h.symm
        simp [e, e']
    · simp

/-- C51 (tables by class of the argument).  Start from the table made for any expected number of
    keys and make any additions: every addition finishes (within three nested additions, however
    often the table is enlarged), no search runs forever, and looking up a class gives the value
    last added for it, or the default if there is none. -/
theorem table_by_class_is_map (keys : Nat) (adds : List (Nat × V)) (fuel : Nat) (hf : 3 ≤ fuel) :
    ∃ d, addAll fuel (makeByClass keys) adds = some d ∧
      ∀ key, lookup key d = some (lastValue key adds) := by
  obtain ⟨g, rfl⟩ : ∃ g, fuel = g + 3 := ⟨fuel - 3, by omega⟩
  obtain ⟨d, h1, h2⟩ := addAll_rep (fuel := g) adds _ _ (rep_makeByClass keys)
  refine ⟨d, h1, fun key => ?_⟩
  rw [lookup_of_rep h2]
  simp

/-- C51 (tables by argument that is a class). -/
theorem table_by_singleton_is_map (keys : Nat) (adds : List (Nat × V)) (fuel : Nat)
    (hf : 3 ≤ fuel) :
    ∃ d, addAll fuel (makeBySingleton keys) adds = some d ∧
      ∀ key, lookup key d = some (lastValue key adds) := by
  obtain ⟨g, rfl⟩ : ∃ g, fuel = g + 3 := ⟨fuel - 3, by omega⟩
  obtain ⟨d, h1, h2⟩ := addAll_rep (fuel := g) adds _ _ (rep_makeInitial keys)
  refine ⟨d, h1, fun key => ?_⟩
  rw [lookup_of_rep h2]
  simp

/-- C51: in a hashed table that was filled by additions, at least a quarter of the slots stays
    empty, and the search for any key ends within as many probes as there are slots. -/
theorem hashed_search_ends (keys : Nat) (adds : List (Nat × V)) (fuel L : Nat)
    (slots : List (Slot V)) (hf : 3 ≤ fuel)
    (h : addAll fuel (makeByClass keys) adds = some (.hash L slots)) :
    4 * (slots.filter Option.isSome).length ≤ 3 * slots.length ∧
      ∀ key, (search L slots key).isSome = true := by
  obtain ⟨g, rfl⟩ : ∃ g, fuel = g + 3 := ⟨fuel - 3, by omega⟩
  obtain ⟨d, h1, h2⟩ := addAll_rep (fuel := g) adds _ _ (rep_makeByClass keys)
  rw [h1] at h
  cases h
  obtain ⟨p, rfl, hp, hl, hc, hpath⟩ := h2.1
  refine ⟨by rw [hl]; exact hc, fun key => ?_⟩
  have := lookup_of_rep h2 key
  simp only [lookup] at this
  split at this
  · cases this
  · next e => rw [e]; rfl
  · next e => rw [e]; rfl

/-- The three shapes a table passes through: the first key makes it monomorphic, the second
    linear, the sixth hashed; the colliding keys 2, 34, 66, 98, ... are all found again. -/
example : (addAll 3 (makeByClass 1 : Ckd Nat) [(2, 10)]).isSome = true ∧
    (match addAll 3 (makeByClass 1 : Ckd Nat) [(2, 10), (34, 11)] with
      | some (.lin s) => s.length | _ => 0) = 3 ∧
    (match addAll 3 (makeByClass 1 : Ckd Nat)
        [(2, 10), (34, 11), (66, 12), (98, 13), (130, 14), (162, 15)] with
      | some (.hash L s) => (L, s.length) | _ => (0, 0)) = (5, 16) ∧
    (match addAll 3 (makeByClass 1 : Ckd Nat)
        [(2, 10), (34, 11), (66, 12), (98, 13), (130, 14), (162, 15), (66, 16)] with
      | some d => (lookup 66 d, lookup 162 d, lookup 194 d) | _ => (none, none, none))
      = (some (some 16), some (some 15), some none) := by
  set_option maxRecDepth 100000 in decide

/-- A table that is enlarged: with more than a quarter of sixteen slots in use, a key whose
    search takes more than seven probes doubles it. -/
example : (match addAll 3 (makeByClass 5 : Ckd Nat)
      ((List.range 13).map fun i => (2 * i, i)) with
      | some (.hash L s) => (L, s.length, count s) | _ => (0, 0, 0)) = (6, 32, 13) := by
  set_option maxRecDepth 100000 in decide

end Verif.Dispatch.Table
