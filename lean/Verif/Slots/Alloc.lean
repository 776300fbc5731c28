/-
Lemmas about the allocation of slots to places: the two vectors, taken one at a time.
-/
import Verif.Slots.Lemmas

namespace Verif.Slots

/-- The effect of one slot on the vector of instance slots. -/
def istep (r : Option Sd) (n : Nat) (v : Vec) (sd : Sd) : Except Err Vec :=
  match sd.alloc with
  | .inst => position sd v
  | .repeated _ => placeSize r n v
  | _ => .ok v

/-- The effect of one slot on the vector of class slots. -/
def kstep (v : Vec) (sd : Sd) : Except Err Vec :=
  match sd.alloc with
  | .cls => position sd v
  | .eachSubclass => position sd v
  | _ => .ok v

def runI (r : Option Sd) (n : Nat) : Vec → List Sd → Except Err Vec
  | v, [] => .ok v
  | v, sd :: sds =>
    match istep r n v sd with
    | .error e => .error e
    | .ok v' => runI r n v' sds

def runC : Vec → List Sd → Except Err Vec
  | v, [] => .ok v
  | v, sd :: sds =>
    match kstep v sd with
    | .error e => .error e
    | .ok v' => runC v' sds

theorem allocSlot_iff (r : Option Sd) (n : Nat) (v v' : Vec × Vec) (sd : Sd) :
    allocSlot r n v sd = .ok v' ↔ istep r n v.1 sd = .ok v'.1 ∧ kstep v.2 sd = .ok v'.2 := by
  obtain ⟨iv, cv⟩ := v
  obtain ⟨iv', cv'⟩ := v'
  cases ha : sd.alloc with
  | inst =>
    simp only [allocSlot, istep, kstep, ha]
    cases position sd iv <;> simp [Except.map]
  | eachSubclass =>
    simp only [allocSlot, istep, kstep, ha]
    cases position sd cv <;> simp [Except.map]
  | cls =>
    simp only [allocSlot, istep, kstep, ha]
    cases position sd cv <;> simp [Except.map]
  | virt => simp [allocSlot, istep, kstep, ha]
  | repeated g =>
    simp only [allocSlot, istep, kstep, ha]
    cases placeSize r n iv <;> simp [Except.map]

theorem allocSlots_iff (r : Option Sd) (n : Nat) : ∀ (sds : List Sd) (v v' : Vec × Vec),
    allocSlots r n v sds = .ok v' ↔ runI r n v.1 sds = .ok v'.1 ∧ runC v.2 sds = .ok v'.2 := by
  intro sds
  induction sds with
  | nil =>
    intro v v'
    obtain ⟨a, b⟩ := v
    obtain ⟨a', b'⟩ := v'
    simp [allocSlots, runI, runC]
  | cons sd sds ih =>
    intro v v'
    simp only [allocSlots, runI, runC]
    have key := allocSlot_iff r n v
    cases h1 : istep r n v.1 sd with
    | error e =>
      cases h2 : allocSlot r n v sd with
      | error e' => simp
      | ok v1 => have := (key v1 sd).mp h2; rw [h1] at this; exact absurd this.1 (by simp)
    | ok iv =>
      cases h3 : kstep v.2 sd with
      | error e =>
        cases h2 : allocSlot r n v sd with
        | error e' => simp
        | ok v1 => have := (key v1 sd).mp h2; rw [h3] at this; exact absurd this.2 (by simp)
      | ok cv =>
        have h2 := (key (iv, cv) sd).mpr ⟨h1, h3⟩
        simp only [h2]
        exact ih (iv, cv) v'

theorem runI_append (r : Option Sd) (n : Nat) : ∀ (l1 l2 : List Sd) (v v' : Vec),
    runI r n v (l1 ++ l2) = .ok v' ↔ ∃ v1, runI r n v l1 = .ok v1 ∧ runI r n v1 l2 = .ok v' := by
  intro l1
  induction l1 with
  | nil => intro l2 v v'; simp [runI]
  | cons s l1 ih =>
    intro l2 v v'
    simp only [List.cons_append, runI]
    cases istep r n v s with
    | error e => simp
    | ok v1 => exact ih l2 v1 v'

theorem runC_append : ∀ (l1 l2 : List Sd) (v v' : Vec),
    runC v (l1 ++ l2) = .ok v' ↔ ∃ v1, runC v l1 = .ok v1 ∧ runC v1 l2 = .ok v' := by
  intro l1
  induction l1 with
  | nil => intro l2 v v'; simp [runC]
  | cons s l1 ih =>
    intro l2 v v'
    simp only [List.cons_append, runC]
    cases kstep v s with
    | error e => simp
    | ok v1 => exact ih l2 v1 v'

/-- The classes whose slots are placed, in the order of placing. -/
def placed (G : Graph) (fp : Option Nat) (cs : List Nat) : List Nat :=
  cs.reverse.filter (fun c => !(fp.any (fun p => decide (c ∈ G.cpl p))))

theorem allocate_iff (G : Graph) (fp : Option Nat) (r : Option Sd) (n : Nat) (v : Vec × Vec) :
    ∀ (cs : List Nat) (v' : Vec × Vec), allocate G fp r n v cs = .ok v' ↔
      runI r n v.1 ((placed G fp cs).flatMap G.direct) = .ok v'.1 ∧
      runC v.2 ((placed G fp cs).flatMap G.direct) = .ok v'.2 := by
  intro cs
  induction cs with
  | nil =>
    intro v'
    obtain ⟨a, b⟩ := v
    obtain ⟨a', b'⟩ := v'
    simp [allocate, placed, runI, runC]
  | cons c cs ih =>
    intro v'
    simp only [allocate]
    by_cases hs : (fp.any (fun p => decide (c ∈ G.cpl p))) = true
    · have e : placed G fp (c :: cs) = placed G fp cs := by
        simp [placed, List.filter_append, hs]
      rw [e, ← ih v']
      cases allocate G fp r n v cs <;> simp [hs]
    · have e : placed G fp (c :: cs) = placed G fp cs ++ [c] := by
        simp [placed, List.filter_append, hs]
      rw [e, List.flatMap_append]
      simp only [List.flatMap_cons, List.flatMap_nil, List.append_nil]
      rw [runI_append, runC_append]
      cases ha : allocate G fp r n v cs with
      | error e' =>
        simp only [reduceCtorEq, false_iff]
        rintro ⟨⟨v1, h1, -⟩, ⟨v2, h2, -⟩⟩
        have := (ih (v1, v2)).mpr ⟨h1, h2⟩
        rw [ha] at this
        cases this
      | ok w =>
        obtain ⟨h1, h2⟩ := (ih w).mp ha
        simp only [hs, if_false, Bool.false_eq_true]
        rw [allocSlots_iff]
        constructor
        · rintro ⟨h3, h4⟩
          exact ⟨⟨w.1, h1, h3⟩, ⟨w.2, h2, h4⟩⟩
        · rintro ⟨⟨v1, h3, h4⟩, ⟨v2, h5, h6⟩⟩
          rw [h1] at h3
          rw [h2] at h5
          cases h3; cases h5
          exact ⟨h4, h6⟩

/-- Size slots. -/
def sizes (L : List Sd) : List Sd := L.filterMap Sd.sizeSlot

theorem isInst_iff {s : Sd} (h : IsSlot s) : isInst s = true ↔ s.alloc = .inst := by
  obtain ⟨o, d, rfl⟩ := h
  simp [isInst, Sd.alloc]

theorem runI_filled (r : Option Sd) (n : Nat) : ∀ (L X T : List Sd) (k : Nat) (v : Vec),
    (∀ s ∈ L, IsSlot s) → (∀ s ∈ L, isRep s = true → r = some s) → n = X.length + k + T.length →
    (runI r n (filled X k T) L = .ok v ↔
      (L.filter isInst).length + (sizes L).length ≤ k ∧ (T.length + (sizes L).length ≤ 1 ∨ sizes L = []) ∧
      v = filled (X ++ L.filter isInst) (k - ((L.filter isInst).length + (sizes L).length)) (T ++ sizes L)) := by
  intro L
  induction L with
  | nil =>
    intro X T k v _ _ _
    simp [runI, sizes, eq_comm]
  | cons s L ih =>
    intro X T k v hs hr hn
    obtain ⟨o, d, rfl⟩ := hs s List.mem_cons_self
    have hs' := fun x hx => hs x (List.mem_cons_of_mem _ hx)
    have hr' := fun x hx => hr x (List.mem_cons_of_mem _ hx)
    simp only [runI]
    cases ha : d.alloc with
    | inst =>
      have e1 : (Sd.slot o d :: L).filter isInst = Sd.slot o d :: L.filter isInst := by
        simp [isInst, ha]
      have e2 : sizes (Sd.slot o d :: L) = sizes L := by simp [sizes, Sd.sizeSlot, ha]
      simp only [istep, Sd.alloc, ha]
      rw [e1, e2]
      cases k with
      | zero =>
        rw [position_full]
        simp
      | succ k =>
        rw [position_filled]
        simp only
        rw [ih (X ++ [Sd.slot o d]) T k v hs' hr' (by simp; omega)]
        simp only [List.length_cons, List.append_assoc, List.singleton_append]
        have e3 : k + 1 - ((L.filter isInst).length + 1 + (sizes L).length) =
          k - ((L.filter isInst).length + (sizes L).length) := by omega
        rw [e3]
        constructor
        · rintro ⟨h1, h2, h3⟩; exact ⟨by omega, h2, h3⟩
        · rintro ⟨h1, h2, h3⟩; exact ⟨by omega, h2, h3⟩
    | repeated g =>
      have e1 : (Sd.slot o d :: L).filter isInst = L.filter isInst := by simp [isInst, ha]
      have e2 : sizes (Sd.slot o d :: L) = .size o g :: sizes L := by simp [sizes, Sd.sizeSlot, ha]
      have er : r = some (.slot o d) := hr _ List.mem_cons_self (by simp [isRep, ha])
      have erb : r.bind Sd.sizeSlot = some (.size o g) := by simp [er, Sd.sizeSlot, ha]
      simp only [istep, Sd.alloc, ha]
      rw [e1, e2]
      cases k with
      | zero =>
        cases hp : placeSize r n (filled X 0 T) with
        | error e => simp
        | ok v1 => exact absurd hp (placeSize_full r X T 0 (Or.inl rfl) n hn v1)
      | succ k =>
        cases T with
        | cons t T =>
          cases hp : placeSize r n (filled X (k + 1) (t :: T)) with
          | error e => simp; omega
          | ok v1 => exact absurd hp (placeSize_full r X _ _ (Or.inr (by simp)) n hn v1)
        | nil =>
          have hn' : n = X.length + (k + 1) := by simpa using hn
          rw [hn', placeSize_filled r X k _ erb]
          simp only
          rw [← hn', ih X [.size o g] k v hs' hr' (by simp; omega)]
          simp only [List.length_cons, List.length_nil, List.nil_append, List.singleton_append]
          have e3 : k + 1 - ((L.filter isInst).length + ((sizes L).length + 1)) =
            k - ((L.filter isInst).length + (sizes L).length) := by omega
          rw [e3]
          constructor
          · rintro ⟨h1, h2, h3⟩
            refine ⟨by omega, Or.inl ?_, h3⟩
            rcases h2 with h2 | h2
            · omega
            · rw [h2]; simp
          · rintro ⟨h1, h2, h3⟩
            refine ⟨by omega, ?_, h3⟩
            rcases h2 with h2 | h2
            · left; omega
            · cases h2
    | eachSubclass =>
      have e1 : (Sd.slot o d :: L).filter isInst = L.filter isInst := by simp [isInst, ha]
      have e2 : sizes (Sd.slot o d :: L) = sizes L := by simp [sizes, Sd.sizeSlot, ha]
      simp only [istep, Sd.alloc, ha]
      rw [e1, e2]
      exact ih X T k v hs' hr' hn
    | cls =>
      have e1 : (Sd.slot o d :: L).filter isInst = L.filter isInst := by simp [isInst, ha]
      have e2 : sizes (Sd.slot o d :: L) = sizes L := by simp [sizes, Sd.sizeSlot, ha]
      simp only [istep, Sd.alloc, ha]
      rw [e1, e2]
      exact ih X T k v hs' hr' hn
    | virt =>
      have e1 : (Sd.slot o d :: L).filter isInst = L.filter isInst := by simp [isInst, ha]
      have e2 : sizes (Sd.slot o d :: L) = sizes L := by simp [sizes, Sd.sizeSlot, ha]
      simp only [istep, Sd.alloc, ha]
      rw [e1, e2]
      exact ih X T k v hs' hr' hn

theorem runC_filled : ∀ (L X : List Sd) (k : Nat) (v : Vec), (∀ s ∈ L, IsSlot s) →
    (runC (filled X k []) L = .ok v ↔ (L.filterMap cpart).length ≤ k ∧
      v = filled (X ++ L.filterMap cpart) (k - (L.filterMap cpart).length) []) := by
  intro L
  induction L with
  | nil => intro X k v _; simp [runC, eq_comm]
  | cons s L ih =>
    intro X k v hs
    obtain ⟨o, d, rfl⟩ := hs s List.mem_cons_self
    have hs' := fun x hx => hs x (List.mem_cons_of_mem _ hx)
    simp only [runC]
    have pos : (d.alloc = .cls ∨ d.alloc = .eachSubclass) → kstep (filled X k []) (.slot o d) =
        position (.slot o d) (filled X k []) ∧ cpart (.slot o d) = some (.slot o d) := by
      rintro (h | h) <;> simp [kstep, Sd.alloc, h, cpart]
    have neg : ¬ (d.alloc = .cls ∨ d.alloc = .eachSubclass) → kstep (filled X k []) (.slot o d) =
        .ok (filled X k []) ∧ cpart (.slot o d) = none := by
      intro h
      cases ha : d.alloc <;> simp [ha] at h <;> simp [kstep, Sd.alloc, ha, cpart]
    by_cases hc : d.alloc = .cls ∨ d.alloc = .eachSubclass
    · rw [(pos hc).1, List.filterMap_cons_some (pos hc).2]
      cases k with
      | zero => rw [position_full]; simp
      | succ k =>
        rw [position_filled]
        simp only
        rw [ih _ k v hs']
        simp only [List.length_cons, List.append_assoc, List.singleton_append, Nat.add_le_add_iff_right,
          Nat.add_sub_add_right]
    · rw [(neg hc).1, List.filterMap_cons_none (neg hc).2]
      exact ih X k v hs'

end Verif.Slots
