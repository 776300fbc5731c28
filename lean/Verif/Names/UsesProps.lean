import Verif.Names.Uses
import Verif.Names.ModulesProps

namespace Verif.Names

/-- `y` is `x` or is used by it, directly or not. -/
inductive Uses (g : Nat → List Nat) : Nat → Nat → Prop
  | self (x : Nat) : Uses g x x
  | more {x y z : Nat} (h : y ∈ g x) (h' : Uses g y z) : Uses g x z

/-- Each one comes before those it uses. -/
def UsersFirst (g : Nat → List Nat) (l : List Nat) : Prop :=
  ∀ a x b, l = a ++ x :: b → ∀ y ∈ g x, y ∈ b

structure WalkOK (g : Nat → List Nat) (l : List Nat) : Prop where
  nodup : l.Nodup
  first : UsersFirst g l

theorem Uses.rank {g : Nat → List Nat} {r : Nat → Nat}
    (hr : ∀ x, ∀ y ∈ g x, r y < r x) {x y : Nat} (h : Uses g x y) :
    r y ≤ r x := by
  induction h with
  | self x => exact Nat.le_refl _
  | more h _ ih => exact Nat.le_trans ih (Nat.le_of_lt (hr _ _ h))

theorem walkList_ok {g : Nat → List Nat} {depth n : Nat} {r : Nat → Nat}
    (hw : ∀ (l : List Nat) (y : Nat), r y < n → WalkOK g l →
      ∃ l', walk g depth l y = some l' ∧ WalkOK g l' ∧ y ∈ l' ∧
        (∀ z ∈ l, z ∈ l') ∧ ∀ z ∈ l', z ∈ l ∨ Uses g y z) :
    ∀ (ys l : List Nat), (∀ y ∈ ys, r y < n) → WalkOK g l →
      ∃ l', walkList (walk g depth) l ys = some l' ∧ WalkOK g l' ∧
        (∀ y ∈ ys, y ∈ l') ∧ (∀ z ∈ l, z ∈ l') ∧
        ∀ z ∈ l', z ∈ l ∨ ∃ y ∈ ys, Uses g y z := by
  intro ys
  induction ys with
  | nil =>
    intro l _ h
    exact ⟨l, rfl, h, fun _ h => (by cases h), fun _ h => h, fun _ h => Or.inl h⟩
  | cons y ys ih =>
    intro l hy h
    obtain ⟨l1, a1, a2, a3, a4, a5⟩ := hw l y (hy y List.mem_cons_self) h
    obtain ⟨l', b1, b2, b3, b4, b5⟩ := ih l1
      (fun z hz => hy z (List.mem_cons_of_mem _ hz)) a2
    refine ⟨l', ?_, b2, ?_, fun z hz => b4 z (a4 z hz), ?_⟩
    · unfold walkList
      rw [a1]
      exact b1
    · intro z hz
      rcases List.mem_cons.1 hz with rfl | hz
      · exact b4 _ a3
      · exact b3 z hz
    · intro z hz
      rcases b5 z hz with hz | ⟨w, hw', hu⟩
      · rcases a5 z hz with hz | hz
        · exact Or.inl hz
        · exact Or.inr ⟨y, List.mem_cons_self, hz⟩
      · exact Or.inr ⟨w, List.mem_cons_of_mem _ hw', hu⟩

theorem walk_ok {g : Nat → List Nat} {r : Nat → Nat}
    (hr : ∀ x, ∀ y ∈ g x, r y < r x) :
    ∀ (depth : Nat) (l : List Nat) (x : Nat), r x < depth → WalkOK g l →
      ∃ l', walk g depth l x = some l' ∧ WalkOK g l' ∧ x ∈ l' ∧
        (∀ z ∈ l, z ∈ l') ∧ ∀ z ∈ l', z ∈ l ∨ Uses g x z := by
  intro depth
  induction depth with
  | zero =>
    intro l x h
    omega
  | succ depth ih =>
    intro l x hd h
    unfold walk
    split
    · next hx => exact ⟨l, rfl, h, hx, fun _ h => h, fun _ h => Or.inl h⟩
    · next hx =>
      obtain ⟨l1, a1, a2, a3, a4, a5⟩ := walkList_ok (r := r) (n := depth)
        (fun l y hy hl => ih l y hy hl) (g x) l
        (fun y hy => Nat.lt_of_lt_of_le (hr x y hy) (by omega)) h
      rw [a1]
      dsimp only
      have hx1 : x ∉ l1 := by
        intro hin
        rcases a5 x hin with hin | ⟨y, hy, hu⟩
        · exact hx hin
        · have h1 := hu.rank hr
          have h2 := hr x y hy
          omega
      refine ⟨x :: l1, rfl, ⟨List.nodup_cons.2 ⟨hx1, a2.nodup⟩, ?_⟩,
        List.mem_cons_self, fun z hz => List.mem_cons_of_mem _ (a4 z hz), ?_⟩
      · intro a z b he y hy
        cases a with
        | nil =>
          rw [List.nil_append] at he
          cases he
          exact a3 y hy
        | cons c a =>
          rw [List.cons_append] at he
          injection he with _ he
          exact a2.first a z b he y hy
      · intro z hz
        rcases List.mem_cons.1 hz with rfl | hz
        · exact Or.inr (Uses.self _)
        · rcases a5 z hz with hz | ⟨y, hy, hu⟩
          · exact Or.inl hz
          · exact Or.inr (Uses.more hy hu)

/-- A collected namespace brings with it all that it uses. -/
theorem first_closed {g : Nat → List Nat} {l : List Nat} (h : UsersFirst g l)
    {x y : Nat} (hu : Uses g x y) (hx : x ∈ l) : y ∈ l := by
  induction hu with
  | self x => exact hx
  | more hy _ ih =>
    apply ih
    obtain ⟨a, b, rfl⟩ := List.append_of_mem hx
    exact List.mem_append.2 (Or.inr (List.mem_cons_of_mem _
      (h a _ b rfl _ hy)))

/-- C125 (part): where every module uses only modules defined before it, the
walk ends, and gives the module and all it uses, each of them once and before
those that it uses.  Missing: modules that use one another
(`mutual_use_violated`). -/
theorem all_used_partial (D : Nat → Decl) (count i : Nat)
    (h : ∀ j, ∀ u ∈ (D j).uses, u.used < j) :
    ∃ l, (∀ depth, i < depth → allUsed D count depth i = some l) ∧ l.Nodup ∧
      (∀ j, j ∈ l ↔ Uses (usedBy D count) i j) ∧
      UsersFirst (usedBy D count) l := by
  have hr : ∀ x, ∀ y ∈ usedBy D count x, y < x := by
    intro x y hy
    unfold usedBy at hy
    obtain ⟨hy, _⟩ := List.mem_filter.1 hy
    obtain ⟨u, hu, rfl⟩ := List.mem_map.1 hy
    exact h x u hu
  have hnil : WalkOK (usedBy D count) [] := by
    refine ⟨List.nodup_nil, ?_⟩
    intro a x b he
    cases a <;> cases he
  obtain ⟨l, a1, a2, a3, _, a5⟩ := walk_ok (r := id) hr (i + 1) [] i
    (Nat.lt_succ_self i) hnil
  refine ⟨l, ?_, a2.nodup, ?_, a2.first⟩
  · have mono : ∀ (depth : Nat) (l : List Nat) (x : Nat) (l' : List Nat),
        walk (usedBy D count) depth l x = some l' →
        walk (usedBy D count) (depth + 1) l x = some l' := by
      intro depth
      induction depth with
      | zero =>
        intro l x l' h
        cases h
      | succ depth ih =>
        intro l x l' h
        have hl : ∀ (ys l l' : List Nat),
            walkList (walk (usedBy D count) depth) l ys = some l' →
            walkList (walk (usedBy D count) (depth + 1)) l ys = some l' := by
          intro ys
          induction ys with
          | nil => intro l l' h; exact h
          | cons y ys ihy =>
            intro l l' h
            unfold walkList at h ⊢
            split at h
            · next l1 h1 =>
              rw [ih _ _ _ h1]
              exact ihy _ _ h
            · cases h
        unfold walk at h ⊢
        split
        · next hx =>
          rw [if_pos hx] at h
          exact h
        · next hx =>
          rw [if_neg hx] at h
          split at h
          · next l1 h1 =>
            rw [hl _ _ _ h1]
            exact h
          · cases h
    intro depth hd
    unfold allUsed
    obtain ⟨k, rfl⟩ : ∃ k, depth = i + 1 + k := ⟨depth - (i + 1), by omega⟩
    clear hd
    induction k with
    | zero => exact a1
    | succ k ih => exact mono _ _ _ _ ih
  · intro j
    constructor
    · intro hj
      rcases a5 j hj with hj | hj
      · cases hj
      · exact hj
    · intro hu
      exact first_closed a2.first hu a3

/-- The condition holds of the sample library. -/
example : allUsed sampleLib 3 3 2 = some [2, 1, 0] ∧
    (∀ j, ∀ u ∈ (sampleLib j).uses, u.used < j) := by
  refine ⟨by decide +kernel, ?_⟩
  intro j u hu
  match j with
  | 0 => cases hu
  | 1 =>
    rw [List.mem_singleton.1 hu]
    decide
  | 2 =>
    have hu' : u = { used := 0, pre := sym "p/" } ∨ u = { used := 1 } := by
      simpa [sampleLib] using hu
    rcases hu' with rfl | rfl <;> decide
  | j + 3 => cases hu

theorem walk_cycle {g : Nat → List Nat} {C : Nat → Prop}
    (hC : ∀ x, C x → ∃ y ∈ g x, C y) :
    ∀ (depth : Nat) (l : List Nat) (x : Nat) (l' : List Nat),
      (∀ z ∈ l, ¬ C z) → walk g depth l x = some l' →
      ¬ C x ∧ ∀ z ∈ l', ¬ C z := by
  intro depth
  induction depth with
  | zero =>
    intro l x l' _ h
    cases h
  | succ depth ih =>
    intro l x l' hl h
    have hlist : ∀ (ys l l' : List Nat), (∀ z ∈ l, ¬ C z) →
        walkList (walk g depth) l ys = some l' →
        (∀ y ∈ ys, ¬ C y) ∧ ∀ z ∈ l', ¬ C z := by
      intro ys
      induction ys with
      | nil =>
        intro l l' hl h
        cases h
        exact ⟨fun _ h => (by cases h), hl⟩
      | cons y ys ihy =>
        intro l l' hl h
        unfold walkList at h
        split at h
        · next l1 h1 =>
          obtain ⟨a1, a2⟩ := ih _ _ _ hl h1
          obtain ⟨b1, b2⟩ := ihy _ _ a2 h
          refine ⟨?_, b2⟩
          intro z hz
          rcases List.mem_cons.1 hz with rfl | hz
          · exact a1
          · exact b1 z hz
        · cases h
    unfold walk at h
    split at h
    · next hx =>
      cases h
      exact ⟨hl x hx, hl⟩
    · split at h
      · next l1 h1 =>
        cases h
        obtain ⟨a1, a2⟩ := hlist _ _ _ hl h1
        have hx : ¬ C x := by
          intro hx
          obtain ⟨y, hy, hcy⟩ := hC x hx
          exact a1 y hy hcy
        refine ⟨hx, ?_⟩
        intro z hz
        rcases List.mem_cons.1 hz with rfl | hz
        · exact hx
        · exact a2 z hz
      · cases h

/-- Modules 0 and 1 use one another. -/
def mutualLib : Nat → Decl
  | 0 => { uses := [{ used := 1 }] }
  | 1 => { uses := [{ used := 0 }] }
  | _ => {}

/-- C125 violated: the definitions give no more than a warning that module 1
is not there when module 0 is defined, but the walk over what either uses
does not end, whatever depth it is given. -/
theorem mutual_use_violated :
    (defineModule inOrder Subtype.val {} (mutualLib 0)).2 =
      [Note.usedNotFound 1] ∧
    (defineModule inOrder Subtype.val
      (run inOrder Subtype.val mutualLib [Op.define]) (mutualLib 1)).2 = [] ∧
    ∀ depth i, i < 2 → allUsed mutualLib 2 depth i = none := by
  refine ⟨by decide +kernel, by decide +kernel, ?_⟩
  intro depth i hi
  cases h : allUsed mutualLib 2 depth i with
  | none => rfl
  | some l =>
    exfalso
    refine (walk_cycle (C := fun j => j < 2) ?_ depth [] i l
      (fun z hz => by cases hz) h).1 hi
    intro x hx
    have : x = 0 ∨ x = 1 := by omega
    rcases this with rfl | rfl
    · exact ⟨1, by decide, by decide⟩
    · exact ⟨0, by decide, by decide⟩

end Verif.Names
