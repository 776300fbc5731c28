import Verif.Threads.Tlv.Memory
namespace Verif.Threads.Tlv
open Spec
variable {T V : Type} [DecidableEq T]

/-- The thread is about to return from a write, which it has already stored. -/
def storing : PC T V → Option (Nat × V)
  | .wDone off v => some (off, v)
  | _ => none

/-- The new variable, and the list elements that do not have its default value yet. -/
def updating : PC T V → Option (Nat × V × List T)
  | .aUpdate off v rest => some (off, v, rest)
  | .aUnlock off v => some (off, v, [])
  | _ => none

/-- The vector that is about to become a thread's vector. -/
def copying : PC T V → Option (T × Nat)
  | .gPublish _ _ u _ n => some (u, n)
  | _ => none

/-- What a reader is about to read. -/
def reading : PC T V → Option (Nat × Nat)
  | .rRead off a => some (off, a)
  | _ => none

/-- The thread is not set up yet. -/
def isFresh : PC T V → Prop
  | .fresh => True
  | _ => False

/-- The contents of memory, against the history. -/
structure Val (h : List (Event T V)) (s : State T V) : Prop where
  dom : ∀ o, o ∈ s.handles ↔ ¬ defaultValue o h = none
  dflt : ∀ o, o ∈ s.handles → defaultValue o h = some ((s.heap s.default).data o)
  fresh : ∀ t o, isFresh (s.pc t) → o ∈ s.handles → value t o h = some ((s.heap s.default).data o)
  stored : ∀ t a o v, s.teb t = some a → storing (s.pc t) = some (o, v) → (s.heap a).data o = v
  cur : ∀ t a o, s.teb t = some a → o ∈ s.handles → (∀ v, ¬ storing (s.pc t) = some (o, v)) →
    value t o h = some ((s.heap a).data o)
  priv : ∀ g u n o a, copying (s.pc g) = some (u, n) → o ∈ s.handles →
    s.teb u = some a → (s.heap n).data o = (s.heap a).data o
  reader : ∀ t off a, reading (s.pc t) = some (off, a) → value t off h = some ((s.heap a).data off)
  updD : ∀ g off v rest, updating (s.pc g) = some (off, v, rest) → (s.heap s.default).data off = v
  upd : ∀ g off v rest t a, updating (s.pc g) = some (off, v, rest) → s.teb t = some a → t ∉ rest →
    (s.heap a).data off = v

theorem val_init {s : State T V} (h : init T V s) : Val [] s := by
  obtain ⟨h1, h2, h3, h4, h5, h6, h7, h8, h9⟩ := h
  constructor <;> simp_all [defaultValue, updating, reading]

/-- The history after a step. -/
def push (e : Option (Event T V)) (h : List (Event T V)) : List (Event T V) :=
  match e with
  | none => h
  | some e => e :: h

/-- Steps that change neither memory nor the history. -/
theorem val_frame {h : List (Event T V)} {s s' : State T V} (hi : Val h s)
    (h2 : s'.handles = s.handles) (h3 : s'.teb = s.teb) (h4 : s'.default = s.default)
    (h5 : s'.heap = s.heap)
    (hp : ∀ u, storing (s'.pc u) = storing (s.pc u) ∧ updating (s'.pc u) = updating (s.pc u) ∧
      (isFresh (s'.pc u) ↔ isFresh (s.pc u)) ∧ copying (s'.pc u) = copying (s.pc u) ∧
      reading (s'.pc u) = reading (s.pc u)) : Val h s' := by
  obtain ⟨i1, i2, i3, i4, i5, i6, i7, i8, i9⟩ := hi
  constructor <;> (try rw [h2]) <;> (try rw [h3]) <;> (try rw [h4]) <;> (try rw [h5])
  · exact i1
  · exact i2
  · intro t o ht; exact i3 t o ((hp t).2.2.1.mp ht)
  · intro t a o v ha ht; exact i4 t a o v ha ((hp t).1 ▸ ht)
  · intro t a o ha ho ht; exact i5 t a o ha ho (by rw [(hp t).1] at ht; exact ht)
  · intro g u n o a hg; exact i6 g u n o a ((hp g).2.2.2.1 ▸ hg)
  · intro t off a ht; exact i7 t off a ((hp t).2.2.2.2 ▸ ht)
  · intro g off v rest hg; exact i8 g off v rest ((hp g).2.1 ▸ hg)
  · intro g off v rest t a hg; exact i9 g off v rest t a ((hp g).2.1 ▸ hg)

/-- Reading memory after one store. -/
theorem store_data (heap : Nat → Vec V) (a off : Nat) (v : V) (b o : Nat) :
    (Function.update heap a { heap a with data := Function.update (heap a).data off v } b).data o =
      if b = a ∧ o = off then v else (heap b).data o := by
  by_cases hb : b = a
  · subst hb
    by_cases ho : o = off
    · subst ho; simp
    · simp [ho]
  · simp [hb]

/-- Reading memory after a copy. -/
theorem copy_data (heap : Nat → Vec V) (a n size : Nat) (filler : V) (b o : Nat) :
    (Function.update heap n ((heap a).copyTo size filler) b).data o =
      if b = n then (if o < (heap a).size + 2 then (heap a).data o else filler)
      else (heap b).data o := by
  by_cases hb : b = n
  · subst hb; simp [Vec.copyTo]
  · simp [hb]

/-- The classes of a thread's program point after a step of `t`. -/
theorem class_update (pc : T → PC T V) (t : T) (q : PC T V) (a : Option (Nat × V))
    (b : Option (Nat × V × List T)) (c : Option (T × Nat)) (d : Option (Nat × Nat))
    (h1 : storing q = a) (h2 : updating q = b) (h3 : copying q = c) (h4 : reading q = d)
    (h5 : ¬ isFresh q) (x : T) :
    storing (Function.update pc t q x) = (if x = t then a else storing (pc x)) ∧
    updating (Function.update pc t q x) = (if x = t then b else updating (pc x)) ∧
    copying (Function.update pc t q x) = (if x = t then c else copying (pc x)) ∧
    reading (Function.update pc t q x) = (if x = t then d else reading (pc x)) ∧
    (isFresh (Function.update pc t q x) ↔ x ≠ t ∧ isFresh (pc x)) := by
  by_cases h : x = t
  · subst h; simp [*]
  · simp [h]

set_option maxHeartbeats 4000000 in
theorem val_step {s s' : State T V} {h : List (Event T V)}
    {e : Option (Event T V)} (hy : Sync s) (hm : Mem s) (hz : Size s) (hi : Val h s)
    (st : Step false s e s') : Val (push e h) s' := by
  have hframe := fun (s' : State T V) => val_frame (s' := s') hi
  obtain ⟨y1, y2, y3, -⟩ := hy
  obtain ⟨m1, m2, m3, m4, m5, m6, m7, m8, m9, m10, m11⟩ := hm
  obtain ⟨z1, z2, z3, z4, z5, z6, z7, z8, z9, z10, z11, z12, z13⟩ := hz
  obtain ⟨i1, i2, i3, i4, i5, i6, i7, i8, i9⟩ := hi
  have lu : ∀ g off v rest, updating (s.pc g) = some (off, v, rest) →
      s.lock = some g ∧ off ∉ s.handles := by
    intro g off v rest h
    constructor
    · apply y1; revert h; cases s.pc g <;> simp [updating]
    · refine (z5 g off ?_).2
      revert h; cases s.pc g <;> simp +contextual [updating]
  have lw : ∀ t o v, storing (s.pc t) = some (o, v) → o ∈ s.handles := by
    intro t o v h
    apply z12 t; revert h; cases s.pc t <;> simp +contextual [storing]
  have lw' : ∀ t o v, storing (s.pc t) = some (o, v) → active (s.pc t) := by
    intro t o v h
    revert h; cases s.pc t <;> simp [storing]
  have la : ∀ g u n, copying (s.pc g) = some (u, n) → s.lock = some g ∧
      n < s.next ∧ n ≠ s.default ∧ ∀ t, ¬ s.teb t = some n := by
    intro g u n h
    cases hp : s.pc g <;> simp only [hp, copying] at h
    case gPublish =>
      cases h
      exact ⟨y1 g (by simp [hp]), m8 _ _ _ _ _ _ hp⟩
    all_goals cases h
  have la' : ∀ g u n, copying (s.pc g) = some (u, n) → growing (s.pc g) ∧ s.teb u ≠ none := by
    intro g u n h
    cases hp : s.pc g <;> simp only [hp, copying] at h
    case gPublish => cases h; exact ⟨by simp, m4 g u (by simp [hp])⟩
    all_goals cases h
  have lr : ∀ t off a, reading (s.pc t) = some (off, a) → off ∈ s.handles ∧
      a < s.next ∧ a ≠ s.default ∧ (∀ u, s.teb u = some a → u = t) ∧
      ∀ g u n, copying (s.pc g) = some (u, n) → a ≠ n := by
    intro t off a h
    cases hp : s.pc t <;> simp only [hp, reading] at h
    case rRead =>
      cases h
      refine ⟨z12 t off (by simp [hp]), (m9 _ _ _ hp).1, (m9 _ _ _ hp).2.1, (m9 _ _ _ hp).2.2, ?_⟩
      intro g u n hc
      cases hq : s.pc g <;> simp only [hq, copying] at hc
      case gPublish => cases hc; exact m10 _ _ _ _ _ _ _ _ _ hp hq
      all_goals cases hc
    all_goals cases h
  have lf : ∀ t, isFresh (s.pc t) → s.teb t = none := by
    intro t h
    rw [m1]
    revert h; cases s.pc t <;> simp [isFresh]
  have hl : ∀ t, holding (s.pc t) → s.lock = some t := y1
  clear y1 y3 z1 z2 z3 z4 z6 z9 z10 z11 z13 m3 m4 m8 m9 m10
  cases st with
  | @start t filler h1 h2 =>
    have hc := class_update s.pc t .idle none none none none rfl rfl rfl rfl (by simp [isFresh])
    have hd := copy_data s.heap s.default s.next (s.heap s.default).size filler
    generalize Function.update s.pc t .idle = pc' at hc ⊢
    generalize Function.update s.heap s.next _ = heap' at hd ⊢
    have ht : isFresh (s.pc t) := by rw [h1]; trivial
    clear hframe m11 z5 z12 y2 m1 h1 lw' la' m2 hl
    constructor <;> simp only [Function.update_apply, push] <;> (first | assumption | grind)
  | @exit t h1 h2 =>
    have hc := class_update s.pc t .exited none none none none rfl rfl rfl rfl (by simp [isFresh])
    have ht : storing (s.pc t) = none ∧ updating (s.pc t) = none ∧ copying (s.pc t) = none ∧
      reading (s.pc t) = none ∧ ¬ isFresh (s.pc t) := by
      rw [h1]; simp [storing, updating, copying, reading, isFresh]
    generalize Function.update s.pc t .exited = pc' at hc ⊢
    clear hframe m11 z5 z12 y2 m1 h1 lw' la' m2 hl
    constructor <;> simp only [Function.update_apply, push] <;> (first | assumption | grind)
  | @wStore t off v a h1 =>
    have hc := class_update s.pc t (.wDone off v) (some (off, v)) none none none rfl rfl rfl rfl (by simp [isFresh])
    have ha := m11 _ _ _ _ h1
    have ho := z12 t off (by simp [h1])
    have hg : ∀ g u n, ¬ copying (s.pc g) = some (u, n) :=
      fun g u n hg => y2 g t (la' g u n hg).1 (by simp [h1])
    have ht : storing (s.pc t) = none ∧ updating (s.pc t) = none ∧ copying (s.pc t) = none ∧
      reading (s.pc t) = none ∧ ¬ isFresh (s.pc t) := by
      rw [h1]; simp [storing, updating, copying, reading, isFresh]
    have hd := store_data s.heap a off v
    generalize Function.update s.heap a { s.heap a with data := Function.update (s.heap a).data off v } = heap' at hd ⊢
    generalize Function.update s.pc t (.wDone off v) = pc' at hc ⊢
    clear hframe m11 z5 z12 y2 m1 h1 lw' la' m2 hl
    constructor <;> simp only [push] <;> (first | assumption | grind)
  | @wDone t off v h1 =>
    have hc := class_update s.pc t .idle none none none none rfl rfl rfl rfl (by simp [isFresh])
    have ho := z12 t off (by simp [h1])
    have ht : storing (s.pc t) = some (off, v) ∧ updating (s.pc t) = none ∧ copying (s.pc t) = none ∧
      reading (s.pc t) = none ∧ ¬ isFresh (s.pc t) := by
      rw [h1]; simp [storing, updating, copying, reading, isFresh]
    generalize Function.update s.pc t .idle = pc' at hc ⊢
    clear hframe m11 z5 z12 y2 m1 h1 lw' la' m2 hl
    constructor <;> simp only [push, value, defaultValue] <;> (first | assumption | grind)
  | @rLoad t off a h1 h2 h3 =>
    have hc := class_update s.pc t (.rRead off a) none none none (some (off, a)) rfl rfl rfl rfl (by simp [isFresh])
    have ht : storing (s.pc t) = none ∧ updating (s.pc t) = none ∧ copying (s.pc t) = none ∧
      reading (s.pc t) = none ∧ ¬ isFresh (s.pc t) := by
      rw [h1]; simp [storing, updating, copying, reading, isFresh]
    generalize Function.update s.pc t (.rRead off a) = pc' at hc ⊢
    clear hframe m11 z5 z12 y2 m1 h1 lw' la' m2 hl
    constructor <;> simp only [push] <;> (first | assumption | grind)
  | @rRead t off a v h1 h2 =>
    have hc := class_update s.pc t .idle none none none none rfl rfl rfl rfl (by simp [isFresh])
    have ht : storing (s.pc t) = none ∧ updating (s.pc t) = none ∧ copying (s.pc t) = none ∧
      reading (s.pc t) = some (off, a) ∧ ¬ isFresh (s.pc t) := by
      rw [h1]; simp [storing, updating, copying, reading, isFresh]
    generalize Function.update s.pc t .idle = pc' at hc ⊢
    clear hframe m11 z5 z12 y2 m1 h1 lw' la' m2 hl
    constructor <;> simp only [push, value, defaultValue] <;> (first | assumption | grind)
  | @gDefault t off v filler h1 =>
    have hc := class_update s.pc t (.gNext off v s.list) none none none none rfl rfl rfl rfl (by simp [isFresh])
    have hlk := hl t (by simp [h1])
    have ht : storing (s.pc t) = none ∧ updating (s.pc t) = none ∧ copying (s.pc t) = none ∧
      reading (s.pc t) = none ∧ ¬ isFresh (s.pc t) := by
      rw [h1]; simp [storing, updating, copying, reading, isFresh]
    have hd := copy_data s.heap s.default s.next ((s.heap s.default).size + (s.heap s.default).size) filler
    generalize Function.update s.heap s.next _ = heap' at hd ⊢
    generalize Function.update s.pc t (.gNext off v s.list) = pc' at hc ⊢
    clear hframe m11 z5 z12 y2 m1 h1 lw' la' m2 hl
    constructor <;> simp only [push] <;> (first | assumption | grind)
  | @gCopy t off v u rest a filler h1 h2 =>
    have hc := class_update s.pc t (.gPublish off v u rest s.next) none none (some (u, s.next)) none rfl rfl rfl rfl (by simp [isFresh])
    have hlk := hl t (by simp [h1])
    have ht : storing (s.pc t) = none ∧ updating (s.pc t) = none ∧ copying (s.pc t) = none ∧
      reading (s.pc t) = none ∧ ¬ isFresh (s.pc t) := by
      rw [h1]; simp [storing, updating, copying, reading, isFresh]
    have hd := copy_data s.heap a s.next (s.heap s.default).size filler
    generalize Function.update s.heap s.next _ = heap' at hd ⊢
    generalize Function.update s.pc t (.gPublish off v u rest s.next) = pc' at hc ⊢
    clear hframe m11 z5 z12 y2 m1 h1 lw' la' m2 hl
    have hst : ∀ x, storing (pc' x) = storing (s.pc x) := by
      intro x
      rw [(hc x).1]
      by_cases hx : x = t
      · rw [hx, ht.1]; simp
      · simp [hx]
    constructor
    case cur =>
      intro x b o hb ho' hs'
      have hs' : ∀ v, ¬ storing (s.pc x) = some (o, v) := by
        intro v; have := hs' v; rw [← hst x]; exact this
      have hcur := fun b hb => i5 x b o hb ho' hs'
      simp only [push] at hb ⊢
      clear i5 i4 hc hst
      grind
    all_goals simp only [push] <;> (first | assumption | grind)
  | @gPublish t off v u rest n h1 =>
    have hc := class_update s.pc t (.gNext off v rest) none none none none rfl rfl rfl rfl (by simp [isFresh])
    have hlk := hl t (by simp [h1])
    have hu := y2 t u (by simp [h1])
    have hs : ∀ o v, ¬ storing (s.pc u) = some (o, v) := fun o v h => hu (lw' _ _ _ h)
    have ht : storing (s.pc t) = none ∧ updating (s.pc t) = none ∧ copying (s.pc t) = some (u, n) ∧
      reading (s.pc t) = none ∧ ¬ isFresh (s.pc t) := by
      rw [h1]; simp [storing, updating, copying, reading, isFresh]
    have halive : s.teb u ≠ none := (la' t u n ht.2.2.1).2
    generalize Function.update s.pc t (.gNext off v rest) = pc' at hc ⊢
    clear hframe m11 z5 z12 y2 m1 h1 lw' la' m2 hl hu
    have hst : ∀ x, storing (pc' x) = storing (s.pc x) := by
      intro x
      rw [(hc x).1]
      by_cases hx : x = t
      · rw [hx, ht.1]; simp
      · simp [hx]
    constructor
    case cur =>
      intro x b o hb ho' hs'
      have hs' : ∀ v, ¬ storing (s.pc x) = some (o, v) := by
        intro v; have := hs' v; rw [← hst x]; exact this
      have hcur := fun b hb => i5 x b o hb ho' hs'
      simp only [push, Function.update_apply] at hb ⊢
      by_cases hx : x = u
      · subst hx
        simp only [if_true, Option.some.injEq] at hb
        subst hb
        obtain ⟨b0, hb0⟩ := Option.ne_none_iff_exists'.mp halive
        rw [i6 t x n o b0 ht.2.2.1 ho' hb0]
        exact hcur b0 hb0
      · rw [if_neg hx] at hb; exact hcur b hb
    all_goals simp only [push, Function.update_apply] <;> (first | assumption | grind)
  | @aDefault t off v h1 =>
    have hc := class_update s.pc t (.aUpdate off v s.list) none (some (off, v, s.list)) none none rfl rfl rfl rfl (by simp [isFresh])
    have hlk := hl t (by simp [h1])
    have ho := (z5 t off (by simp [h1])).2
    have ht : storing (s.pc t) = none ∧ updating (s.pc t) = none ∧ copying (s.pc t) = none ∧
      reading (s.pc t) = none ∧ ¬ isFresh (s.pc t) := by
      rw [h1]; simp [storing, updating, copying, reading, isFresh]
    have hd := store_data s.heap s.default off v
    have hlist : ∀ x a, s.teb x = some a → x ∈ s.list := by
      intro x a hx; rw [m2, hx]; simp
    generalize Function.update s.heap s.default { s.heap s.default with data := Function.update (s.heap s.default).data off v } = heap' at hd ⊢
    generalize Function.update s.pc t (.aUpdate off v s.list) = pc' at hc ⊢
    clear hframe m11 z5 z12 y2 m1 h1 lw' la' m2 hl
    constructor <;> simp only [push] <;> (first | assumption | grind)
  | @aUpdate t off v u rest a h1 h2 =>
    have hc := class_update s.pc t (.aUpdate off v rest) none (some (off, v, rest)) none none rfl rfl rfl rfl (by simp [isFresh])
    have hlk := hl t (by simp [h1])
    have ho := (z5 t off (by simp [h1])).2
    have ht : storing (s.pc t) = none ∧ updating (s.pc t) = some (off, v, u :: rest) ∧ copying (s.pc t) = none ∧
      reading (s.pc t) = none ∧ ¬ isFresh (s.pc t) := by
      rw [h1]; simp [storing, updating, copying, reading, isFresh]
    have hd := store_data s.heap a off v
    generalize Function.update s.heap a { s.heap a with data := Function.update (s.heap a).data off v } = heap' at hd ⊢
    generalize Function.update s.pc t (.aUpdate off v rest) = pc' at hc ⊢
    clear hframe m11 z5 z12 y2 m1 h1 lw' la' m2 hl
    have hst : ∀ x, storing (pc' x) = storing (s.pc x) := by
      intro x
      rw [(hc x).1]
      by_cases hx : x = t
      · rw [hx, ht.1]; simp
      · simp [hx]
    constructor
    case cur =>
      intro x b o hb ho' hs'
      have hs' : ∀ v, ¬ storing (s.pc x) = some (o, v) := by
        intro v; have := hs' v; rw [← hst x]; exact this
      have hcur := fun b hb => i5 x b o hb ho' hs'
      simp only [push] at hb ⊢
      clear i5 i4 hc hst
      grind
    all_goals simp only [push] <;> (first | assumption | grind)
  | @aUnlock t off v h1 =>
    have hc := class_update s.pc t .idle none none none none rfl rfl rfl rfl (by simp [isFresh])
    have hlk := hl t (by simp [h1])
    have ho := (z5 t off (by simp [h1])).2
    have ht : storing (s.pc t) = none ∧ updating (s.pc t) = some (off, v, []) ∧ copying (s.pc t) = none ∧
      reading (s.pc t) = none ∧ ¬ isFresh (s.pc t) := by
      rw [h1]; simp [storing, updating, copying, reading, isFresh]
    have hu : ∀ x a, s.teb x = some a → (s.heap a).data off = v :=
      fun x a hx => i9 t off v [] x a ht.2.1 hx (by simp)
    have hud := i8 t off v [] ht.2.1
    generalize Function.update s.pc t .idle = pc' at hc ⊢
    clear hframe m11 z5 z12 y2 m1 h1 lw' la' m2 hl
    constructor <;> simp only [push, value, defaultValue, List.mem_cons] <;> (first | assumption | grind)
  | _ =>
    refine hframe _ rfl rfl rfl rfl ?_
    intro x
    clear hframe
    simp only [Function.update_apply]
    grind [storing, updating, copying, reading, isFresh]

end Verif.Threads.Tlv
