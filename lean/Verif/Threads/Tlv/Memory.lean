import Verif.Threads.Tlv.Lemmas
namespace Verif.Threads.Tlv
open Spec
variable {T V : Type} [DecidableEq T]

/-- The threads whose vectors the grower has still to replace. -/
@[simp, grind =] def pend : PC T V → List T
  | .gNext _ _ rest => rest
  | .gPublish _ _ u rest _ => u :: rest
  | _ => []

/-- The list elements an allocating thread will still look at. -/
@[simp, grind =] def todo : PC T V → List T
  | .gNext _ _ rest => rest
  | .gPublish _ _ u rest _ => u :: rest
  | .aUpdate _ _ rest => rest
  | _ => []

/-- The offset an allocating thread has taken. -/
@[simp, grind =] def taken : PC T V → Option Nat
  | .gEnter off _ | .gDefault off _ | .gNext off _ _ | .gPublish off _ _ _ _
  | .aDefault off _ | .aUpdate off _ _ | .aUnlock off _ => some off
  | _ => none

/-- The variable a reader or writer works on. -/
@[simp, grind =] def target : PC T V → Option Nat
  | .wInc off _ | .wDec off _ | .wLock off _ | .wUnlock off _ | .wLoad off _ | .wStore off _ _
  | .wDone off _ | .rRead off _ => some off
  | _ => none

/-- The taken offset does not fit the vectors yet. -/
@[simp, grind =] def small : PC T V → Prop
  | .gEnter _ _ | .gDefault _ _ => True
  | _ => False

/-- The shape of memory. -/
structure Mem (s : State T V) : Prop where
  alive : ∀ t, s.teb t = none ↔ s.pc t = .fresh ∨ s.pc t = .exited
  list : ∀ t, t ∈ s.list ↔ s.teb t ≠ none
  nodup : s.list.Nodup
  todo : ∀ g t, t ∈ todo (s.pc g) → s.teb t ≠ none
  dflt : s.default < s.next
  fresh : ∀ t a, s.teb t = some a → a < s.next ∧ a ≠ s.default
  inj : ∀ t u a, s.teb t = some a → s.teb u = some a → t = u
  priv : ∀ g off v u rest n, s.pc g = .gPublish off v u rest n →
    n < s.next ∧ n ≠ s.default ∧ ∀ t, s.teb t ≠ some n
  reader : ∀ t off a, s.pc t = .rRead off a → a < s.next ∧ a ≠ s.default ∧
    ∀ u, s.teb u = some a → u = t
  readerPriv : ∀ t off a g o v u rest n, s.pc t = .rRead off a →
    s.pc g = .gPublish o v u rest n → a ≠ n
  writer : ∀ t off v a, s.pc t = .wStore off v a → s.teb t = some a

theorem mem_init {s : State T V} (h : init T V s) : Mem s := by
  obtain ⟨h1, h2, h3, h4, h5, h6, h7, h8, h9⟩ := h
  constructor <;> simp_all

theorem nodup_erase_mem {l : List T} (h : l.Nodup) (t u : T) : u ∈ l.erase t ↔ u ≠ t ∧ u ∈ l :=
  h.mem_erase_iff

set_option maxHeartbeats 4000000 in
theorem mem_step {s s' : State T V}
    {e : Option (Event T V)} (hy : Sync s) (hi : Mem s) (st : Step false s e s') : Mem s' := by
  obtain ⟨y1, y2, y3, -⟩ := hy
  obtain ⟨i1, i2, i3, i4, i5, i6, i7, i8, i9, i10, i11⟩ := hi
  have i4' : ∀ g t, t ∈ todo (s.pc g) → s.lock = some g := by
    intro g t ht; exact y1 g (by revert ht; cases s.pc g <;> simp)
  have i8' : ∀ g off v u rest n, s.pc g = .gPublish off v u rest n → s.lock = some g := by
    intro g off v u rest n h; exact y1 g (by simp [h])
  cases st with
  | @start t filler h1 h2 =>
    constructor <;> simp only [Function.update_apply] <;> (first | assumption | grind)
  | @exit t h1 h2 =>
    have he := nodup_erase_mem i3 t
    have hn : (s.list.erase t).Nodup := i3.erase t
    constructor <;> simp only [Function.update_apply, he] <;> (first | assumption | grind)
  | @gDefault t off v filler h1 =>
    constructor <;> simp only [Function.update_apply] <;> (first | assumption | grind)
  | @gCopy t off v u rest a filler h1 h2 =>
    constructor <;> simp only [Function.update_apply] <;> (first | assumption | grind)
  | @gPublish t off v u rest a h1 =>
    have := y2 t u (by simp [h1])
    constructor <;> simp only [Function.update_apply] <;> (first | assumption | grind)
  | _ =>
    constructor <;> simp only [Function.update_apply] <;> (first | assumption | grind)

/-- The sizes of the vectors and the offsets. -/
structure Size (s : State T V) : Prop where
  pos : 1 ≤ (s.heap s.default).size
  offSmall : ∀ g, small (s.pc g) → (s.heap s.default).size + 3 = s.offset
  offLarge : (∀ g, ¬ small (s.pc g)) → s.offset ≤ (s.heap s.default).size + 2
  hoff : ∀ o, o ∈ s.handles → o < s.offset
  offTaken : ∀ g off, taken (s.pc g) = some off → off < s.offset ∧ off ∉ s.handles
  takenSmall : ∀ g off, taken (s.pc g) = some off → small (s.pc g) → off + 1 = s.offset
  dflt : ∀ o, o ∈ s.handles → o < (s.heap s.default).size + 2
  vec : ∀ t a o, s.teb t = some a → o ∈ s.handles → o < (s.heap a).size + 2
  le : ∀ t a, s.teb t = some a → (s.heap a).size ≤ (s.heap s.default).size
  eq : ∀ t a, s.teb t = some a → (∀ g, t ∉ pend (s.pc g)) → (s.heap a).size = (s.heap s.default).size
  priv : ∀ g off v u rest n, s.pc g = .gPublish off v u rest n →
    (s.heap n).size = (s.heap s.default).size
  tgt : ∀ t o, target (s.pc t) = some o → o ∈ s.handles
  reader : ∀ t off a, s.pc t = .rRead off a → off < (s.heap a).size + 2


theorem size_init {s : State T V} (h : init T V s) : Size s := by
  obtain ⟨h1, h2, h3, h4, h5, h6, h7, h8, h9⟩ := h
  constructor <;> simp_all

theorem small_holding {p : PC T V} (h : small p) : holding p := by
  cases p <;> simp_all

theorem pend_holding {p : PC T V} {t : T} (h : t ∈ pend p) : holding p := by
  cases p <;> simp_all

theorem taken_holding {p : PC T V} {o : Nat} (h : taken p = some o) : holding p := by
  cases p <;> simp_all

/-- Steps that change no vector's size. -/
theorem size_frame {s s' : State T V} (hi : Size s) (h1 : s'.offset = s.offset)
    (h2 : s'.handles = s.handles) (h3 : s'.teb = s.teb) (h4 : s'.default = s.default)
    (h5 : ∀ a, (s'.heap a).size = (s.heap a).size)
    (h : ∀ u, (small (s'.pc u) ↔ small (s.pc u)) ∧ taken (s'.pc u) = taken (s.pc u) ∧
      pend (s'.pc u) = pend (s.pc u) ∧
      (∀ o, target (s'.pc u) = some o → target (s.pc u) = some o ∨ o ∈ s.handles) ∧
      (∀ off v w rest n, s'.pc u = .gPublish off v w rest n → s.pc u = .gPublish off v w rest n) ∧
      ∀ off a, s'.pc u = .rRead off a → off < (s.heap a).size + 2) : Size s' := by
  obtain ⟨i1, i2, i3, i4, i5, i6, i7, i8, i9, i10, i11, i12, i13⟩ := hi
  constructor
  · rw [h5, h4]; exact i1
  · intro g hg; rw [h5, h4, h1]; exact i2 g ((h g).1.mp hg)
  · intro hg; rw [h5, h4, h1]; exact i3 (fun g hg' => hg g ((h g).1.mpr hg'))
  · rw [h1, h2]; exact i4
  · intro g off hg; rw [h1, h2]; exact i5 g off ((h g).2.1 ▸ hg)
  · intro g off hg hs; rw [h1]; exact i6 g off ((h g).2.1 ▸ hg) ((h g).1.mp hs)
  · rw [h2, h4, h5]; exact i7
  · rw [h2, h3]; intro t a o; rw [h5]; exact i8 t a o
  · rw [h3, h4]; intro t a; rw [h5, h5]; exact i9 t a
  · rw [h3, h4]; intro t a; rw [h5, h5]; intro ht hp; exact i10 t a ht (fun g => (h g).2.2.1 ▸ hp g)
  · rw [h4]; intro g off v u rest n hg; rw [h5, h5]; exact i11 g off v u rest n ((h g).2.2.2.2.1 _ _ _ _ _ hg)
  · intro t o ht; rw [h2]; exact ((h t).2.2.2.1 o ht).elim (i12 t o) id
  · intro t off a ht; rw [h5]; exact (h t).2.2.2.2.2 off a ht

set_option maxHeartbeats 4000000 in
theorem size_step {s s' : State T V}
    {e : Option (Event T V)} (hy : Sync s) (hm : Mem s) (hi : Size s) (st : Step false s e s') :
    Size s' := by
  have hframe := fun (s' : State T V) => size_frame (s' := s') hi
  obtain ⟨y1, y2, y3, -⟩ := hy
  obtain ⟨m1, m2, m3, m4, m5, m6, m7, m8, m9, m10, m11⟩ := hm
  obtain ⟨i1, i2, i3, i4, i5, i6, i7, i8, i9, i10, i11, i12, i13⟩ := hi
  have ls : ∀ g, small (s.pc g) → s.lock = some g := fun g h => y1 g (small_holding h)
  have lt : ∀ g o, taken (s.pc g) = some o → s.lock = some g := fun g o h => y1 g (taken_holding h)
  have lp : ∀ g t, t ∈ pend (s.pc g) → s.lock = some g := fun g t h => y1 g (pend_holding h)
  clear y2 y3
  cases st with
  | start | exit | aOffset | aGrow | gDefault | aUnlock | gPublish =>
    clear hframe
    constructor <;> simp only [Function.update_apply, Vec.copyTo] <;> (first | assumption | grind)
  | @gCopy t off v u rest a filler h1 h2 =>
    have hp : ∀ w, (∀ g, w ∉ pend (if g = t then PC.gPublish off v u rest s.next else s.pc g)) →
        ∀ g, w ∉ pend (s.pc g) := by
      intro w hw g
      have := hw g
      by_cases hg : g = t
      · subst hg; rw [h1]; simpa using this
      · simpa [hg] using this
    clear hframe
    constructor <;> simp only [Function.update_apply, Vec.copyTo]
    case eq =>
      intro w b hb hw
      have := i10 w b hb (hp w hw)
      have := m6 w b hb
      grind
    all_goals first | assumption | grind
  | _ =>
    refine hframe _ rfl rfl rfl rfl ?_ ?_
    · intro a; first | rfl | (simp only [Function.update_apply]; grind)
    · intro x
      clear hframe
      simp only [Function.update_apply]
      grind

end Verif.Threads.Tlv
