import Verif.Conc.Spec
import Mathlib.Data.List.Nodup

/-! # Helper lemmas for concurrent tables: orders of calls -/

namespace Verif.Conc

open Verif.Table (World mapPut mapRemove)

variable {K V : Type} {eq : K → K → Bool}

/-- The map after some calls. -/
def after (eq : K → K → Bool) (m : K → Option V) : List (Entry K V) → (K → Option V)
  | [] => m
  | e :: r => after eq (perform eq m e.op).1 r

theorem after_append (m : K → Option V) (A B : List (Entry K V)) :
    after eq m (A ++ B) = after eq (after eq m A) B := by
  induction A generalizing m with
  | nil => rfl
  | cons e A ih => exact ih _

theorem legal_append (m : K → Option V) (A B : List (Entry K V)) :
    Legal eq m (A ++ B) ↔ Legal eq m A ∧ Legal eq (after eq m A) B := by
  induction A generalizing m with
  | nil => simp [Legal, after]
  | cons e A ih =>
    simp only [List.cons_append, Legal, after, ih]
    constructor
    · rintro ⟨a, b, c⟩; exact ⟨⟨a, b⟩, c⟩
    · rintro ⟨⟨a, b⟩, c⟩; exact ⟨a, b, c⟩

/-- The map when all calls so far have been made on an empty one. -/
def now (eq : K → K → Bool) (S : List (Entry K V)) : K → Option V := after eq (fun _ => none) S

theorem now_append (A B : List (Entry K V)) : now eq (A ++ B) = after eq (now eq A) B :=
  after_append _ _ _

/-! ### maps that do not distinguish equal keys -/

/-- Equal keys have the same value. -/
def Respects (eq : K → K → Bool) (m : K → Option V) : Prop := ∀ a b, eq a b = true → m a = m b

theorem perform_respects {W : World K} (hW : W.Lawful) {m : K → Option V} (h : Respects W.eq m)
    (op : Op K V) : Respects W.eq (perform W.eq m op).1 := by
  have hput : ∀ k v, Respects W.eq (mapPut W.eq m k v) := by
    intro k v a b hab
    unfold mapPut
    have : W.eq a k = W.eq b k := by
      rw [Bool.eq_iff_iff]
      exact ⟨hW.trans _ _ _ (hW.symm _ _ hab), hW.trans _ _ _ hab⟩
    rw [this, h a b hab]
  have hrem : ∀ k, Respects W.eq (mapRemove W.eq m k) := by
    intro k a b hab
    unfold mapRemove
    have : W.eq a k = W.eq b k := by
      rw [Bool.eq_iff_iff]
      exact ⟨hW.trans _ _ _ (hW.symm _ _ hab), hW.trans _ _ _ hab⟩
    rw [this, h a b hab]
  cases op with
  | removeAll => intro a b _; rfl
  | on kind k =>
    cases kind with
    | get => exact h
    | put v => exact hput k v
    | remove => exact hrem k
    | intern v =>
      simp only [perform]
      cases m k with
      | some v' => exact h
      | none => exact hput k v
    | symbol v =>
      simp only [perform]
      cases m k with
      | some v' => exact h
      | none => exact hput k v

theorem after_respects {W : World K} (hW : W.Lawful) (S : List (Entry K V)) :
    ∀ {m : K → Option V}, Respects W.eq m → Respects W.eq (after W.eq m S) := by
  induction S with
  | nil => intro m h; exact h
  | cons e S ih => intro m h; exact ih (perform_respects hW h e.op)

theorem now_respects {W : World K} (hW : W.Lawful) (S : List (Entry K V)) :
    Respects W.eq (now W.eq S) := after_respects hW S (fun _ _ _ => rfl)

/-! ### histories -/

/-- The call has returned. -/
def Returned (H : List (Event K V)) (id : Nat) : Prop := ∃ out, Event.ret id out ∈ H

theorem Precedes.returned {H : List (Event K V)} {a b : Nat} (h : Precedes H a b) :
    Returned H a := by
  obtain ⟨l, e, op, out, rfl, h⟩ := h
  exact ⟨out, by simp [h]⟩

theorem Precedes.called {H : List (Event K V)} {a b : Nat} (h : Precedes H a b) :
    ∃ op, Event.call b op ∈ H := by
  obtain ⟨l, e, op, out, rfl, h⟩ := h
  exact ⟨op, by simp⟩

theorem precedes_ret {H : List (Event K V)} {a b id : Nat} {out : Out V} :
    Precedes (.ret id out :: H) a b ↔ Precedes H a b := by
  constructor
  · rintro ⟨l, e, op, o, h1, h2⟩
    cases l with
    | nil => cases h1
    | cons x l =>
      simp only [List.cons_append, List.cons.injEq] at h1
      exact ⟨l, e, op, o, h1.2, h2⟩
  · rintro ⟨l, e, op, o, rfl, h2⟩
    exact ⟨.ret id out :: l, e, op, o, rfl, h2⟩

theorem precedes_call {H : List (Event K V)} {a b id : Nat} {op : Op K V} (hb : b ≠ id) :
    Precedes (.call id op :: H) a b ↔ Precedes H a b := by
  constructor
  · rintro ⟨l, e, op', o, h1, h2⟩
    cases l with
    | nil => simp only [List.nil_append, List.cons.injEq, Event.call.injEq] at h1; exact absurd h1.1.1.symm hb
    | cons x l =>
      simp only [List.cons_append, List.cons.injEq] at h1
      exact ⟨l, e, op', o, h1.2, h2⟩
  · rintro ⟨l, e, op', o, rfl, h2⟩
    exact ⟨.call id op :: l, e, op', o, rfl, h2⟩

/-- None of the calls returned before call `id` started. -/
def Fresh (H : List (Event K V)) (id : Nat) (B : List (Entry K V)) : Prop :=
  ∀ e ∈ B, ¬ Precedes H e.id id

/-- At some moment during call `id` the map was as described. -/
def At (eq : K → K → Bool) (H : List (Event K V)) (S : List (Entry K V)) (id : Nat)
    (P : (K → Option V) → Prop) : Prop :=
  ∃ A B, S = A ++ B ∧ P (now eq A) ∧ Fresh H id B

theorem At.here {H : List (Event K V)} {S : List (Entry K V)} {id : Nat}
    {P : (K → Option V) → Prop} (h : P (now eq S)) : At eq H S id P :=
  ⟨S, [], by simp, h, by intro e he; cases he⟩

/-! ### how the order grows -/

/-- The order `S'` comes from `S` by adding nothing, or call `id` at some place.  Only what was
    removed by call `r0` may have changed before its removal. -/
structure Grow (eq : K → K → Bool) (S S' : List (Entry K V)) (id : Nat) (r0 : Option Nat) : Prop where
  old : ∀ x ∈ S, x ∈ S'
  new : ∀ x ∈ S', x ∈ S ∨ x.id = id
  split : ∀ A B, S = A ++ B → ∃ A' B', S' = A' ++ B' ∧ now eq A' = now eq A ∧
    ∀ x ∈ B', x ∈ B ∨ x.id = id
  splitR : ∀ A r B, S = A ++ r :: B → ∃ A' B', S' = A' ++ r :: B' ∧
    (some r.id ≠ r0 → now eq A' = now eq A) ∧ ∀ x ∈ B', x ∈ B ∨ x.id = id

theorem Grow.refl (S : List (Entry K V)) (id : Nat) (r0 : Option Nat) : Grow eq S S id r0 :=
  ⟨fun _ h => h, fun _ h => Or.inl h, fun A B h => ⟨A, B, h, rfl, fun _ h => Or.inl h⟩,
    fun A r B h => ⟨A, B, h, fun _ => rfl, fun _ h => Or.inl h⟩⟩

theorem Grow.append (S : List (Entry K V)) (e : Entry K V) (r0 : Option Nat) :
    Grow eq S (S ++ [e]) e.id r0 := by
  refine ⟨fun x h => by simp [h], fun x h => ?_, ?_, ?_⟩
  · rcases List.mem_append.1 h with h | h
    · exact Or.inl h
    · rw [List.mem_singleton.1 h]; exact Or.inr rfl
  · rintro A B rfl
    refine ⟨A, B ++ [e], by simp, rfl, fun x h => ?_⟩
    rcases List.mem_append.1 h with h | h
    · exact Or.inl h
    · rw [List.mem_singleton.1 h]; exact Or.inr rfl
  · rintro A r B rfl
    refine ⟨A, B ++ [e], by simp, fun _ => rfl, fun x h => ?_⟩
    rcases List.mem_append.1 h with h | h
    · exact Or.inl h
    · rw [List.mem_singleton.1 h]; exact Or.inr rfl

/-- Insertion of a call that does not change the map there. -/
theorem Grow.insert {A B : List (Entry K V)} {e : Entry K V} (r0 : Option Nat)
    (h : (perform eq (now eq A) e.op).1 = now eq A) : Grow eq (A ++ B) (A ++ e :: B) e.id r0 := by
  have hnow : ∀ C, now eq (A ++ e :: C) = now eq (A ++ C) := by
    intro C
    rw [now_append, now_append]
    simp only [after, h]
  refine ⟨fun x hx => ?_, fun x hx => ?_, ?_, ?_⟩
  · simp only [List.mem_append, List.mem_cons] at hx ⊢
    rcases hx with hx | hx <;> simp [hx]
  · simp only [List.mem_append, List.mem_cons] at hx ⊢
    rcases hx with hx | rfl | hx
    · exact Or.inl (Or.inl hx)
    · exact Or.inr rfl
    · exact Or.inl (Or.inr hx)
  · intro C D hCD
    rcases List.append_eq_append_iff.1 hCD with ⟨X, rfl, rfl⟩ | ⟨X, rfl, rfl⟩
    · exact ⟨A ++ e :: X, D, by simp, hnow X, fun x h => Or.inl h⟩
    · refine ⟨C, X ++ e :: B, by simp, rfl, fun x hx => ?_⟩
      simp only [List.mem_append, List.mem_cons] at hx ⊢
      rcases hx with hx | rfl | hx
      · exact Or.inl (Or.inl hx)
      · exact Or.inr rfl
      · exact Or.inl (Or.inr hx)
  · intro C r D hCD
    rcases List.append_eq_append_iff.1 hCD with ⟨X, rfl, rfl⟩ | ⟨X, rfl, h2⟩
    · exact ⟨A ++ e :: X, D, by simp, fun _ => hnow X, fun x h => Or.inl h⟩
    · cases X with
      | nil =>
        simp only [List.nil_append] at h2
        subst h2
        exact ⟨C ++ [e], D, by simp, fun _ => by
          have := hnow []
          simpa using this, fun x h => Or.inl h⟩
      | cons y X =>
        simp only [List.cons_append, List.cons.injEq] at h2
        obtain ⟨rfl, rfl⟩ := h2
        refine ⟨C, X ++ e :: B, by simp, fun _ => rfl, fun x hx => ?_⟩
        simp only [List.mem_append, List.mem_cons] at hx ⊢
        rcases hx with hx | rfl | hx
        · exact Or.inl (Or.inl hx)
        · exact Or.inr rfl
        · exact Or.inl (Or.inr hx)

theorem put_remove {W : World K} (hW : W.Lawful) (m : K → Option V) {k kr : K} (v : V)
    (h : W.eq k kr = true) : mapRemove W.eq (mapPut W.eq m k v) kr = mapRemove W.eq m kr := by
  funext a
  unfold mapRemove mapPut
  by_cases h1 : W.eq a kr = true
  · rw [if_pos h1, if_pos h1]
  · rw [if_neg h1, if_neg h1]
    have : W.eq a k ≠ true := fun h2 => h1 (hW.trans _ _ _ h2 h)
    rw [if_neg this]

/-- Insertion of a store right before the removal of its key. -/
theorem Grow.insertPut {W : World K} (hW : W.Lawful) {A B : List (Entry K V)} {e r : Entry K V} {k kr : K} {v : V}
    (he : e.op = .on (.put v) k) (hr : r.op = .on .remove kr) (hk : W.eq k kr = true) :
    Grow W.eq (A ++ r :: B) (A ++ e :: r :: B) e.id (some r.id) := by
  have hnow : ∀ C, now W.eq (A ++ e :: r :: C) = now W.eq (A ++ r :: C) := by
    intro C
    rw [now_append, now_append]
    simp only [after, he, hr, perform, put_remove hW _ v hk]
  refine ⟨fun x hx => ?_, fun x hx => ?_, ?_, ?_⟩
  · simp only [List.mem_append, List.mem_cons] at hx ⊢
    rcases hx with hx | hx | hx <;> simp [hx]
  · simp only [List.mem_append, List.mem_cons] at hx ⊢
    rcases hx with hx | rfl | hx | hx
    · exact Or.inl (Or.inl hx)
    · exact Or.inr rfl
    · exact Or.inl (Or.inr (Or.inl hx))
    · exact Or.inl (Or.inr (Or.inr hx))
  · intro C D hCD
    rcases List.append_eq_append_iff.1 hCD with ⟨X, rfl, h2⟩ | ⟨X, rfl, rfl⟩
    · cases X with
      | nil =>
        simp only [List.nil_append] at h2
        subst h2
        refine ⟨A, e :: r :: B, by simp, by simp, fun x hx => ?_⟩
        rcases List.mem_cons.1 hx with rfl | hx
        · exact Or.inr rfl
        · exact Or.inl hx
      | cons y X =>
        simp only [List.cons_append, List.cons.injEq] at h2
        obtain ⟨rfl, rfl⟩ := h2
        exact ⟨A ++ e :: r :: X, D, by simp, hnow X, fun x h => Or.inl h⟩
    · refine ⟨C, X ++ e :: r :: B, by simp, rfl, fun x hx => ?_⟩
      simp only [List.mem_append, List.mem_cons] at hx ⊢
      rcases hx with hx | rfl | hx | hx
      · exact Or.inl (Or.inl hx)
      · exact Or.inr rfl
      · exact Or.inl (Or.inr (Or.inl hx))
      · exact Or.inl (Or.inr (Or.inr hx))
  · intro C q D hCD
    rcases List.append_eq_append_iff.1 hCD with ⟨X, rfl, h2⟩ | ⟨X, rfl, h2⟩
    · cases X with
      | nil =>
        simp only [List.nil_append, List.cons.injEq] at h2
        obtain ⟨rfl, rfl⟩ := h2
        exact ⟨A ++ [e], B, by simp, fun h => absurd rfl h, fun x h => Or.inl h⟩
      | cons y X =>
        simp only [List.cons_append, List.cons.injEq] at h2
        obtain ⟨rfl, rfl⟩ := h2
        exact ⟨A ++ e :: r :: X, D, by simp, fun _ => hnow X, fun x h => Or.inl h⟩
    · cases X with
      | nil =>
        simp only [List.nil_append, List.cons.injEq] at h2
        obtain ⟨rfl, rfl⟩ := h2
        exact ⟨C ++ [e], D, by simp, fun h => absurd rfl h, fun x h => Or.inl h⟩
      | cons y X =>
        simp only [List.cons_append, List.cons.injEq] at h2
        obtain ⟨rfl, rfl⟩ := h2
        refine ⟨C, X ++ e :: r :: B, by simp, fun _ => rfl, fun x hx => ?_⟩
        simp only [List.mem_append, List.mem_cons] at hx ⊢
        rcases hx with hx | rfl | hx | hx
        · exact Or.inl (Or.inl hx)
        · exact Or.inr rfl
        · exact Or.inl (Or.inr (Or.inl hx))
        · exact Or.inl (Or.inr (Or.inr hx))

theorem Fresh.grow {H : List (Event K V)} {B B' : List (Entry K V)} {id id' : Nat}
    (h : Fresh H id B) (hid : ¬ Returned H id') (hB : ∀ x ∈ B', x ∈ B ∨ x.id = id') :
    Fresh H id B' := by
  intro x hx
  rcases hB x hx with h1 | h1
  · exact h x h1
  · rw [h1]; exact fun h2 => hid h2.returned

theorem At.grow {H : List (Event K V)} {S S' : List (Entry K V)} {id id' : Nat} {r0 : Option Nat}
    {P : (K → Option V) → Prop} (h : At eq H S id P) (hg : Grow eq S S' id' r0)
    (hid : ¬ Returned H id') : At eq H S' id P := by
  obtain ⟨A, B, h1, h2, h3⟩ := h
  obtain ⟨A', B', g1, g2, g3⟩ := hg.split A B h1
  exact ⟨A', B', g1, by rw [g2]; exact h2, h3.grow hid g3⟩

/-! ### the order that explains a history -/

/-- The order is one that shows the history to be linearizable. -/
structure Explains (eq : K → K → Bool) (H : List (Event K V)) (S : List (Entry K V)) : Prop where
  nodup : (S.map Entry.id).Nodup
  called : ∀ e ∈ S, Event.call e.id e.op ∈ H
  result : ∀ e ∈ S, ∀ out, Event.ret e.id out ∈ H → out = e.out
  all : ∀ id out, Event.ret id out ∈ H → out ≠ .tooLarge → ∃ e ∈ S, e.id = id
  order : S.Pairwise (fun a b => ¬ Precedes H b.id a.id)
  legal : Legal eq (fun _ => none) S

theorem Explains.linearizable {H : List (Event K V)} {S : List (Entry K V)}
    (h : Explains eq H S) : Linearizable eq H :=
  ⟨S, h.nodup, h.called, h.result, h.all, h.order, h.legal⟩

/-- Add a call in progress at a place after which no call had returned when it started. -/
theorem Explains.insert {H : List (Event K V)} {A B : List (Entry K V)} {e : Entry K V}
    (h : Explains eq H (A ++ B)) (hn : ∀ x ∈ A ++ B, x.id ≠ e.id) (hc : Event.call e.id e.op ∈ H)
    (hr : ¬ Returned H e.id) (hf : Fresh H e.id B)
    (hl : Legal eq (now eq A) (e :: B)) : Explains eq H (A ++ e :: B) := by
  refine ⟨?_, ?_, ?_, ?_, ?_, ?_⟩
  · have h1 := h.nodup
    have h2 : (A ++ e :: B).Perm (e :: (A ++ B)) := List.perm_middle
    rw [(h2.map Entry.id).nodup_iff]
    simp only [List.map_cons, List.nodup_cons]
    refine ⟨?_, h1⟩
    intro hm
    obtain ⟨x, h3, h4⟩ := List.mem_map.1 hm
    exact hn x h3 h4
  · intro x hx
    simp only [List.mem_append, List.mem_cons] at hx
    rcases hx with hx | rfl | hx
    · exact h.called x (by simp [hx])
    · exact hc
    · exact h.called x (by simp [hx])
  · intro x hx out ho
    simp only [List.mem_append, List.mem_cons] at hx
    rcases hx with hx | rfl | hx
    · exact h.result x (by simp [hx]) out ho
    · exact absurd ⟨out, ho⟩ hr
    · exact h.result x (by simp [hx]) out ho
  · intro id out h1 h2
    obtain ⟨x, h3, h4⟩ := h.all id out h1 h2
    refine ⟨x, ?_, h4⟩
    simp only [List.mem_append, List.mem_cons] at h3 ⊢
    rcases h3 with h3 | h3 <;> simp [h3]
  · have h1 := h.order
    rw [List.pairwise_append] at h1 ⊢
    obtain ⟨h2, h3, h4⟩ := h1
    refine ⟨h2, List.pairwise_cons.2 ⟨fun b hb => hf b hb, h3⟩, ?_⟩
    intro a ha b hb
    rcases List.mem_cons.1 hb with rfl | hb
    · exact fun h5 => hr h5.returned
    · exact h4 a ha b hb
  · have h1 := h.legal
    rw [legal_append] at h1 ⊢
    exact ⟨h1.1, hl⟩

theorem Explains.append {H : List (Event K V)} {S : List (Entry K V)} {e : Entry K V}
    (h : Explains eq H S) (hn : ∀ x ∈ S, x.id ≠ e.id) (hc : Event.call e.id e.op ∈ H)
    (hr : ¬ Returned H e.id) (hl : (perform eq (now eq S) e.op).2 = e.out) :
    Explains eq H (S ++ [e]) := by
  refine Explains.insert (B := []) (by simpa using h) (by simpa using hn) hc hr ?_ ?_
  · intro x hx; cases hx
  · exact ⟨hl, trivial⟩

theorem Explains.legal_from {H : List (Event K V)} {A B : List (Entry K V)}
    (h : Explains eq H (A ++ B)) : Legal eq (now eq A) B := by
  have := h.legal
  rw [legal_append] at this
  exact this.2

theorem Explains.unique {H : List (Event K V)} {A A' B B' : List (Entry K V)} {r r' : Entry K V}
    {S : List (Entry K V)} (h : Explains eq H S) (h1 : S = A ++ r :: B) (h2 : S = A' ++ r' :: B')
    (hid : r.id = r'.id) : A = A' ∧ r = r' ∧ B = B' := by
  subst h1
  have hd := h.nodup
  rcases List.append_eq_append_iff.1 h2 with ⟨X, rfl, h3⟩ | ⟨X, rfl, h3⟩
  · cases X with
    | nil => simp only [List.nil_append, List.cons.injEq] at h3; exact ⟨by simp, h3.1, h3.2⟩
    | cons y X =>
      exfalso
      simp only [List.cons_append, List.cons.injEq] at h3
      obtain ⟨rfl, rfl⟩ := h3
      simp [hid] at hd
      rw [List.nodup_append] at hd
      have := (List.nodup_cons.1 hd.2.1).1
      simp at this
  · cases X with
    | nil => simp only [List.nil_append, List.cons.injEq] at h3; exact ⟨by simp, h3.1.symm, h3.2.symm⟩
    | cons y X =>
      exfalso
      simp only [List.cons_append, List.cons.injEq] at h3
      obtain ⟨rfl, rfl⟩ := h3
      simp [hid] at hd
      rw [List.nodup_append] at hd
      have := (List.nodup_cons.1 hd.2.1).1
      simp at this

/-- A call starts. -/
theorem Explains.call {H : List (Event K V)} {S : List (Entry K V)} {id : Nat} {op : Op K V}
    (h : Explains eq H S) (hn : ∀ x ∈ S, x.id ≠ id) : Explains eq (.call id op :: H) S := by
  refine ⟨h.nodup, fun e he => by simp [h.called e he], ?_, ?_, ?_, h.legal⟩
  · intro e he out ho
    simp only [List.mem_cons, reduceCtorEq, false_or] at ho
    exact h.result e he out ho
  · intro i out ho hne
    simp only [List.mem_cons, reduceCtorEq, false_or] at ho
    exact h.all i out ho hne
  · apply h.order.imp_of_mem
    intro a b ha hb hp
    rw [precedes_call (hn a ha)]
    exact hp

/-- A call returns. -/
theorem Explains.ret {H : List (Event K V)} {S : List (Entry K V)} {id : Nat} {out : Out V}
    (h : Explains eq H S)
    (hx : (out = .tooLarge ∧ ∀ x ∈ S, x.id ≠ id) ∨ ∃ e ∈ S, e.id = id ∧ e.out = out) :
    Explains eq (.ret id out :: H) S := by
  refine ⟨h.nodup, fun e he => by simp [h.called e he], ?_, ?_, ?_, h.legal⟩
  · intro e he o ho
    rcases List.mem_cons.1 ho with h1 | h1
    · simp only [Event.ret.injEq] at h1
      obtain ⟨h2, rfl⟩ := h1
      rcases hx with ⟨_, h3⟩ | ⟨e', h3, h4, h5⟩
      · exact absurd h2 (h3 e he)
      · have : e' = e := by
          have hd := h.nodup
          exact List.inj_on_of_nodup_map hd h3 he (by rw [h4, h2])
        rw [← this, h5]
    · exact h.result e he o h1
  · intro i o ho hne
    rcases List.mem_cons.1 ho with h1 | h1
    · simp only [Event.ret.injEq] at h1
      obtain ⟨rfl, rfl⟩ := h1
      rcases hx with ⟨h3, _⟩ | ⟨e', h3, h4, h5⟩
      · exact absurd h3 hne
      · exact ⟨e', h3, h4⟩
    · exact h.all i o h1 hne
  · apply h.order.imp
    intro a b hp
    rw [precedes_ret]
    exact hp

end Verif.Conc
