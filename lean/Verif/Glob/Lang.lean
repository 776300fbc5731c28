import Verif.Glob.Spec

/-!
# The strings of a regular expression, and its positions
-/

namespace Verif.Glob

/-- A position takes a symbol; `none` is the end. -/
def acc (p : Pos) (x : Option Nat) : Prop :=
  match p.kind with
  | .sym c => x = some c
  | .set cs => ∃ c ∈ cs, x = some c
  | .accept => x = none

/-- The strings of a regular expression. -/
def Lang : Re → List (Option Nat) → Prop
  | .eps, w => w = []
  | .leaf p, w => ∃ x, w = [x] ∧ acc p x
  | .union a b, w => Lang a w ∨ Lang b w
  | .cat a b, w => ∃ u v, w = u ++ v ∧ Lang a u ∧ Lang b v
  | .star a, w => ∃ ws : List (List (Option Nat)), (∀ u ∈ ws, Lang a u) ∧ w = ws.flatten

/-- The positions. -/
def Re.positions : Re → List Pos
  | .eps => []
  | .leaf p => [p]
  | .union a b => a.positions ++ b.positions
  | .cat a b => a.positions ++ b.positions
  | .star a => a.positions

/-- What may follow a position. -/
def fol : Re → Pos → Pos → Prop
  | .eps, _, _ => False
  | .leaf _, _, _ => False
  | .union a b, p, q => fol a p q ∨ fol b p q
  | .cat a b, p, q => fol a p q ∨ fol b p q ∨ (p ∈ a.last ∧ q ∈ b.first)
  | .star a, p, q => fol a p q ∨ (p ∈ a.last ∧ q ∈ a.first)

/-- The rests of strings after a position. -/
def Cont : Re → Pos → List (Option Nat) → Prop
  | .eps, _, _ => False
  | .leaf p, q, w => q = p ∧ w = []
  | .union a b, p, w => Cont a p w ∨ Cont b p w
  | .cat a b, p, w => (∃ u v, w = u ++ v ∧ Cont a p u ∧ Lang b v) ∨ Cont b p w
  | .star a, p, w => ∃ u v, w = u ++ v ∧ Cont a p u ∧ Lang (.star a) v

theorem first_sub : ∀ (r : Re) {p : Pos}, p ∈ r.first → p ∈ r.positions
  | .eps, p, h => h
  | .leaf _, p, h => h
  | .union a b, p, h => by
    simp only [Re.first, Re.positions, List.mem_append] at h ⊢
    exact h.imp (first_sub a) (first_sub b)
  | .cat a b, p, h => by
    simp only [Re.first, Re.positions, List.mem_append] at h ⊢
    split at h
    · rw [List.mem_append] at h
      exact h.imp (first_sub a) (first_sub b)
    · exact .inl (first_sub a h)
  | .star a, p, h => first_sub a (p := p) h

theorem last_sub : ∀ (r : Re) {p : Pos}, p ∈ r.last → p ∈ r.positions
  | .eps, p, h => h
  | .leaf _, p, h => h
  | .union a b, p, h => by
    simp only [Re.last, Re.positions, List.mem_append] at h ⊢
    exact h.imp (last_sub a) (last_sub b)
  | .cat a b, p, h => by
    simp only [Re.last, Re.positions, List.mem_append] at h ⊢
    split at h
    · rw [List.mem_append] at h
      exact h.imp (last_sub a) (last_sub b)
    · exact .inr (last_sub b h)
  | .star a, p, h => last_sub a (p := p) h

theorem fol_sub : ∀ (r : Re) {p q : Pos}, fol r p q → p ∈ r.positions ∧ q ∈ r.positions
  | .eps, _, _, h => h.elim
  | .leaf _, _, _, h => h.elim
  | .union a b, p, q, h => by
    simp only [Re.positions, List.mem_append]
    rcases h with h | h
    · exact ⟨.inl (fol_sub a h).1, .inl (fol_sub a h).2⟩
    · exact ⟨.inr (fol_sub b h).1, .inr (fol_sub b h).2⟩
  | .cat a b, p, q, h => by
    simp only [Re.positions, List.mem_append]
    rcases h with h | h | h
    · exact ⟨.inl (fol_sub a h).1, .inl (fol_sub a h).2⟩
    · exact ⟨.inr (fol_sub b h).1, .inr (fol_sub b h).2⟩
    · exact ⟨.inl (last_sub a h.1), .inr (first_sub b h.2)⟩
  | .star a, p, q, h => by
    rcases h with h | h
    · exact fol_sub a h
    · exact ⟨last_sub a h.1, first_sub a h.2⟩

theorem cont_sub : ∀ (r : Re) {p : Pos} {w : List (Option Nat)}, Cont r p w → p ∈ r.positions
  | .eps, _, _, h => h.elim
  | .leaf _, _, _, h => by
    rw [h.1]
    exact List.mem_singleton.2 rfl
  | .union a b, p, w, h => by
    simp only [Re.positions, List.mem_append]
    exact h.imp (cont_sub a) (cont_sub b)
  | .cat a b, p, w, h => by
    simp only [Re.positions, List.mem_append]
    rcases h with ⟨_, _, _, h, _⟩ | h
    · exact .inl (cont_sub a h)
    · exact .inr (cont_sub b h)
  | .star a, p, w, h => by
    obtain ⟨_, _, _, h, _⟩ := h
    exact cont_sub a h

/-- A string begins with a position of a set. -/
def Begins (r : Re) (S : Pos → Prop) (w : List (Option Nat)) : Prop :=
  ∃ p, S p ∧ ∃ x v, w = x :: v ∧ acc p x ∧ Cont r p v

theorem parts {a b : Re} (h : (a.positions ++ b.positions).Nodup) : a.positions.Nodup ∧ b.positions.Nodup ∧
    ∀ p, p ∈ a.positions → p ∈ b.positions → False := by
  rw [List.nodup_append] at h
  exact ⟨h.1, h.2.1, fun p h1 h2 => h.2.2 p h1 p h2 rfl⟩

theorem star_nil (a : Re) : Lang (.star a) [] := ⟨[], by simp, rfl⟩

theorem star_cons {a : Re} {u v : List (Option Nat)} (h1 : Lang a u) (h2 : Lang (.star a) v) : Lang (.star a) (u ++ v) := by
  obtain ⟨ws, h, rfl⟩ := h2
  refine ⟨u :: ws, ?_, rfl⟩
  intro x hx
  rcases List.mem_cons.1 hx with rfl | hx
  · exact h1
  · exact h x hx

theorem star_inv {a : Re} {x : Option Nat} {w : List (Option Nat)} (h : Lang (.star a) (x :: w)) :
    ∃ u v, w = u ++ v ∧ Lang a (x :: u) ∧ Lang (.star a) v := by
  obtain ⟨ws, h, hw⟩ := h
  induction ws with
  | nil => exact absurd hw (by simp)
  | cons y ws ih =>
    cases y with
    | nil =>
      rw [List.flatten_cons, List.nil_append] at hw
      exact ih (fun u hu => h u (by simp [hu])) hw
    | cons y l =>
      rw [List.flatten_cons, List.cons_append, List.cons.injEq] at hw
      obtain ⟨rfl, rfl⟩ := hw
      exact ⟨l, ws.flatten, rfl, h _ (by simp), ws, fun u hu => h u (by simp [hu]), rfl⟩

theorem lang_eq : ∀ (r : Re), r.positions.Nodup → ∀ (w : List (Option Nat)),
    Lang r w ↔ (w = [] ∧ r.nullable = true) ∨ Begins r (· ∈ r.first) w
  | .eps, _, w => by
    simp [Lang, Re.nullable, Re.first, Begins]
  | .leaf p, _, w => by
    simp only [Lang, Re.nullable, Re.first, Begins, Cont]
    constructor
    · rintro ⟨x, rfl, h⟩
      exact .inr ⟨p, List.mem_singleton.2 rfl, x, [], rfl, h, rfl, rfl⟩
    · rintro (h | ⟨q, _, x, v, rfl, h, rfl, rfl⟩)
      · exact absurd h.2 (by simp)
      · exact ⟨x, rfl, h⟩
  | .union a b, hd, w => by
    obtain ⟨da, db, dd⟩ := parts hd
    simp only [Lang, Re.nullable, Bool.or_eq_true]
    rw [lang_eq a da w, lang_eq b db w]
    constructor
    · rintro ((h | ⟨p, hp, x, v, hw, h1, h2⟩) | (h | ⟨p, hp, x, v, hw, h1, h2⟩))
      · exact .inl ⟨h.1, .inl h.2⟩
      · exact .inr ⟨p, List.mem_append_left _ hp, x, v, hw, h1, .inl h2⟩
      · exact .inl ⟨h.1, .inr h.2⟩
      · exact .inr ⟨p, List.mem_append_right _ hp, x, v, hw, h1, .inr h2⟩
    · rintro (⟨h1, h2 | h2⟩ | ⟨p, hp, x, v, hw, h1, h2⟩)
      · exact .inl (.inl ⟨h1, h2⟩)
      · exact .inr (.inl ⟨h1, h2⟩)
      · rcases List.mem_append.1 hp with hp | hp
        · rcases h2 with h2 | h2
          · exact .inl (.inr ⟨p, hp, x, v, hw, h1, h2⟩)
          · exact (dd p (first_sub a hp) (cont_sub b h2)).elim
        · rcases h2 with h2 | h2
          · exact (dd p (cont_sub a h2) (first_sub b hp)).elim
          · exact .inr (.inr ⟨p, hp, x, v, hw, h1, h2⟩)
  | .cat a b, hd, w => by
    obtain ⟨da, db, dd⟩ := parts hd
    simp only [Lang, Re.nullable, Bool.and_eq_true]
    constructor
    · rintro ⟨u, v, rfl, h1, h2⟩
      rcases (lang_eq a da u).1 h1 with ⟨rfl, ha⟩ | ⟨p, hp, x, t, rfl, h3, h4⟩
      · rcases (lang_eq b db v).1 h2 with ⟨rfl, hb⟩ | ⟨p, hp, x, t, rfl, h3, h4⟩
        · exact .inl ⟨rfl, ha, hb⟩
        · refine .inr ⟨p, ?_, x, t, rfl, h3, .inr h4⟩
          simp only [Re.first, ha, if_true, List.mem_append]
          exact .inr hp
      · refine .inr ⟨p, ?_, x, t ++ v, rfl, h3, .inl ⟨t, v, rfl, h4, h2⟩⟩
        simp only [Re.first]
        split
        · exact List.mem_append_left _ hp
        · exact hp
    · rintro (⟨rfl, ha, hb⟩ | ⟨p, hp, x, v, rfl, h1, h2⟩)
      · exact ⟨[], [], rfl, (lang_eq a da _).2 (.inl ⟨rfl, ha⟩), (lang_eq b db _).2 (.inl ⟨rfl, hb⟩)⟩
      · rcases h2 with ⟨u, t, rfl, h2, h3⟩ | h2
        · refine ⟨x :: u, t, rfl, (lang_eq a da _).2 (.inr ⟨p, ?_, x, u, rfl, h1, h2⟩), h3⟩
          simp only [Re.first] at hp
          split at hp
          · rcases List.mem_append.1 hp with hp | hp
            · exact hp
            · exact (dd p (cont_sub a h2) (first_sub b hp)).elim
          · exact hp
        · simp only [Re.first] at hp
          split at hp
          · next ha =>
            rcases List.mem_append.1 hp with hp | hp
            · exact (dd p (first_sub a hp) (cont_sub b h2)).elim
            · exact ⟨[], x :: v, rfl, (lang_eq a da _).2 (.inl ⟨rfl, ha⟩), (lang_eq b db _).2 (.inr ⟨p, hp, x, v, rfl, h1, h2⟩)⟩
          · exact (dd p (first_sub a hp) (cont_sub b h2)).elim
  | .star a, hd, w => by
    simp only [Re.nullable, and_true]
    constructor
    · intro h
      cases w with
      | nil => exact .inl rfl
      | cons x w =>
        obtain ⟨u, v, rfl, h1, h2⟩ := star_inv h
        rcases (lang_eq a hd _).1 h1 with ⟨h, _⟩ | ⟨p, hp, y, t, he, h3, h4⟩
        · exact absurd h (by simp)
        · rw [List.cons.injEq] at he
          obtain ⟨rfl, rfl⟩ := he
          exact .inr ⟨p, hp, x, u ++ v, rfl, h3, u, v, rfl, h4, h2⟩
    · rintro (rfl | ⟨p, hp, x, v, rfl, h1, u, t, rfl, h2, h3⟩)
      · exact star_nil a
      · exact star_cons (u := x :: u) ((lang_eq a hd _).2 (.inr ⟨p, hp, x, u, rfl, h1, h2⟩)) h3

theorem cont_eq : ∀ (r : Re), r.positions.Nodup → ∀ (p : Pos), p ∈ r.positions → ∀ (w : List (Option Nat)),
    Cont r p w ↔ (w = [] ∧ p ∈ r.last) ∨ Begins r (fol r p) w
  | .eps, _, p, hp, w => by
    exact absurd hp (by simp [Re.positions])
  | .leaf q, _, p, hp, w => by
    simp only [Re.positions, List.mem_singleton] at hp
    simp [Cont, Re.last, Begins, fol, hp]
  | .union a b, hd, p, hp, w => by
    obtain ⟨da, db, dd⟩ := parts hd
    simp only [Cont, Re.last, List.mem_append]
    simp only [Re.positions, List.mem_append] at hp
    rcases hp with hp | hp
    · have hb : ¬ Cont b p w := fun h => dd p hp (cont_sub b h)
      rw [or_iff_left hb, cont_eq a da p hp w]
      constructor
      · rintro (h | ⟨q, hq, x, v, hw, h1, h2⟩)
        · exact .inl ⟨h.1, .inl h.2⟩
        · exact .inr ⟨q, .inl hq, x, v, hw, h1, .inl h2⟩
      · rintro (⟨h1, h2 | h2⟩ | ⟨q, hq | hq, x, v, hw, h1, h2⟩)
        · exact .inl ⟨h1, h2⟩
        · exact (dd p hp (last_sub b h2)).elim
        · rcases h2 with h2 | h2
          · exact .inr ⟨q, hq, x, v, hw, h1, h2⟩
          · exact (dd q (fol_sub a hq).2 (cont_sub b h2)).elim
        · exact (dd p hp (fol_sub b hq).1).elim
    · have ha : ¬ Cont a p w := fun h => dd p (cont_sub a h) hp
      rw [or_iff_right ha, cont_eq b db p hp w]
      constructor
      · rintro (h | ⟨q, hq, x, v, hw, h1, h2⟩)
        · exact .inl ⟨h.1, .inr h.2⟩
        · exact .inr ⟨q, .inr hq, x, v, hw, h1, .inr h2⟩
      · rintro (⟨h1, h2 | h2⟩ | ⟨q, hq | hq, x, v, hw, h1, h2⟩)
        · exact (dd p (last_sub a h2) hp).elim
        · exact .inl ⟨h1, h2⟩
        · exact (dd p (fol_sub a hq).1 hp).elim
        · rcases h2 with h2 | h2
          · exact (dd q (cont_sub a h2) (fol_sub b hq).2).elim
          · exact .inr ⟨q, hq, x, v, hw, h1, h2⟩
  | .cat a b, hd, p, hp, w => by
    obtain ⟨da, db, dd⟩ := parts hd
    simp only [Re.positions, List.mem_append] at hp
    rcases hp with hp | hp
    · constructor
      · rintro (⟨u, v, rfl, h1, h2⟩ | h)
        · rcases (cont_eq a da p hp u).1 h1 with ⟨rfl, hl⟩ | ⟨q, hq, x, t, rfl, h3, h4⟩
          · rcases (lang_eq b db v).1 h2 with ⟨rfl, hb⟩ | ⟨q, hq, x, t, rfl, h3, h4⟩
            · refine .inl ⟨rfl, ?_⟩
              simp only [Re.last, hb, if_true, List.mem_append]
              exact .inl hl
            · exact .inr ⟨q, .inr (.inr ⟨hl, hq⟩), x, t, rfl, h3, .inr h4⟩
          · exact .inr ⟨q, .inl hq, x, t ++ v, rfl, h3, .inl ⟨t, v, rfl, h4, h2⟩⟩
        · exact (dd p hp (cont_sub b h)).elim
      · rintro (⟨rfl, hl⟩ | ⟨q, hq, x, v, rfl, h1, h2⟩)
        · simp only [Re.last] at hl
          split at hl
          · next hb =>
            rcases List.mem_append.1 hl with hl | hl
            · exact .inl ⟨[], [], rfl, (cont_eq a da p hp _).2 (.inl ⟨rfl, hl⟩), (lang_eq b db _).2 (.inl ⟨rfl, hb⟩)⟩
            · exact (dd p hp (last_sub b hl)).elim
          · exact (dd p hp (last_sub b hl)).elim
        · rcases hq with hq | hq | ⟨hl, hq⟩
          · rcases h2 with ⟨u, t, rfl, h2, h3⟩ | h2
            · exact .inl ⟨x :: u, t, rfl, (cont_eq a da p hp _).2 (.inr ⟨q, hq, x, u, rfl, h1, h2⟩), h3⟩
            · exact (dd q (fol_sub a hq).2 (cont_sub b h2)).elim
          · exact (dd p hp (fol_sub b hq).1).elim
          · rcases h2 with ⟨u, t, rfl, h2, h3⟩ | h2
            · exact (dd q (cont_sub a h2) (first_sub b hq)).elim
            · exact .inl ⟨[], x :: v, rfl, (cont_eq a da p hp _).2 (.inl ⟨rfl, hl⟩),
                (lang_eq b db _).2 (.inr ⟨q, hq, x, v, rfl, h1, h2⟩)⟩
    · constructor
      · rintro (⟨u, v, rfl, h1, h2⟩ | h)
        · exact (dd p (cont_sub a h1) hp).elim
        · rcases (cont_eq b db p hp w).1 h with ⟨rfl, hl⟩ | ⟨q, hq, x, t, rfl, h3, h4⟩
          · refine .inl ⟨rfl, ?_⟩
            simp only [Re.last]
            split
            · exact List.mem_append_right _ hl
            · exact hl
          · exact .inr ⟨q, .inr (.inl hq), x, t, rfl, h3, .inr h4⟩
      · rintro (⟨rfl, hl⟩ | ⟨q, hq, x, v, rfl, h1, h2⟩)
        · refine .inr ((cont_eq b db p hp _).2 (.inl ⟨rfl, ?_⟩))
          simp only [Re.last] at hl
          split at hl
          · rcases List.mem_append.1 hl with hl | hl
            · exact (dd p (last_sub a hl) hp).elim
            · exact hl
          · exact hl
        · rcases hq with hq | hq | ⟨hl, hq⟩
          · exact (dd p (fol_sub a hq).1 hp).elim
          · rcases h2 with ⟨u, t, rfl, h2, h3⟩ | h2
            · exact (dd q (cont_sub a h2) (fol_sub b hq).2).elim
            · exact .inr ((cont_eq b db p hp _).2 (.inr ⟨q, hq, x, v, rfl, h1, h2⟩))
          · exact (dd p (last_sub a hl) hp).elim
  | .star a, hd, p, hp, w => by
    constructor
    · rintro ⟨u, v, rfl, h1, h2⟩
      rcases (cont_eq a hd p hp u).1 h1 with ⟨rfl, hl⟩ | ⟨q, hq, x, t, rfl, h3, h4⟩
      · cases v with
        | nil => exact .inl ⟨rfl, hl⟩
        | cons x v =>
          obtain ⟨s, t, rfl, h3, h4⟩ := star_inv h2
          rcases (lang_eq a hd _).1 h3 with ⟨h, _⟩ | ⟨q, hq, y, z, he, h5, h6⟩
          · exact absurd h (by simp)
          · rw [List.cons.injEq] at he
            obtain ⟨rfl, rfl⟩ := he
            exact .inr ⟨q, .inr ⟨hl, hq⟩, x, s ++ t, rfl, h5, s, t, rfl, h6, h4⟩
      · exact .inr ⟨q, .inl hq, x, t ++ v, rfl, h3, t, v, rfl, h4, h2⟩
    · rintro (⟨rfl, hl⟩ | ⟨q, hq, x, v, rfl, h1, u, t, rfl, h2, h3⟩)
      · exact ⟨[], [], rfl, (cont_eq a hd p hp _).2 (.inl ⟨rfl, hl⟩), star_nil a⟩
      · rcases hq with hq | ⟨hl, hq⟩
        · exact ⟨x :: u, t, rfl, (cont_eq a hd p hp _).2 (.inr ⟨q, hq, x, u, rfl, h1, h2⟩), h3⟩
        · exact ⟨[], x :: (u ++ t), rfl, (cont_eq a hd p hp _).2 (.inl ⟨rfl, hl⟩),
            star_cons (u := x :: u) ((lang_eq a hd _).2 (.inr ⟨q, hq, x, u, rfl, h1, h2⟩)) h3⟩

/-! ### The follow positions that making the nodes leaves behind -/

theorem mem_union {s1 s2 : List Pos} {q : Pos} : q ∈ unionList s1 s2 ↔ q ∈ s1 ∨ q ∈ s2 := by
  have h : ∀ (s1 new : List Pos), (∀ x ∈ s2, x ∈ new) →
      (q ∈ s1.foldl (fun new item => if item ∈ s2 then new else item :: new) new ↔ q ∈ s1 ∨ q ∈ new) := by
    intro s1
    induction s1 with
    | nil => intro new _; simp
    | cons a l ih =>
      intro new hn
      rw [List.foldl_cons]
      split
      · next ha =>
        rw [ih new hn, List.mem_cons]
        constructor
        · rintro (h | h)
          · exact .inl (.inr h)
          · exact .inr h
        · rintro ((rfl | h) | h)
          · exact .inr (hn q ha)
          · exact .inl h
          · exact .inr h
      · rw [ih _ (fun x hx => List.mem_cons_of_mem _ (hn x hx)), List.mem_cons, List.mem_cons]
        constructor
        · rintro (h | rfl | h)
          · exact .inl (.inr h)
          · exact .inl (.inl rfl)
          · exact .inr h
        · rintro ((rfl | h) | h)
          · exact .inr (.inl rfl)
          · exact .inl h
          · exact .inr (.inr h)
  exact h s1 s2 fun _ hx => hx

theorem nodup_union {s1 s2 : List Pos} (h1 : s1.Nodup) (h2 : s2.Nodup) : (unionList s1 s2).Nodup := by
  have h : ∀ (s1 new : List Pos), s1.Nodup → new.Nodup → (∀ x ∈ s1, x ∈ new → x ∈ s2) →
      (s1.foldl (fun new item => if item ∈ s2 then new else item :: new) new).Nodup := by
    intro s1
    induction s1 with
    | nil => intro new _ h _; exact h
    | cons a l ih =>
      intro new h1 h2 h3
      rw [List.nodup_cons] at h1
      rw [List.foldl_cons]
      split
      · exact ih new h1.2 h2 fun x hx => h3 x (List.mem_cons_of_mem _ hx)
      · next ha =>
        refine ih _ h1.2 (List.nodup_cons.2 ⟨fun h => ha (h3 a (by simp) h), h2⟩) ?_
        intro x hx hm
        rcases List.mem_cons.1 hm with rfl | hm
        · exact absurd hx h1.1
        · exact h3 x (List.mem_cons_of_mem _ hx) hm
  exact h s1 s2 h1 h2 fun _ _ hx => hx

theorem mem_addFollow {combine : List Pos → List Pos → List Pos} (hc : ∀ {a b q}, q ∈ combine a b ↔ q ∈ a ∨ q ∈ b)
    (followers : List Pos) : ∀ (l : List Pos) (f : Follow) (p q : Pos),
    q ∈ addFollow combine followers l f p ↔ q ∈ f p ∨ (p ∈ l ∧ q ∈ followers)
  | [], f, p, q => by simp [addFollow]
  | a :: l, f, p, q => by
    rw [addFollow, mem_addFollow hc followers l]
    by_cases h : p = a
    · subst h
      simp only [if_true, hc, List.mem_cons, true_or, true_and]
      constructor
      · rintro ((h | h) | h)
        · exact .inl h
        · exact .inr h
        · exact .inr h.2
      · rintro (h | h)
        · exact .inl (.inl h)
        · exact .inl (.inr h)
    · simp only [h, if_false, List.mem_cons, false_or]

theorem mem_init : ∀ (r : Re) (f : Follow) (p q : Pos), q ∈ r.init f p ↔ q ∈ f p ∨ fol r p q
  | .eps, f, p, q => by simp [Re.init, fol]
  | .leaf _, f, p, q => by simp [Re.init, fol]
  | .union a b, f, p, q => by
    rw [Re.init, mem_init b, mem_init a, fol, or_assoc]
  | .cat a b, f, p, q => by
    rw [Re.init, mem_addFollow (by intro a b q; exact List.mem_append), mem_init b, mem_init a, fol, or_assoc, or_assoc]
  | .star a, f, p, q => by
    rw [Re.init, mem_addFollow mem_union, mem_init a, fol, or_assoc]

theorem nodup_first : ∀ (r : Re), r.positions.Nodup → r.first.Nodup
  | .eps, h => h
  | .leaf _, h => h
  | .union a b, h => by
    obtain ⟨da, db, dd⟩ := parts h
    exact List.nodup_append.2 ⟨nodup_first a da, nodup_first b db, fun p hp q hq e => dd p (first_sub a hp) (first_sub b (e ▸ hq))⟩
  | .cat a b, h => by
    obtain ⟨da, db, dd⟩ := parts h
    rw [Re.first]
    split
    · exact List.nodup_append.2 ⟨nodup_first a da, nodup_first b db,
        fun p hp q hq e => dd p (first_sub a hp) (first_sub b (e ▸ hq))⟩
    · exact nodup_first a da
  | .star a, h => nodup_first a h

theorem nodup_last : ∀ (r : Re), r.positions.Nodup → r.last.Nodup
  | .eps, h => h
  | .leaf _, h => h
  | .union a b, h => by
    obtain ⟨da, db, dd⟩ := parts h
    exact List.nodup_append.2 ⟨nodup_last a da, nodup_last b db, fun p hp q hq e => dd p (last_sub a hp) (last_sub b (e ▸ hq))⟩
  | .cat a b, h => by
    obtain ⟨da, db, dd⟩ := parts h
    rw [Re.last]
    split
    · exact List.nodup_append.2 ⟨nodup_last a da, nodup_last b db,
        fun p hp q hq e => dd p (last_sub a hp) (last_sub b (e ▸ hq))⟩
    · exact nodup_last b db
  | .star a, h => nodup_last a h

theorem nodup_addFollow {combine : List Pos → List Pos → List Pos} {followers : List Pos} :
    ∀ (l : List Pos) (f : Follow), l.Nodup → (∀ p, (f p).Nodup) → (∀ p ∈ l, (combine (f p) followers).Nodup) →
    ∀ p, (addFollow combine followers l f p).Nodup
  | [], f, _, h, _, p => h p
  | a :: l, f, hl, h, hc, p => by
    rw [List.nodup_cons] at hl
    rw [addFollow]
    refine nodup_addFollow l _ hl.2 ?_ ?_ p
    · intro q
      show (if q = a then combine (f q) followers else f q).Nodup
      split
      · next e => exact hc q (by simp [e])
      · exact h q
    · intro q hq
      have : q ≠ a := fun e => hl.1 (e ▸ hq)
      simp only [this, if_false]
      exact hc q (by simp [hq])

theorem nodup_init : ∀ (r : Re) (f : Follow), r.positions.Nodup → (∀ p, (f p).Nodup) →
    (∀ p ∈ r.positions, f p = []) → ∀ p, (r.init f p).Nodup
  | .eps, f, _, h, _, p => h p
  | .leaf _, f, _, h, _, p => h p
  | .union a b, f, hd, h, h0, p => by
    obtain ⟨da, db, dd⟩ := parts hd
    refine nodup_init b _ db (nodup_init a f da h fun p hp => h0 p (List.mem_append_left _ hp)) ?_ p
    intro q hq
    refine List.eq_nil_iff_forall_not_mem.2 fun x hx => ?_
    rcases (mem_init a f q x).1 hx with hx | hx
    · rw [h0 q (List.mem_append_right _ hq)] at hx
      exact absurd hx (by simp)
    · exact dd q (fol_sub a hx).1 hq
  | .cat a b, f, hd, h, h0, p => by
    obtain ⟨da, db, dd⟩ := parts hd
    have hn := nodup_init b _ db (nodup_init a f da h fun p hp => h0 p (List.mem_append_left _ hp)) (by
      intro q hq
      refine List.eq_nil_iff_forall_not_mem.2 fun x hx => ?_
      rcases (mem_init a f q x).1 hx with hx | hx
      · rw [h0 q (List.mem_append_right _ hq)] at hx
        exact absurd hx (by simp)
      · exact dd q (fol_sub a hx).1 hq)
    refine nodup_addFollow a.last _ (nodup_last a da) hn ?_ p
    intro q hq
    refine List.nodup_append.2 ⟨hn q, nodup_first b db, ?_⟩
    rintro x hx y hy rfl
    rcases (mem_init b _ q x).1 hx with hx | hx
    · rcases (mem_init a f q x).1 hx with hx | hx
      · rw [h0 q (List.mem_append_left _ (last_sub a hq))] at hx
        exact absurd hx (by simp)
      · exact dd x (fol_sub a hx).2 (first_sub b hy)
    · exact dd q (last_sub a hq) (fol_sub b hx).1
  | .star a, f, hd, h, h0, p => by
    have hn := nodup_init a f hd h h0
    exact nodup_addFollow a.last _ (nodup_last a hd) hn (fun q _ => nodup_union (hn q) (nodup_first a hd)) p

end Verif.Glob
