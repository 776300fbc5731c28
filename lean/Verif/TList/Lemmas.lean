import Verif.TList.Spec
import Mathlib.Data.List.Perm.Subperm

/-!
# Lemmas on lists of pairs
-/

namespace Verif.TList

variable {α : Type}

/-- From the pair `o` the memory has the pairs `as` with the elements `xs`, and after them comes `e`. -/
def Seg (c : Cells α) : Option Nat → List Nat → List α → Option Nat → Prop
  | o, [], xs, e => o = e ∧ xs = []
  | o, a :: as, xs, e => o = some a ∧ ∃ x xs' o', xs = x :: xs' ∧ c[a]? = some (x, o') ∧ Seg c o' as xs' e

theorem seg_valid {c : Cells α} : ∀ {as : List Nat} {o xs e}, Seg c o as xs e → ∀ a ∈ as, a < c.length
  | [], _, _, _, _, a, ha => by cases ha
  | b :: as, o, xs, e, ⟨_, x, xs', o', _, hb, h⟩, a, ha => by
    rcases List.mem_cons.1 ha with rfl | ha
    · obtain ⟨hlt, _⟩ := List.getElem?_eq_some_iff.1 hb
      exact hlt
    · exact seg_valid h a ha

theorem seg_frame {c c' : Cells α} : ∀ {as : List Nat} {o xs e}, (∀ a ∈ as, c'[a]? = c[a]?) → Seg c o as xs e → Seg c' o as xs e
  | [], _, _, _, _, h => h
  | b :: as, o, xs, e, hf, ⟨h1, x, xs', o', h2, hb, h⟩ =>
    ⟨h1, x, xs', o', h2, by rw [hf b (by simp)]; exact hb, seg_frame (fun a ha => hf a (by simp [ha])) h⟩

theorem seg_append {c : Cells α} : ∀ {as bs : List Nat} {o xs ys mid e}, Seg c o as xs mid → Seg c mid bs ys e →
    Seg c o (as ++ bs) (xs ++ ys) e
  | [], bs, o, xs, ys, mid, e, ⟨h1, h2⟩, h => by
    subst h1 h2
    exact h
  | a :: as, bs, o, xs, ys, mid, e, ⟨h1, x, xs', o', h2, ha, h3⟩, h => by
    subst h2
    exact ⟨h1, x, xs' ++ ys, o', rfl, ha, seg_append h3 h⟩

theorem seg_split {c : Cells α} : ∀ {as bs : List Nat} {o zs e}, Seg c o (as ++ bs) zs e →
    ∃ xs ys mid, zs = xs ++ ys ∧ Seg c o as xs mid ∧ Seg c mid bs ys e
  | [], bs, o, zs, e, h => ⟨[], zs, o, rfl, ⟨rfl, rfl⟩, h⟩
  | a :: as, bs, o, zs, e, ⟨h1, x, xs', o', h2, ha, h3⟩ => by
    obtain ⟨xs, ys, mid, e1, h4, h5⟩ := seg_split h3
    subst h2 e1
    exact ⟨x :: xs, ys, mid, rfl, ⟨h1, x, xs, o', rfl, ha, h4⟩, h5⟩

theorem seg_length {c : Cells α} : ∀ {as : List Nat} {o xs e}, Seg c o as xs e → as.length = xs.length
  | [], _, _, _, ⟨_, h⟩ => by rw [h]; rfl
  | _ :: as, _, _, _, ⟨_, x, xs', _, h, _, h3⟩ => by
    rw [h, List.length_cons, List.length_cons, seg_length h3]

/-- The last pair. -/
theorem seg_snoc {c : Cells α} {as : List Nat} {b : Nat} {o zs e} (h : Seg c o (as ++ [b]) zs e) :
    ∃ xs x, zs = xs ++ [x] ∧ Seg c o as xs (some b) ∧ c[b]? = some (x, e) := by
  obtain ⟨xs, ys, mid, h1, h2, h3, x, xs', o', h4, h5, h6, h7⟩ := seg_split h
  subst h3 h6 h7 h4
  exact ⟨xs, x, h1, h2, h5⟩

theorem seg_one {c : Cells α} {b : Nat} {x : α} {e} (h : c[b]? = some (x, e)) : Seg c (some b) [b] [x] e :=
  ⟨rfl, x, [], e, rfl, h, rfl, rfl⟩

theorem get_setTail {c : Cells α} {a b : Nat} {o : Option Nat} (h : a ≠ b) : (setTail c b o)[a]? = c[a]? := by
  unfold setTail
  rw [List.getElem?_modify]
  cases c[a]? <;> simp [Ne.symm h]

theorem get_setTail_self {c : Cells α} {b : Nat} {x : α} {o e : Option Nat} (h : c[b]? = some (x, e)) :
    (setTail c b o)[b]? = some (x, o) := by
  unfold setTail
  rw [List.getElem?_modify_eq, h]
  rfl

theorem get_setHead {c : Cells α} {a b : Nat} {x : α} (h : a ≠ b) : (setHead c b x)[a]? = c[a]? := by
  unfold setHead
  rw [List.getElem?_modify]
  cases c[a]? <;> simp [Ne.symm h]

theorem get_setHead_self {c : Cells α} {b : Nat} {x y : α} {e : Option Nat} (h : c[b]? = some (y, e)) :
    (setHead c b x)[b]? = some (x, e) := by
  unfold setHead
  rw [List.getElem?_modify_eq, h]
  rfl

/-- The last pair gets another tail. -/
theorem seg_retail {c : Cells α} {as : List Nat} {b : Nat} {o zs e e'} (h : Seg c o (as ++ [b]) zs e) (hb : b ∉ as) :
    Seg (setTail c b e') o (as ++ [b]) zs e' := by
  obtain ⟨xs, x, h1, h2, h3⟩ := seg_snoc h
  subst h1
  exact seg_append (seg_frame (fun a ha => get_setTail fun hab => hb (hab ▸ ha)) h2) (seg_one (get_setTail_self h3))

theorem get_alloc {c : Cells α} {p : α × Option Nat} {a : Nat} (h : a < c.length) : (c ++ [p])[a]? = c[a]? :=
  List.getElem?_append_left h

theorem get_alloc_self {c : Cells α} {p : α × Option Nat} : (c ++ [p])[c.length]? = some p := by
  rw [List.getElem?_append_right (by omega), Nat.sub_self]
  rfl

/-- The list `t` has the pairs `as` and the elements `xs`. -/
structure Good (c : Cells α) (t : TL) (as : List Nat) (xs : List α) : Prop where
  seg : Seg c t.first as xs none
  nodup : as.Nodup
  last : t.last = as.getLast?

theorem good_nil {c : Cells α} {t : TL} {as : List Nat} {xs : List α} (h : Good c t as xs) (hf : t.first = none) :
    as = [] ∧ xs = [] ∧ t.last = none := by
  cases as with
  | nil => exact ⟨rfl, h.seg.2, h.last⟩
  | cons a as =>
    have := h.seg.1
    rw [hf] at this
    cases this

theorem good_cons {c : Cells α} {t : TL} {as : List Nat} {xs : List α} (h : Good c t as xs) (hf : t.first ≠ none) :
    ∃ as' b xs' x, as = as' ++ [b] ∧ xs = xs' ++ [x] ∧ b ∉ as' ∧ t.last = some b ∧ c[b]? = some (x, none) ∧
      Seg c t.first as' xs' (some b) := by
  have hne : as ≠ [] := by
    intro he
    have := h.seg
    rw [he] at this
    exact hf this.1
  obtain ⟨as', b, rfl⟩ : ∃ as' b, as = as' ++ [b] := ⟨as.dropLast, as.getLast hne, (List.dropLast_concat_getLast hne).symm⟩
  obtain ⟨xs', x, h1, h2, h3⟩ := seg_snoc h.seg
  have hn := h.nodup
  rw [List.nodup_append] at hn
  refine ⟨as', b, xs', x, rfl, h1, fun hb => hn.2.2 b hb b (by simp) rfl, ?_, h3, h2⟩
  rw [h.last]
  simp

/-- What a changed memory and list must have in common with those before. -/
structure Local (c c' : Cells α) (as as' : List Nat) : Prop where
  frame : ∀ a, a < c.length → a ∉ as → c'[a]? = c[a]?
  fresh : ∀ a ∈ as', a ∈ as ∨ c.length ≤ a

theorem push_good {c : Cells α} {t : TL} {as : List Nat} {xs : List α} {x : α} (h : Good c t as xs) :
    Good (push c t x).1 (push c t x).2 (c.length :: as) (x :: xs) ∧ Local c (push c t x).1 as (c.length :: as) := by
  have hv := seg_valid h.seg
  have hnd : (c.length :: as).Nodup := List.nodup_cons.2 ⟨fun hm => Nat.lt_irrefl _ (hv _ hm), h.nodup⟩
  have hfr : ∀ a ∈ c.length :: as, a ∈ as ∨ c.length ≤ a := by
    intro a ha
    rcases List.mem_cons.1 ha with rfl | ha
    · exact .inr (Nat.le_refl _)
    · exact .inl ha
  unfold push
  by_cases hf : t.first = none
  · obtain ⟨rfl, rfl, _⟩ := good_nil h hf
    rw [if_pos hf]
    exact ⟨⟨seg_one get_alloc_self, hnd, rfl⟩, fun a ha _ => get_alloc ha, hfr⟩
  · rw [if_neg hf]
    obtain ⟨as', b, xs', y, rfl, rfl, _, hl, _, _⟩ := good_cons h hf
    refine ⟨⟨⟨rfl, x, _, t.first, rfl, get_alloc_self, seg_frame (fun a ha => get_alloc (hv a ha)) h.seg⟩, hnd, ?_⟩,
      fun a ha _ => get_alloc ha, hfr⟩
    rw [← List.cons_append, List.getLast?_concat]
    exact hl

theorem pushLast_good {c : Cells α} {t : TL} {as : List Nat} {xs : List α} {x : α} (h : Good c t as xs) :
    Good (pushLast c t x).1 (pushLast c t x).2 (as ++ [c.length]) (xs ++ [x]) ∧
      Local c (pushLast c t x).1 as (as ++ [c.length]) := by
  have hv := seg_valid h.seg
  have hnd : (as ++ [c.length]).Nodup := by
    rw [List.nodup_append]
    refine ⟨h.nodup, by simp, fun a ha b hb hab => ?_⟩
    rw [List.mem_singleton] at hb
    have := hv a ha
    omega
  have hfr : ∀ a ∈ as ++ [c.length], a ∈ as ∨ c.length ≤ a := by
    intro a ha
    rcases List.mem_append.1 ha with ha | ha
    · exact .inl ha
    · rw [List.mem_singleton] at ha
      exact .inr (by omega)
  unfold pushLast
  by_cases hf : t.first = none
  · obtain ⟨rfl, rfl, _⟩ := good_nil h hf
    rw [if_pos hf]
    exact ⟨⟨seg_one get_alloc_self, hnd, rfl⟩, fun a ha _ => get_alloc ha, hfr⟩
  · rw [if_neg hf]
    obtain ⟨as', b, xs', y, rfl, rfl, hb, hl, hc, _⟩ := good_cons h hf
    have hbl : b < c.length := hv b (by simp)
    have ht : tailOf c t.last = none := by
      rw [hl]
      simp [tailOf, hc]
    rw [ht, hl]
    dsimp only
    refine ⟨⟨seg_append (seg_retail (seg_frame (fun a ha => get_alloc (hv a ha)) h.seg) hb)
      (seg_one (x := x) (by rw [get_setTail (by omega)]; exact get_alloc_self)), hnd, by simp⟩, fun a ha hna => ?_, hfr⟩
    rw [get_setTail fun hab => hna (by simp [hab]), get_alloc ha]

theorem headOf_some {c : Cells α} {b : Nat} {x : α} {e} (h : c[b]? = some (x, e)) : headOf c (some b) = .val x := by
  simp [headOf, h]

theorem pop_good {c : Cells α} {t : TL} {as : List Nat} {xs : List α} (h : Good c t as xs) :
    Good c (pop c t).1 as.tail xs.tail ∧ Local c c as as.tail ∧ (pop c t).2 = valOr xs.head? := by
  have hloc : Local c c as as.tail := ⟨fun _ _ _ => rfl, fun a ha => .inl (List.mem_of_mem_tail ha)⟩
  unfold pop
  by_cases hf : t.first = none
  · obtain ⟨rfl, rfl, _⟩ := good_nil h hf
    rw [if_pos hf]
    exact ⟨h, hloc, rfl⟩
  · rw [if_neg hf]
    cases as with
    | nil => exact absurd h.seg.1 hf
    | cons a as =>
      obtain ⟨h1, x, xs', o', rfl, ha, h2⟩ := h.seg
      refine ⟨?_, hloc, by rw [h1]; exact headOf_some ha⟩
      have hl := h.last
      cases as with
      | nil =>
        obtain ⟨_, rfl⟩ := h2
        rw [if_pos (by rw [h1, hl]; rfl)]
        exact ⟨⟨rfl, rfl⟩, by simp, rfl⟩
      | cons b as =>
        rw [if_neg]
        · refine ⟨?_, (List.nodup_cons.1 h.nodup).2, by rw [hl]; simp⟩
          rw [h1]
          simpa [tailOf, ha] using h2
        · rw [h1, hl]
          intro he
          have hm : a ∈ b :: as := List.mem_of_getLast? (by
            rw [List.getLast?_cons_cons] at he
            exact he.symm)
          exact (List.nodup_cons.1 h.nodup).1 hm

/-- The search finds the pair before the last one. -/
theorem findPrev_eq {c : Cells α} {q b : Nat} : ∀ {as : List Nat} {o xs} {k : Nat}, Seg c o (as ++ [q]) xs (some b) →
    b ∉ as ++ [q] → as.length < k → findPrev c (some b) k o = some q
  | [], o, xs, k, ⟨h1, x, xs', o', h2, ha, h3, _⟩, _, hk => by
    obtain ⟨k, rfl⟩ : ∃ k', k = k' + 1 := ⟨k - 1, by simp at hk; omega⟩
    subst h1 h3
    simp [findPrev, tailOf, ha]
  | a :: as, o, xs, k, ⟨h1, x, xs', o', h2, ha, h3⟩, hb, hk => by
    obtain ⟨k, rfl⟩ : ∃ k', k = k' + 1 := ⟨k - 1, by omega⟩
    subst h1
    have ht : tailOf c (some a) = o' := by simp [tailOf, ha]
    have hne : o' ≠ some b := by
      intro he
      cases as with
      | nil =>
        have := h3.1
        rw [he] at this
        simp only [Option.some.injEq] at this
        exact hb (by simp [this])
      | cons a' as =>
        have := h3.1
        rw [he] at this
        simp only [Option.some.injEq] at this
        exact hb (by simp [this])
    rw [findPrev, ht, if_neg hne]
    exact findPrev_eq h3 (fun hm => hb (by simp at hm ⊢; exact .inr hm)) (by simp at hk; omega)

theorem nodup_length {n : Nat} {as : List Nat} (hn : as.Nodup) (hv : ∀ a ∈ as, a < n) : as.length ≤ n := by
  have := (List.subperm_of_subset hn (l₂ := List.range n) fun a ha => List.mem_range.2 (hv a ha)).length_le
  simpa using this

theorem popLast_good {c : Cells α} {t : TL} {as : List Nat} {xs : List α} (h : Good c t as xs) :
    Good (popLast c t).1 (popLast c t).2.1 as.dropLast xs.dropLast ∧ Local c (popLast c t).1 as as.dropLast ∧
      (popLast c t).2.2 = valOr xs.getLast? := by
  have hfr : ∀ a ∈ as.dropLast, a ∈ as ∨ c.length ≤ a := fun a ha => .inl (List.dropLast_subset as ha)
  unfold popLast
  by_cases hf : t.first = none
  · obtain ⟨rfl, rfl, _⟩ := good_nil h hf
    rw [if_pos hf]
    exact ⟨h, ⟨fun _ _ _ => rfl, hfr⟩, rfl⟩
  · rw [if_neg hf]
    obtain ⟨as', b, xs', y, rfl, rfl, hb, hl, hc, hs⟩ := good_cons h hf
    rw [hl]
    by_cases he : t.first = some b
    · have : as' = [] := by
        cases as' with
        | nil => rfl
        | cons a as' =>
          have := hs.1
          rw [he] at this
          simp only [Option.some.injEq] at this
          exact absurd (by simp [this]) hb
      subst this
      rw [if_pos he]
      obtain ⟨_, rfl⟩ := hs
      exact ⟨⟨⟨rfl, rfl⟩, by simp, rfl⟩, ⟨fun _ _ _ => rfl, hfr⟩, by rw [headOf_some hc]; rfl⟩
    · rw [if_neg he]
      have hne : as' ≠ [] := by
        rintro rfl
        exact he hs.1
      obtain ⟨as₂, q, rfl⟩ : ∃ as₂ q, as' = as₂ ++ [q] :=
        ⟨as'.dropLast, as'.getLast hne, (List.dropLast_concat_getLast hne).symm⟩
      have hlen := nodup_length h.nodup (seg_valid h.seg)
      rw [findPrev_eq hs hb (by simp at hlen; omega)]
      have hn := h.nodup
      rw [List.nodup_append] at hn
      have hn2 := hn.1
      rw [List.nodup_append] at hn2
      rw [List.dropLast_concat, List.dropLast_concat]
      refine ⟨⟨seg_retail hs fun hq => hn2.2.2 q hq q (by simp) rfl, hn.1, by simp⟩, ⟨fun a ha hna => ?_, ?_⟩, ?_⟩
      · exact get_setTail fun hab => hna (by simp [hab])
      · intro a ha
        exact .inl (List.mem_append_left _ ha)
      · rw [headOf_some hc, List.getLast?_concat]
        rfl

theorem count_eq {c : Cells α} : ∀ {as : List Nat} {o xs} {k : Nat}, Seg c o as xs none → as.length ≤ k → count c k o = xs.length
  | [], o, xs, k, ⟨h1, h2⟩, _ => by
    subst h1 h2
    cases k <;> rfl
  | a :: as, o, xs, k, ⟨h1, x, xs', o', h2, ha, h3⟩, hk => by
    obtain ⟨k, rfl⟩ : ∃ k', k = k' + 1 := ⟨k - 1, by simp at hk; omega⟩
    subst h1 h2
    have ht : tailOf c (some a) = o' := by simp [tailOf, ha]
    rw [count, ht, count_eq h3 (by simp at hk; omega), List.length_cons]

/-- Where a walk of `n` steps ends. -/
theorem walk_eq {c : Cells α} : ∀ {as : List Nat} {o xs} (n : Nat), Seg c o as xs none →
    (n < xs.length → ∃ a, as[n]? = some a ∧ walk c o n = some (some a)) ∧ (n = xs.length → walk c o n = some none) ∧
      (xs.length < n → walk c o n = none)
  | [], o, xs, n, ⟨h1, h2⟩ => by
    subst h1 h2
    refine ⟨fun h => absurd h (by simp), fun h => ?_, fun h => ?_⟩
    · simp only [List.length_nil] at h
      subst h
      rfl
    · obtain ⟨n, rfl⟩ : ∃ k', n = k' + 1 := ⟨n - 1, by simp at h; omega⟩
      rfl
  | a :: as, o, xs, 0, ⟨h1, x, xs', o', h2, ha, h3⟩ => by
    subst h1 h2
    exact ⟨fun _ => ⟨a, rfl, rfl⟩, fun h => absurd h (by simp), fun h => absurd h (by simp)⟩
  | a :: as, o, xs, n + 1, ⟨h1, x, xs', o', h2, ha, h3⟩ => by
    subst h1 h2
    have ht : tailOf c (some a) = o' := by simp [tailOf, ha]
    obtain ⟨g1, g2, g3⟩ := walk_eq n h3
    rw [walk, ht]
    simp only [List.length_cons, List.getElem?_cons_succ]
    exact ⟨fun h => g1 (by omega), fun h => g2 (by omega), fun h => g3 (by omega)⟩

/-- The pair of an element. -/
theorem seg_at {c : Cells α} : ∀ {as : List Nat} {o xs e} {n a : Nat}, Seg c o as xs e → as[n]? = some a →
    ∃ x o', xs[n]? = some x ∧ c[a]? = some (x, o')
  | [], _, _, _, _, _, _, h => by simp at h
  | b :: as, o, xs, e, 0, a, ⟨h1, x, xs', o', h2, ha, h3⟩, h => by
    simp only [List.getElem?_cons_zero, Option.some.injEq] at h
    subst h h2
    exact ⟨x, o', rfl, ha⟩
  | b :: as, o, xs, e, n + 1, a, ⟨h1, x, xs', o', h2, ha, h3⟩, h => by
    subst h2
    exact seg_at (n := n) (xs := xs') h3 (by simpa using h)

/-- An element is replaced. -/
theorem seg_set {c : Cells α} {y : α} : ∀ {as : List Nat} {o xs e} {n a : Nat}, Seg c o as xs e → as.Nodup → as[n]? = some a →
    Seg (setHead c a y) o as (xs.set n y) e
  | [], _, _, _, _, _, _, _, h => by simp at h
  | b :: as, o, xs, e, 0, a, ⟨h1, x, xs', o', h2, ha, h3⟩, hn, h => by
    simp only [List.getElem?_cons_zero, Option.some.injEq] at h
    subst h h2
    refine ⟨h1, y, xs', o', rfl, get_setHead_self ha, seg_frame (fun a' ha' => get_setHead fun hab => ?_) h3⟩
    exact (List.nodup_cons.1 hn).1 (hab ▸ ha')
  | b :: as, o, xs, e, n + 1, a, ⟨h1, x, xs', o', h2, ha, h3⟩, hn, h => by
    subst h2
    have h' : as[n]? = some a := by simpa using h
    refine ⟨h1, x, xs'.set n y, o', rfl, ?_, seg_set h3 (List.nodup_cons.1 hn).2 h'⟩
    have hne : b ≠ a := fun hab => (List.nodup_cons.1 hn).1 (by rw [hab]; exact List.mem_of_getElem? h')
    rw [get_setHead hne]
    exact ha

theorem get_good {c : Cells α} {t : TL} {as : List Nat} {xs : List α} {n : Nat} (h : Good c t as xs)
    (hn : n ≠ xs.length ∨ n < 3) : get c t n = valOr xs[n]? := by
  obtain ⟨g1, g2, g3⟩ := walk_eq n h.seg
  unfold get
  rcases Nat.lt_trichotomy n xs.length with hlt | heq | hgt
  · obtain ⟨a, ha, hw⟩ := g1 hlt
    obtain ⟨x, o', hx, hc⟩ := seg_at h.seg ha
    rw [hw, hx]
    exact headOf_some hc
  · rw [g2 heq]
    dsimp only
    rw [if_pos (by omega), List.getElem?_eq_none (by omega)]
    rfl
  · rw [g3 hgt, List.getElem?_eq_none (by omega)]
    rfl

theorem set_good {c : Cells α} {t : TL} {as : List Nat} {xs : List α} {n : Nat} {x : α} (h : Good c t as xs)
    (hn : n ≠ xs.length ∨ n < 3) : Good (set c t n x).1 t as (xs.set n x) ∧ Local c (set c t n x).1 as as ∧
      (set c t n x).2 = if n < xs.length then .val x else .err := by
  obtain ⟨g1, g2, g3⟩ := walk_eq n h.seg
  unfold set
  rcases Nat.lt_trichotomy n xs.length with hlt | heq | hgt
  · obtain ⟨a, ha, hw⟩ := g1 hlt
    rw [hw, if_pos hlt]
    exact ⟨⟨seg_set h.seg h.nodup ha, h.nodup, h.last⟩, ⟨fun b _ hb => get_setHead fun hab =>
      hb (hab ▸ List.mem_of_getElem? ha), fun a ha => .inl ha⟩, rfl⟩
  · rw [g2 heq, if_neg (by omega : ¬ n < xs.length), List.set_eq_of_length_le (by omega)]
    dsimp only
    rw [if_pos (by omega : n < 3)]
    exact ⟨h, ⟨fun _ _ _ => rfl, fun a ha => .inl ha⟩, rfl⟩
  · rw [g3 hgt, if_neg (by omega : ¬ n < xs.length), List.set_eq_of_length_le (by omega)]
    exact ⟨h, ⟨fun _ _ _ => rfl, fun a ha => .inl ha⟩, rfl⟩

theorem getLast_good {c : Cells α} {t : TL} {as : List Nat} {xs : List α} (h : Good c t as xs) :
    getLast c t = valOr xs.getLast? := by
  unfold getLast
  by_cases hf : t.first = none
  · obtain ⟨rfl, rfl, hl⟩ := good_nil h hf
    rw [hl]
    rfl
  · obtain ⟨as', b, xs', y, rfl, rfl, hb, hl, hc, hs⟩ := good_cons h hf
    rw [hl, List.getLast?_concat]
    exact headOf_some hc

theorem setLast_good {c : Cells α} {t : TL} {as : List Nat} {xs : List α} {x : α} (h : Good c t as xs) :
    Good (setLast c t x).1 t as (if xs = [] then [] else xs.dropLast ++ [x]) ∧ Local c (setLast c t x).1 as as ∧
      (setLast c t x).2 = if xs = [] then .err else .val x := by
  unfold setLast
  by_cases hf : t.first = none
  · obtain ⟨rfl, rfl, hl⟩ := good_nil h hf
    rw [hl]
    exact ⟨h, ⟨fun _ _ _ => rfl, fun a ha => .inl ha⟩, rfl⟩
  · obtain ⟨as', b, xs', y, rfl, rfl, hb, hl, hc, hs⟩ := good_cons h hf
    rw [hl, if_neg (by simp), if_neg (by simp), List.dropLast_concat]
    refine ⟨⟨?_, h.nodup, ?_⟩, ⟨fun a _ ha => get_setHead fun hab => ha (by simp [hab]), fun a ha => .inl ha⟩, rfl⟩
    · exact seg_append (seg_frame (fun a ha => get_setHead fun hab => hb (hab ▸ ha)) hs) (seg_one (get_setHead_self hc))
    · rw [hl]
      simp

/-- Two lists are joined. -/
theorem append_good {c : Cells α} {t u : TL} {as bs : List Nat} {xs ys : List α} (h : Good c t as xs) (g : Good c u bs ys)
    (hd : ∀ a ∈ as, a ∉ bs) : Good (append c t u).1 (append c t u).2 (as ++ bs) (xs ++ ys) ∧
      ∀ a, a ∉ as → (append c t u).1[a]? = c[a]? := by
  unfold append
  by_cases hu : u.first = none
  · obtain ⟨rfl, rfl, _⟩ := good_nil g hu
    rw [if_pos hu, List.append_nil, List.append_nil]
    exact ⟨h, fun _ _ => rfl⟩
  · rw [if_neg hu]
    by_cases hf : t.first = none
    · obtain ⟨rfl, rfl, _⟩ := good_nil h hf
      rw [if_pos hf]
      exact ⟨g, fun _ _ => rfl⟩
    · rw [if_neg hf]
      have hn : (as ++ bs).Nodup := List.nodup_append.2 ⟨h.nodup, g.nodup, fun a ha b hb hab => hd a ha (hab ▸ hb)⟩
      obtain ⟨as', b, xs', y, rfl, rfl, hb, hl, hc, hs⟩ := good_cons h hf
      obtain ⟨bs', b', ys', y', rfl, rfl, hb', hl', hc', hs'⟩ := good_cons g hu
      rw [hl]
      refine ⟨⟨seg_append (seg_retail h.seg hb) (seg_frame (fun a ha => get_setTail fun hab => ?_) g.seg), hn, ?_⟩,
        fun a ha => get_setTail fun hab => ha (by simp [hab])⟩
      · exact hd b (by simp) (hab ▸ ha)
      · rw [← List.append_assoc, List.getLast?_concat]
        exact hl'

/-- The lists of the world have the elements of the state, and share no pairs. -/
def Rep (w : World α) (m : Elems α) : Prop := ∃ A : Nat → List Nat,
  (∀ i xs, m i = some xs → Good w.cells (w.lists i) (A i) xs) ∧
    ∀ i j, i ≠ j → m i ≠ none → m j ≠ none → ∀ a ∈ A i, a ∉ A j

theorem rep_update {w : World α} {m : Elems α} {i : Nat} {A : Nat → List Nat} {c' : Cells α} {t' : TL} {as' : List Nat}
    {xs' : List α} (hA : ∀ i xs, m i = some xs → Good w.cells (w.lists i) (A i) xs)
    (hd : ∀ i j, i ≠ j → m i ≠ none → m j ≠ none → ∀ a ∈ A i, a ∉ A j) (hi : m i ≠ none)
    (hg : Good c' t' as' xs') (hl : Local w.cells c' (A i) as') :
    Rep ⟨c', update w.lists i t'⟩ (update m i (some xs')) := by
  have hval : ∀ j, m j ≠ none → ∀ a ∈ A j, a < w.cells.length := by
    intro j hj a ha
    obtain ⟨ys, hys⟩ := Option.ne_none_iff_exists'.1 hj
    exact seg_valid (hA j ys hys).seg a ha
  have key : ∀ j, j ≠ i → m j ≠ none → ∀ a ∈ as', a ∉ A j := by
    intro j hj hm a ha haj
    rcases hl.fresh a ha with h1 | h1
    · exact hd i j (fun he => hj he.symm) hi hm a h1 haj
    · have := hval j hm a haj
      omega
  refine ⟨update A i as', fun j ys hj => ?_, fun j k hjk hj hk a ha hak => ?_⟩
  · by_cases he : j = i
    · subst he
      simp only [update, if_true, Option.some.injEq] at hj ⊢
      subst hj
      exact hg
    · simp only [update, if_neg he] at hj ⊢
      have hjn : m j ≠ none := by rw [hj]; simp
      have := hA j ys hj
      exact ⟨seg_frame (fun a ha => hl.frame a (hval j hjn a ha) (hd j i he hjn hi a ha)) this.seg, this.nodup, this.last⟩
  · by_cases he : j = i
    · subst he
      have hkj : k ≠ j := fun h => hjk h.symm
      simp only [update, if_true, if_neg hkj] at ha hak hk
      exact key k hkj hk a ha hak
    · by_cases hke : k = i
      · subst hke
        simp only [update, if_true, if_neg he] at ha hak hj
        exact key j he hj a hak ha
      · simp only [update, if_neg he, if_neg hke] at ha hak hj hk
        exact hd j k hjk hj hk a ha hak

theorem update_same {β : Type} (f : Nat → β) (i : Nat) : update f i (f i) = f := by
  funext j
  unfold update
  split
  · rename_i h
    rw [h]
  · rfl

end Verif.TList
