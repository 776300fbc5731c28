/-
Lemmas about the text forms of dates.
-/
import Verif.Date.Lemmas
import Verif.Date.TextSpec
import Mathlib.Tactic.FinCases
import Mathlib.Tactic.Tauto

namespace Verif.Date

theorem readInteger_app {n : Nat} : ∀ (s : List Char) (v : Int) (t : List Char), s.length = n →
    (∀ c ∈ s, '0' ≤ c ∧ c ≤ '9') →
    readInteger n v (s ++ t) = some (s.foldl addDigit v, t) := by
  induction n with
  | zero =>
    intro s v t hl _
    have : s = [] := List.length_eq_zero_iff.1 hl
    subst this
    rfl
  | succ n ih =>
    intro s v t hl hd
    cases s with
    | nil => exact absurd hl (by simp)
    | cons c s =>
      have hc := hd c (List.mem_cons_self)
      rw [List.cons_append, readInteger, if_neg]
      · rw [ih s _ t (by simpa using hl) (fun c h => hd c (List.mem_cons_of_mem _ h))]
        rw [Int.add_sub_assoc]
        rfl
      · rintro (h | h)
        · exact absurd hc.1 (by simpa using h)
        · exact absurd hc.2 (by simpa using h)

theorem readInteger_digits {n : Nat} {k : Int} {s : List Char} (h : Digits n k s) (t : List Char) :
    readInteger n 0 (s ++ t) = some (k, t) := by
  rw [readInteger_app s 0 t h.1 h.2.1]
  exact congrArg (fun k => some (k, t)) h.2.2

theorem readInteger_inv {n : Nat} : ∀ (v : Int) (s : List Char) (k : Int) (t : List Char),
    readInteger n v s = some (k, t) → ∃ ds, s = ds ++ t ∧ ds.length = n ∧
      (∀ c ∈ ds, '0' ≤ c ∧ c ≤ '9') ∧ ds.foldl addDigit v = k := by
  induction n with
  | zero =>
    intro v s k t h
    simp only [readInteger, Option.some.injEq, Prod.mk.injEq] at h
    obtain ⟨rfl, rfl⟩ := h
    exact ⟨[], rfl, rfl, by simp, rfl⟩
  | succ n ih =>
    intro v s k t h
    cases s with
    | nil => exact absurd h (by simp [readInteger])
    | cons c s =>
      rw [readInteger] at h
      by_cases hc : c < '0' ∨ c > '9'
      · rw [if_pos hc] at h; exact absurd h (by simp)
      · rw [if_neg hc] at h
        obtain ⟨ds, rfl, h1, h2, h3⟩ := ih _ _ _ _ h
        refine ⟨c :: ds, rfl, by simp [h1], ?_, ?_⟩
        · intro x hx
          rcases List.mem_cons.1 hx with rfl | hx
          · simp only [not_or, Char.not_lt, gt_iff_lt] at hc; exact hc
          · exact h2 x hx
        · rw [List.foldl_cons, ← h3, Int.add_sub_assoc]; rfl

theorem readInteger_inv' {n : Nat} {s : List Char} {k : Int} {t : List Char}
    (h : readInteger n 0 s = some (k, t)) : ∃ ds, s = ds ++ t ∧ Digits n k ds := by
  obtain ⟨ds, h1, h2, h3, h4⟩ := readInteger_inv 0 s k t h
  exact ⟨ds, h1, h2, h3, h4⟩

/-- The first character of a text of digits is a digit. -/
theorem digits_head {n : Nat} {k : Int} {s : List Char} (h : Digits (n + 1) k s) (t : List Char) :
    ∃ c rest, s ++ t = c :: rest ∧ '0' ≤ c ∧ c ≤ '9' := by
  obtain ⟨h1, h2, -⟩ := h
  cases s with
  | nil => exact absurd h1 (by simp)
  | cons c s => exact ⟨c, s ++ t, rfl, h2 c (List.mem_cons_self)⟩

theorem maybeSkip_app {strict : Bool} {c : Char} {sp : List Char} (h : Sep strict c sp)
    {t : List Char} (ht : t.head? ≠ some c) : maybeSkip strict c (sp ++ t) = some t := by
  rcases h with rfl | ⟨rfl, rfl⟩
  · simp [maybeSkip]
  · simp [maybeSkip, ht]

theorem digits_head_ne {n : Nat} {k : Int} {s : List Char} (h : Digits (n + 1) k s) (t : List Char)
    {c : Char} (hc : ¬ ('0' ≤ c ∧ c ≤ '9')) : (s ++ t).head? ≠ some c := by
  obtain ⟨x, rest, e, hx⟩ := digits_head h t
  rw [e]
  simp only [List.head?_cons, ne_eq, Option.some.injEq]
  rintro rfl
  exact hc hx

theorem maybeSkip_digits {strict : Bool} {c : Char} {sp : List Char} (h : Sep strict c sp) {n : Nat}
    {k : Int} {s : List Char} (hd : Digits (n + 1) k s) (t : List Char)
    (hc : ¬ ('0' ≤ c ∧ c ≤ '9')) : maybeSkip strict c (sp ++ (s ++ t)) = some (s ++ t) :=
  maybeSkip_app h (digits_head_ne hd t hc)

theorem maybeSkip_strict {c : Char} {s t : List Char} (h : maybeSkip true c s = some t) :
    s = [c] ++ t := by
  unfold maybeSkip at h
  by_cases hs : s.head? = some c
  · rw [if_pos hs] at h
    cases s with
    | nil => exact absurd hs (by simp)
    | cons x s =>
      simp only [List.head?_cons, Option.some.injEq] at hs
      simp only [List.tail_cons, Option.some.injEq] at h
      rw [hs, h]
      rfl
  · rw [if_neg hs] at h; exact absurd h (by simp)

theorem zoneAhead_strict (s : List Char) : (zoneAhead true s).2 = s := by
  simp [zoneAhead]

/-- A zone text is seen as one, with or without a gap. -/
theorem zoneAhead_zone {strict : Bool} {g : List Char} (hg : Gap strict g) {c : Char}
    (hc : c = 'Z' ∨ c = 'z' ∨ c = '+' ∨ c = '-') (t : List Char) :
    zoneAhead strict (g ++ c :: t) = (true, c :: t) := by
  rcases hg with rfl | ⟨rfl, rfl⟩
  · have : c ≠ ' ' := by rcases hc with rfl | rfl | rfl | rfl <;> decide
    simp [zoneAhead, this, hc]
  · simp [zoneAhead, hc]

theorem zoneAhead_other {strict : Bool} {c : Char} (t : List Char) (h0 : c ≠ ' ')
    (hc : ¬ (c = 'Z' ∨ c = 'z' ∨ c = '+' ∨ c = '-')) :
    zoneAhead strict (c :: t) = (false, c :: t) := by
  simp [zoneAhead, h0, hc]

theorem digit_not_zone {c : Char} (h : '0' ≤ c ∧ c ≤ '9') :
    c ≠ ' ' ∧ ¬ (c = 'Z' ∨ c = 'z' ∨ c = '+' ∨ c = '-') := by
  refine ⟨?_, ?_⟩
  · rintro rfl; exact absurd h (by decide)
  · rintro (rfl | rfl | rfl | rfl) <;> exact absurd h (by decide)

theorem zone_shape {strict : Bool} {zs : List Char} {z : Int} (h : ZoneText strict zs z) :
    ∃ g c t, Gap strict g ∧ (c = 'Z' ∨ c = 'z' ∨ c = '+' ∨ c = '-') ∧ zs = g ++ c :: t := by
  cases h with
  | utc hg hc =>
    refine ⟨_, _, _, hg, ?_, rfl⟩
    rcases hc with h | h <;> simp [h]
  | east hg _ _ _ => exact ⟨_, _, _, hg, by simp, rfl⟩
  | west hg _ _ _ => exact ⟨_, _, _, hg, by simp, rfl⟩

theorem splitZone_complete {strict : Bool} {zs : List Char} {z : Int} (h : ZoneText strict zs z) :
    splitZone strict zs = some z := by
  cases h with
  | @utc g c hg hc =>
    have hc' : c = 'z' ∨ c = 'Z' := hc.symm
    unfold splitZone
    rw [zoneAhead_zone hg (by rcases hc with h | h <;> simp [h])]
    simp [hc']
  | @east g hs sp ms h m hg h1 h2 h3 =>
    unfold splitZone
    rw [zoneAhead_zone hg (by simp)]
    have e := maybeSkip_digits h2 h3 [] (by decide)
    have f := readInteger_digits h3 []
    rw [List.append_nil] at e f
    simp [readInteger_digits h1, e, f]
  | @west g hs sp ms h m hg h1 h2 h3 =>
    unfold splitZone
    rw [zoneAhead_zone hg (by simp)]
    have e := maybeSkip_digits h2 h3 [] (by decide)
    have f := readInteger_digits h3 []
    rw [List.append_nil] at e f
    simp [readInteger_digits h1, e, f]

theorem splitZone_gap {strict : Bool} {g : List Char} (hg : Gap strict g) {c : Char}
    (hc : c = 'Z' ∨ c = 'z' ∨ c = '+' ∨ c = '-') (t : List Char) :
    splitZone strict (c :: t) = splitZone strict (g ++ c :: t) := by
  have h0 : Gap strict [] := Or.inl rfl
  have e := zoneAhead_zone h0 hc t
  rw [List.nil_append] at e
  unfold splitZone
  rw [zoneAhead_zone hg hc, e]

theorem readFraction_complete {strict : Bool} {g : List Char} (hg : Gap strict g) {c : Char}
    (hc : c = 'Z' ∨ c = 'z' ∨ c = '+' ∨ c = '-') (t : List Char) :
    ∀ (fs : List Char) (fuel p : Nat) (v : Int), (∀ c ∈ fs, '0' ≤ c ∧ c ≤ '9') →
      fs.length ≤ fuel → p + fs.length ≤ 6 →
      readFraction strict fuel p v (fs ++ (g ++ c :: t)) =
        some (p + fs.length, fs.foldl addDigit v, c :: t) := by
  intro fs
  induction fs with
  | nil =>
    intro fuel p v _ _ _
    unfold readFraction
    rw [List.nil_append, zoneAhead_zone hg hc]
    rfl
  | cons x fs ih =>
    intro fuel p v hd hf hp
    rw [List.length_cons] at hf hp
    have hx := hd x (List.mem_cons_self)
    obtain ⟨h0, h1⟩ := digit_not_zone hx
    have hx' : ¬ (x < '0' ∨ x > '9') := by
      rintro (h | h)
      · exact absurd hx.1 (by simpa using h)
      · exact absurd hx.2 (by simpa using h)
    cases fuel with
    | zero => omega
    | succ fuel =>
      unfold readFraction
      rw [List.cons_append, zoneAhead_other _ h0 h1]
      simp only [Bool.false_eq_true, if_false, if_neg hx']
      rw [if_neg (by omega), ih fuel (p + 1) _ (fun c h => hd c (List.mem_cons_of_mem _ h))
        (by omega) (by omega)]
      rw [List.length_cons, List.foldl_cons, Int.add_sub_assoc, addDigit,
        show p + 1 + fs.length = p + (fs.length + 1) by omega]

theorem splitSeconds_complete {strict : Bool} {ss : List Char} {s us z : Int}
    (h : SecondsText strict ss s us z) :
    ∃ rest, splitSeconds strict ss = some (s, us, rest) ∧ splitZone strict rest = some z := by
  cases h with
  | none hz =>
    have e := splitZone_complete hz
    obtain ⟨g, c, t, hg, hc, rfl⟩ := zone_shape hz
    refine ⟨c :: t, ?_, by rw [splitZone_gap hg hc, e]⟩
    unfold splitSeconds
    rw [zoneAhead_zone hg hc]
    rfl
  | @seconds sp ss zs s z hsp hss hz =>
    have e := splitZone_complete hz
    refine ⟨zs, ?_, e⟩
    have ha : zoneAhead strict (sp ++ (ss ++ zs)) = (false, sp ++ (ss ++ zs)) := by
      rcases hsp with rfl | ⟨rfl, rfl⟩
      · exact zoneAhead_other _ (by decide) (by decide)
      · obtain ⟨x, rest, ex, hx⟩ := digits_head hss zs
        rw [List.nil_append, ex]
        exact zoneAhead_other _ (digit_not_zone hx).1 (digit_not_zone hx).2
    have hdot : zs.head? ≠ some '.' := by
      obtain ⟨g, c, t, hg, hc, rfl⟩ := zone_shape hz
      rcases hg with rfl | ⟨-, rfl⟩
      · rcases hc with rfl | rfl | rfl | rfl <;> simp
      · simp
    unfold splitSeconds
    rw [ha]
    simp [maybeSkip_digits hsp hss zs (c := ':') (by decide), readInteger_digits hss, hdot]
  | @fraction sp ss fs zs s f z n hsp hss hfs hn hz =>
    have e := splitZone_complete hz
    obtain ⟨g, c, t, hg, hc, rfl⟩ := zone_shape hz
    refine ⟨c :: t, ?_, by rw [splitZone_gap hg hc, e]⟩
    have ha : ∀ r, zoneAhead strict (sp ++ (ss ++ r)) = (false, sp ++ (ss ++ r)) := by
      intro r
      rcases hsp with rfl | ⟨rfl, rfl⟩
      · exact zoneAhead_other _ (by decide) (by decide)
      · obtain ⟨x, rest, ex, hx⟩ := digits_head hss r
        rw [List.nil_append, ex]
        exact zoneAhead_other _ (digit_not_zone hx).1 (digit_not_zone hx).2
    have hf := readFraction_complete hg hc t fs (fs ++ (g ++ c :: t)).length 0 0 hfs.2.1
      (by simp) (by rw [hfs.1]; omega)
    have hv : fs.foldl addDigit 0 = f := hfs.2.2
    rw [hv, hfs.1, Nat.zero_add] at hf
    unfold splitSeconds
    rw [ha]
    simp only [Bool.false_eq_true, if_false, Option.bind_eq_bind, List.head?_cons, if_true,
      List.tail_cons, maybeSkip_digits hsp hss _ (c := ':') (by decide), Option.bind_some,
      readInteger_digits hss, hf]

/-- Every text of the grammar is accepted and means what the grammar says. -/
theorem splitIso8601_complete {strict : Bool} {s : List Char} {f : Fields}
    (h : IsoText strict s f) : splitIso8601 strict s = some f := by
  have ne : ∀ {n : Nat} {k : Int} {s : List Char}, Digits (n + 1) k s → ∀ t, s ++ t ≠ [] := by
    intro n k s h t e
    obtain ⟨c, rest, e', -⟩ := digits_head h t
    rw [e] at e'
    exact absurd e' (by simp)
  have ne' : ∀ {n : Nat} {k : Int} {s sp : List Char}, Digits (n + 1) k s → ∀ t,
      sp ++ (s ++ t) ≠ [] := by
    intro n k s sp h t e
    exact ne h t (List.append_eq_nil_iff.1 e).2
  cases h with
  | @year ys y hy =>
    have := readInteger_digits hy []
    rw [List.append_nil] at this
    simp [splitIso8601, this]
  | @month ys sp ms y m hy hsp hm =>
    have e1 := maybeSkip_digits hsp hm [] (by decide)
    have e2 := readInteger_digits hm []
    have e3 := ne' (sp := sp) hm []
    rw [List.append_nil] at e1 e2 e3
    simp only [splitIso8601, readInteger_digits hy, Option.bind_eq_bind, Option.bind_some, if_neg e3,
      splitMonth, e1, e2, if_true]
  | @day ys sp ms sp' ds y m d hy hsp hm hsp' hd =>
    have e1 := maybeSkip_digits hsp' hd [] (by decide)
    have e2 := readInteger_digits hd []
    have e3 := ne' (sp := sp') hd []
    rw [List.append_nil] at e1 e2 e3
    simp only [splitIso8601, readInteger_digits hy, Option.bind_eq_bind, Option.bind_some,
      if_neg (ne' hm _), splitMonth, maybeSkip_digits hsp hm _ (c := '-') (by decide),
      readInteger_digits hm, if_neg e3, splitDay, e1, e2, if_true]
  | @time ys sp ms sp' ds hs sp'' mis ss t y m d h mi s us z hy hsp hm hsp' hd ht hh hsp'' hmi hss =>
    obtain ⟨rest, f1, f2⟩ := splitSeconds_complete hss
    simp only [splitIso8601, readInteger_digits hy, Option.bind_eq_bind, Option.bind_some,
      if_neg (ne' hm _), splitMonth, maybeSkip_digits hsp hm _ (c := '-') (by decide),
      readInteger_digits hm, if_neg (ne' hd _), splitDay,
      maybeSkip_digits hsp' hd _ (c := '-') (by decide), readInteger_digits hd, List.head?_cons,
      Option.some.injEq, if_pos ht, List.tail_cons, reduceCtorEq, if_false, splitTime,
      readInteger_digits hh, maybeSkip_digits hsp'' hmi _ (c := ':') (by decide),
      readInteger_digits hmi, f1, f2]

/-! ### The strict parser accepts nothing else -/

theorem readFraction_sound : ∀ (fuel p : Nat) (v : Int) (s : List Char) (n : Nat) (f : Int)
    (rest : List Char), readFraction true fuel p v s = some (n, f, rest) → p ≤ 6 →
    ∃ fs, s = fs ++ rest ∧ n = p + fs.length ∧ n ≤ 6 ∧ (∀ c ∈ fs, '0' ≤ c ∧ c ≤ '9') ∧
      fs.foldl addDigit v = f := by
  intro fuel
  induction fuel with
  | zero =>
    intro p v s n f rest h hp
    unfold readFraction at h
    rw [zoneAhead_strict] at h
    by_cases hz : (zoneAhead true s).1
    · rw [if_pos hz] at h
      simp only [Option.some.injEq, Prod.mk.injEq] at h
      obtain ⟨rfl, rfl, rfl⟩ := h
      exact ⟨[], rfl, rfl, hp, by simp, rfl⟩
    · rw [if_neg hz] at h; exact absurd h (by simp)
  | succ fuel ih =>
    intro p v s n f rest h hp
    unfold readFraction at h
    rw [zoneAhead_strict] at h
    by_cases hz : (zoneAhead true s).1
    · rw [if_pos hz] at h
      simp only [Option.some.injEq, Prod.mk.injEq] at h
      obtain ⟨rfl, rfl, rfl⟩ := h
      exact ⟨[], rfl, rfl, hp, by simp, rfl⟩
    · rw [if_neg hz] at h
      cases s with
      | nil => exact absurd h (by simp)
      | cons c s =>
        dsimp only at h
        by_cases hc : c < '0' ∨ c > '9'
        · rw [if_pos hc] at h; exact absurd h (by simp)
        rw [if_neg hc] at h
        by_cases hq : p + 1 > 6
        · rw [if_pos hq] at h; exact absurd h (by simp)
        rw [if_neg hq] at h
        obtain ⟨fs, rfl, h1, h2, h3, h4⟩ := ih _ _ _ _ _ _ h (by omega)
        refine ⟨c :: fs, rfl, by rw [List.length_cons]; omega, h2, ?_, ?_⟩
        · intro x hx
          rcases List.mem_cons.1 hx with rfl | hx
          · simp only [not_or, Char.not_lt, gt_iff_lt] at hc; exact hc
          · exact h3 x hx
        · rw [List.foldl_cons, ← h4, Int.add_sub_assoc]; rfl

theorem splitZone_sound {s : List Char} {z : Int} (h : splitZone true s = some z) :
    ZoneText true s z := by
  unfold splitZone at h
  by_cases hz : (zoneAhead true s).1
  · rw [if_pos hz, zoneAhead_strict] at h
    cases s with
    | nil => exact absurd h (by simp)
    | cons c s =>
      have hc : c = 'Z' ∨ c = 'z' ∨ c = '+' ∨ c = '-' := by
        simpa [zoneAhead] using hz
      dsimp only at h
      by_cases hu : c = 'z' ∨ c = 'Z'
      · rw [if_pos hu] at h
        by_cases hs : s = []
        · subst hs
          simp only [if_true, Option.some.injEq] at h
          subst h
          exact ZoneText.utc (g := []) (Or.inl rfl) hu.symm
        · rw [if_neg hs] at h; exact absurd h (by simp)
      · rw [if_neg hu] at h
        simp only [Option.bind_eq_bind, Option.bind_eq_some_iff] at h
        obtain ⟨⟨hh, s1⟩, e1, s2, e2, ⟨m, s3⟩, e3, e4⟩ := h
        dsimp only at e2 e3 e4
        by_cases hs : s3 = []
        · rw [if_pos hs] at e4
          subst hs
          obtain ⟨hs', rfl, d1⟩ := readInteger_inv' e1
          have := maybeSkip_strict e2
          subst this
          obtain ⟨ms', rfl, d2⟩ := readInteger_inv' e3
          rw [List.append_nil]
          simp only [Option.some.injEq] at e4
          by_cases hm : c = '-'
          · rw [if_pos hm] at e4
            subst hm
            have : z = -(60 * hh + m) := by omega
            subst this
            exact ZoneText.west (g := []) (Or.inl rfl) d1 (Or.inl rfl) d2
          · rw [if_neg hm] at e4
            subst e4
            have : c = '+' := by
              rcases hc with h | h | h | h
              · exact absurd (Or.inr h) hu
              · exact absurd (Or.inl h) hu
              · exact h
              · exact absurd h hm
            subst this
            exact ZoneText.east (g := []) (Or.inl rfl) d1 (Or.inl rfl) d2
        · rw [if_neg hs] at e4; exact absurd e4 (by simp)
  · rw [if_neg hz] at h; exact absurd h (by simp)

theorem splitSeconds_sound {t : List Char} {s us z : Int} {rest : List Char}
    (h : splitSeconds true t = some (s, us, rest)) (hz : splitZone true rest = some z) :
    SecondsText true t s us z := by
  have hzt := splitZone_sound hz
  unfold splitSeconds at h
  rw [zoneAhead_strict] at h
  by_cases ha : (zoneAhead true t).1
  · rw [if_pos ha] at h
    simp only [Option.some.injEq, Prod.mk.injEq] at h
    obtain ⟨rfl, rfl, rfl⟩ := h
    exact .none hzt
  · rw [if_neg ha] at h
    simp only [Option.bind_eq_bind, Option.bind_eq_some_iff] at h
    obtain ⟨s1, e1, ⟨sec, s2⟩, e2, e3⟩ := h
    have := maybeSkip_strict e1
    subst this
    obtain ⟨ss, rfl, d1⟩ := readInteger_inv' e2
    dsimp only at e3
    by_cases hdot : s2.head? = some '.'
    · rw [if_pos hdot] at e3
      cases s2 with
      | nil => exact absurd hdot (by simp)
      | cons x s2 =>
        simp only [List.head?_cons, Option.some.injEq] at hdot
        subst hdot
        simp only [List.tail_cons, Option.bind_eq_some_iff] at e3
        obtain ⟨⟨n, f, s3⟩, e3, e4⟩ := e3
        simp only [Option.some.injEq, Prod.mk.injEq] at e4
        obtain ⟨rfl, rfl, rfl⟩ := e4
        obtain ⟨fs, rfl, h1, h2, h3, h4⟩ := readFraction_sound _ _ _ _ _ _ _ e3 (by omega)
        exact .fraction (Or.inl rfl) d1 ⟨by omega, h3, h4⟩ h2 hzt
    · rw [if_neg hdot] at e3
      simp only [Option.some.injEq, Prod.mk.injEq] at e3
      obtain ⟨rfl, rfl, rfl⟩ := e3
      exact .seconds (Or.inl rfl) d1 hzt

theorem splitIso8601_sound {s : List Char} {f : Fields} (h : splitIso8601 true s = some f) :
    IsoText true s f := by
  unfold splitIso8601 at h
  simp only [Option.bind_eq_bind, Option.bind_eq_some_iff] at h
  obtain ⟨⟨y, s1⟩, e1, h⟩ := h
  obtain ⟨ys, rfl, dy⟩ := readInteger_inv' e1
  dsimp only at h
  by_cases h1 : s1 = []
  · rw [if_pos h1] at h
    subst h1
    simp only [Option.some.injEq] at h
    subst h
    rw [List.append_nil]
    exact .year dy
  rw [if_neg h1] at h
  unfold splitMonth at h
  simp only [Option.bind_eq_bind, Option.bind_eq_some_iff] at h
  obtain ⟨s2, e2, ⟨m, s3⟩, e3, h⟩ := h
  have := maybeSkip_strict e2
  subst this
  obtain ⟨ms, rfl, dm⟩ := readInteger_inv' e3
  dsimp only at h
  by_cases h2 : s3 = []
  · rw [if_pos h2] at h
    subst h2
    simp only [Option.some.injEq] at h
    subst h
    rw [List.append_nil]
    exact .month dy (Or.inl rfl) dm
  rw [if_neg h2] at h
  unfold splitDay at h
  simp only [Option.bind_eq_bind, Option.bind_eq_some_iff] at h
  obtain ⟨s4, e4, ⟨d, s5⟩, e5, h⟩ := h
  have := maybeSkip_strict e4
  subst this
  obtain ⟨ds, rfl, dd⟩ := readInteger_inv' e5
  dsimp only at h
  by_cases h3 : s5 = []
  · rw [if_pos h3] at h
    subst h3
    simp only [Option.some.injEq] at h
    subst h
    rw [List.append_nil]
    exact .day dy (Or.inl rfl) dm (Or.inl rfl) dd
  rw [if_neg h3] at h
  by_cases h4 : s5.head? = some 'T' ∨ s5.head? = some 't' ∨ (true = false ∧ s5.head? = some ' ')
  · rw [if_pos h4] at h
    cases s5 with
    | nil => exact absurd rfl h3
    | cons t s5 =>
      simp only [List.head?_cons, Option.some.injEq] at h4
      rw [List.tail_cons] at h
      unfold splitTime at h
      simp only [Option.bind_eq_bind, Option.bind_eq_some_iff] at h
      obtain ⟨⟨hh, s6⟩, e6, s7, e7, ⟨mi, s8⟩, e8, ⟨sec, us, s9⟩, e9, z, e10, e11⟩ := h
      obtain ⟨hs, rfl, dh⟩ := readInteger_inv' e6
      have := maybeSkip_strict e7
      dsimp only at this
      subst this
      obtain ⟨mis, rfl, dmi⟩ := readInteger_inv' e8
      simp only [Option.some.injEq] at e11
      subst e11
      exact .time dy (Or.inl rfl) dm (Or.inl rfl) dd h4 dh (Or.inl rfl) dmi
        (splitSeconds_sound e9 e10)
  · rw [if_neg h4] at h; exact absurd h (by simp)

/-! ### Control strings -/

theorem two_digits : ∀ i ∈ List.range 100, ∀ fill ∈ ['0', ' '],
    (wrap fill (i : Int)).length = 2 ∧ toInteger (wrap fill (i : Int)) = some (i : Int) := by
  decide +kernel

theorem two_digits_zero : ∀ i ∈ List.range 100, Digits 2 (i : Int) (wrap '0' (i : Int)) := by
  decide +kernel

theorem four_digits : ∀ i ∈ List.range 400, Digits 4 (1800 + i : Int) (decimal (1800 + i : Int)) ∧
    toInteger (decimal (1800 + i : Int)) = some (1800 + i : Int) := by
  decide +kernel

theorem readText_app {n : Nat} {t : List Char} (h : t.length = n) (s : List Char) :
    readText n (t ++ s) = some (t, s) := by
  subst h
  simp [readText]

theorem readText_one (c : Char) (s : List Char) : readText 1 (c :: s) = some ([c], s) := by
  simp [readText]

theorem readNumber_app {n : Nat} {t : List Char} {k : Int} (h : t.length = n)
    (ht : toInteger t = some k) (s : List Char) : readNumber n (t ++ s) = some (k, s) := by
  simp [readNumber, readText_app h, ht]

theorem readNumber_wrap {i : Int} (h0 : 0 ≤ i) (h1 : i < 100) {fill : Char}
    (hf : fill = '0' ∨ fill = ' ') (s : List Char) :
    readNumber 2 (wrap fill i ++ s) = some (i, s) := by
  have := two_digits i.toNat (List.mem_range.2 (by omega)) fill (by rcases hf with h | h <;> simp [h])
  rw [Int.toNat_of_nonneg h0] at this
  exact readNumber_app this.1 this.2 s

theorem year_text {y : Int} (h0 : 1800 ≤ y) (h1 : y ≤ 2199) :
    Digits 4 y (decimal y) ∧ toInteger (decimal y) = some y := by
  have := four_digits (y - 1800).toNat (List.mem_range.2 (by omega))
  rw [Int.toNat_of_nonneg (by omega), show 1800 + (y - 1800) = y by omega] at this
  exact this

theorem wrap_digits {i : Int} (h0 : 0 ≤ i) (h1 : i < 100) : Digits 2 i (wrap '0' i) := by
  have := two_digits_zero i.toNat (List.mem_range.2 (by omega))
  rw [Int.toNat_of_nonneg h0] at this
  exact this

theorem parseMonth_hit {L : Nat} : ∀ (names : List String) (month : Int) (k : Nat) (name : String)
    (s : List Char), (∀ n ∈ names, n.toList.length = L) → names[k]? = some name →
    (∀ j n, j < k → names[j]? = some n → n.toList ≠ name.toList) →
    parseMonth names month (name.toList ++ s) = some (month + k, s) := by
  intro names
  induction names with
  | nil => intro month k name s _ h; exact absurd h (by simp)
  | cons n names ih =>
    intro month k name s hl hk hne
    have hname : name.toList.length = L := hl name (List.mem_of_getElem? hk)
    have hn : n.toList.length = L := hl n (List.mem_cons_self)
    unfold parseMonth
    rw [readText_app (by rw [hname, hn])]
    dsimp only
    cases k with
    | zero =>
      simp only [List.getElem?_cons_zero, Option.some.injEq] at hk
      subst hk
      simp
    | succ k =>
      have : ¬ name.toList = n.toList := fun e => hne 0 n (by omega) (by simp) e.symm
      rw [if_neg this, ih (month + 1) k name s (fun n h => hl n (List.mem_cons_of_mem _ h))
        (by simpa using hk) (fun j m hj hm => hne (j + 1) m (by omega) (by simpa using hm))]
      congr 2
      push_cast
      omega

theorem parseMonth_short {m : Int} (h0 : 1 ≤ m) (h1 : m ≤ 12) (s : List Char) :
    parseMonth shortMonthNames 1
      (((shortMonthNames[(m - 1).toNat]?).map (·.toList)).getD [] ++ s) = some (m, s) := by
  have hl : ∀ n ∈ shortMonthNames, n.toList.length = 3 := by decide +kernel
  have hd : ∀ k ∈ List.range 12, ∀ j ∈ List.range k,
      (shortMonthNames[j]?).map (·.toList) ≠ (shortMonthNames[k]?).map (·.toList) := by
    decide +kernel
  have hk : (m - 1).toNat < shortMonthNames.length := by
    show (m - 1).toNat < 12
    omega
  have e := List.getElem?_eq_getElem hk
  rw [e]
  simp only [Option.map_some, Option.getD_some]
  rw [parseMonth_hit shortMonthNames 1 (m - 1).toNat _ s hl e]
  · congr 2; omega
  · intro j n hj hn hne
    refine hd (m - 1).toNat (List.mem_range.2 (by omega)) j (List.mem_range.2 hj) ?_
    rw [hn, e]
    simp [hne]

/-- What reading a directive back does to the date. -/
def update (d0 d : Date) (c : Char) : Date :=
  { d0 with year := if c = 'Y' then d.year else d0.year, month := if c = 'm' ∨ c = 'b' then d.month else d0.month, day := if c = 'd' ∨ c = 'e' then d.day else d0.day, hours := if c = 'H' ∨ c = 'k' then d.hours else d0.hours, minutes := if c = 'M' then d.minutes else d0.minutes, seconds := if c = 'S' then d.seconds else d0.seconds }

theorem directive_roundtrip {d : Date} (hd : d.InRange) (h0 : 1800 ≤ d.year) (h1 : d.year ≤ 2199)
    {c : Char} (hc : c ∈ ['Y', 'm', 'b', 'd', 'e', 'H', 'k', 'M', 'S', 'n', '%']) (dots : Bool)
    (d0 : Date) (s : List Char) :
    parseDirective d0 c dots (formatDirective d c dots ++ s) = some (update d0 d c, s) := by
  obtain ⟨⟨r1, r2, r3, r4⟩, r5, r6, r7, r8, r9, r10, r11, r12⟩ := hd
  have hb := monthLength_bounds d.year d.month
  dsimp only at r1 r2 r3 r4
  obtain ⟨y1, y2⟩ := year_text h0 h1
  fin_cases hc <;>
    simp only [parseDirective, formatDirective, update, readNumber_app y1.1 y2,
      readNumber_wrap (fill := '0') (i := d.hours) (by omega) (by omega) (Or.inl rfl),
      readNumber_wrap (fill := ' ') (i := d.hours) (by omega) (by omega) (Or.inr rfl),
      readNumber_wrap (fill := '0') (i := d.minutes) (by omega) (by omega) (Or.inl rfl),
      readNumber_wrap (fill := '0') (i := d.seconds) (by omega) (by omega) (Or.inl rfl),
      readNumber_wrap (fill := '0') (i := d.month) (by omega) (by omega) (Or.inl rfl),
      readNumber_wrap (fill := '0') (i := d.day) (by omega) (by omega) (Or.inl rfl),
      readNumber_wrap (fill := ' ') (i := d.day) (by omega) (by omega) (Or.inr rfl),
      parseMonth_short r1 r2, List.cons_append, List.nil_append, readText_one, Option.map_some] <;> simp

/-- What reading back a control string does to the date. -/
def result (ps : List Piece) (d0 d : Date) : Date :=
  match ps with
  | [] => d0
  | .literal _ :: ps => result ps d0 d
  | .directive c :: ps => result ps (update d0 d c) d

theorem loop_roundtrip {d : Date} (hd : d.InRange) (h0 : 1800 ≤ d.year) (h1 : d.year ≤ 2199) :
    ∀ (ps : List Piece) (d0 : Date), (∀ p ∈ ps, p.Plain) →
      parseLoop (control ps) false false d0 (formatLoop d (control ps) false false) =
        some (result ps d0 d) := by
  intro ps
  induction ps with
  | nil => intro d0 _; rfl
  | cons p ps ih =>
    intro d0 hp
    have hpp := hp p (List.mem_cons_self)
    have ih' := fun d0 => ih d0 (fun p h => hp p (List.mem_cons_of_mem _ h))
    cases p with
    | literal c =>
      have hc : c ≠ '%' := hpp
      simp only [control, parseLoop, formatLoop, hc, false_and, if_false, Bool.false_eq_true,
        and_false]
      rw [readText_one]
      exact ih' d0
    | directive c =>
      have hc : c ∈ ['Y', 'm', 'b', 'd', 'e', 'H', 'k', 'M', 'S', 'n', '%'] := hpp
      have hcolon : c ≠ ':' := by rintro rfl; exact absurd hc (by decide)
      simp only [control, parseLoop, formatLoop, and_self, if_true, hcolon, false_and, if_false,
        Bool.true_eq_false, and_false, directive_roundtrip hd h0 h1 hc]
      exact ih' _

theorem result_eq (d : Date) : ∀ (ps : List Piece) (d0 : Date), result ps d0 d =
    { d0 with year := if .directive 'Y' ∈ ps then d.year else d0.year, month := if .directive 'm' ∈ ps ∨ .directive 'b' ∈ ps then d.month else d0.month, day := if .directive 'd' ∈ ps ∨ .directive 'e' ∈ ps then d.day else d0.day, hours := if .directive 'H' ∈ ps ∨ .directive 'k' ∈ ps then d.hours else d0.hours, minutes := if .directive 'M' ∈ ps then d.minutes else d0.minutes, seconds := if .directive 'S' ∈ ps then d.seconds else d0.seconds } := by
  have orif : ∀ (P Q : Prop) [Decidable P] [Decidable Q] [Decidable (Q ∨ P)] (a b : Int),
      (if P then a else if Q then a else b) = if Q ∨ P then a else b := by
    intro P Q _ _ _ a b
    by_cases hP : P <;> by_cases hQ : Q <;> simp [hP, hQ]
  intro ps
  induction ps with
  | nil => intro d0; simp [result]
  | cons p ps ih =>
    intro d0
    cases p with
    | literal c => simp [result, ih]
    | directive c =>
      rw [result, ih]
      simp only [update, List.mem_cons, Piece.directive.injEq, orif]
      congr 1 <;>
      · congr 1
        apply propext
        constructor <;> intro h <;> (simp only [eq_comm (b := c)] at *; tauto)

end Verif.Date
