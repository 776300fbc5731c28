/-
The properties C89 to C92.
-/
import Verif.Common.Lemmas

namespace Verif.Common

variable {α : Type}

/-! ### C89: split -/

/-- Splitting with any function that finds the first separator. -/
theorem split_function {seq : List α} {find : Int → Int → Option (Int × Int)} {start e fuel : Nat} {Cut : List α → List α → List α → Prop}
    (hf : Finds seq find e Cut) (h1 : start ≤ e) (h2 : e ≤ seq.length) (hfuel : seq.length < fuel) :
    (∀ count : Int, ∃ ps, splitFun fuel seq find start (some e) (some count) false = .ok ps ∧ Parts Cut count (seg seq start e) ps) ∧
    (∀ count : Int, ∃ ps, splitFun fuel seq find start (some e) (some count) true = .ok ps ∧ KeptParts Cut count (seg seq start e) ps) ∧
    (∃ ps, splitFun fuel seq find start (some e) none false = .ok ps ∧ AllParts Cut (seg seq start e) ps) := by
  refine ⟨fun count => ?_, fun count => ?_, ?_⟩
  · obtain ⟨ps, h, hp⟩ := splitLoop_parts hf h2 count fuel start [] 1 h1 (by omega)
    refine ⟨ps, ?_, by rwa [Int.sub_add_cancel] at hp⟩
    unfold splitFun
    simp only [Option.getD_some]
    rw [h]; simp
  · obtain ⟨ps, h, hp⟩ := splitLoop_kept hf h2 count fuel start [] 1 h1 (by omega)
    refine ⟨ps, ?_, by rwa [Int.sub_add_cancel] at hp⟩
    unfold splitFun
    simp only [Option.getD_some]
    rw [h]; simp
  · obtain ⟨ps, h, hp⟩ := splitLoop_all hf h2 ((e : Int) + 1) (by omega) fuel start [] 1 h1 (by omega) (by omega)
    refine ⟨ps, ?_, hp⟩
    unfold splitFun
    simp only [Option.getD_some, Option.getD_none]
    rw [h]; simp

/-- Splitting at an object: at the elements that pass the test, all of them or as many as `count` allows. -/
theorem split_object (test : α → Bool) {seq : List α} {start e fuel : Nat} (h1 : start ≤ e) (h2 : e ≤ seq.length) (hfuel : seq.length < fuel) :
    (∀ count : Int, ∃ ps, splitObj test fuel seq start (some e) (some count) false = .ok ps ∧ Parts (ObjCut test) count (seg seq start e) ps) ∧
    (∀ count : Int, ∃ ps, splitObj test fuel seq start (some e) (some count) true = .ok ps ∧ KeptParts (ObjCut test) count (seg seq start e) ps) ∧
    (∃ ps, splitObj test fuel seq start (some e) none false = .ok ps ∧ AllParts (ObjCut test) (seg seq start e) ps) :=
  split_function (finds_obj test seq h2) h1 h2 hfuel

/-- Splitting at a sequence: at its occurrences, from the left. -/
theorem split_sequence (test : α → α → Bool) {seq sep : List α} {start e fuel : Nat} (hne : sep ≠ []) (h1 : start ≤ e) (h2 : e ≤ seq.length)
    (hfuel : seq.length < fuel) :
    (∀ count : Int, ∃ ps, splitSeq test fuel seq sep start (some e) (some count) false = .ok ps ∧ Parts (SeqCut test sep) count (seg seq start e) ps) ∧
    (∀ count : Int, ∃ ps, splitSeq test fuel seq sep start (some e) (some count) true = .ok ps ∧ KeptParts (SeqCut test sep) count (seg seq start e) ps) ∧
    (∃ ps, splitSeq test fuel seq sep start (some e) none false = .ok ps ∧ AllParts (SeqCut test sep) (seg seq start e) ps) :=
  split_function (finds_seq test seq sep h2 hne) h1 h2 hfuel

/-- An empty separator is an error. -/
theorem split_empty (test : α → α → Bool) {seq : List α} {start e fuel : Nat} (count : Option Int) (rm : Bool) (h1 : start ≤ e) (h2 : e ≤ seq.length)
    (hfuel : 0 < fuel) : splitSeq test fuel seq [] start (some e) count rm = .emptySeparator := by
  obtain ⟨fuel, rfl⟩ : ∃ k, fuel = k + 1 := ⟨fuel - 1, by omega⟩
  have hfind : findSeparator test seq [] (seq.length + 2) start e = some ((start : Int), (start : Int)) := by
    rw [show seq.length + 2 = (seq.length + 1) + 1 by omega, findSeparator]
    rw [if_pos (by simp; omega), lookingAt_eq _ _ _ _ _ _ (by simp) (by simp)]
    simp [startsWith]
  have hfl : (some ((start : Int), (start : Int))).filter (fun r => decide (r.2 ≤ (e : Int))) = some ((start : Int), (start : Int)) := by
    simp only [Option.filter]
    rw [if_pos (by simp; omega)]
  unfold splitSeq splitFun
  dsimp only [Option.getD_some]
  rw [splitLoop, hfind, hfl]
  dsimp only
  rw [if_pos rfl]

/-- Each part but the last has no separator, there are at most `count` parts, and the last one has no
    separator either if there are fewer. -/
theorem parts_object {test : α → Bool} {n : Int} {l : List α} {ps : List (List α)} (h : Parts (ObjCut test) n l ps) :
    ps ≠ [] ∧ ((ps.length : Int) ≤ n ∨ ps.length = 1) ∧ (∀ p ∈ ps.dropLast, ∀ y ∈ p, test y = false) ∧
      ((ps.length : Int) < n → ∀ p ∈ ps, ∀ y ∈ p, test y = false) := by
  have nocut : ∀ {l : List α}, (∀ b a, ¬ ObjCut test l b a) → ∀ y ∈ l, test y = false := by
    intro l
    induction l with
    | nil => intro _ y hy; simp at hy
    | cons x l ih =>
      intro hn y hy
      have hx : test x = false := by
        cases hx : test x with
        | false => rfl
        | true => exact absurd ⟨x, rfl, hx, by simp⟩ (hn [] l)
      rcases List.mem_cons.mp hy with rfl | hy
      · exact hx
      · refine ih (fun b a hc => ?_) y hy
        obtain ⟨z, hz, hz2, hz3⟩ := hc
        refine hn (x :: b) a ⟨z, by rw [hz]; rfl, hz2, ?_⟩
        intro w hw
        rcases List.mem_cons.mp hw with rfl | hw
        · exact hx
        · exact hz3 w hw
  induction h with
  | whole hn =>
    refine ⟨by simp, Or.inr rfl, by simp, fun _ p hp y hy => ?_⟩
    rw [List.mem_singleton] at hp
    subst hp
    exact nocut hn y hy
  | stop hn =>
    refine ⟨by simp, Or.inr rfl, by simp, fun hlt => ?_⟩
    simp at hlt; omega
  | cut hn hc hp ih =>
    obtain ⟨i1, i2, i3, i4⟩ := ih
    obtain ⟨x, hx, hx2, hx3⟩ := hc
    refine ⟨by simp, ?_, ?_, ?_⟩
    · rw [List.length_cons]
      rcases i2 with i2 | i2
      · left; push_cast; omega
      · left; rw [i2]; omega
    · intro p hmem y hy
      rw [List.dropLast_cons_of_ne_nil i1] at hmem
      rcases List.mem_cons.mp hmem with rfl | hmem
      · exact hx3 y hy
      · exact i3 p hmem y hy
    · intro hlt p hmem y hy
      rw [List.length_cons] at hlt
      rcases List.mem_cons.mp hmem with rfl | hmem
      · exact hx3 y hy
      · exact i4 (by push_cast at hlt; omega) p hmem y hy

/-- Without `count:`, leaving out the empty parts leaves all the others. -/
theorem kept_all {Cut : List α → List α → List α → Prop} (hshort : ∀ {l b a}, Cut l b a → b.length + a.length < l.length) {n : Int} {l : List α}
    {ps : List (List α)} (h : KeptParts Cut n l ps) : (l.length : Int) < n → ∃ qs, AllParts Cut l qs ∧ ps = qs.filter (fun p => !p.isEmpty) := by
  induction h with
  | none hn => exact fun _ => ⟨[[]], .whole hn, rfl⟩
  | whole hn hne =>
    intro _
    refine ⟨_, .whole hn, ?_⟩
    rw [List.filter_cons_of_pos (by simp [hne])]; rfl
  | skip hc _ ih =>
    intro hlt
    have := hshort hc
    simp at this
    obtain ⟨qs, h1, h2⟩ := ih (by omega)
    exact ⟨[] :: qs, .cut hc h1, by rw [h2]; rfl⟩
  | stop hn hc _ =>
    intro hlt
    have := hshort hc
    omega
  | cut hn hc hne _ ih =>
    intro hlt
    have := hshort hc
    obtain ⟨qs, h1, h2⟩ := ih (by omega)
    refine ⟨_ :: qs, .cut hc h1, ?_⟩
    rw [List.filter_cons_of_pos (by simp [hne]), h2]

theorem split_object_keep (test : α → Bool) {seq : List α} {start e fuel : Nat} (h1 : start ≤ e) (h2 : e ≤ seq.length) (hfuel : seq.length < fuel) :
    ∃ qs, splitObj test fuel seq start (some e) none false = .ok qs ∧
      splitObj test fuel seq start (some e) none true = .ok (qs.filter (fun p => !p.isEmpty)) := by
  have hshort : ∀ {l b a : List α}, ObjCut test l b a → b.length + a.length < l.length := by
    rintro l b a ⟨x, rfl, _⟩
    simp
  obtain ⟨qs, hq, haq⟩ := (split_object test h1 h2 hfuel).2.2
  obtain ⟨ps, hp, hk⟩ := (split_object test h1 h2 hfuel).2.1 ((e : Int) + 1)
  obtain ⟨qs', haq', he⟩ := kept_all hshort hk (by rw [seg_length _ h2]; omega)
  have := allParts_unique (Cut := ObjCut _) objCut_unique haq haq'
  subst this
  exact ⟨qs, hq, by rw [← he]; exact hp⟩

/-! ### C90: join -/

/-- `join` returns the sequences with the separators between them. -/
theorem join_eq (blank : α) (sequences : List (List α)) (separator : List α) (conjunction : Option (List α)) :
    join blank sequences separator conjunction = some (joined separator (conjunction.getD separator) sequences) := by
  match sequences with
  | [] => rfl
  | [s] => rfl
  | s :: t :: rest =>
    have ht := tailText_joined separator conjunction (t :: rest) s 1 ((s :: t :: rest).length - 1) (by simp; omega)
    have hl := tailText_length separator conjunction (t :: rest) 1 ((s :: t :: rest).length - 1) (by simp; omega) (by simp)
    unfold join
    dsimp only
    rw [foldl_length]
    have hsize : ((0 : Int) + ((s :: t :: rest).flatten.length : Int) + (separator.length : Int) * (((s :: t :: rest).length : Int) - 1) +
        extraSize separator conjunction).toNat =
        s.length + (tailText separator conjunction ((s :: t :: rest).length - 1) (t :: rest) 1).length := by
      have e1 : ((s :: t :: rest).length : Int) - 1 = ((t :: rest).length : Int) := by simp
      have e2 : ((s :: t :: rest).flatten.length : Int) = s.length + ((t :: rest).flatten.length : Int) := by simp
      rw [e1, e2]
      omega
    rw [hsize]
    have h0 : copyTo (some (List.replicate (s.length + (tailText separator conjunction ((s :: t :: rest).length - 1) (t :: rest) 1).length) blank, 0)) s =
        some (s ++ List.replicate (tailText separator conjunction ((s :: t :: rest).length - 1) (t :: rest) 1).length blank, s.length) := by
      have := copyTo_some [] (List.replicate (s.length + (tailText separator conjunction ((s :: t :: rest).length - 1) (t :: rest) 1).length) blank) s (by simp)
      simpa using this
    rw [h0, joinLoop_eq _ _ _ _ _ _ _ (by simp), ht]
    simp

/-- Joining the parts with the separator gives the sequence back. -/
theorem joined_object [DecidableEq α] {c : α} {l : List α} {ps : List (List α)} (h : AllParts (ObjCut (fun x => decide (x = c))) l ps) :
    joined [c] [c] ps = l := by
  induction h with
  | whole _ => rfl
  | @cut l b a ps hc hp ih =>
    obtain ⟨x, hx, hx2, _⟩ := hc
    have hxc : x = c := by simpa using hx2
    subst hxc
    have hj : ∀ q qs, joined [x] [x] (b :: q :: qs) = b ++ [x] ++ joined [x] [x] (q :: qs) := by
      intro q qs; cases qs <;> rfl
    cases hp with
    | whole _ => rw [hj]; rw [hx]; simp [joined]
    | cut _ _ => rw [hj, ih, hx]; simp

theorem join_split_object [DecidableEq α] (blank c : α) {seq : List α} {start e fuel : Nat} (h1 : start ≤ e) (h2 : e ≤ seq.length) (hfuel : seq.length < fuel) :
    ∃ ps, splitObj (fun x => decide (x = c)) fuel seq start (some e) none false = .ok ps ∧ join blank ps [c] none = some (seg seq start e) := by
  obtain ⟨ps, hp, ha⟩ := (split_object (fun x => decide (x = c)) h1 h2 hfuel).2.2
  exact ⟨ps, hp, by rw [join_eq]; exact congrArg some (joined_object ha)⟩

theorem startsWith_eq [DecidableEq α] : ∀ (p m : List α), m.length = p.length → startsWith (fun y x => decide (y = x)) p m = true → m = p
  | [], m, h, _ => List.length_eq_zero_iff.mp h
  | y :: ys, [], h, _ => by simp at h
  | y :: ys, x :: xs, h, hs => by
    unfold startsWith at hs
    rw [Bool.and_eq_true, decide_eq_true_eq] at hs
    rw [startsWith_eq ys xs (by simpa using h) hs.2, hs.1]

theorem joined_sequence [DecidableEq α] {sep l : List α} {ps : List (List α)} (h : AllParts (SeqCut (fun y x => decide (y = x)) sep) l ps) :
    joined sep sep ps = l := by
  induction h with
  | whole _ => rfl
  | @cut l b a ps hc hp ih =>
    obtain ⟨mid, hx, hlen, hs, _⟩ := hc
    have hm := startsWith_eq sep mid hlen hs
    subst hm
    have hj : ∀ q qs, joined mid mid (b :: q :: qs) = b ++ mid ++ joined mid mid (q :: qs) := by
      intro q qs; cases qs <;> rfl
    cases hp with
    | whole _ => rw [hj]; rw [hx]; simp [joined]
    | cut _ _ => rw [hj, ih, hx]

theorem join_split_sequence [DecidableEq α] (blank : α) {seq sep : List α} {start e fuel : Nat} (hne : sep ≠ []) (h1 : start ≤ e) (h2 : e ≤ seq.length)
    (hfuel : seq.length < fuel) :
    ∃ ps, splitSeq (fun y x => decide (y = x)) fuel seq sep start (some e) none false = .ok ps ∧ join blank ps sep none = some (seg seq start e) := by
  obtain ⟨ps, hp, ha⟩ := (split_sequence (fun y x => decide (y = x)) hne h1 h2 hfuel).2.2
  exact ⟨ps, hp, by rw [join_eq]; exact congrArg some (joined_sequence ha)⟩

/-- Splitting what was joined gives the parts back, if they do not have the separator in them. -/
theorem split_join [DecidableEq α] (blank c : α) (ps : List (List α)) (hne : ps ≠ []) (hno : ∀ p ∈ ps, c ∉ p) :
    ∃ s, join blank ps [c] none = some s ∧ ∀ fuel > s.length, splitObj (fun x => decide (x = c)) fuel s 0 none none false = .ok ps := by
  refine ⟨_, join_eq blank ps [c] none, fun fuel hfuel => ?_⟩
  simp only [Option.getD_none] at hfuel ⊢
  have hall : AllParts (ObjCut (fun x => decide (x = c))) (joined [c] [c] ps) ps := by
    clear hfuel
    induction ps with
    | nil => exact absurd rfl hne
    | cons p ps ih =>
      have hp : ∀ y ∈ p, decide (y = c) = false := fun y hy => by
        have := hno p (by simp)
        simp only [decide_eq_false_iff_not]
        rintro rfl
        exact this hy
      cases ps with
      | nil =>
        refine .whole ?_
        rintro b a ⟨x, hx, hx2, _⟩
        have := hp x (by have : p = b ++ x :: a := hx; rw [this]; simp)
        exact absurd hx2 (by simpa using this)
      | cons q qs =>
        have hj : joined [c] [c] (p :: q :: qs) = p ++ [c] ++ joined [c] [c] (q :: qs) := by
          cases qs <;> rfl
        rw [hj]
        exact .cut ⟨c, by simp, by simp, hp⟩ (ih (by simp) (fun r hr => hno r (by simp [hr])))
  generalize joined [c] [c] ps = s at hall hfuel
  obtain ⟨qs, hq, ha⟩ := (split_object (fun x => decide (x = c)) (Nat.zero_le s.length) (Nat.le_refl _) hfuel).2.2
  have hseg : seg s 0 s.length = s := by simp [seg]
  rw [hseg] at ha
  have := allParts_unique (Cut := ObjCut _) objCut_unique ha hall
  subst this
  have : splitObj (fun x => decide (x = c)) fuel s 0 none none false = splitObj (fun x => decide (x = c)) fuel s ((0 : Nat) : Int) (some s.length) none false := rfl
  rw [this]; exact hq

/-! ### C91: position and find-element -/

theorem positions_cons {test : α → Bool} {seq : List α} {i e : Nat} (h : i < e) (hl : i < seq.length) :
    positions test seq i e = if test seq[i] then i :: positions test seq (i + 1) e else positions test seq (i + 1) e := by
  unfold positions
  rw [show e - i = (e - (i + 1)) + 1 by omega, List.range'_succ, List.filter_cons, List.getElem?_eq_getElem hl]
  rfl

theorem positionLoop_eq (test : α → Bool) (seq : List α) {e : Nat} (he : e ≤ seq.length) : ∀ (k i : Nat) (skip : Int), 0 < k ∧ e < i + k →
    positionLoop test seq e k i skip = .ok (if 0 ≤ skip then ((positions test seq i e)[skip.toNat]?).map (fun n : Nat => (n : Int)) else none)
  | 0, i, skip, h => by
    omega
  | k + 1, i, skip, h => by
    unfold positionLoop
    by_cases hi : e ≤ i
    · rw [if_pos (by omega)]
      have : positions test seq i e = [] := by unfold positions; rw [show e - i = 0 by omega]; rfl
      rw [this]
      simp
    · rw [if_neg (by omega), if_neg (by omega), Int.toNat_natCast, List.getElem?_eq_getElem (by omega)]
      dsimp only
      rw [positions_cons (by omega) (by omega)]
      have hcast : (i : Int) + 1 = ((i + 1 : Nat) : Int) := by omega
      by_cases ht : test seq[i] = true
      · rw [if_pos ht, if_pos ht]
        by_cases hs : skip = 0
        · rw [if_pos hs, hs]; rfl
        · rw [if_neg hs, hcast, positionLoop_eq test seq he k (i + 1) (skip - 1) (by omega)]
          by_cases hp : 0 ≤ skip
          · rw [if_pos hp, if_pos (by omega)]
            rw [show skip.toNat = (skip - 1).toNat + 1 by omega, List.getElem?_cons_succ]
          · rw [if_neg hp, if_neg (by omega)]
      · rw [if_neg ht, if_neg ht, hcast, positionLoop_eq test seq he k (i + 1) skip (by omega)]

/-- `position` on vectors: the position of the element after `skip` others that pass the test, from `start`
    up to `end`. -/
theorem position_vector (test : α → Bool) {seq : List α} {start e : Nat} (he : e ≤ seq.length) (skip : Nat) :
    position test seq start (some e) skip none = .ok (((positions test seq start e)[skip]?).map (fun n : Nat => (n : Int))) ∧
    position test seq start none skip none = .ok (((positions test seq start seq.length)[skip]?).map (fun n : Nat => (n : Int))) ∧
    position test seq start (some e) skip (some ((skip : Int) + 1)) = .ok (((positions test seq start e)[skip]?).map (fun n : Nat => (n : Int))) := by
  unfold position
  dsimp only [Option.getD_some, Option.getD_none, skipOf]
  rw [positionLoop_eq test seq he _ _ _ (by omega), positionLoop_eq test seq (Nat.le_refl _) _ _ _ (by omega), positionLoop_eq test seq he _ _ _ (by omega)]
  rw [if_pos (by omega), if_pos (by omega), if_pos (by omega)]
  refine ⟨rfl, rfl, ?_⟩
  rw [show ((skip : Int) + 1 - 1).toNat = skip by omega]

theorem positionFipLoop_eq (test : α → Bool) (seq : List α) (fin : Option Nat) : ∀ (i : Nat) (skip : Int), i ≤ seq.length →
    positionFipLoop test (fin.map (fun n : Nat => (n : Int))) (seq.drop i) i skip =
      (if 0 ≤ skip then ((positions test seq i (min (fin.getD seq.length) seq.length))[skip.toNat]?).map (fun n : Nat => (n : Int)) else none) := by
  intro i
  generalize hk : seq.length - i = k
  induction k generalizing i with
  | zero =>
    intro skip hi
    have hpos : positions test seq i (min (fin.getD seq.length) seq.length) = [] := by
      unfold positions
      rw [show min (fin.getD seq.length) seq.length - i = 0 by omega]; rfl
    rw [List.drop_eq_nil_of_le (by omega), hpos]
    simp [positionFipLoop]
  | succ k ih =>
    intro skip hi
    have hlt : i < seq.length := by omega
    rw [List.drop_eq_getElem_cons hlt]
    unfold positionFipLoop
    have hcast : (i : Int) + 1 = ((i + 1 : Nat) : Int) := by omega
    by_cases hend : fin.getD seq.length ≤ i
    · obtain ⟨e, rfl⟩ : ∃ e, fin = some e := by
        cases fin with
        | none => simp at hend; omega
        | some e => exact ⟨e, rfl⟩
      simp only [Option.getD_some] at hend
      have hpos : positions test seq i (min e seq.length) = [] := by
        unfold positions
        rw [show min e seq.length - i = 0 by omega]; rfl
      simp only [Option.map_some, Option.getD_some, hpos]
      rw [if_pos (by simp [beyond]; omega)]
      simp
    · have hc : beyond (fin.map (fun n : Nat => (n : Int))) i = false := by
        cases fin with
        | none => rfl
        | some e => simp [beyond] at hend ⊢; omega
      rw [hc, if_neg (by simp), positions_cons (by omega) hlt]
      by_cases ht : test seq[i] = true
      · rw [if_pos ht, if_pos ht]
        by_cases hs : skip = 0
        · rw [if_pos hs, hs]; rfl
        · rw [if_neg hs, hcast, ih (i + 1) (by omega) (skip - 1) (by omega)]
          by_cases hp : 0 ≤ skip
          · rw [if_pos hp, if_pos (by omega)]
            rw [show skip.toNat = (skip - 1).toNat + 1 by omega, List.getElem?_cons_succ]
          · rw [if_neg hp, if_neg (by omega)]
      · rw [if_neg ht, if_neg ht, hcast, ih (i + 1) (by omega) skip (by omega)]

/-- `position` on other sequences answers the same; `end:` may be beyond the sequence. -/
theorem position_sequence (test : α → Bool) {seq : List α} {start : Nat} (hs : start ≤ seq.length) (fin : Option Nat) (skip : Nat) :
    positionFip test seq start (fin.map (fun n : Nat => (n : Int))) skip none =
      ((positions test seq start (min (fin.getD seq.length) seq.length))[skip]?).map (fun n : Nat => (n : Int)) := by
  unfold positionFip
  dsimp only [skipOf]
  rw [Int.toNat_natCast, positionFipLoop_eq test seq fin start _ hs, if_pos (by omega)]
  rfl

theorem findKeyLoop_eq (fn : α → Bool) : ∀ (l : List α) (i skip : Nat),
    ∃ r, findKeyLoop fn l i skip = r ∧ (match r with
      | none => (l.filter fn)[skip]? = none
      | some k => ∃ j : Nat, k = (i : Int) + j ∧ j < l.length ∧ l[j]? = (l.filter fn)[skip]? )
  | [], i, skip => ⟨none, rfl, by simp⟩
  | e :: l, i, skip => by
    have hcast : (i : Int) + 1 = ((i + 1 : Nat) : Int) := by omega
    refine ⟨_, rfl, ?_⟩
    unfold findKeyLoop
    by_cases hfn : fn e = true
    · rw [if_pos hfn]
      cases skip with
      | zero =>
        rw [if_pos (by omega)]
        exact ⟨0, by simp, by simp, by rw [List.filter_cons_of_pos hfn]; rfl⟩
      | succ n =>
        rw [if_neg (by omega), hcast, show (((n + 1 : Nat) : Int) - 1) = (n : Int) by omega]
        obtain ⟨r, hr, h⟩ := findKeyLoop_eq fn l (i + 1) n
        rw [hr, List.filter_cons_of_pos hfn, List.getElem?_cons_succ]
        cases r with
        | none => exact h
        | some k =>
          obtain ⟨j, h1, h2, h3⟩ := h
          exact ⟨j + 1, by omega, by simp; omega, by rw [List.getElem?_cons_succ, h3]⟩
    · rw [if_neg hfn, hcast]
      obtain ⟨r, hr, h⟩ := findKeyLoop_eq fn l (i + 1) skip
      rw [hr, List.filter_cons_of_neg hfn]
      cases r with
      | none => exact h
      | some k =>
        obtain ⟨j, h1, h2, h3⟩ := h
        exact ⟨j + 1, by omega, by simp; omega, by rw [List.getElem?_cons_succ, h3]⟩

/-- `find-element` returns the element after `skip` others that satisfy the predicate, or the failure value. -/
theorem find_element (fn : α → Bool) (seq : List α) (skip : Nat) (failure : α) :
    findElement fn seq skip failure = ((seq.filter fn)[skip]?).getD failure := by
  unfold findElement
  obtain ⟨r, hr, h⟩ := findKeyLoop_eq fn seq 0 skip
  have h0 : ((0 : Nat) : Int) = 0 := rfl
  rw [h0] at hr
  rw [hr]
  cases r with
  | none => dsimp only at h ⊢; rw [h]; rfl
  | some k =>
    obtain ⟨j, h1, h2, h3⟩ := h
    dsimp only
    rw [h1, show ((0 : Nat) : Int) + (j : Int) = (j : Int) by omega, Int.toNat_natCast, h3]

/-! ### C92: fill-table! and difference -/

theorem difference_ok (test : α → α → Bool) (s1 s2 : List α) :
    (difference test s1 s2).Sublist s1 ∧ ∀ x, x ∈ difference test s1 s2 ↔ x ∈ s1 ∧ ∀ y ∈ s2, test x y = false := by
  refine ⟨List.filter_sublist, fun x => ?_⟩
  unfold difference
  simp [List.mem_filter]

theorem fillTable_eq {κ : Type} : ∀ (ps : List (κ × Option κ)) (table : List (κ × Option κ)),
    fillTable (ps.flatMap (fun p => [some p.1, p.2])) none table = ps.reverse ++ table
  | [], table => rfl
  | p :: ps, table => by
    simp only [List.flatMap_cons, List.cons_append, List.nil_append]
    simp only [fillTable]
    rw [fillTable_eq ps]
    simp

/-- `fill-table!` puts every value in at the key before it, if no key is `#f`. -/
theorem fill_table_partial {κ : Type} [DecidableEq κ] (ps : List (κ × Option κ)) (table : List (κ × Option κ)) (k : κ) :
    lookup (fillTable (ps.flatMap (fun p => [some p.1, p.2])) none table) k =
      (match ps.reverse.find? (fun p => p.1 = k) with
       | some p => some p.2
       | none => lookup table k) := by
  rw [fillTable_eq]
  unfold lookup
  rw [List.find?_append]
  cases ps.reverse.find? (fun p => decide (p.1 = k)) <;> rfl

/-- With the key `#f` the following pairs are taken apart: its value becomes a key. -/
theorem fill_table_violated : ∃ objects : List (Option Nat), pairsOf objects = [(none, some 1), (some 2, some 3)] ∧
    lookup (fillTable objects none []) 2 = none ∧ lookup (fillTable objects none []) 1 = some (some 2) :=
  ⟨[none, some 1, some 2, some 3], rfl, rfl, rfl⟩

/-! ### The hypotheses are met -/

example : splitObj (fun x => decide (x = 0)) 10 [1, 2, 0, 3, 0, 0] 0 none none false = .ok [[1, 2], [3], [], []] := by decide +kernel
example : splitObj (fun x => decide (x = 0)) 10 [1, 2, 0, 3, 0, 0] 0 none (some 2) false = .ok [[1, 2], [3, 0, 0]] := by decide +kernel
example : splitObj (fun x => decide (x = 0)) 10 [0, 0, 1, 2, 0, 3, 0] 0 none (some 1) true = .ok [[1, 2, 0, 3, 0]] := by decide +kernel
example : splitSeq (fun y x => decide (y = x)) 10 [1, 0, 0, 0, 2, 0] [0, 0] 0 none none false = .ok [[1], [0, 2, 0]] := by decide +kernel
example : ObjCut (fun x => decide (x = 0)) [1, 0, 2, 0] [1] [2, 0] := ⟨0, rfl, rfl, by decide⟩
example : SeqCut (fun y x => decide (y = x)) [0, 0] [1, 0, 0, 0, 2, 0] [1] [0, 2, 0] := ⟨[0, 0], rfl, rfl, by decide, by decide⟩
example : join 0 [[1], [2, 3], [], [4]] [8, 8] (some [9]) = some [1, 8, 8, 2, 3, 8, 8, 9, 4] := by decide +kernel
example : position (fun x => decide (x = 5)) [5, 1, 5, 5] 1 (some 4) 1 none = .ok (some 3) := by decide +kernel
example : positionFip (fun x => decide (x = 5)) [5, 1, 5, 5] 1 (some 9) 1 none = some 3 := by decide +kernel
example : findElement (fun x => decide (x > 2)) [1, 4, 2, 3] 1 0 = 3 := by decide +kernel
example : lookup (fillTable ([(1, some 2), (3, none), (1, some 4)].flatMap (fun p => [some p.1, p.2])) none []) 1 = some (some 4) := by decide +kernel

end Verif.Common
