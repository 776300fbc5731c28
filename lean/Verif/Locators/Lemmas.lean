/-
Lemmas on paths.
-/
import Verif.Locators.Spec
import Mathlib.Tactic.SplitIfs

namespace Verif.Locators

/-! ### Pieces -/

theorem pieces_ne (s : Str) : pieces s ≠ [] := by
  cases s with
  | nil => simp [pieces]
  | cons c s =>
    unfold pieces
    split_ifs
    · simp
    · split <;> simp

theorem pieces_noslash : ∀ (s : Str), '/' ∉ s → pieces s = [s]
  | [], _ => rfl
  | c :: s, h => by
    have h1 : c ≠ '/' := fun hc => h (by simp [hc])
    have h2 : '/' ∉ s := fun hc => h (by simp [hc])
    unfold pieces
    rw [if_neg h1, pieces_noslash s h2]

theorem pieces_append : ∀ (a b : Str), '/' ∉ a → pieces (a ++ '/' :: b) = a :: pieces b
  | [], b, _ => by simp [pieces]
  | c :: a, b, h => by
    have h1 : c ≠ '/' := fun hc => h (by simp [hc])
    have h2 : '/' ∉ a := fun hc => h (by simp [hc])
    rw [List.cons_append, pieces, if_neg h1, pieces_append a b h2]

/-- Splitting at the end of a piece. -/
theorem pieces_snoc_slash : ∀ (a b : Str), pieces (a ++ '/' :: b) = pieces a ++ pieces b
  | [], b => by simp [pieces]
  | c :: a, b => by
    rw [List.cons_append, pieces, pieces, pieces_snoc_slash a b]
    split_ifs
    · rfl
    · cases hp : pieces a with
      | nil => exact absurd hp (pieces_ne a)
      | cons p ps => rfl

/-! ### Searching from the end -/

theorem findFromEnd_some {s : Str} {d : Char} : ∀ {k i : Nat}, findFromEnd s d k = some i →
    i < k ∧ s[i]? = some d ∧ ∀ j, i < j → j < k → s[j]? ≠ some d
  | 0, _, h => by simp [findFromEnd] at h
  | k + 1, i, h => by
    unfold findFromEnd at h
    split_ifs at h with hk
    · cases h
      exact ⟨by omega, hk, fun j h1 h2 => by omega⟩
    · obtain ⟨h1, h2, h3⟩ := findFromEnd_some h
      refine ⟨by omega, h2, fun j hj1 hj2 => ?_⟩
      by_cases hjk : j = k
      · rw [hjk]; exact hk
      · exact h3 j hj1 (by omega)

theorem findFromEnd_none {s : Str} {d : Char} : ∀ {k : Nat}, findFromEnd s d k = none → ∀ j < k, s[j]? ≠ some d
  | 0, _ => fun j hj => by omega
  | k + 1, h => by
    unfold findFromEnd at h
    split_ifs at h with hk
    intro j hj
    by_cases hjk : j = k
    · rw [hjk]; exact hk
    · exact findFromEnd_none h j (by omega)

/-- The string falls into the part before the last `d` and the part after it. -/
theorem findFromEnd_split {s : Str} {d : Char} {i : Nat} (h : findFromEnd s d s.length = some i) :
    s = slice s 0 i ++ d :: slice s (i + 1) s.length ∧ d ∉ slice s (i + 1) s.length := by
  obtain ⟨h1, h2, h3⟩ := findFromEnd_some h
  have e : slice s (i + 1) s.length = s.drop (i + 1) := by
    unfold slice; rw [List.take_of_length_le (by rw [List.length_drop]; exact Nat.le_refl _)]
  have e0 : slice s 0 i = s.take i := by simp [slice]
  rw [e, e0]
  have hg : s[i] = d := by rw [List.getElem?_eq_getElem h1] at h2; exact Option.some.inj h2
  refine ⟨?_, ?_⟩
  · conv => lhs; rw [← List.take_append_drop i s, List.drop_eq_getElem_cons h1, hg]
  · intro hm
    obtain ⟨j, hj, he⟩ := List.getElem_of_mem hm
    rw [List.length_drop] at hj
    rw [List.getElem_drop] at he
    exact h3 (i + 1 + j) (by omega) (by omega) (by rw [List.getElem?_eq_getElem (by omega), he])

theorem findFromEnd_notMem {s : Str} {d : Char} (h : findFromEnd s d s.length = none) : d ∉ s := by
  intro hm
  obtain ⟨j, hj, he⟩ := List.getElem_of_mem hm
  exact findFromEnd_none h j hj (by rw [List.getElem?_eq_getElem hj, he])

theorem findFromEnd_eq {a b : Str} {d : Char} (h : d ∉ b) : findFromEnd (a ++ d :: b) d (a ++ d :: b).length = some a.length := by
  cases hf : findFromEnd (a ++ d :: b) d (a ++ d :: b).length with
  | none => exact absurd (findFromEnd_notMem hf) (by simp)
  | some i =>
    obtain ⟨h1, h2, h3⟩ := findFromEnd_some hf
    rw [List.length_append, List.length_cons] at h1
    by_cases hlt : i < a.length
    · exact absurd (by rw [List.getElem?_append_right (Nat.le_refl _)]; simp) (h3 a.length hlt (by simp))
    · by_cases hgt : a.length < i
      · rw [List.getElem?_append_right (by omega), show i - a.length = (i - a.length - 1) + 1 by omega, List.getElem?_cons_succ] at h2
        exact absurd (List.mem_of_getElem? h2) h
      · rw [show i = a.length by omega]

theorem findFromEnd_eq_none {s : Str} {d : Char} (h : d ∉ s) : findFromEnd s d s.length = none := by
  cases hf : findFromEnd s d s.length with
  | none => rfl
  | some i => exact absurd (List.mem_of_getElem? (findFromEnd_some hf).2.1) h

/-! ### Parsing -/

/-- The pieces that are not empty. -/
def words (s : Str) : List Str := (pieces s).filter (· ≠ [])

theorem words_nil : words [] = [] := by simp [words, pieces]

theorem parseLoop_eq (s : Str) : ∀ (k pos old : Nat) (rel : Bool) (path : List Str), pos + k = s.length → old ≤ pos →
    ('/' ∉ slice s old pos) →
    let r := parseLoop s k pos old rel path
    (if r.1 < s.length then r.2.2 ++ [slice s r.1 s.length] else r.2.2) = path ++ words (slice s old s.length) ∧
      r.2.1 = (if pos = 0 ∧ s.head? = some '/' then false else rel)
  | 0, pos, old, rel, path, hk, hle, hns => by
    dsimp only [parseLoop]
    have hp : pos = s.length := by omega
    subst hp
    refine ⟨?_, ?_⟩
    · unfold words
      rw [pieces_noslash _ hns]
      by_cases hlt : old < s.length
      · have hne : slice s old s.length ≠ [] := by
          intro hc
          have : (slice s old s.length).length = 0 := by rw [hc]; rfl
          unfold slice at this
          rw [List.length_take, List.length_drop] at this
          omega
        rw [if_pos hlt]; simp [hne]
      · have he : slice s old s.length = [] := by unfold slice; rw [show s.length - old = 0 by omega]; simp
        rw [if_neg hlt, he]; simp
    · by_cases h0 : s.length = 0
      · rw [List.length_eq_zero_iff] at h0
        subst h0; simp
      · simp [h0]
  | k + 1, pos, old, rel, path, hk, hle, hns => by
    have hpos : pos < s.length := by omega
    unfold parseLoop
    by_cases hc : s[pos]? = some '/'
    · rw [if_pos hc]
      have ih := parseLoop_eq s k (pos + 1) (pos + 1) (if pos = 0 then false else rel)
        (if old < pos then path ++ [slice s old pos] else path) (by omega) (Nat.le_refl _) (by simp [slice])
      dsimp only at ih ⊢
      refine ⟨?_, ?_⟩
      · rw [ih.1]
        have hsplit : slice s old s.length = slice s old pos ++ '/' :: slice s (pos + 1) s.length := by
          have hg : s[pos] = '/' := by rw [List.getElem?_eq_getElem hpos] at hc; exact Option.some.inj hc
          have e1 : slice s old s.length = s.drop old := by unfold slice; rw [List.take_of_length_le (by rw [List.length_drop]; exact Nat.le_refl _)]
          have e2 : slice s (pos + 1) s.length = s.drop (pos + 1) := by unfold slice; rw [List.take_of_length_le (by rw [List.length_drop]; exact Nat.le_refl _)]
          rw [e1, e2, ← hg, ← List.drop_eq_getElem_cons hpos]
          have := List.take_append_drop (pos - old) (s.drop old)
          rw [List.drop_drop, show old + (pos - old) = pos by omega] at this
          exact this.symm
        unfold words
        rw [hsplit, pieces_append _ _ hns]
        by_cases hlt : old < pos
        · have hne : slice s old pos ≠ [] := by
            intro hx
            have : (slice s old pos).length = 0 := by rw [hx]; rfl
            unfold slice at this
            rw [List.length_take, List.length_drop] at this
            omega
          rw [if_pos hlt]; simp [hne]
        · have he : slice s old pos = [] := by unfold slice; rw [show pos - old = 0 by omega]; simp
          rw [if_neg hlt, he]; simp
      · rw [ih.2, if_neg (by omega)]
        by_cases h0 : pos = 0
        · subst h0
          rw [List.head?_eq_getElem?, hc]; simp
        · simp [h0]
    · rw [if_neg hc]
      have hns' : '/' ∉ slice s old (pos + 1) := by
        have e : slice s old (pos + 1) = slice s old pos ++ [s[pos]] := by
          unfold slice
          rw [show pos + 1 - old = (pos - old) + 1 by omega, List.take_add_one, List.getElem?_drop, show old + (pos - old) = pos by omega,
            List.getElem?_eq_getElem hpos]
          rfl
        rw [e]
        intro hm
        rcases List.mem_append.mp hm with hm | hm
        · exact hns hm
        · rw [List.mem_singleton] at hm
          exact hc (by rw [List.getElem?_eq_getElem hpos, hm])
      have ih := parseLoop_eq s k (pos + 1) old rel path (by omega) (by omega) hns'
      dsimp only at ih ⊢
      refine ⟨ih.1, ?_⟩
      rw [ih.2, if_neg (by omega)]
      by_cases h0 : pos = 0
      · subst h0
        rw [List.head?_eq_getElem?, if_neg (fun h => hc h.2)]
      · simp [h0]

theorem parsePath_eq (s : Str) : parsePath s = (words s, decide (s.head? ≠ some '/')) := by
  have h := parseLoop_eq s s.length 0 0 true [] (by omega) (Nat.le_refl _) (by simp [slice])
  dsimp only at h
  have e : slice s 0 s.length = s := by simp [slice]
  rw [e, List.nil_append] at h
  unfold parsePath
  dsimp only
  rw [h.1, h.2]
  by_cases hh : s.head? = some '/' <;> simp [hh]

theorem pieces_no_slash_mem : ∀ (s : Str), ∀ p ∈ pieces s, '/' ∉ p
  | [], p, h => by simp [pieces] at h; simp [h]
  | c :: s, p, h => by
    have ih := pieces_no_slash_mem s
    unfold pieces at h
    split_ifs at h with hc
    · rcases List.mem_cons.mp h with rfl | h
      · simp
      · exact ih p h
    · cases hp : pieces s with
      | nil => exact absurd hp (pieces_ne s)
      | cons q ps =>
        rw [hp] at h ih
        rcases List.mem_cons.mp h with rfl | h
        · have := ih q (by simp)
          intro hm
          rcases List.mem_cons.mp hm with hm | hm
          · exact hc hm.symm
          · exact this hm
        · exact ih p (by simp [h])

/-! ### Following -/

theorem foldl_words (l : List Str) : ∀ (p : Place), (l.filter (· ≠ [])).foldl follow p = l.foldl follow p := by
  induction l with
  | nil => intro p; rfl
  | cons a l ih =>
    intro p
    by_cases ha : a = []
    · simp only [List.filter_cons, ha, ne_eq, not_true_eq_false, decide_false, Bool.false_eq_true, if_false, List.foldl_cons]
      rw [ih]; simp [follow]
    · simp only [List.filter_cons, ne_eq, ha, not_false_eq_true, decide_true, if_true, List.foldl_cons]
      exact ih _

theorem foldl_canonicalize : ∀ (l : List Str) (p : Place), (∀ s ∈ l, s ≠ []) → (canonicalize l).foldl walk p = l.foldl follow p
  | [], _, _ => rfl
  | s :: l, p, h => by
    have hs : s ≠ [] := h s (by simp)
    have ih := fun q => foldl_canonicalize l q (fun t ht => h t (by simp [ht]))
    unfold canonicalize at ih ⊢
    rw [List.map_cons, List.foldl_cons, List.foldl_cons, ih]
    congr 1
    unfold follow
    by_cases h1 : s = ['.']
    · simp [h1, walk]
    · by_cases h2 : s = ['.', '.']
      · simp [h2, walk]
      · simp [h1, h2, hs, walk]

theorem recanonicalize_canonical {path : List Item} (h : Canonical path) : recanonicalize path = path := by
  unfold recanonicalize
  conv => rhs; rw [← List.map_id path]
  apply List.map_congr_left
  intro i hi
  cases i with
  | self => rfl
  | parent => rfl
  | name s =>
    have := h s hi
    simp [this.1, this.2]

theorem canonicalize_proper (s : Str) : ProperPath (canonicalize (words s)) := by
  intro n hn
  unfold canonicalize at hn
  obtain ⟨p, hp, he⟩ := List.mem_map.mp hn
  unfold words at hp
  rw [List.mem_filter] at hp
  split_ifs at he with h1 h2
  cases he
  exact ⟨by simpa using hp.2, h1, h2, pieces_no_slash_mem s n hp.1⟩

/-! ### Printing -/

theorem foldl_put : ∀ (w s : Str) (pos : Nat), pos + w.length ≤ s.length →
    w.foldl put (some (s, pos)) = some (s.take pos ++ w ++ s.drop (pos + w.length), pos + w.length)
  | [], s, pos, _ => by simp
  | c :: w, s, pos, h => by
    rw [List.length_cons] at h
    have hp : pos < s.length := by omega
    rw [List.foldl_cons, put, if_pos hp, foldl_put w (s.set pos c) (pos + 1) (by rw [List.length_set]; omega)]
    have h1 : (s.set pos c).take (pos + 1) = s.take pos ++ [c] := by
      rw [List.set_eq_take_append_cons_drop, if_pos hp, List.take_append, List.length_take]
      rw [show min pos s.length = pos by omega, show pos + 1 - pos = 1 by omega, List.take_of_length_le (by rw [List.length_take]; omega)]
      simp
    have h2 : (s.set pos c).drop (pos + 1 + w.length) = s.drop (pos + (w.length + 1)) := by
      rw [List.drop_set_of_lt (by omega)]
      congr 1; omega
    rw [h1, h2, List.length_cons, show pos + 1 + w.length = pos + (w.length + 1) by omega]
    simp

/-- What a path is printed as. -/
def printed (path : List Item) : Str := (path.map (fun i => itemName i ++ ['/'])).flatten

theorem foldl_print : ∀ (path : List Item) (s : Str) (pos : Nat), pos + (printed path).length ≤ s.length →
    path.foldl (fun r item => put ((itemName item).foldl put r) '/') (some (s, pos)) =
      some (s.take pos ++ printed path ++ s.drop (pos + (printed path).length), pos + (printed path).length)
  | [], s, pos, _ => by simp [printed]
  | i :: path, s, pos, h => by
    have hp : printed (i :: path) = (itemName i ++ ['/']) ++ printed path := by simp [printed]
    rw [hp] at h ⊢
    rw [List.length_append] at h
    rw [List.foldl_cons]
    have h1 : put ((itemName i).foldl put (some (s, pos))) '/' = (itemName i ++ ['/']).foldl put (some (s, pos)) := by
      rw [List.foldl_append]; rfl
    rw [h1, foldl_put _ _ _ (by omega)]
    generalize itemName i ++ ['/'] = w at *
    have hl : (s.take pos ++ w ++ s.drop (pos + w.length)).length = s.length := by
      simp only [List.length_append, List.length_take, List.length_drop]; omega
    have ht : (s.take pos ++ w).length = pos + w.length := by rw [List.length_append, List.length_take]; omega
    rw [foldl_print path _ _ (by rw [hl]; omega)]
    rw [← ht, List.take_left, List.drop_length_add_append, List.drop_drop, ht, List.length_append]
    simp only [List.append_assoc, Nat.add_assoc]

theorem size_eq : ∀ (path : List Item) (n : Nat), path.foldl (fun n item => n + (itemName item).length) n + path.length = n + (printed path).length
  | [], n => by simp [printed]
  | i :: path, n => by
    have hp : printed (i :: path) = (itemName i ++ ['/']) ++ printed path := by simp [printed]
    have := size_eq path (n + (itemName i).length)
    rw [List.foldl_cons, hp, List.length_append, List.length_append, List.length_cons, List.length_singleton]
    omega

theorem size_shift : ∀ (path : List Item) (n m : Nat), path.foldl (fun n item => n + (itemName item).length) (n + m) =
    path.foldl (fun n item => n + (itemName item).length) n + m
  | [], n, m => rfl
  | i :: path, n, m => by
    rw [List.foldl_cons, List.foldl_cons, show n + m + (itemName i).length = n + (itemName i).length + m by omega, size_shift path]

theorem pathToString_eq (path : List Item) (relative : Bool) :
    pathToString path relative = some ((if relative then [] else ['/']) ++ printed path) := by
  unfold pathToString
  dsimp only
  have hs := size_eq path 0
  rw [Nat.zero_add] at hs
  cases relative with
  | true =>
    simp only [if_true, Nat.add_zero]
    have h0 := size_shift path 0 path.length
    rw [Nat.zero_add] at h0
    have hn : path.foldl (fun n item => n + (itemName item).length) path.length = (printed path).length := by omega
    rw [hn, foldl_print path _ 0 (by simp)]
    simp
  | false =>
    simp only [Bool.false_eq_true, if_false]
    have h0 := size_shift path 0 (path.length + 1)
    rw [Nat.zero_add] at h0
    have hn : path.foldl (fun n item => n + (itemName item).length) (path.length + 1) = (printed path).length + 1 := by omega
    rw [hn, put, if_pos (by simp), List.replicate_succ, List.set_cons_zero, foldl_print path _ _ (by simp; omega)]
    simp [Nat.add_comm 1]

/-- Reading what was printed. -/
theorem pieces_printed : ∀ (path : List Item) (t : Str), (∀ i ∈ path, '/' ∉ itemName i) →
    pieces (printed path ++ t) = path.map itemName ++ pieces t
  | [], t, _ => by simp [printed]
  | i :: path, t, h => by
    have hp : printed (i :: path) = (itemName i ++ ['/']) ++ printed path := by simp [printed]
    rw [hp, List.append_assoc, List.append_assoc, List.singleton_append, pieces_append _ _ (h i (by simp)),
      pieces_printed path t (fun j hj => h j (by simp [hj]))]
    rfl

theorem itemName_ok {path : List Item} (h : ProperPath path) : ∀ i ∈ path, '/' ∉ itemName i ∧ itemName i ≠ [] := by
  intro i hi
  cases i with
  | self => simp [itemName]
  | parent => simp [itemName]
  | name s =>
    have := h s hi
    exact ⟨this.2.2.2, this.1⟩

theorem canonicalize_itemName {path : List Item} (h : ProperPath path) : canonicalize (path.map itemName) = path := by
  unfold canonicalize
  rw [List.map_map]
  conv => rhs; rw [← List.map_id path]
  apply List.map_congr_left
  intro i hi
  cases i with
  | self => simp [itemName]
  | parent => simp [itemName]
  | name s =>
    have := h s hi
    simp [itemName, this.2.1, this.2.2.1]

theorem words_printed {path : List Item} (h : ProperPath path) : words (printed path) = path.map itemName := by
  have hp := pieces_printed path [] (fun i hi => (itemName_ok h i hi).1)
  rw [List.append_nil] at hp
  unfold words
  rw [hp]
  simp only [pieces, List.filter_append]
  rw [List.filter_eq_self.mpr]
  · simp
  · intro s hs
    obtain ⟨i, hi, rfl⟩ := List.mem_map.mp hs
    simpa using (itemName_ok h i hi).2

theorem head_printed {path : List Item} (h : ProperPath path) : (printed path).head? ≠ some '/' := by
  cases path with
  | nil => simp [printed]
  | cons i path =>
    have := itemName_ok h i (by simp)
    have hp : printed (i :: path) = itemName i ++ (['/'] ++ printed path) := by simp [printed]
    rw [hp]
    cases hn : itemName i with
    | nil => exact absurd hn this.2
    | cons c w =>
      rw [hn] at this
      intro hc
      simp at hc
      exact this.1 (by simp [hc])

/-! ### Names and parts of files -/

theorem fileName_makeFileNamed (d : Option Dir) (name : Str) : fileName (makeFileNamed d name) = name := by
  unfold makeFileNamed
  cases hf : findFromEnd name '.' name.length with
  | none => rfl
  | some pos => exact (findFromEnd_split hf).1.symm

theorem directory_makeFileNamed (d : Option Dir) (name : Str) : (makeFileNamed d name).directory = d.filter (fun d => !isCurrent d) := by
  unfold makeFileNamed
  cases findFromEnd name '.' name.length <;> rfl

theorem current_place {d : Dir} (h : isCurrent d = true) (cwd : Place) : d.place cwd = cwd := by
  unfold isCurrent at h
  rw [Bool.and_eq_true, beq_iff_eq] at h
  unfold Dir.place
  rw [h.1, h.2]; rfl

/-- Leaving out the current directory does not change the place. -/
theorem filter_place (d : Option Dir) (cwd : Place) :
    (match d.filter (fun d => !isCurrent d) with | some d => d.place cwd | none => cwd) =
      (match d with | some d => d.place cwd | none => cwd) := by
  cases d with
  | none => rfl
  | some d =>
    cases h : isCurrent d with
    | true => simp [Option.filter, h, current_place h]
    | false => simp [Option.filter, h]

theorem makeFileNamed_place (d : Option Dir) (name : Str) (cwd : Place) :
    (makeFileNamed d name).place cwd = ((match d with | some d => d.place cwd | none => cwd), name) := by
  unfold File.place
  rw [fileName_makeFileNamed, directory_makeFileNamed]
  exact congrArg (·, name) (filter_place d cwd)

theorem makeFile_place (d : Option Dir) (b : Str) (e : Option Str) (cwd : Place) :
    (makeFile d b e).place cwd = ((match d with | some d => d.place cwd | none => cwd), fileName ⟨none, b, e⟩) := by
  unfold File.place makeFile
  exact congrArg (·, fileName ⟨none, b, e⟩) (filter_place d cwd)

theorem fileName_dir (d d' : Option Dir) (b : Str) (e : Option Str) : fileName ⟨d, b, e⟩ = fileName ⟨d', b, e⟩ := rfl

/-! ### Simplifying -/

/-- The form of the new path in `simplify-path`, in reverse. -/
def Form (new : List Item) : Prop := ∃ (n : Nat) (names : List Str), new = names.map .name ++ List.replicate n .parent

theorem simplifyStep_form {new : List Item} (h : Form new) (i : Item) : Form (simplifyStep new i) := by
  obtain ⟨n, names, rfl⟩ := h
  cases i with
  | self => exact ⟨n, names, rfl⟩
  | name s => exact ⟨n, s :: names, rfl⟩
  | parent =>
    cases names with
    | nil =>
      cases n with
      | zero => exact ⟨1, [], rfl⟩
      | succ n => exact ⟨n + 2, [], rfl⟩
    | cons a names => exact ⟨n, names, rfl⟩

theorem simplifyStep_walk {new : List Item} (h : Form new) (i : Item) (p : Place) :
    (simplifyStep new i).reverse.foldl walk p = walk (new.reverse.foldl walk p) i := by
  obtain ⟨n, names, rfl⟩ := h
  cases i with
  | self => rfl
  | name s => simp [simplifyStep]
  | parent =>
    cases names with
    | nil =>
      cases n with
      | zero => rfl
      | succ n =>
        simp only [List.map_nil, List.nil_append, List.replicate_succ, simplifyStep]
        rw [List.reverse_cons, List.foldl_append]; rfl
    | cons a names =>
      simp only [List.map_cons, List.cons_append, simplifyStep, List.reverse_cons, List.foldl_append, List.foldl_cons, List.foldl_nil, walk]
      simp

theorem foldl_simplify : ∀ (path : List Item) {new : List Item}, Form new → Form (path.foldl simplifyStep new) ∧
    ∀ p, (path.foldl simplifyStep new).reverse.foldl walk p = path.foldl walk (new.reverse.foldl walk p)
  | [], _, h => ⟨h, fun _ => rfl⟩
  | i :: path, _, h => by
    have ih := foldl_simplify path (simplifyStep_form h i)
    refine ⟨ih.1, fun p => ?_⟩
    rw [List.foldl_cons, ih.2, simplifyStep_walk h]; rfl

theorem form_nil : Form [] := ⟨0, [], rfl⟩

theorem simplifyPath_walk (path : List Item) (rel : Bool) (p : Place) : (simplifyPath path rel).foldl walk p = path.foldl walk p := by
  have h := (foldl_simplify path form_nil).2 p
  unfold simplifyPath
  dsimp only
  split_ifs with hc
  · rw [hc.1] at h
    exact h
  · exact h

theorem simplifyPath_simple (path : List Item) (rel : Bool) : Simple (simplifyPath path rel) rel := by
  obtain ⟨n, names, h⟩ := (foldl_simplify path form_nil).1
  unfold simplifyPath
  dsimp only
  split_ifs with hc
  · exact Or.inr ⟨hc.2, rfl⟩
  · refine Or.inl ⟨n, names.reverse, ?_, ?_⟩
    · rw [h]; simp
    · intro hr he
      exact hc ⟨by simpa using he, hr⟩

theorem foldl_names : ∀ (names : List Str) (new : List Item), (names.map Item.name).foldl simplifyStep new = (names.map Item.name).reverse ++ new
  | [], _ => rfl
  | s :: names, new => by
    rw [List.map_cons, List.foldl_cons, foldl_names names]; simp [simplifyStep]

theorem foldl_parents : ∀ (n m : Nat), (List.replicate n Item.parent).foldl simplifyStep (List.replicate m .parent) = List.replicate (n + m) .parent
  | 0, m => by simp
  | n + 1, m => by
    rw [List.replicate_succ, List.foldl_cons]
    have : simplifyStep (List.replicate m .parent) .parent = List.replicate (m + 1) .parent := by
      cases m <;> rfl
    rw [this, foldl_parents n (m + 1)]
    congr 1; omega

/-- Simple paths stay. -/
theorem simplifyPath_of_simple {path : List Item} {rel : Bool} (h : Simple path rel) : simplifyPath path rel = path := by
  rcases h with ⟨n, names, rfl, hne⟩ | ⟨rfl, rfl⟩
  · have hf := foldl_parents n 0
    rw [List.replicate_zero, Nat.add_zero] at hf
    unfold simplifyPath
    dsimp only
    rw [List.foldl_append, hf, foldl_names]
    split_ifs with hc
    · exfalso
      apply hne hc.2
      have := hc.1
      simp only [List.append_eq_nil_iff, List.reverse_eq_nil_iff] at this
      rw [this.1, this.2]; rfl
    · simp
  · rfl

theorem simplifyPath_mem {path : List Item} {rel : Bool} {s : Str} (h : Item.name s ∈ simplifyPath path rel) : Item.name s ∈ path := by
  have key : ∀ (path new : List Item), Item.name s ∈ path.foldl simplifyStep new → Item.name s ∈ path ∨ Item.name s ∈ new := by
    intro path
    induction path with
    | nil => intro new h; exact Or.inr h
    | cons i path ih =>
      intro new h
      rcases ih _ h with h | h
      · exact Or.inl (by simp [h])
      · cases i with
        | self => exact Or.inr h
        | name t =>
          rcases List.mem_cons.mp h with h | h
          · exact Or.inl (by simp [h])
          · exact Or.inr h
        | parent =>
          match new, h with
          | [], h => simp [simplifyStep] at h
          | .parent :: t, h => simp [simplifyStep] at h; exact Or.inr (by simp [h])
          | .self :: t, h => exact Or.inr (by simp [simplifyStep] at h; simp [h])
          | .name u :: t, h => exact Or.inr (by simp [simplifyStep] at h; simp [h])
  unfold simplifyPath at h
  dsimp only at h
  split_ifs at h with hc
  · simp at h
  · rw [List.mem_reverse] at h
    rcases key path [] h with h | h
    · exact h
    · simp at h

theorem simplifyDir_eq {d : Dir} (h : Canonical d.path) : simplifyDir d = ⟨simplifyPath d.path d.relative, d.relative⟩ := by
  unfold simplifyDir
  dsimp only
  split_ifs with hc
  · rw [← hc]
  · unfold makeDir
    rw [recanonicalize_canonical (fun s hs => h s (simplifyPath_mem hs))]

theorem walk_parents : ∀ (n : Nat) (p : Place), (List.replicate n Item.parent).foldl walk p = p.take (p.length - n)
  | 0, p => by simp
  | n + 1, p => by
    rw [List.replicate_succ, List.foldl_cons, walk_parents n, walk, List.dropLast_eq_take, List.take_take, List.length_take]
    congr 1; omega

theorem walk_names : ∀ (names : List Str) (p : Place), (names.map Item.name).foldl walk p = p ++ names
  | [], p => by simp
  | s :: names, p => by
    rw [List.map_cons, List.foldl_cons, walk_names names, walk]; simp

/-- Simple relative paths that lead to the same place from everywhere are the same. -/
theorem simple_unique {p q : List Item} (hp : Simple p true) (hq : Simple q true) (h : ∀ c, p.foldl walk c = q.foldl walk c) : p = q := by
  have hlen : ∀ (c n : Nat), ((List.replicate c ['a']).take ((List.replicate c ['a']).length - n)).length = c - n := by
    intro c n; rw [List.length_take, List.length_replicate]; omega
  rcases hp with ⟨n, names, rfl, hn⟩ | ⟨_, rfl⟩ <;> rcases hq with ⟨m, names', rfl, hm⟩ | ⟨_, rfl⟩
  · have h0 := h []
    rw [List.foldl_append, List.foldl_append, walk_parents, walk_parents, walk_names, walk_names] at h0
    simp only [List.take_nil, List.nil_append] at h0
    subst h0
    have h1 := congrArg List.length (h (List.replicate (n + m) ['a']))
    rw [List.foldl_append, List.foldl_append, walk_parents, walk_parents, walk_names, walk_names, List.length_append, List.length_append,
      hlen, hlen] at h1
    rw [show n = m by omega]
  · have h0 := h []
    rw [List.foldl_append, walk_parents, walk_names] at h0
    simp only [List.take_nil, List.nil_append] at h0
    have e : names = [] := h0
    subst e
    have h1 := congrArg List.length (h (List.replicate (n + 1) ['a']))
    rw [List.foldl_append, walk_parents, walk_names, List.length_append, hlen] at h1
    have h2 : ([Item.self].foldl walk (List.replicate (n + 1) ['a'])).length = n + 1 := by simp [walk]
    rw [h2] at h1
    simp only [List.length_nil] at h1
    exfalso
    apply hn rfl
    rw [show n = 0 by omega]; rfl
  · have h0 := h []
    rw [List.foldl_append, walk_parents, walk_names] at h0
    simp only [List.take_nil, List.nil_append] at h0
    have e : names' = [] := h0.symm
    subst e
    have h1 := congrArg List.length (h (List.replicate (m + 1) ['a']))
    rw [List.foldl_append, walk_parents, walk_names, List.length_append, hlen] at h1
    have h2 : ([Item.self].foldl walk (List.replicate (m + 1) ['a'])).length = m + 1 := by simp [walk]
    rw [h2] at h1
    simp only [List.length_nil] at h1
    exfalso
    apply hm rfl
    rw [show m = 0 by omega]; rfl
  · rfl

/-! ### Relative paths -/

theorem relativeLoop_spec (path from' : List Item) : ∀ (k i : Nat), path.length < i + k → i ≤ path.length → i ≤ from'.length →
    path.take i = from'.take i →
    ∃ j, i ≤ j ∧ j ≤ path.length ∧ j ≤ from'.length ∧ path.take j = from'.take j ∧ (j = path.length ∨ j = from'.length ∨ path[j]? ≠ from'[j]?) ∧
      relativeLoop path from' k i = List.replicate (from'.length - j) .parent ++ path.drop j
  | 0, i, hk, h1, _, _ => by omega
  | k + 1, i, hk, h1, h2, h3 => by
    unfold relativeLoop
    by_cases ha : i = path.length
    · refine ⟨i, Nat.le_refl _, h1, h2, h3, Or.inl ha, ?_⟩
      rw [if_pos ha, ha]; simp
    · rw [if_neg ha]
      by_cases hb : i = from'.length
      · refine ⟨i, Nat.le_refl _, h1, h2, h3, Or.inr (Or.inl hb), ?_⟩
        rw [if_pos hb, hb]; simp
      · rw [if_neg hb]
        by_cases hc : path[i]? = from'[i]?
        · rw [if_pos hc]
          obtain ⟨j, hj, hj'⟩ := relativeLoop_spec path from' k (i + 1) (by omega) (by omega) (by omega)
            (by rw [List.take_add_one, List.take_add_one, h3, hc])
          exact ⟨j, by omega, hj'⟩
        · rw [if_neg hc]
          exact ⟨i, Nat.le_refl _, h1, h2, h3, Or.inr (Or.inr hc), rfl⟩

theorem relativePath_spec (path from' : List Item) :
    ∃ j, j ≤ path.length ∧ j ≤ from'.length ∧ path.take j = from'.take j ∧ (j = path.length ∨ j = from'.length ∨ path[j]? ≠ from'[j]?) ∧
      relativePath path from' = List.replicate (from'.length - j) .parent ++ path.drop j := by
  obtain ⟨j, _, h⟩ := relativeLoop_spec path from' (path.length + 1) 0 (by omega) (by omega) (by omega) (by simp)
  exact ⟨j, h⟩

/-- Up from names and down the rest of the path. -/
theorem relativePath_walk {path from' : List Item} {pre rest : List Item} {names : List Str} (hf : from' = pre ++ names.map .name)
    (hp : path = pre ++ rest) (p : Place) : (from' ++ relativePath path from').foldl walk p = path.foldl walk p := by
  obtain ⟨j, hj1, hj2, hj3, hj4, hr⟩ := relativePath_spec path from'
  have hle : pre.length ≤ j := by
    by_cases hlt : j < pre.length
    · exfalso
      rcases hj4 with h | h | h
      · rw [hp, List.length_append] at h; omega
      · rw [hf, List.length_append] at h; omega
      · apply h
        rw [hp, hf, List.getElem?_append_left hlt, List.getElem?_append_left hlt]
    · omega
  have hd : from'.drop j = (names.drop (j - pre.length)).map .name := by
    rw [hf, List.drop_append, List.drop_eq_nil_of_le hle, List.nil_append, List.map_drop]
  have hlen : from'.length - j = (names.drop (j - pre.length)).length := by
    have := congrArg List.length hd
    rw [List.length_drop, List.length_map] at this
    exact this
  rw [hr, ← List.take_append_drop j from', ← hj3, hd]
  simp only [List.foldl_append]
  rw [walk_names, List.length_append, List.length_map, List.length_take, show min j path.length = j by omega, Nat.add_sub_cancel_left,
    walk_parents, List.length_append, Nat.add_sub_cancel, List.take_left, ← List.foldl_append, List.take_append_drop]

end Verif.Locators
