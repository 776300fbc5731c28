import Verif.Print.StructureSpec

namespace Verif.Print

/-- Limits whose length is a natural number. -/
def Limits.of (length : Option Nat) (level : Option Int) : Limits :=
  ⟨level, length.map Int.ofNat⟩

theorem tooDeep_eq (length level) (depth : Int) :
    (Limits.of length level).tooDeep depth = noLevel (level.map (· - depth)) := by
  cases level with
  | none => rfl
  | some n => simp only [Limits.of, Limits.tooDeep, noLevel, Option.map_some, decide_eq_decide]; omega

theorem below_eq (level : Option Int) (depth : Int) :
    below (level.map (· - depth)) = level.map (· - (depth + 1)) := by
  cases level with
  | none => rfl
  | some n => simp only [below, Option.map_some, Option.some.injEq]; omega

/-- Texts, each after a comma. -/
def after (ts : List Tree) : List Char := ts.flatMap (fun t => [',', ' '] ++ t.text)

theorem texts_map (ts : List Tree) : Tree.texts ts = ts.map Tree.text := by
  induction ts with
  | nil => rfl
  | cons t ts ih => simp [Tree.texts, ih]

theorem cuts_map (n lv) (ts : List Tree) : Tree.cuts n lv ts = ts.map (Tree.cut n lv) := by
  induction ts with
  | nil => rfl
  | cons t ts ih => simp [Tree.cuts, ih]

theorem commas_cons (t : Tree) (ts : List Tree) : commas (Tree.texts (t :: ts)) = t.text ++ after ts := by
  rw [texts_map]
  induction ts generalizing t with
  | nil => simp [commas, after]
  | cons u ts ih =>
    have := ih u
    simp only [List.map_cons] at this
    simp only [List.map_cons, commas, this]
    simp [after]

/-- What the loop over a list writes behind `count` elements. -/
def tailText (length : Option Nat) (lv : Option Int) (count : Nat) (ts : List Tree) (last : Option Tree) : List Char :=
  match length with
  | none => after (ts.map (Tree.cut length lv)) ++ Tree.dotted (last.map (Tree.cut length lv))
  | some n =>
    if count + ts.length ≤ n then after (ts.map (Tree.cut length lv)) ++ Tree.dotted (last.map (Tree.cut length lv))
    else after ((ts.map (Tree.cut length lv)).take (n - count)) ++ [',', ' ', '.', '.', '.']

/-- What the loop over a vector writes behind `count` elements. -/
def itemsText (length : Option Nat) (lv : Option Int) (count : Nat) (ts : List Tree) : List Char :=
  match length with
  | none => after (ts.map (Tree.cut length lv))
  | some n =>
    if count + ts.length ≤ n then after (ts.map (Tree.cut length lv))
    else after ((ts.map (Tree.cut length lv)).take (n - count)) ++ [',', ' ', '.', '.', '.']

theorem cutLast_map (n lv) (o : Option Tree) : Tree.cutLast n lv o = o.map (Tree.cut n lv) := by
  cases o <;> rfl

/-- The texts of the elements when the length is one or more. -/
theorem list_text (length : Option Nat) (lv : Option Int) (t : Tree) (ts : List Tree) (last : Option Tree)
    (h : length ≠ some 0) :
    commas (Tree.texts (atMost length (Tree.cuts length lv (t :: ts)))) ++
      Tree.dotted (lastAtMost length (t :: ts).length (Tree.cutLast length lv last)) =
    (t.cut length lv).text ++ tailText length lv 1 ts last := by
  rw [cuts_map, cutLast_map]
  cases length with
  | none =>
    simp only [atMost, lastAtMost, List.map_cons]
    rw [commas_cons]
    simp [tailText]
  | some n =>
    cases n with
    | zero => exact absurd rfl h
    | succ n =>
      simp only [atMost, lastAtMost, List.map_cons, List.length_cons, List.length_map, tailText]
      by_cases hl : ts.length + 1 ≤ n + 1
      · rw [if_pos hl, if_pos hl, if_pos (by omega), commas_cons]
        simp
      · rw [if_neg hl, if_neg hl, if_neg (by omega)]
        simp only [List.take_succ_cons, List.cons_append]
        rw [commas_cons]
        simp [after, Tree.text, Tree.dotted]

theorem vector_text (length : Option Nat) (lv : Option Int) (t : Tree) (ts : List Tree) (h : length ≠ some 0) :
    commas (Tree.texts (atMost length (Tree.cuts length lv (t :: ts)))) =
      (t.cut length lv).text ++ itemsText length lv 1 ts := by
  have := list_text length lv t ts none h
  have e1 : ∀ k, Tree.dotted (lastAtMost length k (Tree.cutLast length lv none)) = [] := by
    intro k
    cases length with
    | none => rfl
    | some n =>
      simp only [lastAtMost, Tree.cutLast]
      split <;> rfl
  rw [e1, List.append_nil] at this
  rw [this]
  congr 1
  cases length with
  | none => simp [tailText, itemsText, Tree.dotted]
  | some n => simp [tailText, itemsText, Tree.dotted]

theorem text_zero (lv : Option Int) (t : Tree) (ts : List Tree) (last : Option Tree) :
    commas (Tree.texts (atMost (some 0) (Tree.cuts (some 0) lv (t :: ts)))) ++
      Tree.dotted (lastAtMost (some 0) (t :: ts).length (Tree.cutLast (some 0) lv last)) = ['.', '.', '.'] := by
  rw [cuts_map]
  simp [atMost, lastAtMost, Tree.texts, commas, Tree.text, Tree.dotted]

theorem tailText_cons (length : Option Nat) (lv : Option Int) (count : Nat) (t : Tree) (ts : List Tree)
    (last : Option Tree) (hc : ∀ n, length = some n → count ≤ n) :
    tailText length lv count (t :: ts) last = [',', ' '] ++
      (if (Limits.of length none).reached count then ['.', '.', '.']
        else (t.cut length lv).text ++ tailText length lv (count + 1) ts last) := by
  cases length with
  | none => simp [tailText, Limits.of, Limits.reached, after]
  | some n =>
    have hn := hc n rfl
    have hr : (Limits.of (some n) none).reached count = decide (n ≤ count) := by
      simp [Limits.of, Limits.reached]
    simp only [tailText, hr, List.length_cons, List.map_cons]
    by_cases h : n = count
    · subst h
      rw [if_neg (by omega), if_pos (by simp)]
      simp [after]
    · rw [if_neg (c := decide _ = true) (by simp; omega)]
      by_cases h2 : count + (ts.length + 1) ≤ n
      · rw [if_pos h2, if_pos (by omega)]
        simp [after]
      · rw [if_neg h2, if_neg (by omega)]
        obtain ⟨k, hk⟩ : ∃ k, n - count = k + 1 := ⟨n - count - 1, by omega⟩
        have hk' : n - (count + 1) = k := by omega
        rw [hk, hk']
        simp [after]

theorem itemsText_cons (length : Option Nat) (lv : Option Int) (count : Nat) (t : Tree) (ts : List Tree)
    (hc : ∀ n, length = some n → count ≤ n) :
    itemsText length lv count (t :: ts) = [',', ' '] ++
      (if (Limits.of length none).equal count then ['.', '.', '.']
        else (t.cut length lv).text ++ itemsText length lv (count + 1) ts) := by
  cases length with
  | none => simp [itemsText, Limits.of, Limits.equal, after]
  | some n =>
    have hn := hc n rfl
    have hr : (Limits.of (some n) none).equal count = decide (count = n) := by
      simp [Limits.of, Limits.equal]
      omega
    simp only [itemsText, hr, List.length_cons, List.map_cons]
    by_cases h : n = count
    · subst h
      rw [if_neg (by omega), if_pos (by simp)]
      simp [after]
    · rw [if_neg (c := decide _ = true) (by simp; omega)]
      by_cases h2 : count + (ts.length + 1) ≤ n
      · rw [if_pos h2, if_pos (by omega)]
        simp [after]
      · rw [if_neg h2, if_neg (by omega)]
        obtain ⟨k, hk⟩ : ∃ k, n - count = k + 1 := ⟨n - count - 1, by omega⟩
        have hk' : n - (count + 1) = k := by omega
        rw [hk, hk']
        simp [after]

mutual

theorem print_cut (length : Option Nat) (level : Option Int) :
    ∀ (o : Obj) (depth : Int), print (.of length level) depth o =
      (o.tree.cut length (level.map (· - (depth + 1)))).text
  | .other t, depth => by
    simp only [print, tooDeep_eq, Obj.tree, Tree.cut]
    split <;> rfl
  | .empty, depth => by
    simp only [print, tooDeep_eq, Obj.tree, Tree.cut]
    split
    · rfl
    · have : atMost length [] = [] := by
        cases length <;> simp [atMost]
      have h2 : ∀ k, lastAtMost length k none = none := by
        intro k
        cases length with
        | none => rfl
        | some n => simp [lastAtMost]
      simp [Tree.cuts, Tree.cutLast, this, h2, Tree.text, Tree.texts, commas, Tree.dotted]
  | .pair h t, depth => by
    simp only [print, tooDeep_eq, Obj.tree, Tree.cut]
    split
    · rfl
    · rw [below_eq]
      simp only [Tree.text]
      by_cases hl : length = some 0
      · subst hl
        have := text_zero (level.map (· - (depth + 1 + 1))) h.tree t.elements t.last
        rw [if_pos (by simp [Limits.of, Limits.reached])]
        simp only [List.append_assoc] at this ⊢
        rw [← List.append_assoc (commas _), this]
      · have := list_text length (level.map (· - (depth + 1 + 1))) h.tree t.elements t.last hl
        rw [if_neg (by
          cases length with
          | none => simp [Limits.of, Limits.reached]
          | some n =>
            have : n ≠ 0 := fun e => hl (by rw [e])
            simp [Limits.of, Limits.reached]; omega)]
        rw [print_cut length level h (depth + 1), tail_cut length level t (depth + 1) 1 (by
          rintro n rfl
          have : n ≠ 0 := fun e => hl (by rw [e])
          omega)]
        simp only [List.append_assoc] at this ⊢
        rw [← List.append_assoc (commas _), this]
        simp
  | .vector xs, depth => by
    simp only [print, tooDeep_eq, Obj.tree, Tree.cut]
    split
    · rfl
    · rw [below_eq]
      simp only [Tree.text]
      rw [items_first length level xs (depth + 1)]

theorem tail_cut (length : Option Nat) (level : Option Int) :
    ∀ (o : Obj) (depth : Int) (count : Nat), (∀ n, length = some n → count ≤ n) →
      printTail (.of length level) depth count o =
        tailText length (level.map (· - (depth + 1))) count o.elements o.last
  | .empty, depth, count, hc => by
    cases length with
    | none => rfl
    | some n => simp [printTail, Obj.elements, Obj.last, tailText, hc n rfl, after, Tree.dotted]
  | .other t, depth, count, hc => by
    have e : tailText length (level.map (· - (depth + 1))) count (Obj.other t).elements (Obj.other t).last =
        [' ', '.', ' '] ++ (Tree.cut length (level.map (· - (depth + 1))) (.word t)).text := by
      cases length with
      | none => simp [Obj.elements, Obj.last, tailText, after, Tree.dotted]
      | some n => simp [Obj.elements, Obj.last, tailText, hc n rfl, after, Tree.dotted]
    rw [e]
    simp only [printTail, tooDeep_eq, Tree.cut]
    split <;> rfl
  | .vector xs, depth, count, hc => by
    have e : tailText length (level.map (· - (depth + 1))) count (Obj.vector xs).elements (Obj.vector xs).last =
        [' ', '.', ' '] ++ (Tree.cut length (level.map (· - (depth + 1))) (.vector (Obj.trees xs))).text := by
      cases length with
      | none => simp [Obj.elements, Obj.last, tailText, after, Tree.dotted]
      | some n => simp [Obj.elements, Obj.last, tailText, hc n rfl, after, Tree.dotted]
    rw [e]
    simp only [printTail, tooDeep_eq, Tree.cut]
    split
    · rfl
    · rw [below_eq]
      simp only [Tree.text]
      rw [items_first length level xs (depth + 1)]
  | .pair h t, depth, count, hc => by
    simp only [printTail, Obj.elements, Obj.last]
    rw [tailText_cons length _ count h.tree t.elements t.last hc]
    congr 1
    have hr : (Limits.of length level).reached count = (Limits.of length none).reached count := rfl
    rw [hr]
    split
    · rfl
    · rename_i hr'
      rw [print_cut length level h depth, tail_cut length level t depth (count + 1) (by
        rintro n rfl
        simp [Limits.of, Limits.reached] at hr'
        omega)]

theorem items_first (length : Option Nat) (level : Option Int) :
    ∀ (xs : List Obj) (depth : Int), printItems (.of length level) depth 0 xs =
      commas (Tree.texts (atMost length (Tree.cuts length (level.map (· - (depth + 1))) (Obj.trees xs))))
  | [], depth => by
    cases length <;> simp [printItems, Obj.trees, Tree.cuts, atMost, Tree.texts, commas]
  | x :: xs, depth => by
    simp only [printItems, Obj.trees]
    by_cases hl : length = some 0
    · subst hl
      rw [cuts_map]
      simp [Limits.of, Limits.equal, atMost, Tree.texts, commas, Tree.text]
    · rw [vector_text length _ _ _ hl]
      rw [if_neg (c := (Limits.of length level).equal 0 = true) (by
          cases length with
          | none => simp [Limits.of, Limits.equal]
          | some n =>
            have : n ≠ 0 := fun e => hl (by rw [e])
            simp [Limits.of, Limits.equal]; omega)]
      rw [print_cut length level x depth, items_cut length level xs depth 1 (by omega) (by
          rintro n rfl
          have : n ≠ 0 := fun e => hl (by rw [e])
          omega)]
      simp

theorem items_cut (length : Option Nat) (level : Option Int) :
    ∀ (xs : List Obj) (depth : Int) (count : Nat), count ≠ 0 → (∀ n, length = some n → count ≤ n) →
      printItems (.of length level) depth count xs =
        itemsText length (level.map (· - (depth + 1))) count (Obj.trees xs)
  | [], depth, count, _, hc => by
    cases length with
    | none => rfl
    | some n => simp [printItems, Obj.trees, itemsText, hc n rfl, after]
  | x :: xs, depth, count, h0, hc => by
    simp only [printItems, Obj.trees]
    rw [itemsText_cons length _ count _ _ hc, if_pos h0]
    congr 1
    have hr : (Limits.of length level).equal count = (Limits.of length none).equal count := rfl
    rw [hr]
    split
    · rfl
    · rename_i hr'
      rw [print_cut length level x depth, items_cut length level xs depth (count + 1) (by omega) (by
        rintro n rfl
        have := hc n rfl
        simp [Limits.of, Limits.equal] at hr'
        omega)]

end

/-- **C130** `print` writes exactly what the level and the length let it show: lists as `#(…)`, with the last tail
    after a dot, vectors as `#[…]`, elements with commas between them; a number sign for each object deeper
    than the level, and dots in the place of elements beyond the length. -/
theorem print_shows (length : Option Nat) (level : Option Int) (o : Obj) :
    printTop (.of length level) o = (o.tree.cut length level).text := by
  unfold printTop
  rw [print_cut]
  cases level <;> simp

/-- `#(1, #[2, 3], 4 . 5)` with some lengths and levels. -/
example :
    let o : Obj := .pair (.other ['1']) (.pair (.vector [.other ['2'], .other ['3']]) (.pair (.other ['4']) (.other ['5'])))
    String.ofList (printTop (.of none none) o) = "#(1, #[2, 3], 4 . 5)" ∧
      String.ofList (printTop (.of (some 2) (some 2)) o) = "#(1, #[2, 3], ...)" ∧
      String.ofList (printTop (.of (some 3) (some 1)) o) = "#(1, #[#, #], 4 . 5)" ∧
      String.ofList (printTop (.of none (some 0)) o) = "#(#, #, # . #)" := by decide +kernel

/-- **C130 violated** A negative length hides all elements of a list, and no element of a vector. -/
theorem negative_length_violated :
    String.ofList (printTop ⟨none, some (-1)⟩ (.pair (.other ['1']) .empty)) = "#(...)" ∧
      String.ofList (printTop ⟨none, some (-1)⟩ (.vector [.other ['1'], .other ['2']])) = "#[1, 2]" := by decide +kernel

/-! ### the size of what is printed -/

/-- A bound for the size of the text, for words of no more than `w` characters. -/
def bound (n w : Nat) : Nat → Nat
  | 0 => w + 6 + (n + 1) * (w + 9)
  | l + 1 => w + 6 + (n + 1) * (bound n w l + 6)

mutual

/-- All words of a tree are short. -/
def Tree.Short (w : Nat) : Tree → Prop
  | .word t => t.length ≤ w
  | .list ts last => Tree.ShortAll w ts ∧ Tree.ShortLast w last
  | .vector ts => Tree.ShortAll w ts

def Tree.ShortAll (w : Nat) : List Tree → Prop
  | [] => True
  | t :: ts => t.Short w ∧ Tree.ShortAll w ts

def Tree.ShortLast (w : Nat) : Option Tree → Prop
  | none => True
  | some t => t.Short w

end

theorem shortAll_mem {w : Nat} {ts : List Tree} : Tree.ShortAll w ts ↔ ∀ t ∈ ts, t.Short w := by
  induction ts with
  | nil => simp [Tree.ShortAll]
  | cons t ts ih => simp [Tree.ShortAll, ih]

theorem commas_length (b : Nat) (ts : List (List Char)) (h : ∀ t ∈ ts, t.length ≤ b) :
    (commas ts).length ≤ ts.length * (b + 2) := by
  induction ts with
  | nil => simp [commas]
  | cons t ts ih =>
    have h1 := h t (by simp)
    have h2 := ih fun u hu => h u (by simp [hu])
    cases ts with
    | nil => simp [commas]; omega
    | cons u us =>
      simp only [commas, List.length_append, List.length_cons, List.length_nil] at h2 ⊢
      rw [Nat.add_mul]
      omega

/-- What the elements take if each takes no more than `b`. -/
theorem shown_length (n b : Nat) (lv : Option Int) (ts : List Tree) (last : Option Tree) (hb : 3 ≤ b)
    (h : ∀ t ∈ ts, (t.cut (some n) lv).text.length ≤ b)
    (hl : ∀ t, last = some t → (t.cut (some n) lv).text.length ≤ b) :
    (commas (Tree.texts (atMost (some n) (Tree.cuts (some n) lv ts))) ++
      Tree.dotted (lastAtMost (some n) ts.length (Tree.cutLast (some n) lv last))).length ≤ (n + 1) * (b + 3) := by
  rw [cuts_map, cutLast_map, texts_map]
  simp only [atMost, lastAtMost, List.length_map]
  by_cases hn : ts.length ≤ n
  · rw [if_pos hn, if_pos hn, List.length_append]
    have h1 := commas_length b ((ts.map (Tree.cut (some n) lv)).map Tree.text) (by
      intro t ht
      simp only [List.map_map, List.mem_map] at ht
      obtain ⟨u, hu, rfl⟩ := ht
      exact h u hu)
    simp only [List.length_map] at h1
    have h2 : (Tree.dotted (last.map (Tree.cut (some n) lv))).length ≤ b + 3 := by
      cases last with
      | none => simp [Tree.dotted]
      | some t =>
        have := hl t rfl
        simp only [Option.map_some, Tree.dotted, List.length_append, List.length_cons, List.length_nil]
        omega
    have h3 : ts.length * (b + 2) ≤ n * (b + 3) := Nat.mul_le_mul hn (by omega)
    rw [Nat.add_mul]
    omega
  · rw [if_neg hn, if_neg hn, List.length_append]
    have h1 := commas_length b (((ts.map (Tree.cut (some n) lv)).take n ++ [Tree.word ['.', '.', '.']]).map Tree.text) (by
      intro t ht
      simp only [List.map_append, List.map_take, List.mem_append] at ht
      rcases ht with ht | ht
      · have ht := List.mem_of_mem_take ht
        simp only [List.map_map, List.mem_map] at ht
        obtain ⟨u, hu, rfl⟩ := ht
        exact h u hu
      · simp only [List.map_cons, List.map_nil, List.mem_singleton] at ht
        subst ht
        simpa [Tree.text] using hb)
    simp only [List.length_map, List.length_append, List.length_take, List.length_cons, List.length_nil] at h1
    have h3 : (min n ts.length + (0 + 1)) * (b + 2) ≤ (n + 1) * (b + 3) := Nat.mul_le_mul (by omega) (by omega)
    simp only [Tree.dotted, List.length_nil]
    omega

theorem cut_step (n w b : Nat) (lv : Option Int) (hlev : noLevel lv = false) (hb : 3 ≤ b)
    (h : ∀ t : Tree, t.Short w → (t.cut (some n) (below lv)).text.length ≤ b) (t : Tree) (ht : t.Short w) :
    (t.cut (some n) lv).text.length ≤ w + 6 + (n + 1) * (b + 6) := by
  have hm : (n + 1) * (b + 3) ≤ (n + 1) * (b + 6) := Nat.mul_le_mul_left _ (by omega)
  cases t with
  | word t =>
    simp only [Tree.cut, hlev, Bool.false_eq_true, if_false, Tree.text]
    have : t.length ≤ w := ht
    omega
  | list ts last =>
    simp only [Tree.cut, hlev, Bool.false_eq_true, if_false, Tree.text]
    obtain ⟨h1, h2⟩ : Tree.ShortAll w ts ∧ Tree.ShortLast w last := ht
    rw [shortAll_mem] at h1
    have := shown_length n b (below lv) ts last hb (fun t ht => h t (h1 t ht)) (by
      rintro t rfl
      exact h t h2)
    simp only [List.length_append, List.length_cons, List.length_nil] at this ⊢
    omega
  | vector ts =>
    simp only [Tree.cut, hlev, Bool.false_eq_true, if_false, Tree.text]
    have h1 : Tree.ShortAll w ts := ht
    rw [shortAll_mem] at h1
    have := shown_length n b (below lv) ts none hb (fun t ht => h t (h1 t ht)) (by simp)
    simp only [List.length_append, List.length_cons, List.length_nil] at this ⊢
    omega

theorem cut_length (n w : Nat) : ∀ (l : Nat) (t : Tree), t.Short w →
    (t.cut (some n) (some (l : Int))).text.length ≤ bound n w l
  | 0, t, h => by
    refine Nat.le_trans (cut_step n w 3 _ (by simp [noLevel]) (by omega) (fun t _ => ?_) t h) (Nat.add_le_add_left (Nat.mul_le_mul_left _ ?_) _)
    · have : noLevel (below (some ((0 : Nat) : Int))) = true := by simp [noLevel, below]
      cases t <;> (simp only [Tree.cut, this, if_true, Tree.text]; decide)
    · omega
  | l + 1, t, h => by
    have hb : below (some ((l + 1 : Nat) : Int)) = some (l : Int) := by simp [below]
    have hge : 3 ≤ bound n w l := by cases l <;> simp only [bound] <;> omega
    exact cut_step n w (bound n w l) _ (by simp [noLevel]; omega) hge (fun t ht => hb ▸ cut_length n w l t ht) t h

mutual

theorem tree_short (w : Nat) : ∀ o : Obj, (∀ t ∈ o.words, t.length ≤ w) → o.tree.Short w
  | .other t, h => h t (by simp [Obj.words])
  | .empty, _ => ⟨trivial, trivial⟩
  | .pair a b, h => by
    simp only [Obj.words, List.mem_append] at h
    have h2 := elements_short w b (fun t ht => h t (.inr ht))
    exact ⟨⟨tree_short w a (fun t ht => h t (.inl ht)), h2.1⟩, h2.2⟩
  | .vector xs, h => trees_short w xs h

theorem elements_short (w : Nat) : ∀ o : Obj, (∀ t ∈ o.words, t.length ≤ w) →
    Tree.ShortAll w o.elements ∧ Tree.ShortLast w o.last
  | .other t, h => ⟨trivial, h t (by simp [Obj.words])⟩
  | .empty, _ => ⟨trivial, trivial⟩
  | .pair a b, h => by
    simp only [Obj.words, List.mem_append] at h
    have h2 := elements_short w b (fun t ht => h t (.inr ht))
    exact ⟨⟨tree_short w a (fun t ht => h t (.inl ht)), h2.1⟩, h2.2⟩
  | .vector xs, h => ⟨trivial, trees_short w xs h⟩

theorem trees_short (w : Nat) : ∀ xs : List Obj, (∀ t ∈ Obj.wordsOf xs, t.length ≤ w) → Tree.ShortAll w (Obj.trees xs)
  | [], _ => trivial
  | x :: xs, h => by
    simp only [Obj.wordsOf, List.mem_append] at h
    exact ⟨tree_short w x (fun t ht => h t (.inl ht)), trees_short w xs (fun t ht => h t (.inr ht))⟩

end

/-- **C130** With a level and a length, what is printed has a bounded size, however large the object is. -/
theorem print_bounded (n l w : Nat) :
    ∃ b, ∀ o : Obj, (∀ t ∈ o.words, t.length ≤ w) → (printTop (.of (some n) (some l)) o).length ≤ b :=
  ⟨bound n w l, fun o h => by rw [print_shows]; exact cut_length n w l o.tree (tree_short w o h)⟩

/-! ### different objects are printed differently -/

/-- No limits. -/
abbrev free : Limits := .of none none

theorem free_deep (d : Int) : free.tooDeep d = false := rfl
theorem free_reached (n : Nat) : free.reached n = false := rfl
theorem free_equal (n : Nat) : free.equal n = false := rfl

theorem print_other (t d) : print free d (.other t) = t := by simp [print, free_deep]
theorem print_empty (d) : print free d .empty = ['#', '(', ')'] := by simp [print, free_deep]
theorem print_pair (h t d) : print free d (.pair h t) =
    '#' :: '(' :: (print free (d + 1) h ++ (printTail free (d + 1) 1 t ++ [')'])) := by
  simp [print, free_deep, free_reached]
theorem print_vector (xs d) : print free d (.vector xs) = '#' :: '[' :: (printItems free (d + 1) 0 xs ++ [']']) := by
  simp [print, free_deep]

theorem tail_empty (d c) : printTail free d c .empty = [] := by simp [printTail]
theorem tail_pair (d c h t) : printTail free d c (.pair h t) =
    ',' :: ' ' :: (print free d h ++ printTail free d (c + 1) t) := by simp [printTail, free_reached]
theorem tail_other (d c t) : printTail free d c (.other t) = ' ' :: '.' :: ' ' :: print free d (.other t) := by
  simp [printTail, free_deep, print_other]
theorem tail_vector (d c xs) : printTail free d c (.vector xs) = ' ' :: '.' :: ' ' :: print free d (.vector xs) := by
  simp [printTail, free_deep, print_vector]

theorem items_nil (d c) : printItems free d c [] = [] := by simp [printItems]
theorem items_zero (d x xs) : printItems free d 0 (x :: xs) = print free d x ++ printItems free d 1 xs := by
  simp [printItems, free_equal]
theorem items_succ (d c x xs) (h : c ≠ 0) : printItems free d c (x :: xs) =
    ',' :: ' ' :: (print free d x ++ printItems free d (c + 1) xs) := by
  simp [printItems, free_equal, h]

theorem tail_ends (d c t r) : Ends (printTail free d c t ++ ')' :: r) := by
  cases t with
  | empty => simp [tail_empty, Ends]
  | pair => simp [tail_pair, Ends]
  | other => simp [tail_other, Ends]
  | vector => simp [tail_vector, Ends]

theorem items_ends (d c xs r) (h : c ≠ 0) : Ends (printItems free d c xs ++ ']' :: r) := by
  cases xs with
  | nil => simp [items_nil, Ends]
  | cons => simp [items_succ _ _ _ _ h, Ends]

theorem print_starts {W : List Char → Prop} (hW : Distinct W) (d : Int) (o : Obj) (h : ∀ t ∈ o.words, W t)
    (x : List Char) : ¬ Ends (print free d o ++ x) := by
  cases o with
  | other t =>
    have := hW.nonempty t (h t (by simp [Obj.words]))
    rw [print_other]
    cases t with
    | nil => exact absurd trivial this
    | cons c t => exact this
  | empty => simp [print_empty, Ends]
  | pair => simp [print_pair, Ends]
  | vector => simp [print_vector, Ends]

theorem word_not_list {W : List Char → Prop} (hW : Distinct W) {t x r : List Char} (ht : W t) (hx : Ends x) :
    t ++ x ≠ '#' :: '(' :: r ∧ t ++ x ≠ '#' :: '[' :: r := by
  match t, ht with
  | [], ht => exact absurd trivial (hW.nonempty [] ht)
  | [c], ht =>
    cases x with
    | nil => simp
    | cons e x =>
      simp only [Ends, List.mem_cons, List.not_mem_nil, or_false] at hx
      constructor <;> · intro he; simp at he; rcases hx with rfl | rfl | rfl | rfl <;> simp at he
  | c :: e :: t, ht =>
    have h1 := fun r => hW.not_list _ r ht
    have h2 := fun r => hW.not_vector _ r ht
    constructor
    · intro he; simp at he; exact h1 t (by rw [he.1, he.2.1])
    · intro he; simp at he; exact h2 t (by rw [he.1, he.2.1])

theorem print_ne_word {W : List Char → Prop} (hW : Distinct W) {t x y : List Char} {d : Int} {o : Obj} (ht : W t)
    (hx : Ends x) (ho : ∀ s, o ≠ .other s) : t ++ x ≠ print free d o ++ y := by
  have h := fun r => word_not_list hW (r := r) ht hx
  cases o with
  | other s => exact absurd rfl (ho s)
  | empty => rw [print_empty]; exact (h _).1
  | pair => rw [print_pair]; exact (h _).1
  | vector => rw [print_vector]; exact (h _).2

mutual

theorem print_same {W : List Char → Prop} (hW : Distinct W) : ∀ (o o' : Obj) (d d' : Int) (x y : List Char),
    (∀ t ∈ o.words, W t) → (∀ t ∈ o'.words, W t) → Ends x → Ends y →
    print free d o ++ x = print free d' o' ++ y → o = o' ∧ x = y
  | .other t, o', d, d', x, y, h, h', hx, hy, e => by
    rw [print_other] at e
    have ht := h t (by simp [Obj.words])
    match o', h', e with
    | .other t', h', e =>
      rw [print_other] at e
      have := hW.ends t t' x y ht (h' t' (by simp [Obj.words])) hx hy e
      subst this
      exact ⟨rfl, List.append_cancel_left e⟩
    | .empty, _, e => exact absurd e (print_ne_word hW ht hx (by simp))
    | .pair _ _, _, e => exact absurd e (print_ne_word hW ht hx (by simp))
    | .vector _, _, e => exact absurd e (print_ne_word hW ht hx (by simp))
  | .empty, o', d, d', x, y, h, h', hx, hy, e => by
    match o', h', e with
    | .other t', h', e =>
      rw [print_other] at e
      exact absurd e.symm (print_ne_word hW (h' t' (by simp [Obj.words])) hy (by simp))
    | .empty, _, e =>
      simp only [print_empty, List.cons_append, List.nil_append, List.cons.injEq, true_and] at e
      exact ⟨rfl, e⟩
    | .pair a b, h', e =>
      simp only [print_empty, print_pair, List.cons_append, List.nil_append, List.append_assoc, List.cons.injEq, true_and] at e
      exact absurd (e ▸ (by simp [Ends] : Ends (')' :: x))) (print_starts hW _ a (fun t ht => h' t (by simp [Obj.words, ht])) _)
    | .vector _, _, e =>
      simp [print_empty, print_vector] at e
  | .pair a b, o', d, d', x, y, h, h', hx, hy, e => by
    have ha : ∀ t ∈ a.words, W t := fun t ht => h t (by simp [Obj.words, ht])
    have hb : ∀ t ∈ b.words, W t := fun t ht => h t (by simp [Obj.words, ht])
    match o', h', e with
    | .other t', h', e =>
      rw [print_other] at e
      exact absurd e.symm (print_ne_word hW (h' t' (by simp [Obj.words])) hy (by simp))
    | .empty, _, e =>
      simp only [print_empty, print_pair, List.cons_append, List.nil_append, List.append_assoc, List.cons.injEq, true_and] at e
      exact absurd (e ▸ (by simp [Ends] : Ends (')' :: y))) (print_starts hW _ a ha _)
    | .pair a' b', h', e =>
      simp only [print_pair, List.cons_append, List.nil_append, List.append_assoc, List.cons.injEq, true_and] at e
      have h1 := print_same hW a a' _ _ _ _ ha (fun t ht => h' t (by simp [Obj.words, ht])) (tail_ends _ _ _ _)
        (tail_ends _ _ _ _) e
      have h2 := tail_same hW b b' _ _ _ _ _ _ hb (fun t ht => h' t (by simp [Obj.words, ht])) h1.2
      exact ⟨by rw [h1.1, h2.1], h2.2⟩
    | .vector _, _, e => simp [print_pair, print_vector] at e
  | .vector xs, o', d, d', x, y, h, h', hx, hy, e => by
    match o', h', e with
    | .other t', h', e =>
      rw [print_other] at e
      exact absurd e.symm (print_ne_word hW (h' t' (by simp [Obj.words])) hy (by simp))
    | .empty, _, e => simp [print_empty, print_vector] at e
    | .pair _ _, _, e => simp [print_pair, print_vector] at e
    | .vector xs', h', e =>
      simp only [print_vector, List.cons_append, List.nil_append, List.append_assoc, List.cons.injEq, true_and] at e
      have := items_same hW xs xs' _ _ 0 _ _ h h' e
      exact ⟨by rw [this.1], this.2⟩

theorem tail_same {W : List Char → Prop} (hW : Distinct W) : ∀ (o o' : Obj) (d d' : Int) (c c' : Nat) (x y : List Char),
    (∀ t ∈ o.words, W t) → (∀ t ∈ o'.words, W t) →
    printTail free d c o ++ ')' :: x = printTail free d' c' o' ++ ')' :: y → o = o' ∧ x = y
  | .empty, o', d, d', c, c', x, y, h, h', e => by
    match o', h', e with
    | .empty, _, e => simpa [tail_empty] using e
    | .other _, _, e => simp [tail_empty, tail_other] at e
    | .pair _ _, _, e => simp [tail_empty, tail_pair] at e
    | .vector _, _, e => simp [tail_empty, tail_vector] at e
  | .other t, o', d, d', c, c', x, y, h, h', e => by
    have ht := h t (by simp [Obj.words])
    match o', h', e with
    | .empty, _, e => simp [tail_empty, tail_other] at e
    | .other t', h', e =>
      simp only [tail_other, print_other, List.cons_append, List.cons.injEq, true_and] at e
      have := hW.ends t t' _ _ ht (h' t' (by simp [Obj.words])) (by simp [Ends]) (by simp [Ends]) e
      subst this
      have := List.append_cancel_left e
      simp only [List.cons.injEq, true_and] at this
      exact ⟨rfl, this⟩
    | .pair _ _, _, e => simp [tail_other, tail_pair] at e
    | .vector _, _, e =>
      simp only [tail_other, tail_vector, print_other, List.cons_append, List.cons.injEq, true_and] at e
      exact absurd e (print_ne_word hW ht (by simp [Ends]) (by simp))
  | .vector xs, o', d, d', c, c', x, y, h, h', e => by
    match o', h', e with
    | .empty, _, e => simp [tail_empty, tail_vector] at e
    | .other t', h', e =>
      simp only [tail_other, tail_vector, print_other, List.cons_append, List.cons.injEq, true_and] at e
      exact absurd e.symm (print_ne_word hW (h' t' (by simp [Obj.words])) (by simp [Ends]) (by simp))
    | .pair _ _, _, e => simp [tail_vector, tail_pair] at e
    | .vector xs', h', e =>
      simp only [tail_vector, print_vector, List.cons_append, List.nil_append, List.append_assoc, List.cons.injEq, true_and] at e
      have := items_same hW xs xs' _ _ 0 _ _ h h' e
      have h2 := this.2
      simp only [List.cons.injEq, true_and] at h2
      exact ⟨by rw [this.1], h2⟩
  | .pair a b, o', d, d', c, c', x, y, h, h', e => by
    have ha : ∀ t ∈ a.words, W t := fun t ht => h t (by simp [Obj.words, ht])
    have hb : ∀ t ∈ b.words, W t := fun t ht => h t (by simp [Obj.words, ht])
    match o', h', e with
    | .empty, _, e => simp [tail_empty, tail_pair] at e
    | .other _, _, e => simp [tail_other, tail_pair] at e
    | .vector _, _, e => simp [tail_vector, tail_pair] at e
    | .pair a' b', h', e =>
      simp only [tail_pair, List.cons_append, List.append_assoc, List.cons.injEq, true_and] at e
      have h1 := print_same hW a a' _ _ _ _ ha (fun t ht => h' t (by simp [Obj.words, ht])) (tail_ends _ _ _ _)
        (tail_ends _ _ _ _) e
      have h2 := tail_same hW b b' _ _ _ _ _ _ hb (fun t ht => h' t (by simp [Obj.words, ht])) h1.2
      exact ⟨by rw [h1.1, h2.1], h2.2⟩

theorem items_same {W : List Char → Prop} (hW : Distinct W) : ∀ (xs xs' : List Obj) (d d' : Int) (c : Nat) (x y : List Char),
    (∀ t ∈ Obj.wordsOf xs, W t) → (∀ t ∈ Obj.wordsOf xs', W t) →
    printItems free d c xs ++ ']' :: x = printItems free d' c xs' ++ ']' :: y → xs = xs' ∧ x = y
  | [], [], d, d', c, x, y, _, _, e => by simpa [items_nil] using e
  | [], b :: bs, d, d', 0, x, y, _, h', e => by
    simp only [items_nil, items_zero, List.nil_append, List.append_assoc] at e
    exact absurd (e ▸ (by simp [Ends] : Ends (']' :: x))) (print_starts hW _ b (fun t ht => h' t (by simp [Obj.wordsOf, ht])) _)
  | [], b :: bs, d, d', c + 1, x, y, _, h', e => by simp [items_nil, items_succ] at e
  | a :: as, [], d, d', 0, x, y, h, _, e => by
    simp only [items_nil, items_zero, List.nil_append, List.append_assoc] at e
    exact absurd (e ▸ (by simp [Ends] : Ends (']' :: y))) (print_starts hW _ a (fun t ht => h t (by simp [Obj.wordsOf, ht])) _)
  | a :: as, [], d, d', c + 1, x, y, h, _, e => by simp [items_nil, items_succ] at e
  | a :: as, b :: bs, d, d', 0, x, y, h, h', e => by
    simp only [items_zero, List.append_assoc] at e
    have h1 := print_same hW a b _ _ _ _ (fun t ht => h t (by simp [Obj.wordsOf, ht]))
      (fun t ht => h' t (by simp [Obj.wordsOf, ht])) (items_ends _ _ _ _ (by omega)) (items_ends _ _ _ _ (by omega)) e
    have h2 := items_same hW as bs _ _ 1 _ _ (fun t ht => h t (by simp [Obj.wordsOf, ht]))
      (fun t ht => h' t (by simp [Obj.wordsOf, ht])) h1.2
    exact ⟨by rw [h1.1, h2.1], h2.2⟩
  | a :: as, b :: bs, d, d', c + 1, x, y, h, h', e => by
    rw [items_succ _ _ _ _ (by omega), items_succ _ _ _ _ (by omega)] at e
    simp only [List.cons_append, List.append_assoc, List.cons.injEq, true_and] at e
    have h1 := print_same hW a b _ _ _ _ (fun t ht => h t (by simp [Obj.wordsOf, ht]))
      (fun t ht => h' t (by simp [Obj.wordsOf, ht])) (items_ends _ _ _ _ (by omega)) (items_ends _ _ _ _ (by omega)) e
    have h2 := items_same hW as bs _ _ (c + 1 + 1) _ _ (fun t ht => h t (by simp [Obj.wordsOf, ht]))
      (fun t ht => h' t (by simp [Obj.wordsOf, ht])) h1.2
    exact ⟨by rw [h1.1, h2.1], h2.2⟩

end

/-- **C130** Without limits different lists and vectors are printed differently, if one can tell the texts of their other
    elements apart. -/
theorem print_faithful {W : List Char → Prop} (hW : Distinct W) (o o' : Obj) (h : ∀ t ∈ o.words, W t)
    (h' : ∀ t ∈ o'.words, W t) (e : printTop free o = printTop free o') : o = o' :=
  (print_same hW o o' (-1) (-1) [] [] h h' trivial trivial (by simpa [printTop] using e)).1

/-- Numerals can be told apart. -/
theorem numerals_distinct : Distinct (fun t => t ≠ [] ∧ ∀ c ∈ t, c.isDigit) := by
  have hd : ∀ c, c ∈ [',', ' ', ')', ']'] → c.isDigit = false := by decide
  refine ⟨?_, ?_, ?_, ?_⟩
  · rintro (_ | ⟨c, t⟩) ⟨h1, h2⟩ h3
    · exact h1 rfl
    · have := h2 c (by simp)
      rw [hd c h3] at this
      cases this
  · rintro t r ⟨_, h⟩ rfl
    exact absurd (h '#' (by simp)) (by decide)
  · rintro t r ⟨_, h⟩ rfl
    exact absurd (h '#' (by simp)) (by decide)
  · intro s
    have nil : ∀ x y t, t ≠ [] → (∀ c ∈ t, c.isDigit) → Ends x → x ≠ t ++ y := by
      rintro x y (_ | ⟨c, t⟩) h1 h2 h3
      · exact absurd rfl h1
      · rintro rfl
        have := h2 c (by simp)
        rw [hd c h3] at this
        cases this
    have key : ∀ s t x y, (∀ c ∈ s, c.isDigit) → (∀ c ∈ t, c.isDigit) → Ends x → Ends y → s ++ x = t ++ y → s = t := by
      intro s
      induction s with
      | nil =>
        intro t x y _ ht hx _ e
        cases t with
        | nil => rfl
        | cons c t => exact absurd e (nil x y _ (by simp) ht hx)
      | cons c s ih =>
        intro t x y hs ht hx hy e
        cases t with
        | nil => exact absurd e.symm (nil y x _ (by simp) hs hy)
        | cons b t =>
          simp only [List.cons_append, List.cons.injEq] at e
          rw [e.1, ih t x y (fun c hc => hs c (by simp [hc])) (fun c hc => ht c (by simp [hc])) hx hy e.2]
    intro t x y hs ht hx hy e
    exact key s t x y hs.2 ht.2 hx hy e

end Verif.Print
