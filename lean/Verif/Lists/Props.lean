import Verif.Lists.Shapes
/-!
# Properties C61 to C63: lists

`fuel` bounds the rounds of the loops; every theorem says how much is enough, so that each of them is
also a theorem on termination.
-/
namespace Verif.Lists

/-! ## A memory to try the theorems on

`demo` has the list `#(7, 8, 9)` in the cells 1, 2 and 3, the circular list 4 → 5 → 4, the dotted pair
`7 . 8` in the cell 6, and the list `#(5, 7, 8, 9)`, which shares the first, in the cell 7. -/

/-- Values 5 to 9. -/
def demo : Heap where
  cells := fun a => match a with
    | 0 => ⟨nil, nil⟩
    | 1 => ⟨.obj 7, .ref 2⟩
    | 2 => ⟨.obj 8, .ref 3⟩
    | 3 => ⟨.obj 9, nil⟩
    | 4 => ⟨.obj 7, .ref 5⟩
    | 5 => ⟨.obj 8, .ref 4⟩
    | 6 => ⟨.obj 7, .obj 8⟩
    | 7 => ⟨.obj 5, .ref 1⟩
    | _ => ⟨nil, nil⟩
  next := 8

theorem demo_good : Good demo := ⟨by decide, rfl⟩

theorem demo_closed : Closed demo := by
  intro a ha b hb
  have : demo.next = 8 := rfl
  rw [this] at ha ⊢
  rcases a with _ | _ | _ | _ | _ | _ | _ | _ | a <;> simp [demo, nil] at hb <;> omega

theorem demo_list : Chain demo (.ref 1) [1, 2, 3] [.obj 7, .obj 8, .obj 9] nil :=
  .pair (by decide) (by decide) (.pair (by decide) (by decide) (.pair (by decide) (by decide)
    (.done nil)))

theorem demo_shared : Chain demo (.ref 7) [7, 1, 2, 3] [.obj 5, .obj 7, .obj 8, .obj 9] nil :=
  .pair (by decide) (by decide) demo_list

/-! ## C61: the shapes of lists and `size` -/

/-- **C61.** In every memory, a list is proper, circular or dotted. -/
theorem every_list_has_a_shape {h : Heap} (hcl : Closed h) {a : Nat} (ha : a < h.next) :
    (∃ xs, IsList h (.ref a) xs) ∨ Circular h (.ref a) ∨ Dotted h (.ref a) :=
  shapes hcl (fun b hb => by injection hb with hb; omega) (fun n hn => by simp at hn)

/-- **C61.** `size` of a proper list is the number of its elements. -/
theorem size_of_proper {h : Heap} {v : Val} {xs : List Val} (hl : IsList h v xs) (fuel : Nat)
    (hf : xs.length ≤ fuel) : size fuel h v = .ok (some xs.length) := by
  obtain ⟨as, hc⟩ := hl
  rw [← chain_length hc] at hf ⊢
  cases as with
  | nil => obtain ⟨rfl, rfl⟩ := chain_nil hc; simp [size]
  | cons a as =>
    have hv := chain_start hc
    have ha := (chain_used hc a (by simp)).1
    obtain ⟨h1, h2⟩ := chain_distinct hc isPair_nil
    subst hv
    unfold size
    rw [if_neg (ref_ne_nil ha), if_pos (pair_isPair ha)]
    exact sizeLoop_proper (i := 0) h1 (nth_chain hc).1 h2 (by simp) (by simpa using hf)

/-- **C61.** `size` of a circular list is `#f`: it terminates. -/
theorem size_of_circular {h : Heap} {v : Val} (hl : Circular h v) :
    ∃ enough, ∀ fuel ≥ enough, size fuel h v = .ok none := by
  have hp := circular_pairs hl
  obtain ⟨m, hm, hmeet⟩ := circular_meet hl
  refine ⟨m + 1, fun fuel hf => ?_⟩
  have h0 : isPair v = true := hp 0
  have hn : v ≠ nil := by rintro rfl; simp [isPair_nil] at h0
  unfold size
  rw [if_neg hn, if_pos h0]
  exact sizeLoop_circular (i := 0) hp hm hmeet (by omega) (by omega)

/-- **C61.** `size` of a dotted list signals an improper list. -/
theorem size_of_dotted {h : Heap} {v : Val} (hl : Dotted h v) :
    ∃ enough, ∀ fuel ≥ enough, size fuel h v = .error .improper := by
  obtain ⟨as, xs, n, hc, hne⟩ := hl
  refine ⟨as.length, fun fuel hf => ?_⟩
  cases as with
  | nil => exact absurd rfl hne
  | cons a as =>
    have hv := chain_start hc
    have ha := (chain_used hc a (by simp)).1
    obtain ⟨h1, h2⟩ := chain_distinct hc rfl
    subst hv
    unfold size
    rw [if_neg (ref_ne_nil ha), if_pos (pair_isPair ha)]
    have hn := (nth_chain hc).1
    exact sizeLoop_dotted (i := 0) h1 (by rw [hn]; rfl) (by rw [hn]; simp [nil]) h2 (by simp)
      (by simpa using hf)

/-- **C61.** The three shapes exclude one another. -/
theorem shapes_exclusive {h : Heap} {v : Val} :
    ¬ ((∃ xs, IsList h v xs) ∧ Circular h v) ∧ ¬ ((∃ xs, IsList h v xs) ∧ Dotted h v) ∧
      ¬ (Circular h v ∧ Dotted h v) := by
  refine ⟨?_, ?_, ?_⟩
  · rintro ⟨⟨xs, as, hc⟩, h2⟩
    have := circular_pairs h2 as.length
    rw [(nth_chain hc).1, isPair_nil] at this
    exact absurd this (by decide)
  · rintro ⟨⟨xs, as, hc⟩, as', xs', n, hc', _⟩
    have := (chain_functional hc hc' isPair_nil rfl).2.2
    simp [nil] at this
  · rintro ⟨h2, as, xs, n, hc, _⟩
    have := circular_pairs h2 as.length
    rw [(nth_chain hc).1] at this
    simp [isPair] at this

example : IsList demo (.ref 1) [.obj 7, .obj 8, .obj 9] := ⟨_, demo_list⟩

example : Circular demo (.ref 4) :=
  ⟨[4, 5], _, 4, .pair (by decide) (by decide) (.pair (by decide) (by decide) (.done _)), by simp⟩

example : Dotted demo (.ref 6) := ⟨[6], _, 8, .pair (by decide) (by decide) (.done _), by simp⟩

example : Closed demo ∧ 4 < demo.next := ⟨demo_closed, by decide⟩

example : size 10 demo (.ref 4) = .ok none := rfl

/-! ## C62: reading and building lists -/

/-- **C62.** `element`: the element at the key; if there is none, the default or an error. -/
theorem element_spec {h : Heap} {v : Val} {xs : List Val} (hl : IsList h v xs) (key : Int)
    (d : Option Val) (fuel : Nat) (hf : xs.length < fuel) :
    (∀ n : Nat, key = n → ∀ x, xs[n]? = some x → element fuel h v key d = .ok x) ∧
    (key < 0 ∨ (xs.length : Int) ≤ key →
      element fuel h v key d = match d with
        | none => .error .invalidIndex
        | some d => .ok d) := by
  obtain ⟨as, hc⟩ := hl
  have hf' : as.length < fuel := by rw [chain_length hc]; exact hf
  constructor
  · rintro n rfl x hx
    unfold element
    rw [if_neg (by omega), element_loop d hc hf' (by omega)]
    simp [hx]
  · intro hk
    unfold element
    by_cases hneg : key < 0
    · rw [if_pos hneg]; cases d <;> rfl
    · rw [if_neg hneg, element_loop d hc hf' (by omega)]
      have : xs[(key - 0).toNat]? = none := by
        rw [List.getElem?_eq_none_iff]; omega
      rw [this]
      cases d <;> rfl

example : ∃ x, element 4 demo (.ref 1) 2 none = .ok x :=
  ⟨.obj 9, (element_spec ⟨_, demo_list⟩ 2 none 4 (by decide)).1 2 rfl _ rfl⟩

/-- **C62.** `member?`. -/
theorem member_iff {h : Heap} {v : Val} {xs : List Val} (hl : IsList h v xs) (test : Val → Bool)
    (fuel : Nat) (hf : xs.length < fuel) :
    ∃ b, member fuel h test v = .ok b ∧ (b = true ↔ ∃ x ∈ xs, test x = true) := by
  obtain ⟨as, hc⟩ := hl
  exact ⟨_, member_spec hc (by rw [chain_length hc]; omega) test, by simp⟩

example : ∃ b, member 9 demo (· = .obj 8) (.ref 1) = .ok b ∧
    (b = true ↔ ∃ x ∈ [Val.obj 7, .obj 8, .obj 9], decide (x = .obj 8) = true) :=
  member_iff ⟨_, demo_list⟩ _ 9 (by decide)

/-- **C62.** `reduce` folds from the left. -/
theorem reduce_folds {β : Type} {h : Heap} {v : Val} {xs : List Val} (hl : IsList h v xs)
    (fn : β → Val → β) (init : β) (fuel : Nat) (hf : xs.length < fuel) :
    reduce h fn fuel init v = .ok (xs.foldl fn init) := by
  obtain ⟨as, hc⟩ := hl
  exact reduce_spec fn init hc (by rw [chain_length hc]; exact hf)

example : reduce demo (fun n _ => n + 1) 9 0 (.ref 1) = .ok 3 :=
  reduce_folds ⟨_, demo_list⟩ _ 0 9 (by decide)

/-- **C62.** `last`: the last element; of the empty list the default or an error. -/
theorem last_spec {h : Heap} {v : Val} {xs : List Val} (hl : IsList h v xs) (d : Option Val)
    (fuel : Nat) (hf : xs.length < fuel) :
    last fuel h v d = match xs.getLast? with
      | some x => .ok x
      | none => match d with
        | none => .error .invalidIndex
        | some d => .ok d := by
  obtain ⟨as, hc⟩ := hl
  have hlen := chain_length hc
  rcases List.eq_nil_or_concat as with rfl | ⟨as, a, rfl⟩
  · obtain ⟨rfl, rfl⟩ := chain_nil hc
    simp [last]
    cases d <;> rfl
  · rw [List.concat_eq_append] at hc hlen
    have hv : v ≠ nil := by
      rintro rfl
      have := (chain_of_nil hc).1
      simp at this
    obtain ⟨e1, _, e3⟩ := lastLoop_spec hc (fuel := fuel) (by simp at hlen; omega)
    rw [e3]
    simp [last, hv, e1, bind, Except.bind, head]

example : last 5 demo (.ref 7) none = .ok (.obj 9) :=
  last_spec ⟨_, demo_shared⟩ none 5 (by decide)

/-- **C62.** The key of a state of the iteration is its distance from the start. -/
theorem current_key_spec {h : Heap} {v m : Val} {as bs : List Nat} {xs ys : List Val}
    (hc : Chain h v as xs m) (h2 : Chain h m bs ys nil) (fuel : Nat) (hf : xs.length < fuel) :
    currentKey h m fuel v 0 = .ok xs.length := by
  rw [currentKey_spec hc h2 (by rw [chain_length hc]; exact hf), chain_length hc]
  simp

example : currentKey demo (.ref 2) 5 (.ref 7) 0 = .ok 2 :=
  current_key_spec (as := [7, 1]) (xs := [.obj 5, .obj 7])
    (.pair (by decide) (by decide) (.pair (by decide) (by decide) (.done _)))
    (bs := [2, 3]) (.pair (by decide) (by decide) (.pair (by decide) (by decide) (.done _))) 5
    (by decide)

/-- **C62.** `reverse`: the reversed list, in new pairs; nothing that existed changes. -/
theorem reverse_spec {h : Heap} {v : Val} {xs : List Val} (hg : Good h) (hl : IsList h v xs)
    (fuel : Nat) (hf : xs.length < fuel) :
    ∃ h' r ds, reverse fuel h v nil = .ok (h', r) ∧ Chain h' r ds xs.reverse nil ∧ Extends h h' ∧
      ∀ d ∈ ds, h.next ≤ d := by
  obtain ⟨as, hc⟩ := hl
  obtain ⟨h', r, ds, e1, e2, e3, _, e5⟩ := reverse_chain (fuel := fuel) hc isPair_nil
    (Chain.done nil) hg.pos (by rw [chain_length hc]; exact hf)
  exact ⟨h', r, ds, e1, by simpa using e3, e2, e5⟩

example : Good demo ∧ IsList demo (.ref 7) [.obj 5, .obj 7, .obj 8, .obj 9] :=
  ⟨demo_good, _, demo_shared⟩

/-- **C62.** `remove`: the elements that pass the test are gone, all of them or the first `count`; the
others keep their order; nothing that existed changes. -/
theorem remove_spec {h : Heap} {v : Val} {xs : List Val} (hg : Good h) (hl : IsList h v xs)
    (test : Val → Bool) (count : Option Nat) (fuel : Nat) (hf : xs.length < fuel) :
    ∃ h' r, remove fuel h v test (count.map Int.ofNat) = .ok (h', r) ∧
      IsList h' r (removed test count xs) ∧ Extends h h' := by
  obtain ⟨as, hc⟩ := hl
  have hf' : as.length < fuel := by rw [chain_length hc]; exact hf
  have key : ∀ c : Int, c ≠ 0 → ∃ h' acc r h'' v', removeLoop test fuel h c nil v nil =
      .ok (h', acc, nil, r) ∧ unwind fuel h' acc r = .ok (h'', v') ∧
      IsList h'' v' (left test c xs) ∧ Extends h h'' := by
    intro c hc0
    obtain ⟨h', acc, r, cs, ds, ys, zs, e1, e2, e3, e4, e5, e6, e7, e8⟩ :=
      removeLoop_spec test hc (Chain.done nil) hg.pos hc0 hf'
    simp only [List.append_nil] at e3
    obtain ⟨h'', v', u1, u2, u3, u4⟩ := unwind_chain (fuel := fuel) e3 (chain_ext e6 e2) (by
      intro d hd hdc
      have := e4 d hd
      have := (chain_used hc d (e7 d hdc)).2
      omega) (by omega)
    rw [e8] at u2
    exact ⟨h', acc, r, h'', v', e1, u1, ⟨_, by simpa using u2⟩, ext_of_same e2 u3 e4 u4⟩
  cases count with
  | none =>
    obtain ⟨h', acc, r, h'', v', k1, k2, k3, k4⟩ := key (-1) (by decide)
    exact ⟨h'', v', by simp [remove, countOf, bind, Except.bind, k1, k2], k3, k4⟩
  | some n =>
    by_cases hn : n = 0
    · subst hn
      exact ⟨h, v, by simp [remove, countOf, bind, Except.bind], ⟨as, by simpa [removed, without] using hc⟩,
        extends_refl h⟩
    · obtain ⟨h', acc, r, h'', v', k1, k2, k3, k4⟩ := key n (by omega)
      refine ⟨h'', v', ?_, ?_, k4⟩
      · have hnn : ¬ ((n : Int) < 0) := by omega
        simp [remove, countOf, bind, Except.bind, hn, hnn, k1, k2]
      · have : left test n xs = removed test (some n) xs := by
          unfold left removed
          rw [if_neg (by omega)]
          rfl
        rwa [this] at k3

example : removed (· = .obj 8) (some 1) [.obj 7, .obj 8, .obj 8] = [.obj 7, .obj 8] := by decide

/-- **C62.** A negative count is refused. -/
theorem remove_negative (h : Heap) (v : Val) (test : Val → Bool) (c : Int) (hc : c < 0) (fuel : Nat) :
    remove fuel h v test (some c) = .error .naturalNumber ∧
      removeBang fuel h v test (some c) = .error .naturalNumber := by
  simp [remove, removeBang, countOf, bind, Except.bind, hc]

example : (-1 : Int) < 0 := by decide

/-- **C62.** `remove-duplicates`: the last of equal elements stays; nothing that existed changes. -/
theorem remove_duplicates_spec {h : Heap} {v : Val} {xs : List Val} (hg : Good h)
    (hl : IsList h v xs) (test : Val → Val → Bool) (fuel : Nat) (hf : xs.length < fuel) :
    ∃ h' r ds, removeDuplicates fuel h v test = .ok (h', r) ∧ Chain h' r ds (lastOnes test xs) nil ∧
      Extends h h' ∧ ∀ d ∈ ds, h.next ≤ d := by
  obtain ⟨as, hc⟩ := hl
  obtain ⟨h', r, cs, e1, e2, e3, e4, e5⟩ := removeDuplicates_spec (ps := []) test (Chain.done nil) hc
    (by simp) hg.pos (fuel := fuel) (by rw [chain_length hc]; exact hf)
  refine ⟨h', r, cs, ?_, by simpa using e2, ⟨e3, fun a ha => e4 a ha (by simp)⟩, fun d hd => ?_⟩
  · simp at e1
    simp [removeDuplicates, e1, bind, Except.bind]
  · simpa using e5 d hd

/-- What stays of a list whose duplicates are removed, for every test: some of its elements in their
order, no two of which are equal. -/
theorem lastOnes_distinct (test : Val → Val → Bool) (xs : List Val) :
    List.Sublist (lastOnes test xs) xs ∧ (lastOnes test xs).Pairwise (fun a b => test a b = false) := by
  induction xs with
  | nil => simp [lastOnes]
  | cons x xs ih =>
    unfold lastOnes
    split
    · exact ⟨ih.1.cons x, ih.2⟩
    · rename_i hn
      refine ⟨ih.1.cons₂ x, List.pairwise_cons.2 ⟨fun b hb => ?_, ih.2⟩⟩
      have := ih.1.subset hb
      by_contra hh
      exact hn (List.any_eq_true.2 ⟨b, this, by simpa using hh⟩)

/-- ... and for a test that is reflexive and transitive, one for each element of the list. -/
theorem lastOnes_complete (test : Val → Val → Bool) (hr : ∀ a, test a a = true)
    (ht : ∀ a b c, test a b = true → test b c = true → test a c = true) (xs : List Val) :
    ∀ x ∈ xs, ∃ y ∈ lastOnes test xs, test x y = true := by
  induction xs with
  | nil => simp
  | cons x xs ih =>
    intro z hz
    unfold lastOnes
    split
    · rename_i hn
      rcases List.mem_cons.1 hz with rfl | hz
      · obtain ⟨w, hw, hzw⟩ := List.any_eq_true.1 hn
        obtain ⟨y, hy, hwy⟩ := ih w hw
        exact ⟨y, hy, ht _ _ _ hzw hwy⟩
      · exact ih z hz
    · rcases List.mem_cons.1 hz with rfl | hz
      · exact ⟨z, by simp, hr z⟩
      · obtain ⟨y, hy, hzy⟩ := ih z hz
        exact ⟨y, by simp [hy], hzy⟩

example : lastOnes (· = ·) [.obj 1, .obj 2, .obj 1, .obj 3] = [.obj 2, .obj 1, .obj 3] := by decide

/-- **C62.** `add-new`: the element is added in front unless the list has an equal one. -/
theorem add_new_spec {h : Heap} {v : Val} {xs : List Val} (hg : Good h) (hl : IsList h v xs)
    (x : Val) (test : Val → Val → Bool) (fuel : Nat) (hf : xs.length < fuel) :
    ∃ h' r, addNew fuel h v x test = .ok (h', r) ∧ Extends h h' ∧
      IsList h' r (if xs.any (fun e => test e x) then xs else x :: xs) := by
  obtain ⟨as, hc⟩ := hl
  have hx := xmember_spec hc (fuel := fuel) (by rw [chain_length hc]; exact hf) (fun e => test e x)
  cases ht : xs.any (fun e => test e x) with
  | true =>
    rw [ht] at hx
    exact ⟨h, v, by simp [addNew, hx, bind, Except.bind], extends_refl h, as, by simpa using hc⟩
  | false =>
    rw [ht] at hx
    exact ⟨(pair h x v).1, (pair h x v).2, by simp [addNew, hx, bind, Except.bind],
      pair_extends h x v, _,
      by simpa using pair_chain hg.pos hc⟩

/-- **C62.** `copy-sequence`: for bounds within the list a fresh list of the elements between them, and
otherwise an error; nothing that existed changes. -/
theorem copy_sequence_spec {h : Heap} {v : Val} {xs : List Val} (hg : Good h) (hl : IsList h v xs)
    (first : Int) (last : Option Int) (fuel : Nat) (hf : xs.length < fuel) :
    let stop := last.getD xs.length
    (0 ≤ first ∧ first ≤ stop ∧ stop ≤ xs.length →
      ∃ h' r ds, copySequence fuel h v first last = .ok (h', r) ∧
        Chain h' r ds ((xs.take stop.toNat).drop first.toNat) nil ∧ Extends h h' ∧
        ∀ d ∈ ds, h.next ≤ d) ∧
    (¬ (0 ≤ first ∧ first ≤ stop ∧ stop ≤ xs.length) →
      copySequence fuel h v first last = .error .bounds) := by
  obtain ⟨as, hc⟩ := hl
  have hlen := chain_length hc
  have hf' : as.length < fuel := by omega
  -- copying a whole list
  have whole : ∀ (w : Val) (bs : List Nat) (ys : List Val), Chain h w bs ys nil → bs.length < fuel →
      ∃ h1 r1 h' r ds, copyRev fuel h w nil = .ok (h1, r1) ∧ reverseBang fuel h1 r1 nil = .ok (h', r) ∧
        Chain h' r ds ys nil ∧ Extends h h' ∧ ∀ d ∈ ds, h.next ≤ d := by
    intro w bs ys hw hb
    obtain ⟨h1, r1, ds, e1, e2, e3, e4, e5⟩ := copyRev_chain (fuel := fuel) hw (Chain.done nil) hg.pos hb
    simp only [List.append_nil] at e3
    obtain ⟨h', r, u1, u2, u3, u4⟩ := reverseBang_chain (fuel := fuel) e3 (Chain.done nil) (by simp)
      (by omega)
    exact ⟨h1, r1, h', r, ds.reverse, e1, u1, by simpa using u2, ext_of_same e2 u3 e5 u4,
      by simpa using e5⟩
  intro stop
  by_cases hd : first = 0 ∧ last = none
  · obtain ⟨rfl, rfl⟩ := hd
    refine ⟨fun _ => ?_, fun hn => absurd ?_ hn⟩
    · obtain ⟨h1, r1, h', r, ds, e1, e2, e3, e4, e5⟩ := whole v as xs hc hf'
      refine ⟨h', r, ds, by simp [copySequence, bind, Except.bind, e1, e2], ?_, e4, e5⟩
      simpa [stop] using e3
    · simp only [stop, Option.getD_none]; omega
  · by_cases hneg : first < 0
    · refine ⟨fun hh => absurd hh.1 (by omega), fun _ => ?_⟩
      unfold copySequence
      rw [if_neg hd, if_pos hneg]
    · obtain ⟨w, bs, s1, s2, s3⟩ := skipLoop_spec (i := 0) (first := first) hc (by omega) hf'
      simp only [Int.zero_add, Int.sub_zero] at s1 s2
      have hbs := chain_length s2
      rw [List.length_drop] at hbs
      unfold copySequence
      rw [if_neg hd, if_neg hneg]
      simp only [bind, Except.bind, s1]
      by_cases hbig : (as.length : Int) < first
      · have hmin : min first (as.length : Int) < first := by omega
        rw [if_pos hmin]
        refine ⟨fun hh => absurd hh (by omega), fun _ => rfl⟩
      · have hmin : min first (as.length : Int) = first := by omega
        rw [hmin, if_neg (Int.lt_irrefl _)]
        cases last with
        | none =>
          simp only [stop, Option.getD_none]
          refine ⟨fun _ => ?_, fun hn => absurd ?_ hn⟩
          · obtain ⟨h1, r1, h', r, ds, e1, e2, e3, e4, e5⟩ := whole w bs _ s2 (by omega)
            refine ⟨h', r, ds, by simp [e1, e2], ?_, e4, e5⟩
            simpa using e3
          · omega
        | some last =>
          simp only [stop, Option.getD_some]
          by_cases hlf : last < first
          · rw [if_pos hlf]
            exact ⟨fun hh => absurd hh (by omega), fun _ => rfl⟩
          · rw [if_neg hlf]
            obtain ⟨h1, r1, ds, t1, t2, t3, t4, t5⟩ := takeLoop_spec (i := first) (last := last) s2
              (Chain.done nil) hg.pos (by omega) (fuel := fuel) (by omega)
            simp only [t1]
            by_cases hll : (xs.length : Int) < last
            · have hmin : min last (first + (bs.length : Int)) < last := by omega
              rw [if_pos hmin]
              exact ⟨fun hh => absurd hh (by omega), fun _ => rfl⟩
            · have hmin : min last (first + (bs.length : Int)) = last := by omega
              rw [hmin, if_neg (Int.lt_irrefl _)]
              simp only [List.append_nil] at t3
              obtain ⟨h', r, u1, u2, u3, u4⟩ := reverseBang_chain (fuel := fuel) t3 (Chain.done nil)
                (by simp) (by omega)
              refine ⟨fun _ => ⟨h', r, ds.reverse, u1, ?_, ext_of_same t2 u3 t5 u4,
                by simpa using t5⟩, fun hn => absurd ?_ hn⟩
              · have : (xs.take last.toNat).drop first.toNat =
                    (xs.drop first.toNat).take (last - first).toNat := by
                  rw [List.drop_take]
                  congr 1
                  omega
                rw [this]
                simpa using u2
              · omega

example : copySequence 5 demo (.ref 1) 1 (some 4) = .error .bounds :=
  (copy_sequence_spec demo_good ⟨_, demo_list⟩ 1 (some 4) 5 (by decide)).2 (by decide)

/-- What a sequence argument holds. -/
def Holds (h : Heap) : Insert → List Val → Prop
  | .list v, xs => IsList h v xs
  | .other ys, xs => ys = xs

theorem concatenateTwo_spec {h : Heap} (hg : 0 < h.next) {s t : Insert} {xs ys : List Val}
    (hs : Holds h s xs) (ht : Holds h t ys) (fuel : Nat) (hf : xs.length < fuel)
    (hf' : ys.length < fuel) :
    ∃ h' r, concatenateTwo fuel h s t = .ok (h', r) ∧ IsList h' r (xs ++ ys) ∧ Extends h h' := by
  have asL : ∀ (s : Insert) (xs : List Val), Holds h s xs → xs.length < fuel →
      ∃ h' r, asList fuel h s = .ok (h', r) ∧ IsList h' r xs ∧ Extends h h' := by
    intro s xs hs hf
    cases s with
    | list v => exact ⟨h, v, rfl, hs, extends_refl h⟩
    | other zs =>
      obtain rfl : zs = xs := hs
      obtain ⟨h1, v, ds, e1, e2, e3, e4, e5⟩ := foldl_chain zs (Chain.done (h := h) nil) hg
      simp only [List.append_nil] at e3
      obtain ⟨h', r, u1, u2, u3, u4⟩ := reverseBang_chain (fuel := fuel) e3 (Chain.done nil) (by simp)
        (by omega)
      exact ⟨h', r, by simp [asList, e1, u1], ⟨_, by simpa using u2⟩, ext_of_same e2 u3 e5 u4⟩
  have empt : ∀ (s : Insert) (xs : List Val), Holds h s xs → (isEmpty s = true ↔ xs = []) := by
    intro s xs hs
    cases s with
    | list v =>
      obtain ⟨as, hc⟩ := hs
      constructor
      · intro he
        have : v = nil := by simpa [isEmpty] using he
        subst this
        exact (chain_of_nil hc).2.1
      · rintro rfl
        have := chain_length hc
        cases as with
        | nil => simp [isEmpty, (chain_nil hc).1]
        | cons a as => simp at this
    | other zs =>
      obtain rfl : zs = xs := hs
      simp [isEmpty]
  unfold concatenateTwo
  by_cases he : isEmpty t = true
  · rw [if_pos he, (empt t ys ht).1 he, List.append_nil]
    exact asL s xs hs hf
  · rw [if_neg he]
    obtain ⟨h1, l, a1, ⟨ls, a2⟩, a3⟩ := asL t ys ht hf'
    simp only [a1, bind, Except.bind]
    by_cases he' : isEmpty s = true
    · rw [if_pos he', (empt s xs hs).1 he']
      exact ⟨h1, l, rfl, ⟨ls, by simpa using a2⟩, a3⟩
    · rw [if_neg he']
      have hpos : 0 < h1.next := Nat.lt_of_lt_of_le hg a3.1
      have hcopy : ∃ h2 r ds, copyRevOf fuel h1 s = .ok (h2, r) ∧ Extends h1 h2 ∧
          Chain h2 r ds xs.reverse nil ∧ ds.length = xs.length ∧ ∀ d ∈ ds, h1.next ≤ d := by
        cases s with
        | list v =>
          obtain ⟨as, hc⟩ := hs
          have hl := chain_length hc
          obtain ⟨h2, r, ds, c1, c2, c3, c4, c5⟩ := copyRev_chain (fuel := fuel) (chain_ext hc a3)
            (Chain.done nil) hpos (by omega)
          exact ⟨h2, r, ds, c1, c2, by simpa using c3, by omega, c5⟩
        | other zs =>
          obtain rfl : zs = xs := hs
          obtain ⟨h2, r, ds, c1, c2, c3, c4, c5⟩ := foldl_chain zs (Chain.done (h := h1) nil) hpos
          exact ⟨h2, r, ds, by simp [copyRevOf, c1], c2, by simpa using c3, c4, c5⟩
      obtain ⟨h2, r, ds, c1, c2, c3, c4, c5⟩ := hcopy
      obtain ⟨h', v, u1, u2, u3, u4⟩ := unwind_chain (fuel := fuel) c3 (chain_ext a2 c2) (by
        intro d hd hdl
        have := c5 d hd
        have := (chain_used a2 d hdl).2
        omega) (by omega)
      refine ⟨h', v, by simp [c1, u1], ⟨_, by simpa using u2⟩, a3.trans (ext_of_same c2 u3 c5 u4)⟩

/-- **C62.** `concatenate-as(<list>, ...)` of any number of lists and other sequences holds the elements
of all of them in order; nothing that existed changes. (The result may share its end with the last
argument.) -/
theorem concatenate_spec {h : Heap} (hg : Good h) {args : List (Insert × List Val)}
    (ha : ∀ p ∈ args, Holds h p.1 p.2) (fuel : Nat)
    (hf : ((args.map Prod.snd).flatten).length < fuel) :
    ∃ h' r, concatenateRest fuel h (args.map Prod.fst) = .ok (h', r) ∧
      IsList h' r (args.map Prod.snd).flatten ∧ Extends h h' := by
  induction args with
  | nil => exact ⟨h, nil, rfl, ⟨[], .done nil⟩, extends_refl h⟩
  | cons p args ih =>
    obtain ⟨s, xs⟩ := p
    simp only [List.map_cons, List.flatten_cons, List.length_append] at hf ⊢
    obtain ⟨h1, r1, e1, e2, e3⟩ := ih (fun p hp => ha p (by simp [hp])) (by omega)
    have hs : Holds h1 s xs := by
      have := ha (s, xs) (by simp)
      cases s with
      | list v => obtain ⟨as, hc⟩ := this; exact ⟨as, chain_ext hc e3⟩
      | other zs => exact this
    obtain ⟨h', r, f1, f2, f3⟩ := concatenateTwo_spec (Nat.lt_of_lt_of_le hg.pos e3.1) hs
      (t := .list r1) e2 fuel (by omega) (by omega)
    refine ⟨h', r, ?_, f2, e3.trans f3⟩
    simp [concatenateRest, e1, bind, Except.bind, f1]

example : ∃ h' r, concatenateRest 20 demo [.list (.ref 1), .other [.obj 1], .list (.ref 7)] =
    .ok (h', r) ∧ IsList h' r [.obj 7, .obj 8, .obj 9, .obj 1, .obj 5, .obj 7, .obj 8, .obj 9] ∧
      Extends demo h' :=
  concatenate_spec demo_good (args := [(.list (.ref 1), [.obj 7, .obj 8, .obj 9]),
    (.other [.obj 1], [.obj 1]), (.list (.ref 7), [.obj 5, .obj 7, .obj 8, .obj 9])])
    (by
      intro p hp
      simp at hp
      rcases hp with rfl | rfl | rfl
      · exact ⟨_, demo_list⟩
      · rfl
      · exact ⟨_, demo_shared⟩) 20 (by decide)

/-! ## C63: changing lists in place -/

theorem chain_setHead {h : Heap} {v e : Val} {as : List Nat} {xs : List Val} (hc : Chain h v as xs e)
    (he : isPair e = false) (n : Nat) (hn : n < as.length) (x : Val) :
    Chain (h.set as[n] ⟨x, (h.cells as[n]).tail⟩) v as (xs.set n x) e := by
  have hnd := chain_nodup hc he
  induction hc generalizing n with
  | done v => simp at hn
  | @pair a as xs e nn us rest ih =>
    rw [List.nodup_cons] at hnd
    cases n with
    | zero =>
      simp only [List.getElem_cons_zero, List.set_cons_zero]
      have hs := set_same h a ⟨x, (h.cells a).tail⟩
      have c1 := chain_set (c := ⟨x, (h.cells a).tail⟩) rest hnd.1
      have : Chain (h.set a ⟨x, (h.cells a).tail⟩)
        ((h.set a ⟨x, (h.cells a).tail⟩).cells a).tail as xs e := by rw [hs]; exact c1
      have := Chain.pair (a := a) nn (show a < (h.set a _).next from us) this
      rwa [hs] at this
    | succ n =>
      simp only [List.getElem_cons_succ, List.set_cons_succ]
      have hn' : n < as.length := by simpa using hn
      have ihn := ih he n hn' hnd.2
      have hne : a ≠ as[n] := fun he => hnd.1 (he ▸ List.getElem_mem hn')
      have hs := set_other h ⟨x, (h.cells as[n]).tail⟩ hne
      have : Chain (h.set as[n] ⟨x, (h.cells as[n]).tail⟩)
        ((h.set as[n] ⟨x, (h.cells as[n]).tail⟩).cells a).tail as (xs.set n x) e := by
        rw [hs]; exact ihn
      have := Chain.pair (a := a) nn (show a < (h.set as[n] _).next from us) this
      rwa [hs] at this

/-- **C63.** `element-setter`: one element changes; a key outside the list is an error. -/
theorem element_setter_spec {h : Heap} {v : Val} {as : List Nat} {xs : List Val}
    (hc : Chain h v as xs nil) (x : Val) (key : Int) (fuel : Nat) (hf : xs.length < fuel) :
    (∀ n : Nat, key = n → ∀ hn : n < as.length, ∃ h', elementSetter h x key fuel v 0 = .ok h' ∧
      Chain h' v as (xs.set n x) nil ∧ h'.next = h.next ∧
      ∀ a, a ≠ as[n] → h'.cells a = h.cells a) ∧
    (key < 0 ∨ (xs.length : Int) ≤ key → elementSetter h x key fuel v 0 = .error .invalidIndex) := by
  have hlen := chain_length hc
  have key' := elementSetter_loop (i := 0) (key := key) x hc (fuel := fuel) (by omega)
  constructor
  · rintro n rfl hn
    have hk : (0 : Int) ≤ n ∧ ((n : Int) - 0).toNat < as.length := ⟨by omega, by omega⟩
    rw [dif_pos hk] at key'
    have hn' : ((n : Int) - 0).toNat = n := by omega
    simp only [hn'] at key'
    refine ⟨_, key', ?_, rfl, fun a ha => set_other h _ ha⟩
    exact chain_setHead hc isPair_nil n hn x
  · intro hk
    rw [dif_neg (by omega)] at key'
    exact key'

example : ∃ h', elementSetter demo (.obj 1) 1 5 (.ref 1) 0 = .ok h' ∧
    Chain h' (.ref 1) [1, 2, 3] [.obj 7, .obj 1, .obj 9] nil ∧ h'.next = demo.next ∧
    ∀ a, a ≠ 2 → h'.cells a = demo.cells a :=
  (element_setter_spec demo_list (.obj 1) 1 5 (by decide)).1 1 rfl (by decide)

/-- **C63.** `last-setter` changes the last pair only; the empty list is an error. -/
theorem last_setter_spec {h : Heap} {v : Val} {as : List Nat} {a : Nat} {xs : List Val}
    (hc : Chain h v (as ++ [a]) xs nil) (x : Val) (fuel : Nat) (hf : xs.length < fuel) :
    ∃ h', lastSetter fuel h x v = .ok h' ∧ Chain h' v (as ++ [a]) (xs.dropLast ++ [x]) nil ∧
      h'.next = h.next ∧ ∀ b, b ≠ a → h'.cells b = h.cells b := by
  have hlen := chain_length hc
  obtain ⟨_, e2, _⟩ := lastLoop_spec hc (fuel := fuel) (by simp at hlen; omega)
  obtain ⟨_, _, e3⟩ := (lastLoop_spec hc (fuel := as.length + 1) (by simp))
  have hv : v ≠ nil := by
    rintro rfl
    have := (chain_of_nil hc).1
    simp at this
  obtain ⟨k1, _⟩ := element_setter_spec hc x (as.length : Int) (xs.length + 1) (by omega)
  obtain ⟨h', k2, k3, k4, k5⟩ := k1 as.length rfl (by simp)
  have hget : (as ++ [a])[as.length]'(by simp) = a := by simp
  have key := elementSetter_loop (i := 0) (key := (as.length : Int)) x hc (fuel := xs.length + 1)
    (by omega)
  rw [dif_pos ⟨by omega, by simp⟩] at key
  rw [key] at k2
  injection k2 with k2
  have hget2 : (as ++ [a])[((as.length : Int) - 0).toNat]'(by simp) = a := by simp
  rw [hget2] at k2
  refine ⟨h', ?_, ?_, k4, fun b hb => k5 b (by rw [hget]; exact hb)⟩
  · simp [lastSetter, hv, e2, bind, Except.bind, setHead, k2]
  · have : xs.set as.length x = xs.dropLast ++ [x] := by
      rcases List.eq_nil_or_concat xs with rfl | ⟨ys, y, rfl⟩
      · simp at hlen
      · rw [List.concat_eq_append] at hlen ⊢
        simp at hlen
        rw [hlen]
        simp
    rwa [this] at k3

theorem last_setter_empty (h : Heap) (x : Val) (fuel : Nat) :
    lastSetter fuel h x nil = .error .invalidIndex := by simp [lastSetter]

example : Chain demo (.ref 1) ([1, 2] ++ [3]) [.obj 7, .obj 8, .obj 9] nil := demo_list

/-- **C63.** `reverse!` reverses the list in its own pairs and changes no other. -/
theorem reverse_bang_spec {h : Heap} {v : Val} {as : List Nat} {xs : List Val}
    (hc : Chain h v as xs nil) (fuel : Nat) (hf : xs.length < fuel) :
    ∃ h' r, reverseBang fuel h v nil = .ok (h', r) ∧ Chain h' r as.reverse xs.reverse nil ∧
      h'.next = h.next ∧ ∀ a, a ∉ as → h'.cells a = h.cells a := by
  obtain ⟨h', r, e1, e2, e3, e4⟩ := reverseBang_chain (fuel := fuel) hc (Chain.done nil) (by simp)
    (by rw [chain_length hc]; exact hf)
  exact ⟨h', r, e1, by simpa using e2, e3, e4⟩

example : ∃ h' r, reverseBang 5 demo (.ref 1) nil = .ok (h', r) ∧
    Chain h' r [3, 2, 1] [.obj 9, .obj 8, .obj 7] nil ∧ h'.next = demo.next ∧
    ∀ a, a ∉ [1, 2, 3] → h'.cells a = demo.cells a := reverse_bang_spec demo_list 5 (by decide)

/-- **C63.** `remove!` makes the same list as `remove`, of pairs of the list it was given, and changes no
other pair and no head. -/
theorem remove_bang_spec {h : Heap} {v : Val} {as : List Nat} {xs : List Val} (hg : Good h)
    (hc : Chain h v as xs nil) (test : Val → Bool) (count : Option Nat) (fuel : Nat)
    (hf : xs.length < fuel) :
    ∃ h' r cs, removeBang fuel h v test (count.map Int.ofNat) = .ok (h', r) ∧
      Chain h' r cs (removed test count xs) nil ∧ List.Sublist cs as ∧ h'.next = h.next ∧
      (∀ a, a ∉ as → h'.cells a = h.cells a) ∧ ∀ a, (h'.cells a).head = (h.cells a).head := by
  have hf' : as.length < fuel := by rw [chain_length hc]; exact hf
  have h0 : (h.cells 0).tail = nil := by rw [hg.empty]
  have key : ∀ c : Int, c ≠ 0 → ∃ h' r cs, removeBangLoop test fuel h c none v v = .ok (h', r, nil) ∧
      Chain h' r cs (left test c xs) nil ∧ List.Sublist cs as ∧ h'.next = h.next ∧
      (∀ a, a ∉ as → h'.cells a = h.cells a) ∧ ∀ a, (h'.cells a).head = (h.cells a).head := by
    intro c hc0
    obtain ⟨h', r, cs, e1, e2, e3, e4, e5, e6⟩ := removeBang_spec (ps := []) test (Chain.done v) hc h0
      hc0 hf'
    exact ⟨h', r, cs, by simpa using e1, by simpa using e2, by simpa using e3, e4, by simpa using e5,
      e6⟩
  cases count with
  | none =>
    obtain ⟨h', r, cs, k1, k2⟩ := key (-1) (by decide)
    exact ⟨h', r, cs, by simp [removeBang, countOf, bind, Except.bind, k1], k2⟩
  | some n =>
    by_cases hn : n = 0
    · subst hn
      exact ⟨h, v, as, by simp [removeBang, countOf, bind, Except.bind],
        by simpa [removed, without] using hc, List.Sublist.refl _, rfl,
        fun _ _ => rfl, fun _ => rfl⟩
    · obtain ⟨h', r, cs, k1, k2, k3⟩ := key n (by omega)
      have hnn : ¬ ((n : Int) < 0) := by omega
      refine ⟨h', r, cs, by simp [removeBang, countOf, bind, Except.bind, hn, hnn, k1], ?_, k3⟩
      have : left test n xs = removed test (some n) xs := by
        unfold left removed
        rw [if_neg (by omega)]
        rfl
      rwa [this] at k2

example : ∃ h' r cs, removeBang 9 demo (.ref 7) (· = .obj 7) (some 1) = .ok (h', r) ∧
    Chain h' r cs [.obj 5, .obj 8, .obj 9] nil ∧ List.Sublist cs [7, 1, 2, 3] ∧
    h'.next = demo.next ∧ (∀ a, a ∉ [7, 1, 2, 3] → h'.cells a = demo.cells a) ∧
    ∀ a, (h'.cells a).head = (demo.cells a).head :=
  remove_bang_spec demo_good demo_shared (· = .obj 7) (some 1) 9 (by decide)

/-- **C63.** `remove-duplicates!` makes the same list as `remove-duplicates`, of pairs of the list it was
given, and changes no other pair and no head. -/
theorem remove_duplicates_bang_spec {h : Heap} {v : Val} {as : List Nat} {xs : List Val}
    (hc : Chain h v as xs nil) (test : Val → Val → Bool) (fuel : Nat) (hf : xs.length < fuel) :
    ∃ h' r cs, removeDuplicatesBang fuel h v test = .ok (h', r) ∧
      Chain h' r cs (lastOnes test xs) nil ∧ List.Sublist cs as ∧ h'.next = h.next ∧
      (∀ a, a ∉ as → h'.cells a = h.cells a) ∧ ∀ a, (h'.cells a).head = (h.cells a).head := by
  obtain ⟨h', r, cs, e1, e2, e3, e4, e5, e6⟩ := removeDuplicatesBang_spec (ps := []) test
    (Chain.done v) hc (fuel := fuel) (by rw [chain_length hc]; exact hf)
  simp at e1
  exact ⟨h', r, cs, by simp [removeDuplicatesBang, e1, bind, Except.bind], by simpa using e2,
    by simpa using e3, e4, by simpa using e5, e6⟩

example : ∃ h' r cs, removeDuplicatesBang 9 demo (.ref 7) (fun _ _ => true) = .ok (h', r) ∧
    Chain h' r cs [.obj 9] nil ∧ List.Sublist cs [7, 1, 2, 3] ∧ h'.next = demo.next ∧
    (∀ a, a ∉ [7, 1, 2, 3] → h'.cells a = demo.cells a) ∧
    ∀ a, (h'.cells a).head = (demo.cells a).head :=
  remove_duplicates_bang_spec demo_shared _ 9 (by decide)

/-- The pairs of a sequence argument. -/
def Pairs (h : Heap) : Insert → List Nat → List Val → Prop
  | .list v, cs, ys => Chain h v cs ys nil
  | .other zs, cs, ys => zs = ys ∧ cs = []

/-- **C63, in part.** `replace-subsequence!` on a list, for bounds within the list and a sequence that
does not share pairs with it: the elements between the bounds are replaced, and of what existed only the
pair before `start:` changes. Without `end:`, as many elements are replaced as are inserted. Missing:
bounds outside the list are not refused (`replace_subsequence_bounds_violated`), and a list cannot be
inserted into itself (`replace_subsequence_self_violated`). -/
theorem replace_subsequence_partial {h : Heap} (hg : Good h) {v : Val} {as : List Nat} {xs : List Val}
    (hc : Chain h v as xs nil) {insert : Insert} {cs : List Nat} {ys : List Val}
    (hi : Pairs h insert cs ys) (hd : ∀ a ∈ as, a ∉ cs) (start : Nat) (last : Option Nat)
    (hb : start ≤ last.getD (start + ys.length) ∧ last.getD (start + ys.length) ≤ xs.length)
    (fuel : Nat) (hf : xs.length < fuel) (hf' : ys.length < fuel) :
    ∃ h' r ds, replaceSubsequence fuel h v insert start (last.map Int.ofNat) = .ok (h', r) ∧
      Chain h' r ds (xs.take start ++ ys ++ xs.drop (last.getD (start + ys.length))) nil ∧
      OnlyChanges (as.take start).getLast?.toList h h' := by
  have hlen := chain_length hc
  set stop := last.getD (start + ys.length) with hstop
  -- the pair in front
  have hx := pair_extends h (.obj 0) v
  have c0 := pair_chain (x := .obj 0) hg.pos hc
  set h1 := (pair h (.obj 0) v).1 with hh1
  have hr2 : (pair h (.obj 0) v).2 = .ref h.next := rfl
  rw [hr2] at c0
  have hn1 : h1.next = h.next + 1 := rfl
  have ha : ∀ a ∈ as, a < h.next := fun a ha => (chain_used hc a ha).2
  -- cut the chain before and after the hole
  obtain ⟨pre, p, hpre, hprel⟩ : ∃ pre p, (h.next :: as).take (start + 1) = pre ++ [p] ∧
      pre.length = start := by
    refine ⟨(h.next :: as).take start, (h.next :: as)[start]'(by simp; omega), ?_, by simp; omega⟩
    rw [List.take_succ_eq_append_getElem]
  have hsplit : h.next :: as = pre ++ [p] ++ ((as.drop start).take (stop - start) ++ as.drop stop) := by
    rw [← hpre]
    have : as.drop stop = (as.drop start).drop (stop - start) := by
      rw [List.drop_drop]; congr 1; omega
    rw [this, List.take_append_drop]
    simp [List.take_append_drop]
  rw [hsplit] at c0
  obtain ⟨m, c1, c2⟩ := chain_split c0
  obtain ⟨m2, c3, c4⟩ := chain_split c2
  have hnd := chain_nodup c0 isPair_nil
  obtain ⟨m0, d1, d2⟩ := chain_split c1
  have hm0 := chain_start d2
  subst hm0
  have hpm : m = (h1.cells p).tail := by
    generalize List.drop pre.length _ = q at d2
    cases d2 with
    | pair _ _ rest => exact (chain_nil rest).1.symm
  subst hpm
  have hpn : p < h1.next := (chain_used d2 p (by simp)).2
  have hp0 : p ≠ 0 := (chain_used d2 p (by simp)).1
  have hw : walk h1 start (.ref h.next) = .ok (.ref p) := by rw [← hprel]; exact walk_spec d1
  have hmid : ((as.drop start).take (stop - start)).length = stop - start := by simp; omega
  have hhole : holeLoop h1 stop fuel (h1.cells p).tail start = .ok m2 :=
    holeLoop_spec c3 (by rw [hmid]; omega) (by rw [hmid]; omega)
  -- the inserted elements
  have hpcs : p ∉ cs := by
    intro hm
    have : p ∈ h.next :: as := by rw [hsplit]; simp
    rcases List.mem_cons.1 this with rfl | hpa
    · cases insert with
      | list w => exact absurd (chain_used hi _ hm).2 (by omega)
      | other zs => rw [hi.2] at hm; simp at hm
    · exact hd p hpa hm
  obtain ⟨h2, q, ds, e1, e2, e3, e4, e5, e6, e7, e8⟩ := insertOther_spec ys hpn
  have hins : insertAll fuel h1 (.ref p) insert = .ok (h2, .ref q) := by
    cases insert with
    | list w =>
      rw [← e1]
      exact insertList_eq (chain_ext hi hx) hpcs (by rw [chain_length hi]; exact hf')
    | other zs => rw [← e1, ← hi.1]; rfl
  have hlast : endOf fuel h1 insert start (last.map Int.ofNat) = .ok (stop : Int) := by
    cases last with
    | some l => rfl
    | none =>
      have : insertSize fuel h1 insert = .ok (ys.length : Int) := by
        cases insert with
        | list w =>
          have := size_of_proper ⟨cs, chain_ext hi hx⟩ fuel (Nat.le_of_lt hf')
          simp [insertSize, this, bind, Except.bind]
        | other zs => rw [← hi.1]; rfl
      simp [endOf, this, bind, Except.bind, hstop]
  -- the new memory
  set h3 := h2.set q ⟨(h2.cells q).head, m2⟩ with hh3
  have hqold : ∀ a < h1.next, a ≠ p → h3.cells a = h1.cells a := by
    intro a hal hap
    have hqa : a ≠ q := by
      rcases e6 with rfl | e6
      · exact hap
      · have := e5 q e6; omega
    rw [hh3, set_other _ _ hqa, e3 a hal hap]
  have hh3p : (h3.cells p).head = (h1.cells p).head := by
    by_cases hqp : p = q
    · rw [hh3, ← hqp, set_same]; exact e4
    · rw [hh3, set_other _ _ hqp, e4]
  have hn3 : h1.next ≤ h3.next := e2
  have hpdis : p ∉ pre ∧ p ∉ as.drop stop := by
    rw [List.append_assoc] at hnd
    have := List.nodup_append.1 hnd
    refine ⟨fun hm => this.2.2 p hm p (by simp) rfl, fun hm => ?_⟩
    have := (List.nodup_cons.1 this.2.1).1
    exact this (by simp [hm])
  have f1 : Chain h3 (.ref h.next) pre (((Val.obj 0 :: xs).take (pre ++ [p]).length).take pre.length)
      (.ref p) := chain_frame d1 (fun a hal => by
        have := (chain_used d1 a hal).2
        exact ⟨by omega, hqold a this (fun he => hpdis.1 (he ▸ hal))⟩)
  have f3 := e8 m2
  rw [← hh3] at f3
  have f4 : Chain h3 m2 (as.drop stop) _ nil := chain_frame c4 (fun a hal => by
        have := (chain_used c4 a hal).2
        exact ⟨by omega, hqold a this (fun he => hpdis.2 (he ▸ hal))⟩)
  have f2 := Chain.pair (a := p) hp0 (Nat.lt_of_lt_of_le hpn hn3) (chain_append f3 f4)
  have f := chain_append f1 f2
  rw [hmid] at f
  have hheads : ((Val.obj 0 :: xs).take (pre ++ [p]).length).take pre.length ++
      (h3.cells p).head :: (ys ++ ((Val.obj 0 :: xs).drop (pre ++ [p]).length).drop (stop - start)) =
      Val.obj 0 :: (xs.take start ++ ys ++ xs.drop stop) := by
    have hph : (h1.cells p).head = (Val.obj 0 :: xs)[start]'(by simp; omega) := by
      generalize hq : List.drop pre.length _ = qs at d2
      cases d2 with
      | pair _ _ rest =>
        obtain ⟨_, rfl⟩ := chain_nil rest
        have : (List.drop pre.length (List.take (pre ++ [p]).length (Val.obj 0 :: xs)))[0]? =
          some (h1.cells p).head := by rw [hq]; rfl
        rw [List.getElem?_drop, List.getElem?_take] at this
        rw [if_pos (by simp)] at this
        simp only [Nat.add_zero, hprel] at this
        rw [List.getElem?_eq_getElem (by simp; omega)] at this
        injection this with this
        exact this.symm
    rw [hh3p, hph]
    have t1 : ((Val.obj 0 :: xs).take (pre ++ [p]).length).take pre.length =
        (Val.obj 0 :: xs).take start := by
      rw [List.take_take]; congr 1; simp; omega
    rw [t1]
    have t2 : (Val.obj 0 :: xs).take start ++ (Val.obj 0 :: xs)[start]'(by simp; omega) ::
        (ys ++ ((Val.obj 0 :: xs).drop (pre ++ [p]).length).drop (stop - start)) =
        ((Val.obj 0 :: xs).take start ++ [(Val.obj 0 :: xs)[start]'(by simp; omega)]) ++
        (ys ++ ((Val.obj 0 :: xs).drop (pre ++ [p]).length).drop (stop - start)) := by
      rw [List.append_assoc]; rfl
    rw [t2, ← List.take_succ_eq_append_getElem, List.drop_drop]
    have t3 : (pre ++ [p]).length + (stop - start) = stop + 1 := by simp; omega
    rw [t3]
    simp
  rw [hheads] at f
  -- drop the pair in front
  cases hds : pre ++ p :: (ds ++ as.drop stop) with
  | nil => simp at hds
  | cons d0 drest =>
    rw [hds] at f
    generalize hres : Val.obj 0 :: (xs.take start ++ ys ++ xs.drop stop) = res at f
    have hd0 : d0 = h.next := by
      have := chain_start f; injection this with this; exact this.symm
    subst hd0
    cases f with
    | @pair _ _ zs _ _ _ frest =>
      injection hres with _ hres
      subst hres
      refine ⟨h3, (h3.cells h.next).tail, drest, ?_, frest, by have := hx.1; omega, ?_⟩
      · unfold replaceSubsequence
        have hst : (Int.toNat (start : Int)) = start := by omega
        simp only [hr2, ← hh1, bind, Except.bind, hst, hw, hlast, tail, hhole, hins, setTail]
        rfl
      · intro a hal han
        have hap : a ≠ p := by
          rintro rfl
          apply han
          have : a ∈ h.next :: as := by rw [hsplit]; simp
          have htk : (h.next :: as).take (start + 1) = h.next :: as.take start := by simp
          rw [htk] at hpre
          have hgl : (h.next :: as.take start).getLast? = some a := by rw [hpre]; simp
          cases hts : as.take start with
          | nil =>
            rw [hts] at hgl
            simp at hgl
            omega
          | cons b bs =>
            rw [hts, List.getLast?_cons_cons] at hgl
            rw [hgl]
            simp
        rw [hqold a (by omega) hap, hx.2 a hal]

example : ∃ h' r ds, replaceSubsequence 9 demo (.ref 1) (.other [.obj 1, .obj 2]) (1 : Nat) (some 2) =
    .ok (h', r) ∧ Chain h' r ds [.obj 7, .obj 1, .obj 2, .obj 9] nil ∧ OnlyChanges [1] demo h' :=
  replace_subsequence_partial demo_good demo_list (insert := .other [.obj 1, .obj 2]) (cs := [])
    ⟨rfl, rfl⟩ (by simp) 1 (some 2) (by decide) 9 (by decide) (by decide)

/-- Bounds outside the list are not refused: with an `end:` beyond the list the call answers, and with a
`start:` beyond it the call answers too, and has stored the rest into the empty list, so that
`tail(#())` is a pair from then on. -/
theorem replace_subsequence_bounds_violated :
    (∃ h' r, replaceSubsequence 20 demo (.ref 1) (.other [.obj 1]) 1 (some 9) = .ok (h', r) ∧
      IsList h' r [.obj 7, .obj 1]) ∧
    (∃ h' r, replaceSubsequence 20 demo (.ref 1) (.other [.obj 1]) 5 (some 5) = .ok (h', r) ∧
      IsList h' r [.obj 7, .obj 8, .obj 9] ∧ ∃ t, tail h' nil = .ok t ∧ isPair t = true) := by
  constructor
  · refine ⟨_, _, rfl, [1, 9], ?_⟩
    exact .pair (by decide) (by decide) (.pair (by decide) (by decide) (.done _))
  · refine ⟨_, _, rfl, ⟨[1, 2, 3], ?_⟩, .ref 9, rfl, rfl⟩
    exact .pair (by decide) (by decide) (.pair (by decide) (by decide)
      (.pair (by decide) (by decide) (.done _)))

/-- Without `end:` the elements up to the end of the list should be replaced (as in every other sequence
class); in a list only as many are as there are new ones. -/
theorem replace_subsequence_default_violated :
    ∃ h' r, replaceSubsequence 20 demo (.ref 1) (.other [.obj 1]) 0 none = .ok (h', r) ∧
      IsList h' r [.obj 1, .obj 8, .obj 9] := by
  refine ⟨_, _, rfl, [9, 2, 3], ?_⟩
  exact .pair (by decide) (by decide) (.pair (by decide) (by decide)
    (.pair (by decide) (by decide) (.done _)))

/-- With an `end:` before `start:` the call does not return. -/
theorem replace_subsequence_order_violated (fuel : Nat) :
    replaceSubsequence fuel demo (.ref 1) (.other []) 2 (some 1) = .error .loop := by
  have key : ∀ fuel (v : Val) (index : Int), (∃ a, v = .ref a ∧ (a = 3 ∨ a = 0)) → 1 < index →
      holeLoop (pair demo (.obj 0) (.ref 1)).1 1 fuel v index = .error .loop := by
    intro fuel
    induction fuel with
    | zero => intro v i _ _; rfl
    | succ fuel ih =>
      rintro v i ⟨a, rfl, ha⟩ hi
      have hne : i ≠ 1 := by omega
      simp only [holeLoop, hne, if_false, tail, bind, Except.bind]
      refine ih _ _ ⟨0, ?_, .inr rfl⟩ (by omega)
      rcases ha with rfl | rfl <;> rfl
  have := key fuel (.ref 3) 2 ⟨3, rfl, .inl rfl⟩ (by decide)
  have hw : walk (pair demo (.obj 0) (.ref 1)).1 (Int.toNat 2) (pair demo (.obj 0) (.ref 1)).2 =
    .ok (.ref 2) := rfl
  have ht : tail (pair demo (.obj 0) (.ref 1)).1 (.ref 2) = .ok (.ref 3) := rfl
  simp only [replaceSubsequence, bind, Except.bind, hw, endOf, ht, this]

/-- A list inserted into itself after its first element: the call does not return. -/
theorem replace_subsequence_self_violated (fuel : Nat) :
    replaceSubsequence fuel demo (.ref 3) (.list (.ref 3)) 1 (some 1) = .error .loop := by
  have key : ∀ fuel (h : Heap) (s p : Nat), 0 < s → s < h.next → 0 < p → p < h.next →
      ((h.cells s).tail = .ref p ∨ s = p) →
      insertList fuel h (.ref s) (.ref p) = .error .loop := by
    intro fuel
    induction fuel with
    | zero => intros; rfl
    | succ fuel ih =>
      intro h s p hs hsn hp hpn hlink
      have hs0 : s ≠ 0 := by omega
      have hx := pair_extends h (h.cells s).head (.obj 0)
      have hp2 : (pair h (h.cells s).head (.obj 0)).2 = .ref h.next := rfl
      simp only [insertList, ref_ne_nil hs0, if_false, head, tail, setTail, bind, Except.bind, hp2]
      set h2 := (pair h (h.cells s).head (.obj 0)).1.set p
        ⟨((pair h (h.cells s).head (.obj 0)).1.cells p).head, .ref h.next⟩ with hh2
      have hn2 : h2.next = h.next + 1 := rfl
      by_cases hsp : s = p
      · have ht : (h2.cells s).tail = .ref h.next := by rw [hh2, hsp, set_same]
        rw [ht]
        exact ih h2 h.next h.next (by omega) (by omega) (by omega) (by omega) (.inr rfl)
      · have ht : (h2.cells s).tail = .ref p := by
          rw [hh2, set_other _ _ hsp, hx.2 s hsn]
          rcases hlink with hl | hl
          · exact hl
          · exact absurd hl hsp
        have htp : (h2.cells p).tail = .ref h.next := by rw [hh2, set_same]
        rw [ht]
        exact ih h2 p h.next (by omega) (by omega) (by omega) (by omega) (.inl htp)
  cases fuel with
  | zero => rfl
  | succ fuel =>
    have := key (fuel + 1) (pair demo (.obj 0) (.ref 3)).1 3 3 (by decide) (by decide) (by decide)
      (by decide) (.inr rfl)
    have hw : walk (pair demo (.obj 0) (.ref 3)).1 (Int.toNat 1) (pair demo (.obj 0) (.ref 3)).2 =
      .ok (.ref 3) := rfl
    have ht : tail (pair demo (.obj 0) (.ref 3)).1 (.ref 3) = .ok nil := rfl
    have hh : holeLoop (pair demo (.obj 0) (.ref 3)).1 1 (fuel + 1) nil 1 = .ok nil := rfl
    simp only [replaceSubsequence, bind, Except.bind, hw, endOf, ht, hh, insertAll, this]

end Verif.Lists
