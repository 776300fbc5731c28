import Verif.Lists.Lemmas
import Mathlib.Tactic.ByCases
/-!
# The loops of the list functions
-/
namespace Verif.Lists

theorem memberLoop_spec {h : Heap} {v : Val} {as : List Nat} {xs : List Val} {fuel : Nat}
    (hc : Chain h v as xs nil) (ne : as ≠ []) (hf : as.length ≤ fuel) (test : Val → Bool) :
    memberLoop h test fuel v = .ok (xs.any test) := by
  induction as generalizing v xs fuel with
  | nil => exact absurd rfl ne
  | cons a as ih =>
    cases hc with
    | pair nn us rest =>
      cases fuel with
      | zero => simp at hf
      | succ fuel =>
        by_cases hn : as = []
        · subst hn
          obtain ⟨h1, h2⟩ := chain_nil rest
          subst h2
          simp only [memberLoop, head, tail, bind, Except.bind, h1]
          cases ht : test (h.cells a).head <;> simp [nil, ht]
        · have ihr := ih rest hn (by simpa using hf)
          obtain ⟨b, bs, rfl⟩ := List.exists_cons_of_ne_nil hn
          have hs := chain_start rest
          have hb := (chain_used rest b (by simp)).1
          simp only [memberLoop, head, tail, bind, Except.bind, hs]
          rw [hs] at ihr
          cases ht : test (h.cells a).head <;> simp [ref_ne_nil hb, ihr, ht]

theorem member_spec {h : Heap} {v : Val} {as : List Nat} {xs : List Val} {fuel : Nat}
    (hc : Chain h v as xs nil) (hf : as.length ≤ fuel) (test : Val → Bool) :
    member fuel h test v = .ok (xs.any test) := by
  unfold member
  cases as with
  | nil =>
    obtain ⟨rfl, rfl⟩ := chain_nil hc
    simp
  | cons a as =>
    have := chain_start hc
    subst this
    rw [if_neg (ref_ne_nil (chain_used hc a (by simp)).1)]
    exact memberLoop_spec hc (by simp) hf test

theorem xmember_spec {h : Heap} {v : Val} {as : List Nat} {xs : List Val} {fuel : Nat}
    (hc : Chain h v as xs nil) (hf : as.length < fuel) (test : Val → Bool) :
    xmember h test fuel v = .ok (xs.any test) := by
  induction as generalizing v xs fuel with
  | nil =>
    obtain ⟨rfl, rfl⟩ := chain_nil hc
    cases fuel with
    | zero => simp at hf
    | succ fuel => simp [xmember, isPair_nil]
  | cons a as ih =>
    cases hc with
    | pair nn us rest =>
      cases fuel with
      | zero => simp at hf
      | succ fuel =>
        have ih := ih rest (fuel := fuel) (by simpa using hf)
        simp only [xmember, pair_isPair nn, head, tail, bind, Except.bind, if_true]
        cases ht : test (h.cells a).head <;> simp [ih, ht]

theorem element_loop {h : Heap} {v : Val} {as : List Nat} {xs : List Val} {fuel : Nat} {i key : Int}
    (d : Option Val) (hc : Chain h v as xs nil) (hf : as.length < fuel) (hi : i ≤ key) :
    elementLoop h key d fuel v i =
      match xs[(key - i).toNat]? with
      | some x => .ok x
      | none => match d with
        | none => .error .invalidIndex
        | some d => .ok d := by
  induction as generalizing v xs fuel i with
  | nil =>
    obtain ⟨rfl, rfl⟩ := chain_nil hc
    cases fuel with
    | zero => simp at hf
    | succ fuel => simp [elementLoop, isPair_nil]; cases d <;> rfl
  | cons a as ih =>
    cases hc with
    | pair nn us rest =>
      cases fuel with
      | zero => simp at hf
      | succ fuel =>
        by_cases hk : i = key
        · subst hk
          simp [elementLoop, pair_isPair nn, head]
        · have ih := ih rest (fuel := fuel) (i := i + 1) (by simpa using hf) (by omega)
          have : (key - i).toNat = (key - (i + 1)).toNat + 1 := by omega
          rw [this, List.getElem?_cons_succ, ← ih]
          simp [elementLoop, pair_isPair nn, tail, bind, Except.bind, hk]

theorem elementSetter_loop {h : Heap} {v : Val} {as : List Nat} {xs : List Val} {fuel : Nat}
    {i key : Int} (x : Val) (hc : Chain h v as xs nil) (hf : as.length < fuel) :
    if hk : i ≤ key ∧ (key - i).toNat < as.length then
      elementSetter h x key fuel v i =
        .ok (h.set (as[(key - i).toNat]'hk.2) ⟨x, (h.cells (as[(key - i).toNat]'hk.2)).tail⟩)
    else elementSetter h x key fuel v i = .error .invalidIndex := by
  induction as generalizing v xs fuel i with
  | nil =>
    obtain ⟨rfl, rfl⟩ := chain_nil hc
    cases fuel with
    | zero => simp at hf
    | succ fuel => simp [elementSetter, isPair_nil]
  | cons a as ih =>
    cases hc with
    | pair nn us rest =>
      cases fuel with
      | zero => simp at hf
      | succ fuel =>
        by_cases hk : i = key
        · subst hk
          rw [dif_pos ⟨Int.le_refl _, by simp⟩]
          simp [elementSetter, pair_isPair nn, setHead]
        · have ih := ih rest (fuel := fuel) (i := i + 1) (by simpa using hf)
          have e1 : elementSetter h x key (fuel + 1) (.ref a) i =
              elementSetter h x key fuel (h.cells a).tail (i + 1) := by
            simp [elementSetter, pair_isPair nn, tail, bind, Except.bind, hk]
          rw [e1]
          by_cases hc : i ≤ key
          · have e2 : (key - i).toNat = (key - (i + 1)).toNat + 1 := by omega
            by_cases hl : (key - (i + 1)).toNat < as.length
            · rw [dif_pos ⟨by omega, hl⟩] at ih
              rw [dif_pos ⟨hc, by rw [e2]; simpa using hl⟩, ih]
              simp [e2]
            · rw [dif_neg (fun hh => hl hh.2)] at ih
              rw [dif_neg (fun hh => hl (by have := hh.2; rw [e2] at this; simpa using this)), ih]
          · rw [dif_neg (by omega)] at ih
            rw [dif_neg (fun hh => hc hh.1), ih]

/-! ## Removing -/

/-- What is left when `count` more elements are removed, all of them if negative. -/
def left (test : Val → Bool) (c : Int) (xs : List Val) : List Val :=
  if c < 0 then xs.filter (fun x => ! test x) else without test c.toNat xs

theorem without_nil (test : Val → Bool) (n : Nat) : without test n [] = [] := by
  cases n <;> rfl

theorem left_nil (test : Val → Bool) (c : Int) : left test c [] = [] := by
  unfold left; split
  · rfl
  · exact without_nil _ _

theorem left_zero (test : Val → Bool) (xs : List Val) : left test 0 xs = xs := by
  unfold left; simp [without]

theorem left_pos {test : Val → Bool} {c : Int} {x : Val} (xs : List Val) (hc : c ≠ 0)
    (ht : test x = true) : left test c (x :: xs) = left test (c - 1) xs := by
  unfold left
  by_cases h : c < 0
  · rw [if_pos h, if_pos (by omega : c - 1 < 0)]; simp [ht]
  · rw [if_neg h, if_neg (by omega : ¬ c - 1 < 0)]
    have : c.toNat = (c - 1).toNat + 1 := by omega
    rw [this]; simp [without, ht]

theorem left_neg {test : Val → Bool} {c : Int} {x : Val} (xs : List Val) (hc : c ≠ 0)
    (ht : test x = false) : left test c (x :: xs) = x :: left test c xs := by
  unfold left
  by_cases h : c < 0
  · rw [if_pos h, if_pos h]; simp [ht]
  · rw [if_neg h, if_neg h]
    obtain ⟨n, hn⟩ : ∃ n, c.toNat = n + 1 := ⟨c.toNat - 1, by omega⟩
    rw [hn]; simp [without, ht]

theorem removeLoop_spec (test : Val → Bool) {h : Heap} {rem acc : Val} {as bs : List Nat}
    {xs ys : List Val} {fuel : Nat} {count : Int} (h1 : Chain h rem as xs nil)
    (h2 : Chain h acc bs ys nil) (pos : 0 < h.next) (hc : count ≠ 0) (hf : as.length < fuel) :
    ∃ h' acc' r cs ds ys' zs, removeLoop test fuel h count acc rem nil = .ok (h', acc', nil, r) ∧
      Extends h h' ∧ Chain h' acc' (ds ++ bs) ys' nil ∧ (∀ d ∈ ds, h.next ≤ d) ∧
      ds.length ≤ as.length ∧ Chain h r cs zs nil ∧ (∀ c ∈ cs, c ∈ as) ∧
      ys'.reverse ++ zs = ys.reverse ++ left test count xs := by
  induction as generalizing h rem acc bs xs ys fuel count with
  | nil =>
    obtain ⟨rfl, rfl⟩ := chain_nil h1
    cases fuel with
    | zero => simp at hf
    | succ fuel =>
      exact ⟨h, acc, nil, [], [], ys, [], by simp [removeLoop, isPair_nil], extends_refl h,
        by simpa using h2, by simp, by simp, .done nil, by simp, by simp [left_nil]⟩
  | cons a as ih =>
    cases h1 with
    | @pair _ _ xs _ nn us rest =>
      cases fuel with
      | zero => simp at hf
      | succ fuel =>
        have hf' : as.length < fuel := by simpa using hf
        cases ht : test (h.cells a).head with
        | true =>
          rw [left_pos xs hc ht]
          by_cases h1 : count - 1 = 0
          · obtain ⟨fuel, rfl⟩ : ∃ f, fuel = f + 1 := ⟨fuel - 1, by omega⟩
            refine ⟨h, acc, (h.cells a).tail, as, [], ys, xs, ?_, extends_refl h, by simpa using h2,
              by simp, by simp, rest, fun c hc => by simp [hc], by rw [h1, left_zero]⟩
            simp [removeLoop, pair_isPair nn, isPair_nil, head, tail, bind, Except.bind, ht, h1]
          · obtain ⟨h', acc', r, cs, ds, ys', zs, e1, e2, e3, e4, e5, e6, e7, e8⟩ :=
              ih rest h2 pos h1 hf'
            refine ⟨h', acc', r, cs, ds, ys', zs, ?_, e2, e3, e4, by simp; omega, e6,
              fun c hc => by simp [e7 c hc], e8⟩
            rw [← e1]
            simp [removeLoop, pair_isPair nn, head, tail, bind, Except.bind, ht, h1]
        | false =>
          rw [left_neg xs hc ht]
          have hx := pair_extends h (h.cells a).head acc
          obtain ⟨h', acc', r, cs, ds, ys', zs, e1, e2, e3, e4, e5, e6, e7, e8⟩ :=
              ih (chain_ext rest hx) (pair_chain (x := (h.cells a).head) pos h2) (by simp [pair])
                hc hf'
          have hr : ∀ c ∈ cs, c < h.next := fun c hc => (chain_used rest c (e7 c hc)).2
          refine ⟨h', acc', r, cs, ds ++ [h.next], ys', zs, ?_, hx.trans e2, by simpa using e3, ?_,
            by simp; omega, chain_frame e6 (fun c hc => ⟨hr c hc, (hx.2 c (hr c hc)).symm⟩),
            fun c hc => by simp [e7 c hc], by rw [e8]; simp⟩
          · rw [← e1]
            simp [removeLoop, pair_isPair nn, head, tail, bind, Except.bind, ht]
          · intro d hd
            rcases List.mem_append.1 hd with hd | hd
            · exact Nat.le_trans hx.1 (e4 d hd)
            · simp at hd; omega

/-- The last pair of a chain gets another tail. -/
theorem chain_relink {h : Heap} {v m t : Val} {ps : List Nat} {p : Nat} {ks : List Val}
    (hc : Chain h v (ps ++ [p]) ks m) (n : p ∉ ps) :
    Chain (h.set p ⟨(h.cells p).head, t⟩) v (ps ++ [p]) ks t := by
  obtain ⟨w, h1, h2⟩ := chain_split hc
  have hk : ks = ks.take ps.length ++ ks.drop ps.length := (List.take_append_drop _ _).symm
  rw [hk]
  refine chain_append (chain_set h1 n) ?_
  generalize ks.drop ps.length = qs at h2
  cases h2 with
  | pair nn us rest =>
    obtain ⟨_, rfl⟩ := chain_nil rest
    have hs := set_same h p ⟨(h.cells p).head, t⟩
    have : Chain (h.set p ⟨(h.cells p).head, t⟩)
      ((h.set p ⟨(h.cells p).head, t⟩).cells p).tail [] [] t := by rw [hs]; exact .done t
    have := Chain.pair (a := p) nn (show p < (h.set p _).next from us) this
    rwa [hs] at this

theorem removeBang_spec (test : Val → Bool) {h : Heap} {result rem : Val} {ps as : List Nat}
    {ks xs : List Val} {fuel : Nat} {count : Int} (h1 : Chain h result ps ks rem)
    (h2 : Chain h rem as xs nil) (h0 : (h.cells 0).tail = nil) (hc : count ≠ 0)
    (hf : as.length < fuel) :
    ∃ h' r cs, removeBangLoop test fuel h count (ps.getLast?.map Val.ref) rem result =
        .ok (h', r, nil) ∧ Chain h' r cs (ks ++ left test count xs) nil ∧
      List.Sublist cs (ps ++ as) ∧ h'.next = h.next ∧
      (∀ a, a ∉ ps ++ as → h'.cells a = h.cells a) ∧
      ∀ a, (h'.cells a).head = (h.cells a).head := by
  induction as generalizing h result rem ps ks xs fuel count with
  | nil =>
    obtain ⟨rfl, rfl⟩ := chain_nil h2
    cases fuel with
    | zero => simp at hf
    | succ fuel =>
      exact ⟨h, result, ps, by simp [removeBangLoop, isPair_nil], by simpa [left_nil] using h1,
        by simp, rfl, fun _ _ => rfl, fun _ => rfl⟩
  | cons a as ih =>
    have hnd := chain_nodup (chain_append h1 h2) isPair_nil
    cases h2 with
    | @pair _ _ xs _ nn us rest =>
      cases fuel with
      | zero => simp at hf
      | succ fuel =>
        have hf' : as.length < fuel := by simpa using hf
        cases ht : test (h.cells a).head with
        | false =>
          rw [left_neg xs hc ht]
          have h1' : Chain h result (ps ++ [a]) (ks ++ [(h.cells a).head]) (h.cells a).tail :=
            chain_append h1 (.pair nn us (.done _))
          obtain ⟨h', r, cs, e1, e2, e3, e4, e5, e6⟩ := ih h1' rest h0 hc hf'
          refine ⟨h', r, cs, ?_, by simpa using e2, by simpa using e3, e4, by simpa using e5, e6⟩
          rw [← e1]
          simp [removeBangLoop, pair_isPair nn, head, tail, bind, Except.bind, ht]
        | true =>
          rw [left_pos xs hc ht]
          rcases List.eq_nil_or_concat ps with rfl | ⟨ps, p, rfl⟩
          · obtain ⟨rfl, rfl⟩ := chain_nil h1
            by_cases h1 : count - 1 = 0
            · obtain ⟨fuel, rfl⟩ : ∃ f, fuel = f + 1 := ⟨fuel - 1, by omega⟩
              refine ⟨h, (h.cells a).tail, as, ?_, by rw [h1, left_zero]; simpa using rest, by simp,
                rfl, fun _ _ => rfl, fun _ => rfl⟩
              have h0' : (h.cells 0).tail = .ref 0 := h0
              simp [removeBangLoop, pair_isPair nn, head, tail, bind, Except.bind, ht, h1,
                pure, Except.pure, nil, h0', isPair]
              exact fun hh => absurd hh nn
            · obtain ⟨h', r, cs, e1, e2, e3, e4, e5, e6⟩ := ih (ps := []) (.done _) rest h0 h1 hf'
              refine ⟨h', r, cs, ?_, by simpa using e2, ?_, e4, ?_, e6⟩
              · rw [← e1]
                simp [removeBangLoop, pair_isPair nn, head, tail, bind, Except.bind, ht, h1,
                  pure, Except.pure]
              · exact e3.trans (by simp)
              · intro b hb
                exact e5 b (by simp at hb ⊢; exact hb.2)
          · rw [List.concat_eq_append] at h1 hnd ⊢
            have hp : p ∉ ps ∧ p ∉ as ∧ p ≠ a := by
              rw [List.append_assoc] at hnd
              have hnd := List.nodup_append.1 hnd
              refine ⟨fun hm => hnd.2.2 p hm p (by simp) rfl, ?_, ?_⟩
              · intro hm
                have := (List.nodup_cons.1 hnd.2.1).1
                exact this (by simp [hm])
              · rintro rfl
                have := (List.nodup_cons.1 hnd.2.1).1
                exact this (by simp)
            have hp0 : p ≠ 0 := (chain_used h1 p (by simp)).1
            have c1 := chain_relink (t := (h.cells a).tail) h1 hp.1
            have c2 := chain_set (c := ⟨(h.cells p).head, (h.cells a).tail⟩) rest hp.2.1
            have ca : (h.set p ⟨(h.cells p).head, (h.cells a).tail⟩).cells a = h.cells a :=
              set_other h _ (Ne.symm hp.2.2)
            have c0 : ((h.set p ⟨(h.cells p).head, (h.cells a).tail⟩).cells 0).tail = nil := by
              rw [set_other h _ (Ne.symm hp0)]; exact h0
            have ch : ∀ b, ((h.set p ⟨(h.cells p).head, (h.cells a).tail⟩).cells b).head =
                (h.cells b).head := by
              intro b
              by_cases hb : b = p
              · subst hb; rw [set_same]
              · rw [set_other h _ hb]
            by_cases h1 : count - 1 = 0
            · obtain ⟨fuel, rfl⟩ : ∃ f, fuel = f + 1 := ⟨fuel - 1, by omega⟩
              refine ⟨_, result, (ps ++ [p]) ++ as, ?_, by
                rw [h1, left_zero]; exact chain_append c1 c2, by simp, set_next _ _ _,
                fun b hb => set_other h _ (by rintro rfl; simp at hb), ch⟩
              have c0' : ((h.set p ⟨(h.cells p).head, (h.cells a).tail⟩).cells 0).tail = .ref 0 := c0
              simp [removeBangLoop, pair_isPair nn, head, tail, setTail, bind, Except.bind, ht, h1,
                pure, Except.pure, nil, isPair, c0']
              exact fun hh => absurd hh nn
            · obtain ⟨h', r, cs, e1, e2, e3, e4, e5, e6⟩ := ih c1 c2 c0 h1 hf'
              refine ⟨h', r, cs, ?_, e2, e3.trans (by simp), e4, fun b hb => ?_,
                fun b => by rw [e6, ch]⟩
              · rw [← e1]
                simp [removeBangLoop, pair_isPair nn, head, tail, setTail, bind, Except.bind, ht,
                  h1, pure, Except.pure, ca]
              · rw [e5 b (by simp at hb ⊢; tauto), set_other h _ (by rintro rfl; simp at hb)]

/-! ## Duplicates -/

theorem removeDuplicates_spec (test : Val → Val → Bool) {h : Heap} {result rem : Val}
    {ps as : List Nat} {ks xs : List Val} {fuel : Nat} (h1 : Chain h result ps ks nil)
    (h2 : Chain h rem as xs nil) (hd : ∀ p ∈ ps, p ∉ as) (pos : 0 < h.next)
    (hf : as.length < fuel) :
    ∃ h' r cs, removeDuplicatesLoop test fuel h (ps.getLast?.map Val.ref) rem result =
        .ok (h', r, nil) ∧ Chain h' r cs (ks ++ lastOnes test xs) nil ∧
      h.next ≤ h'.next ∧ (∀ a < h.next, a ∉ ps → h'.cells a = h.cells a) ∧
      ∀ c ∈ cs, c ∈ ps ∨ h.next ≤ c := by
  induction as generalizing h result rem ps ks xs fuel with
  | nil =>
    obtain ⟨rfl, rfl⟩ := chain_nil h2
    cases fuel with
    | zero => simp at hf
    | succ fuel =>
      exact ⟨h, result, ps, by simp [removeDuplicatesLoop, isPair_nil],
        by simpa [lastOnes] using h1, Nat.le_refl _, fun _ _ _ => rfl, fun c hc => .inl hc⟩
  | cons a as ih =>
    cases h2 with
    | @pair _ _ xs _ nn us rest =>
      cases fuel with
      | zero => simp at hf
      | succ fuel =>
        have hf' : as.length < fuel := by simpa using hf
        have hm := member_spec rest (Nat.le_of_lt hf') (test (h.cells a).head)
        have hd' : ∀ p ∈ ps, p ∉ as := fun p hp hm => hd p hp (by simp [hm])
        cases ht : xs.any (test (h.cells a).head) with
        | true =>
          obtain ⟨h', r, cs, e1, e2, e3, e4, e5⟩ := ih h1 rest hd' pos hf'
          refine ⟨h', r, cs, ?_, by simpa [lastOnes, ht] using e2, e3, e4, e5⟩
          rw [← e1]
          rw [ht] at hm
          simp [removeDuplicatesLoop, pair_isPair nn, head, tail, bind, Except.bind, hm]
        | false =>
          rw [ht] at hm
          have hx := pair_extends h (h.cells a).head nil
          have hn := pair_chain (x := (h.cells a).head) pos (Chain.done (h := h) nil)
          rcases List.eq_nil_or_concat ps with rfl | ⟨ps, p, rfl⟩
          · obtain ⟨rfl, rfl⟩ := chain_nil h1
            obtain ⟨h', r, cs, e1, e2, e3, e4, e5⟩ := ih (ps := [h.next]) hn (chain_ext rest hx)
              (by
                intro p hp hm
                simp at hp
                have := (chain_used rest p hm).2
                omega) (by simp [pair]) hf'
            refine ⟨h', r, cs, ?_, by simpa [lastOnes, ht] using e2, Nat.le_trans hx.1 e3,
              fun b hb _ => ?_, fun c hc => .inr ?_⟩
            · rw [← e1]
              simp [removeDuplicatesLoop, pair_isPair nn, head, tail, bind, Except.bind, hm, pair]
            · rw [e4 b (Nat.lt_of_lt_of_le hb hx.1) (by simp; omega), hx.2 b hb]
            · rcases e5 c hc with hh | hh
              · simp at hh; omega
              · exact Nat.le_trans hx.1 hh
          · rw [List.concat_eq_append] at h1 hd hd' ⊢
            have hnd := chain_nodup h1 isPair_nil
            have hp : p ∉ ps := fun hm => (List.nodup_append.1 hnd).2.2 p hm p (by simp) rfl
            have hpu := (chain_used h1 p (by simp)).2
            have hcp : (pair h (h.cells a).head nil).1.cells p = h.cells p := hx.2 p hpu
            have c1 := chain_relink (t := .ref h.next) (chain_ext h1 hx) hp
            rw [hcp] at c1
            have c2 := chain_set (a := p) (c := ⟨(h.cells p).head, .ref h.next⟩) hn
              (by simp; omega)
            have c3 := chain_set (a := p) (c := ⟨(h.cells p).head, .ref h.next⟩)
              (chain_ext rest hx) (hd' p (by simp))
            have c4 := chain_append c1 c2
            obtain ⟨h', r, cs, e1, e2, e3, e4, e5⟩ := ih c4 c3 (by
                intro q hq hm
                rcases List.mem_append.1 hq with hq | hq
                · exact hd' q hq hm
                · simp at hq
                  have := (chain_used rest q hm).2
                  omega) (by simp [pair, Heap.set]) hf'
            have hnx : ((pair h (h.cells a).head nil).1.set p
              ⟨(h.cells p).head, .ref h.next⟩).next = h.next + 1 := rfl
            rw [hnx] at e3 e4 e5
            refine ⟨h', r, cs, ?_, by simpa [lastOnes, ht] using e2, by omega,
              fun b hb hbn => ?_, fun c hc => ?_⟩
            · rw [← e1]
              have hpp : (pair h (h.cells a).head nil).2 = .ref h.next := rfl
              simp [removeDuplicatesLoop, pair_isPair nn, head, tail, setTail, bind, Except.bind, hm,
                hcp, hpp]
            · rw [e4 b (by omega) (by
                  intro hm
                  rcases List.mem_append.1 hm with hm | hm
                  · exact hbn hm
                  · simp at hm; omega), set_other _ _ (by rintro rfl; simp at hbn),
                hx.2 b hb]
            · rcases e5 c hc with hh | hh
              · rcases List.mem_append.1 hh with hh | hh
                · exact .inl hh
                · simp at hh; exact .inr (by omega)
              · exact .inr (by omega)

theorem removeDuplicatesBang_spec (test : Val → Val → Bool) {h : Heap} {result rem : Val}
    {ps as : List Nat} {ks xs : List Val} {fuel : Nat} (h1 : Chain h result ps ks rem)
    (h2 : Chain h rem as xs nil) (hf : as.length < fuel) :
    ∃ h' r cs, removeDuplicatesBangLoop test fuel h (ps.getLast?.map Val.ref) rem result =
        .ok (h', r, nil) ∧ Chain h' r cs (ks ++ lastOnes test xs) nil ∧
      List.Sublist cs (ps ++ as) ∧ h'.next = h.next ∧
      (∀ a, a ∉ ps ++ as → h'.cells a = h.cells a) ∧
      ∀ a, (h'.cells a).head = (h.cells a).head := by
  induction as generalizing h result rem ps ks xs fuel with
  | nil =>
    obtain ⟨rfl, rfl⟩ := chain_nil h2
    cases fuel with
    | zero => simp at hf
    | succ fuel =>
      exact ⟨h, result, ps, by simp [removeDuplicatesBangLoop, isPair_nil],
        by simpa [lastOnes] using h1, by simp, rfl, fun _ _ => rfl, fun _ => rfl⟩
  | cons a as ih =>
    have hnd := chain_nodup (chain_append h1 h2) isPair_nil
    cases h2 with
    | @pair _ _ xs _ nn us rest =>
      cases fuel with
      | zero => simp at hf
      | succ fuel =>
        have hf' : as.length < fuel := by simpa using hf
        have hm := member_spec rest (Nat.le_of_lt hf') (test (h.cells a).head)
        cases ht : xs.any (test (h.cells a).head) with
        | false =>
          rw [ht] at hm
          have h1' : Chain h result (ps ++ [a]) (ks ++ [(h.cells a).head]) (h.cells a).tail :=
            chain_append h1 (.pair nn us (.done _))
          obtain ⟨h', r, cs, e1, e2, e3, e4, e5, e6⟩ := ih h1' rest hf'
          refine ⟨h', r, cs, ?_, by simpa [lastOnes, ht] using e2, by simpa using e3, e4,
            by simpa using e5, e6⟩
          rw [← e1]
          simp [removeDuplicatesBangLoop, pair_isPair nn, head, tail, bind, Except.bind, hm]
        | true =>
          rw [ht] at hm
          rcases List.eq_nil_or_concat ps with rfl | ⟨ps, p, rfl⟩
          · obtain ⟨rfl, rfl⟩ := chain_nil h1
            obtain ⟨h', r, cs, e1, e2, e3, e4, e5, e6⟩ := ih (ps := []) (.done _) rest hf'
            refine ⟨h', r, cs, ?_, by simpa [lastOnes, ht] using e2, ?_, e4, ?_, e6⟩
            · rw [← e1]
              simp [removeDuplicatesBangLoop, pair_isPair nn, head, tail, bind, Except.bind, hm]
            · exact e3.trans (by simp)
            · intro b hb
              exact e5 b (by simp at hb ⊢; exact hb.2)
          · rw [List.concat_eq_append] at h1 hnd ⊢
            have hp : p ∉ ps ∧ p ∉ as := by
              rw [List.append_assoc] at hnd
              have hnd := List.nodup_append.1 hnd
              refine ⟨fun hm => hnd.2.2 p hm p (by simp) rfl, ?_⟩
              intro hm
              have := (List.nodup_cons.1 hnd.2.1).1
              exact this (by simp [hm])
            have c1 := chain_relink (t := (h.cells a).tail) h1 hp.1
            have c2 := chain_set (c := ⟨(h.cells p).head, (h.cells a).tail⟩) rest hp.2
            have ch : ∀ b, ((h.set p ⟨(h.cells p).head, (h.cells a).tail⟩).cells b).head =
                (h.cells b).head := by
              intro b
              by_cases hb : b = p
              · subst hb; rw [set_same]
              · rw [set_other h _ hb]
            obtain ⟨h', r, cs, e1, e2, e3, e4, e5, e6⟩ := ih c1 c2 hf'
            refine ⟨h', r, cs, ?_, by simpa [lastOnes, ht] using e2, e3.trans (by simp), e4,
              fun b hb => ?_, fun b => by rw [e6, ch]⟩
            · rw [← e1]
              simp [removeDuplicatesBangLoop, pair_isPair nn, head, tail, setTail, bind, Except.bind,
                hm]
            · rw [e5 b (by simp at hb ⊢; tauto), set_other h _ (by rintro rfl; simp at hb)]

/-! ## The last pair -/

theorem lastLoop_spec {h : Heap} {v : Val} {as : List Nat} {a : Nat} {xs : List Val} {fuel : Nat}
    (hc : Chain h v (as ++ [a]) xs nil) (hf : as.length < fuel) :
    lastLoop h fuel v = .ok (.ref a) ∧ lastSetterLoop h fuel v = .ok (.ref a) ∧
      xs.getLast? = some (h.cells a).head := by
  induction as generalizing v xs fuel with
  | nil =>
    cases fuel with
    | zero => simp at hf
    | succ fuel =>
      cases hc with
      | pair nn us rest =>
        obtain ⟨h1, rfl⟩ := chain_nil rest
        simp [lastLoop, lastSetterLoop, tail, bind, Except.bind, h1, isPair_nil]
  | cons b as ih =>
    cases fuel with
    | zero => simp at hf
    | succ fuel =>
      cases hc with
      | @pair _ _ xs _ nn us rest =>
        obtain ⟨e1, e2, e3⟩ := ih rest (fuel := fuel) (by simpa using hf)
        obtain ⟨c, cs, hcs⟩ : ∃ c cs, as ++ [a] = c :: cs := by cases as <;> simp
        have rest' : Chain h (h.cells b).tail (as ++ [a]) xs nil := rest
        rw [hcs] at rest'
        have hs := chain_start rest'
        have hb := (chain_used rest' c (by simp)).1
        rw [hs] at e1 e2
        refine ⟨?_, ?_, ?_⟩
        · simp [lastLoop, tail, bind, Except.bind, hs, pair_isPair hb, e1]
        · simp [lastSetterLoop, tail, bind, Except.bind, hs, pair_isPair hb, e2, ref_ne_nil hb]
        · cases xs with
          | nil => simp at e3
          | cons x xs => rw [List.getLast?_cons_cons]; exact e3

/-! ## Walking -/

theorem walk_spec {h : Heap} {v m : Val} {as : List Nat} {xs : List Val} (hc : Chain h v as xs m) :
    walk h as.length v = .ok m := by
  induction hc with
  | done v => rfl
  | pair nn us rest ih => simp [walk, tail, bind, Except.bind, ih]

theorem holeLoop_spec {h : Heap} {v m : Val} {as : List Nat} {xs : List Val} {fuel : Nat}
    {last index : Int} (hc : Chain h v as xs m) (hi : index + as.length = last)
    (hf : as.length < fuel) : holeLoop h last fuel v index = .ok m := by
  induction hc generalizing fuel index with
  | done v =>
    cases fuel with
    | zero => simp at hf
    | succ fuel => simp at hi; simp [holeLoop, hi]
  | @pair a as xs e nn us rest ih =>
    cases fuel with
    | zero => simp at hf
    | succ fuel =>
      have hne : index ≠ last := by simp at hi; omega
      have := ih (fuel := fuel) (index := index + 1) (by simp at hi; omega) (by simpa using hf)
      simp [holeLoop, hne, tail, bind, Except.bind, this]

theorem skipLoop_spec {h : Heap} {v : Val} {as : List Nat} {xs : List Val} {fuel : Nat}
    {first i : Int} (hc : Chain h v as xs nil) (hi : i ≤ first) (hf : as.length < fuel) :
    ∃ w bs, skipLoop h first fuel v i = .ok (w, min first (i + as.length)) ∧
      Chain h w bs (xs.drop (first - i).toNat) nil ∧ bs.length ≤ as.length := by
  induction as generalizing v xs fuel i with
  | nil =>
    obtain ⟨rfl, rfl⟩ := chain_nil hc
    cases fuel with
    | zero => simp at hf
    | succ fuel =>
      refine ⟨nil, [], ?_, by simpa using Chain.done nil, by simp⟩
      simp only [skipLoop, ne_eq, not_true_eq_false, and_false, if_false]
      simp; omega
  | cons a as ih =>
    cases hc with
    | @pair _ _ xs _ nn us rest =>
      cases fuel with
      | zero => simp at hf
      | succ fuel =>
        by_cases hk : i < first
        · obtain ⟨w, bs, e1, e2, e3⟩ := ih rest (fuel := fuel) (i := i + 1) (by omega)
            (by simpa using hf)
          have : (first - i).toNat = (first - (i + 1)).toNat + 1 := by omega
          refine ⟨w, bs, ?_, by rw [this]; simpa using e2, by simp; omega⟩
          simp only [skipLoop, hk, ne_eq, ref_ne_nil nn, not_false_eq_true, and_self, if_true, tail,
            bind, Except.bind, e1]
          congr 2
          simp; omega
        · have hh : i = first := by omega
          subst hh
          refine ⟨.ref a, a :: as, ?_, by simpa using Chain.pair nn us rest, by simp⟩
          simp only [skipLoop, Int.lt_irrefl, false_and, if_false]
          congr 2
          simp; omega

theorem takeLoop_spec {h : Heap} {v r e : Val} {as cs : List Nat} {xs zs : List Val} {fuel : Nat}
    {last i : Int} (hc : Chain h v as xs nil) (h2 : Chain h r cs zs e) (pos : 0 < h.next)
    (hi : i ≤ last) (hf : as.length < fuel) :
    ∃ h' w ds, takeLoop last fuel h v i r = .ok (h', w, min last (i + as.length)) ∧ Extends h h' ∧
      Chain h' w (ds ++ cs) ((xs.take (last - i).toNat).reverse ++ zs) e ∧
      ds.length ≤ as.length ∧ ∀ d ∈ ds, h.next ≤ d := by
  induction as generalizing h v r cs xs zs fuel i with
  | nil =>
    obtain ⟨rfl, rfl⟩ := chain_nil hc
    cases fuel with
    | zero => simp at hf
    | succ fuel =>
      refine ⟨h, r, [], ?_, extends_refl h, by simpa using h2, by simp, by simp⟩
      simp only [takeLoop, ne_eq, not_true_eq_false, and_false, if_false]
      simp; omega
  | cons a as ih =>
    cases hc with
    | @pair _ _ xs _ nn us rest =>
      cases fuel with
      | zero => simp at hf
      | succ fuel =>
        by_cases hk : i < last
        · have hx := pair_extends h (h.cells a).head r
          obtain ⟨h', w, ds, e1, e2, e3, e4, e5⟩ := ih (chain_ext rest hx)
            (pair_chain (x := (h.cells a).head) pos h2) (by simp [pair]) (fuel := fuel) (i := i + 1)
            (by omega) (by simpa using hf)
          have : (last - i).toNat = (last - (i + 1)).toNat + 1 := by omega
          refine ⟨h', w, ds ++ [h.next], ?_, hx.trans e2, by rw [this]; simpa using e3,
            by simp; omega, ?_⟩
          · have hca : (pair h (h.cells a).head r).1.cells a = h.cells a := hx.2 a us
            simp only [takeLoop, hk, ne_eq, ref_ne_nil nn, not_false_eq_true, and_self, if_true, tail,
              head, bind, Except.bind, hca, e1]
            congr 3
            simp; omega
          · intro d hd
            rcases List.mem_append.1 hd with hd | hd
            · exact Nat.le_trans hx.1 (e5 d hd)
            · simp at hd; omega
        · have hh : i = last := by omega
          subst hh
          refine ⟨h, r, [], ?_, extends_refl h, by simpa using h2, by simp, by simp⟩
          simp only [takeLoop, Int.lt_irrefl, false_and, if_false]
          congr 3
          simp; omega

theorem currentKey_spec {h : Heap} {v m : Val} {as bs : List Nat} {xs ys : List Val} {fuel : Nat}
    {k : Int} (hc : Chain h v as xs m) (h2 : Chain h m bs ys nil) (hf : as.length < fuel) :
    currentKey h m fuel v k = .ok (k + as.length) := by
  induction hc generalizing fuel k with
  | done v =>
    cases fuel with
    | zero => simp at hf
    | succ fuel => simp [currentKey]
  | @pair a as xs e nn us rest ih =>
    cases fuel with
    | zero => simp at hf
    | succ fuel =>
      have hne : (Val.ref a) ≠ e := by
        rintro rfl
        have h1 := chain_append (Chain.pair nn us rest) h2
        have := (chain_functional h1 h2 isPair_nil isPair_nil).1
        have := congrArg List.length this
        simp at this
        omega
      have := ih h2 (fuel := fuel) (k := k + 1) (by simpa using hf)
      simp [currentKey, hne, tail, bind, Except.bind, this]; omega

theorem reduce_spec {β : Type} (fn : β → Val → β) {h : Heap} {v : Val} {as : List Nat}
    {xs : List Val} {fuel : Nat} (init : β) (hc : Chain h v as xs nil) (hf : as.length < fuel) :
    reduce h fn fuel init v = .ok (xs.foldl fn init) := by
  induction as generalizing v xs fuel init with
  | nil =>
    obtain ⟨rfl, rfl⟩ := chain_nil hc
    cases fuel with
    | zero => simp at hf
    | succ fuel => simp [reduce]
  | cons a as ih =>
    cases hc with
    | pair nn us rest =>
      cases fuel with
      | zero => simp at hf
      | succ fuel =>
        have := ih (fn init (h.cells a).head) rest (fuel := fuel) (by simpa using hf)
        simp [reduce, ref_ne_nil nn, head, tail, bind, Except.bind, this]

/-! ## Inserting -/

theorem insertOther_spec (xs : List Val) {h : Heap} {p : Nat} (hp : p < h.next) :
    ∃ h' q ds, insertOther xs h (.ref p) = .ok (h', .ref q) ∧ h.next ≤ h'.next ∧
      (∀ a < h.next, a ≠ p → h'.cells a = h.cells a) ∧ (h'.cells p).head = (h.cells p).head ∧
      (∀ d ∈ ds, h.next ≤ d) ∧ (q = p ∨ q ∈ ds) ∧ q < h'.next ∧
      ∀ t, Chain (h'.set q ⟨(h'.cells q).head, t⟩)
        ((h'.set q ⟨(h'.cells q).head, t⟩).cells p).tail ds xs t := by
  induction xs generalizing h p with
  | nil =>
    refine ⟨h, p, [], rfl, Nat.le_refl _, fun _ _ _ => rfl, rfl, by simp, .inl rfl, hp, fun t => ?_⟩
    rw [set_same]; exact .done t
  | cons x xs ih =>
    have hx := pair_extends h x (.obj 0)
    let h2 := (pair h x (.obj 0)).1.set p ⟨((pair h x (.obj 0)).1.cells p).head, .ref h.next⟩
    have hn : h2.next = h.next + 1 := rfl
    have hcn : h2.cells h.next = ⟨x, .obj 0⟩ := by
      show ((pair h x (.obj 0)).1.set p _).cells h.next = _
      rw [set_other _ _ (by omega)]; simp [pair]
    have hcp : h2.cells p = ⟨(h.cells p).head, .ref h.next⟩ := by
      show ((pair h x (.obj 0)).1.set p _).cells p = _
      rw [set_same, hx.2 p hp]
    have hco : ∀ a < h.next, a ≠ p → h2.cells a = h.cells a := by
      intro a ha hap
      show ((pair h x (.obj 0)).1.set p _).cells a = _
      rw [set_other _ _ hap, hx.2 a ha]
    obtain ⟨h', q, ds, e1, e2, e3, e4, e5, e6, e7, e8⟩ := ih (h := h2) (p := h.next) (by omega)
    rw [hn] at e2 e3 e5
    have hqp : p ≠ q := by
      rcases e6 with rfl | e6
      · omega
      · have := e5 q e6; omega
    have hpp : h'.cells p = ⟨(h.cells p).head, .ref h.next⟩ := by
      rw [e3 p (by omega) (by omega), hcp]
    refine ⟨h', q, h.next :: ds, ?_, by omega, fun a ha hap => ?_, by rw [hpp], ?_, .inr ?_, e7,
      fun t => ?_⟩
    · rw [← e1]; rfl
    · rw [e3 a (by omega) (by omega), hco a ha hap]
    · intro d hd
      rcases List.mem_cons.1 hd with rfl | hd
      · exact Nat.le_refl _
      · have := e5 d hd; omega
    · rcases e6 with rfl | e6
      · simp
      · simp [e6]
    · have := e8 t
      rw [set_other _ _ hqp, hpp]
      have hh : ((h'.set q ⟨(h'.cells q).head, t⟩).cells h.next).head = x := by
        by_cases hq : h.next = q
        · rw [← hq, set_same, e4, hcn]
        · rw [set_other _ _ hq, e4, hcn]
      have := Chain.pair (a := h.next) (by omega)
        (show h.next < (h'.set q ⟨(h'.cells q).head, t⟩).next by rw [set_next]; omega) this
      rwa [hh] at this

theorem insertList_eq {h : Heap} {v : Val} {cs : List Nat} {xs : List Val} {p fuel : Nat}
    (hc : Chain h v cs xs nil) (hp : p ∉ cs) (hf : cs.length < fuel) :
    insertList fuel h v (.ref p) = insertOther xs h (.ref p) := by
  induction cs generalizing h v xs p fuel with
  | nil =>
    obtain ⟨rfl, rfl⟩ := chain_nil hc
    cases fuel with
    | zero => simp at hf
    | succ fuel => simp [insertList, insertOther]
  | cons c cs ih =>
    cases hc with
    | pair nn us rest =>
      cases fuel with
      | zero => simp at hf
      | succ fuel =>
        have hx := pair_extends h (h.cells c).head (.obj 0)
        have hpc : p ∉ cs ∧ p ≠ c := by
          simp at hp; exact ⟨hp.2, hp.1⟩
        have c1 := chain_set (a := p)
          (c := ⟨((pair h (h.cells c).head (.obj 0)).1.cells p).head, .ref h.next⟩)
          (chain_ext rest hx) hpc.1
        have := ih (fuel := fuel) (p := h.next) c1 (fun hm => by
          have := (chain_used rest _ hm).2; omega) (by simpa using hf)
        have ht : (((pair h (h.cells c).head (.obj 0)).1.set p
          ⟨((pair h (h.cells c).head (.obj 0)).1.cells p).head, .ref h.next⟩).cells c).tail =
            (h.cells c).tail := by
          rw [set_other _ _ (Ne.symm hpc.2), hx.2 c us]
        have hp2 : (pair h (h.cells c).head (.obj 0)).2 = .ref h.next := rfl
        simp only [insertList, insertOther, ref_ne_nil nn, if_false, head, tail, setTail, bind,
          Except.bind, ht, hp2]
        exact this

end Verif.Lists
