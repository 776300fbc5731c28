import Mathlib.Data.List.Basic
import Mathlib.Data.List.Nodup
import Mathlib.Data.Finset.Card
import Verif.Lists.Spec
/-!
# Lemmas on lists in memory
-/
namespace Verif.Lists

theorem pair_isPair {a : Nat} (h : a ≠ 0) : isPair (.ref a) = true := by simp [isPair, h]

theorem isPair_nil : isPair nil = false := by simp [isPair, nil]

theorem ref_ne_nil {a : Nat} (h : a ≠ 0) : (Val.ref a) ≠ nil := by
  intro hh; injection hh with hh; exact h hh

theorem chain_frame {h h' : Heap} {v e : Val} {as : List Nat} {xs : List Val}
    (hc : Chain h v as xs e) (hf : ∀ a ∈ as, a < h'.next ∧ h'.cells a = h.cells a) :
    Chain h' v as xs e := by
  induction hc with
  | done v => exact .done v
  | @pair a as xs e nn us _ ih =>
    obtain ⟨h1, h2⟩ := hf a (by simp)
    have := ih (fun b hb => hf b (by simp [hb]))
    rw [← h2] at this ⊢
    exact .pair nn h1 this

theorem chain_used {h : Heap} {v e : Val} {as : List Nat} {xs : List Val} (hc : Chain h v as xs e) :
    ∀ a ∈ as, a ≠ 0 ∧ a < h.next := by
  induction hc with
  | done v => simp
  | @pair a as xs e nn us _ ih =>
    intro b hb
    rcases List.mem_cons.1 hb with rfl | hb
    · exact ⟨nn, us⟩
    · exact ih b hb

theorem chain_length {h : Heap} {v e : Val} {as : List Nat} {xs : List Val}
    (hc : Chain h v as xs e) : as.length = xs.length := by
  induction hc with
  | done v => rfl
  | pair _ _ _ ih => simp [ih]

theorem chain_append {h : Heap} {v m e : Val} {as bs : List Nat} {xs ys : List Val}
    (h1 : Chain h v as xs m) (h2 : Chain h m bs ys e) : Chain h v (as ++ bs) (xs ++ ys) e := by
  induction h1 with
  | done v => exact h2
  | pair nn us _ ih => exact .pair nn us (ih h2)

theorem chain_split {h : Heap} {v e : Val} {as bs : List Nat} {xs : List Val}
    (hc : Chain h v (as ++ bs) xs e) :
    ∃ m, Chain h v as (xs.take as.length) m ∧ Chain h m bs (xs.drop as.length) e := by
  induction as generalizing v xs with
  | nil => exact ⟨v, by simpa using Chain.done v, by simpa using hc⟩
  | cons a as ih =>
    cases hc with
    | pair nn us rest =>
      obtain ⟨m, h1, h2⟩ := ih rest
      exact ⟨m, by simpa using Chain.pair nn us h1, by simpa using h2⟩

theorem chain_ext {h h' : Heap} {v e : Val} {as : List Nat} {xs : List Val}
    (hc : Chain h v as xs e) (hx : Extends h h') : Chain h' v as xs e :=
  chain_frame hc (fun a ha => by
    obtain ⟨_, h2⟩ := chain_used hc a ha
    exact ⟨Nat.lt_of_lt_of_le h2 hx.1, hx.2 a h2⟩)

theorem chain_functional {h : Heap} {v e e' : Val} {as bs : List Nat} {xs ys : List Val}
    (h1 : Chain h v as xs e) (h2 : Chain h v bs ys e') (p1 : isPair e = false)
    (p2 : isPair e' = false) : as = bs ∧ xs = ys ∧ e = e' := by
  induction h1 generalizing bs ys with
  | done v =>
    cases h2 with
    | done => exact ⟨rfl, rfl, rfl⟩
    | pair nn us _ => rw [pair_isPair nn] at p1; exact absurd p1 (by decide)
  | pair nn us rest ih =>
    cases h2 with
    | done => rw [pair_isPair nn] at p2; exact absurd p2 (by decide)
    | pair nn' us' rest' =>
      obtain ⟨h1, h2, h3⟩ := ih rest' p1
      subst h1 h2 h3
      exact ⟨rfl, rfl, rfl⟩

theorem chain_start {h : Heap} {v e : Val} {a : Nat} {as : List Nat} {xs : List Val}
    (hc : Chain h v (a :: as) xs e) : v = .ref a := by cases hc; rfl

theorem chain_nodup {h : Heap} {v e : Val} {as : List Nat} {xs : List Val}
    (hc : Chain h v as xs e) (p : isPair e = false) : as.Nodup := by
  induction hc with
  | done v => exact List.nodup_nil
  | @pair a as xs e nn us rest ih =>
    refine List.nodup_cons.2 ⟨fun hm => ?_, ih p⟩
    obtain ⟨s, t, rfl⟩ := List.append_of_mem hm
    obtain ⟨m, _, h2⟩ := chain_split rest
    have hm' := chain_start h2
    subst hm'
    have := (chain_functional (Chain.pair nn us rest) h2 p p).1
    have := congrArg List.length this
    simp at this
    omega

/-- No list passes its own first pair again. -/
theorem chain_nil {h : Heap} {v : Val} {xs : List Val} {e : Val} (hc : Chain h v [] xs e) :
    v = e ∧ xs = [] := by cases hc; exact ⟨rfl, rfl⟩

theorem chain_of_nil {h : Heap} {as : List Nat} {xs : List Val} {e : Val} (hc : Chain h nil as xs e) :
    as = [] ∧ xs = [] ∧ e = nil := by
  generalize hv : nil = v at hc
  cases hc with
  | done => exact ⟨rfl, rfl, rfl⟩
  | pair nn us rest => exact absurd hv.symm (ref_ne_nil nn)

theorem extends_refl (h : Heap) : Extends h h := ⟨Nat.le_refl _, fun _ _ => rfl⟩

theorem Extends.trans {h h' h'' : Heap} (h1 : Extends h h') (h2 : Extends h' h'') : Extends h h'' :=
  ⟨Nat.le_trans h1.1 h2.1, fun a ha => by
    rw [h2.2 a (Nat.lt_of_lt_of_le ha h1.1), h1.2 a ha]⟩

theorem pair_extends (h : Heap) (x y : Val) : Extends h (pair h x y).1 :=
  ⟨by simp [pair], fun a ha => by simp [pair, Nat.ne_of_lt ha]⟩

theorem pair_chain {h : Heap} {x y e : Val} {as : List Nat} {xs : List Val} (pos : 0 < h.next)
    (hc : Chain h y as xs e) :
    Chain (pair h x y).1 (pair h x y).2 (h.next :: as) (x :: xs) e := by
  have h1 := chain_ext hc (pair_extends h x y)
  have : ((pair h x y).1.cells h.next) = ⟨x, y⟩ := by simp [pair]
  have h2 : Chain (pair h x y).1 ((pair h x y).1.cells h.next).tail as xs e := by rw [this]; exact h1
  have h3 := Chain.pair (a := h.next) (by omega) (by simp [pair]) h2
  rw [this] at h3
  exact h3

theorem set_same (h : Heap) (a : Nat) (c : Cell) : (h.set a c).cells a = c := by simp [Heap.set]

theorem set_other (h : Heap) {a b : Nat} (c : Cell) (n : b ≠ a) :
    (h.set a c).cells b = h.cells b := by simp [Heap.set, n]

theorem set_next (h : Heap) (a : Nat) (c : Cell) : (h.set a c).next = h.next := rfl

theorem chain_set {h : Heap} {v e : Val} {as : List Nat} {xs : List Val} {a : Nat} {c : Cell}
    (hc : Chain h v as xs e) (n : a ∉ as) : Chain (h.set a c) v as xs e :=
  chain_frame hc (fun b hb => ⟨(chain_used hc b hb).2, set_other h c (fun he => n (he ▸ hb))⟩)

/-! ## Reversing in place -/

theorem unwind_chain {h : Heap} {acc r e : Val} {bs cs : List Nat} {ys zs : List Val} {fuel : Nat}
    (h1 : Chain h acc bs ys nil) (h2 : Chain h r cs zs e) (hd : ∀ b ∈ bs, b ∉ cs)
    (hf : bs.length < fuel) :
    ∃ h' v, unwind fuel h acc r = .ok (h', v) ∧
      Chain h' v (bs.reverse ++ cs) (ys.reverse ++ zs) e ∧ h'.next = h.next ∧
      ∀ a, a ∉ bs → h'.cells a = h.cells a := by
  induction bs generalizing h acc r cs ys zs fuel with
  | nil =>
    obtain ⟨rfl, rfl⟩ := chain_nil h1
    cases fuel with
    | zero => simp at hf
    | succ fuel => exact ⟨h, r, by simp [unwind], by simpa using h2, rfl, fun _ _ => rfl⟩
  | cons b bs ih =>
    have hnd := chain_nodup h1 isPair_nil
    rw [List.nodup_cons] at hnd
    cases h1 with
    | pair nn us rest =>
      cases fuel with
      | zero => simp at hf
      | succ fuel =>
        have hb := hd b (by simp)
        have c1 : Chain (h.set b ⟨(h.cells b).head, r⟩) (h.cells b).tail bs _ nil :=
          chain_set rest hnd.1
        have c2 : Chain (h.set b ⟨(h.cells b).head, r⟩) r cs zs e := chain_set h2 hb
        have c3 : Chain (h.set b ⟨(h.cells b).head, r⟩) (.ref b) (b :: cs)
            ((h.cells b).head :: zs) e := by
          have hs := set_same h b ⟨(h.cells b).head, r⟩
          have : Chain (h.set b ⟨(h.cells b).head, r⟩)
            ((h.set b ⟨(h.cells b).head, r⟩).cells b).tail cs zs e := by rw [hs]; exact c2
          have := Chain.pair (a := b) nn (show b < (h.set b _).next from us) this
          rwa [hs] at this
        obtain ⟨h', v, e1, e2, e3, e4⟩ := ih (fuel := fuel) c1 c3 (by
          intro x hx hxc
          rcases List.mem_cons.1 hxc with rfl | hxc
          · exact hnd.1 hx
          · exact hd x (by simp [hx]) hxc) (by simpa using hf)
        refine ⟨h', v, ?_, by simpa using e2, by rw [e3]; rfl, fun a ha => ?_⟩
        · rw [← e1]
          simp [unwind, ref_ne_nil nn, tail, setTail, bind, Except.bind]
        · have ha := List.mem_cons.not.1 ha
          push Not at ha
          rw [e4 a ha.2, set_other h _ ha.1]

theorem reverseBang_chain {h : Heap} {acc r e : Val} {bs cs : List Nat} {ys zs : List Val}
    {fuel : Nat} (h1 : Chain h acc bs ys nil) (h2 : Chain h r cs zs e) (hd : ∀ b ∈ bs, b ∉ cs)
    (hf : bs.length < fuel) :
    ∃ h' v, reverseBang fuel h acc r = .ok (h', v) ∧
      Chain h' v (bs.reverse ++ cs) (ys.reverse ++ zs) e ∧ h'.next = h.next ∧
      ∀ a, a ∉ bs → h'.cells a = h.cells a := by
  obtain ⟨h', v, e1, e2⟩ := unwind_chain h1 h2 hd hf
  refine ⟨h', v, ?_, e2⟩
  rw [← e1]
  clear e1 e2 h'
  have key : ∀ (bs : List Nat) (h : Heap) (acc r : Val) (ys : List Val) (fuel : Nat),
      Chain h acc bs ys nil → bs.length < fuel → reverseBang fuel h acc r = unwind fuel h acc r := by
    intro bs
    induction bs with
    | nil =>
      intro h acc r ys fuel hc hf
      obtain ⟨rfl, rfl⟩ := chain_nil hc
      cases fuel with
      | zero => simp at hf
      | succ fuel => simp [reverseBang, unwind, isPair_nil]
    | cons b bs ih =>
      intro h acc r ys fuel hc hf
      have hnd := chain_nodup hc isPair_nil
      rw [List.nodup_cons] at hnd
      cases hc with
      | pair nn us rest =>
        cases fuel with
        | zero => simp at hf
        | succ fuel =>
          simp only [reverseBang, unwind, pair_isPair nn, ref_ne_nil nn, tail, setTail, bind,
            Except.bind, if_true, if_false]
          exact ih _ _ _ _ _ (chain_set rest hnd.1) (by simpa using hf)
  exact key bs h acc r ys fuel h1 hf

/-! ## Copying in reverse -/

theorem reverse_chain {h : Heap} {l r e e0 : Val} {as cs : List Nat} {xs zs : List Val} {fuel : Nat}
    (h1 : Chain h l as xs e0) (p : isPair e0 = false) (h2 : Chain h r cs zs e) (pos : 0 < h.next)
    (hf : as.length < fuel) :
    ∃ h' v ds, reverse fuel h l r = .ok (h', v) ∧ Extends h h' ∧
      Chain h' v (ds ++ cs) (xs.reverse ++ zs) e ∧ ds.length = as.length ∧ ∀ d ∈ ds, h.next ≤ d := by
  induction as generalizing h l r cs xs zs fuel with
  | nil =>
    obtain ⟨rfl, rfl⟩ := chain_nil h1
    cases fuel with
    | zero => simp at hf
    | succ fuel =>
      exact ⟨h, r, [], by simp [reverse, p], extends_refl h, by simpa using h2, rfl, by simp⟩
  | cons a as ih =>
    cases h1 with
    | pair nn us rest =>
      cases fuel with
      | zero => simp at hf
      | succ fuel =>
        have hx := pair_extends h (h.cells a).head r
        obtain ⟨h', v, ds, e1, e2, e3, e4, e5⟩ := ih (fuel := fuel) (chain_ext rest hx)
          (pair_chain (x := (h.cells a).head) pos h2) (by simp [pair]) (by simpa using hf)
        refine ⟨h', v, ds ++ [h.next], ?_, hx.trans e2, by simpa using e3, by simp [e4], ?_⟩
        · rw [← e1]
          simp [reverse, pair_isPair nn, head, tail, bind, Except.bind]
        · intro d hd
          rcases List.mem_append.1 hd with hd | hd
          · exact Nat.le_trans hx.1 (e5 d hd)
          · simp at hd; omega

theorem copyRev_chain {h : Heap} {l r e : Val} {as cs : List Nat} {xs zs : List Val} {fuel : Nat}
    (h1 : Chain h l as xs nil) (h2 : Chain h r cs zs e) (pos : 0 < h.next) (hf : as.length < fuel) :
    ∃ h' v ds, copyRev fuel h l r = .ok (h', v) ∧ Extends h h' ∧
      Chain h' v (ds ++ cs) (xs.reverse ++ zs) e ∧ ds.length = as.length ∧ ∀ d ∈ ds, h.next ≤ d := by
  induction as generalizing h l r cs xs zs fuel with
  | nil =>
    obtain ⟨rfl, rfl⟩ := chain_nil h1
    cases fuel with
    | zero => simp at hf
    | succ fuel =>
      exact ⟨h, r, [], by simp [copyRev], extends_refl h, by simpa using h2, rfl, by simp⟩
  | cons a as ih =>
    cases h1 with
    | pair nn us rest =>
      cases fuel with
      | zero => simp at hf
      | succ fuel =>
        have hx := pair_extends h (h.cells a).head r
        obtain ⟨h', v, ds, e1, e2, e3, e4, e5⟩ := ih (fuel := fuel) (chain_ext rest hx)
          (pair_chain (x := (h.cells a).head) pos h2) (by simp [pair]) (by simpa using hf)
        refine ⟨h', v, ds ++ [h.next], ?_, hx.trans e2, by simpa using e3, by simp [e4], ?_⟩
        · rw [← e1]
          have : (pair h (h.cells a).head r).1.cells a = h.cells a := hx.2 a us
          simp [copyRev, ref_ne_nil nn, head, tail, bind, Except.bind, this]
        · intro d hd
          rcases List.mem_append.1 hd with hd | hd
          · exact Nat.le_trans hx.1 (e5 d hd)
          · simp at hd; omega

theorem foldl_chain (xs : List Val) {h : Heap} {r e : Val} {cs : List Nat} {zs : List Val}
    (h2 : Chain h r cs zs e) (pos : 0 < h.next) :
    ∃ h' v ds, xs.foldl (fun p x => pair p.1 x p.2) (h, r) = (h', v) ∧ Extends h h' ∧
      Chain h' v (ds ++ cs) (xs.reverse ++ zs) e ∧ ds.length = xs.length ∧ ∀ d ∈ ds, h.next ≤ d := by
  induction xs generalizing h r cs zs with
  | nil => exact ⟨h, r, [], rfl, extends_refl h, by simpa using h2, rfl, by simp⟩
  | cons x xs ih =>
    have hx := pair_extends h x r
    obtain ⟨h', v, ds, e1, e2, e3, e4, e5⟩ := ih (pair_chain (x := x) pos h2) (by simp [pair])
    refine ⟨h', v, ds ++ [h.next], by rw [← e1]; rfl, hx.trans e2, by simpa using e3,
      by simp [e4], ?_⟩
    intro d hd
    rcases List.mem_append.1 hd with hd | hd
    · exact Nat.le_trans hx.1 (e5 d hd)
    · simp at hd; omega

theorem ext_of_same {h h' h'' : Heap} (hx : Extends h h') (hn : h''.next = h'.next) {bs : List Nat}
    (hb : ∀ b ∈ bs, h.next ≤ b) (hs : ∀ a, a ∉ bs → h''.cells a = h'.cells a) : Extends h h'' :=
  ⟨by rw [hn]; exact hx.1, fun a ha => by
    rw [hs a (fun hm => by have := hb a hm; omega), hx.2 a ha]⟩

end Verif.Lists
