/-
Lemmas on `split` and `join`.
-/
import Verif.Common.Spec
import Mathlib.Tactic.SplitIfs

namespace Verif.Common

variable {α : Type}

theorem seg_length (l : List α) {i j : Nat} (h : j ≤ l.length) : (seg l i j).length = j - i := by
  unfold seg; rw [List.length_drop, List.length_take]; omega

theorem seg_split (l : List α) {i j k : Nat} (h1 : i ≤ j) (h2 : j ≤ k) : seg l i k = seg l i j ++ seg l j k := by
  unfold seg
  have h := List.take_append_drop j (l.take k)
  rw [List.take_take, Nat.min_eq_left h2] at h
  conv => lhs; rw [← h]
  rw [List.drop_append]
  by_cases hj : j ≤ l.length
  · rw [show i - (l.take j).length = 0 by rw [List.length_take]; omega, List.drop_zero]
  · have : (l.take k).drop j = [] := List.drop_eq_nil_of_le (by rw [List.length_take]; omega)
    rw [this, List.drop_nil]

theorem seg_cons (l : List α) {i j : Nat} (h1 : i < j) (h2 : i < l.length) : seg l i j = l[i] :: seg l (i + 1) j := by
  unfold seg
  rw [List.drop_eq_getElem_cons (by rw [List.length_take]; omega), List.getElem_take]

theorem copySeq_seg (l : List α) {i j : Nat} (h1 : i ≤ j) (h2 : j ≤ l.length) : copySeq l i j = some (seg l i j) := by
  unfold copySeq seg
  rw [if_neg (by omega)]
  simp

/-- What a function that finds separators has to do: from `b` on it finds the first one before `e`. -/
structure Finds (seq : List α) (find : Int → Int → Option (Int × Int)) (e : Nat) (Cut : List α → List α → List α → Prop) : Prop where
  some_ok : ∀ {b : Nat} {i j : Int}, b ≤ e → find b e = some (i, j) → ∃ s t : Nat, i = s ∧ j = t ∧ b ≤ s ∧ s < t ∧ t ≤ e ∧
    Cut (seg seq b e) (seg seq b s) (seg seq t e)
  none_ok : ∀ {b : Nat}, b ≤ e → find b e = none → ∀ x y, ¬ Cut (seg seq b e) x y

theorem splitLoop_parts {seq : List α} {find : Int → Int → Option (Int × Int)} {e : Nat} {Cut : List α → List α → List α → Prop}
    (hf : Finds seq find e Cut) (he : e ≤ seq.length) (count : Int) : ∀ (fuel b : Nat) (parts : List (List α)) (nparts : Int), b ≤ e → e < b + fuel →
    ∃ ps, splitLoop seq find e count false fuel b parts nparts = .ok (ps.reverse ++ parts) ∧ Parts Cut (count - nparts + 1) (seg seq b e) ps
  | 0, b, _, _, h1, h2 => by omega
  | fuel + 1, b, parts, nparts, h1, h2 => by
    cases hr : find b e with
    | none =>
      refine ⟨[seg seq b e], ?_, .whole (hf.none_ok h1 hr)⟩
      unfold splitLoop
      rw [hr]
      simp only [Option.filter_none]
      rw [copySeq_seg _ h1 he]
      simp
    | some r =>
      obtain ⟨i, j⟩ := r
      obtain ⟨s, t, rfl, rfl, hs1, hs2, hs3, hcut⟩ := hf.some_ok h1 hr
      unfold splitLoop
      rw [hr]
      have hfl : (some ((s : Int), (t : Int))).filter (fun r => decide (r.2 ≤ (e : Int))) = some ((s : Int), (t : Int)) := by
        simp only [Option.filter]
        rw [if_pos (by simp; omega)]
      rw [hfl]
      dsimp only
      rw [if_neg (by omega), copySeq_seg _ hs1 (by omega)]
      dsimp only
      rw [if_neg (by simp)]
      by_cases hc : nparts < count
      · rw [if_pos hc]
        obtain ⟨ps, hp, hps⟩ := splitLoop_parts hf he count fuel t (seg seq b s :: parts) (nparts + 1) hs3 (by omega)
        refine ⟨seg seq b s :: ps, ?_, .cut (by omega) hcut ?_⟩
        · rw [hp]; simp
        · have e1 : count - nparts + 1 - 1 = count - (nparts + 1) + 1 := by omega
          rw [e1]; exact hps
      · rw [if_neg hc, copySeq_seg _ h1 he]
        exact ⟨[seg seq b e], by simp, .stop (by omega)⟩

theorem splitLoop_all {seq : List α} {find : Int → Int → Option (Int × Int)} {e : Nat} {Cut : List α → List α → List α → Prop}
    (hf : Finds seq find e Cut) (he : e ≤ seq.length) (count : Int) (hcount : (e : Int) < count) :
    ∀ (fuel b : Nat) (parts : List (List α)) (nparts : Int), b ≤ e → e < b + fuel → nparts ≤ b + 1 →
    ∃ ps, splitLoop seq find e count false fuel b parts nparts = .ok (ps.reverse ++ parts) ∧ AllParts Cut (seg seq b e) ps
  | 0, b, _, _, h1, h2, _ => by omega
  | fuel + 1, b, parts, nparts, h1, h2, h3 => by
    cases hr : find b e with
    | none =>
      refine ⟨[seg seq b e], ?_, .whole (hf.none_ok h1 hr)⟩
      unfold splitLoop
      rw [hr]
      simp only [Option.filter_none]
      rw [copySeq_seg _ h1 he]
      simp
    | some r =>
      obtain ⟨i, j⟩ := r
      obtain ⟨s, t, rfl, rfl, hs1, hs2, hs3, hcut⟩ := hf.some_ok h1 hr
      unfold splitLoop
      rw [hr]
      have hfl : (some ((s : Int), (t : Int))).filter (fun r => decide (r.2 ≤ (e : Int))) = some ((s : Int), (t : Int)) := by
        simp only [Option.filter]
        rw [if_pos (by simp; omega)]
      rw [hfl]
      dsimp only
      rw [if_neg (by omega), copySeq_seg _ hs1 (by omega)]
      dsimp only
      rw [if_neg (by simp), if_pos (by omega)]
      obtain ⟨ps, hp, hps⟩ := splitLoop_all hf he count hcount fuel t (seg seq b s :: parts) (nparts + 1) hs3 (by omega) (by omega)
      refine ⟨seg seq b s :: ps, ?_, .cut hcut hps⟩
      rw [hp]; simp

theorem splitLoop_kept {seq : List α} {find : Int → Int → Option (Int × Int)} {e : Nat} {Cut : List α → List α → List α → Prop}
    (hf : Finds seq find e Cut) (he : e ≤ seq.length) (count : Int) : ∀ (fuel b : Nat) (parts : List (List α)) (nparts : Int), b ≤ e → e < b + fuel →
    ∃ ps, splitLoop seq find e count true fuel b parts nparts = .ok (ps.reverse ++ parts) ∧ KeptParts Cut (count - nparts + 1) (seg seq b e) ps
  | 0, b, _, _, h1, h2 => by omega
  | fuel + 1, b, parts, nparts, h1, h2 => by
    cases hr : find b e with
    | none =>
      unfold splitLoop
      rw [hr]
      simp only [Option.filter_none]
      rw [copySeq_seg _ h1 he]
      dsimp only
      by_cases hemp : seg seq b e = []
      · rw [if_pos ⟨by trivial, hemp⟩]
        have := hf.none_ok h1 hr
        rw [hemp] at this ⊢
        exact ⟨[], by simp, .none this⟩
      · rw [if_neg (by simp [hemp])]
        exact ⟨[seg seq b e], by simp, .whole (hf.none_ok h1 hr) hemp⟩
    | some r =>
      obtain ⟨i, j⟩ := r
      obtain ⟨s, t, rfl, rfl, hs1, hs2, hs3, hcut⟩ := hf.some_ok h1 hr
      unfold splitLoop
      rw [hr]
      have hfl : (some ((s : Int), (t : Int))).filter (fun r => decide (r.2 ≤ (e : Int))) = some ((s : Int), (t : Int)) := by
        simp only [Option.filter]
        rw [if_pos (by simp; omega)]
      rw [hfl]
      dsimp only
      rw [if_neg (by omega), copySeq_seg _ hs1 (by omega)]
      dsimp only
      by_cases hemp : seg seq b s = []
      · rw [if_pos ⟨by trivial, hemp⟩]
        obtain ⟨ps, hp, hps⟩ := splitLoop_kept hf he count fuel t parts nparts hs3 (by omega)
        rw [hemp] at hcut
        exact ⟨ps, hp, .skip hcut hps⟩
      · rw [if_neg (by simp [hemp])]
        by_cases hc : nparts < count
        · rw [if_pos hc]
          obtain ⟨ps, hp, hps⟩ := splitLoop_kept hf he count fuel t (seg seq b s :: parts) (nparts + 1) hs3 (by omega)
          refine ⟨seg seq b s :: ps, ?_, .cut (by omega) hcut hemp ?_⟩
          · rw [hp]; simp
          · have e1 : count - nparts + 1 - 1 = count - (nparts + 1) + 1 := by omega
            rw [e1]; exact hps
        · rw [if_neg hc, copySeq_seg _ h1 he]
          exact ⟨[seg seq b e], by simp, .stop (by omega) hcut hemp⟩

/-! ### Finding separators -/

theorem findPos_spec (test : α → Bool) (seq : List α) {e : Nat} (he : e ≤ seq.length) : ∀ (k i : Nat), i ≤ e → e < i + k →
    (findPos test seq k i e = none ∧ ∀ y ∈ seg seq i e, test y = false) ∨
    ∃ s : Nat, findPos test seq k i e = some ((s : Int), (s : Int) + 1) ∧ i ≤ s ∧ s < e ∧ ObjCut test (seg seq i e) (seg seq i s) (seg seq (s + 1) e)
  | 0, i, h1, h2 => by omega
  | k + 1, i, h1, h2 => by
    unfold findPos
    by_cases hlt : i < e
    · rw [if_pos (by omega)]
      have hg : seq[(i : Int).toNat]? = some seq[i] := by rw [Int.toNat_natCast, List.getElem?_eq_getElem]
      rw [hg]
      dsimp only
      have hc := seg_cons seq hlt (show i < seq.length by omega)
      by_cases ht : test seq[i] = true
      · rw [if_pos ht]
        refine Or.inr ⟨i, rfl, Nat.le_refl _, hlt, seq[i], ?_, ht, ?_⟩
        · rw [show seg seq i i = [] by simp [seg], hc]; rfl
        · simp [seg]
      · rw [if_neg ht]
        have hcast : (i : Int) + 1 = ((i + 1 : Nat) : Int) := by omega
        rw [hcast]
        rcases findPos_spec test seq he k (i + 1) (by omega) (by omega) with ⟨h, ha⟩ | ⟨s, h, hs1, hs2, x, hx, hx2, hx3⟩
        · refine Or.inl ⟨h, fun y hy => ?_⟩
          rw [hc] at hy
          rcases List.mem_cons.mp hy with rfl | hy
          · simpa using ht
          · exact ha y hy
        · refine Or.inr ⟨s, h, by omega, hs2, x, ?_, hx2, ?_⟩
          · rw [hc, hx, seg_cons seq (show i < s by omega) (by omega)]; rfl
          · intro y hy
            rw [seg_cons seq (show i < s by omega) (by omega)] at hy
            rcases List.mem_cons.mp hy with rfl | hy
            · simpa using ht
            · exact hx3 y hy
    · rw [if_neg (by omega)]
      refine Or.inl ⟨rfl, fun y hy => ?_⟩
      have : seg seq i e = [] := List.drop_eq_nil_of_le (by rw [List.length_take]; omega)
      rw [this] at hy; simp at hy

theorem finds_obj (test : α → Bool) (seq : List α) {e : Nat} (he : e ≤ seq.length) :
    Finds seq (findPos test seq (seq.length + 2)) e (ObjCut test) where
  some_ok := fun {b i j} hb h => by
    rcases findPos_spec test seq he (seq.length + 2) b hb (by omega) with ⟨h', _⟩ | ⟨s, h', h1, h2, h3⟩
    · rw [h'] at h; cases h
    · rw [h'] at h
      cases h
      exact ⟨s, s + 1, rfl, rfl, h1, by omega, by omega, h3⟩
  none_ok := fun {b} hb h x y => by
    rcases findPos_spec test seq he (seq.length + 2) b hb (by omega) with ⟨_, ha⟩ | ⟨s, h', _⟩
    · rintro ⟨z, hz, hz2, _⟩
      have := ha z (by rw [hz]; simp)
      rw [hz2] at this; cases this
    · rw [h'] at h; cases h

theorem lookingAt_eq (test : α → α → Bool) (big pattern : List α) : ∀ (k b p : Nat), p ≤ pattern.length → pattern.length < p + k →
    lookingAt test big pattern k b p = startsWith test (pattern.drop p) (big.drop b)
  | 0, b, p, h1, h2 => by omega
  | k + 1, b, p, h1, h2 => by
    unfold lookingAt
    by_cases hp : pattern.length ≤ p
    · rw [if_pos hp, List.drop_eq_nil_of_le hp]; rfl
    · have hp' : p < pattern.length := by omega
      rw [if_neg hp, List.drop_eq_getElem_cons hp']
      by_cases hb : b < big.length
      · rw [List.drop_eq_getElem_cons hb, List.getElem?_eq_getElem hb, List.getElem?_eq_getElem hp']
        dsimp only [startsWith]
        rw [← lookingAt_eq test big pattern k (b + 1) (p + 1) (by omega) (by omega)]
        cases test pattern[p] big[b] <;> rfl
      · have hbig : big.drop b = [] := List.drop_eq_nil_of_le (by omega)
        rw [hbig, List.getElem?_eq_none (by omega)]
        rfl

theorem startsWith_short (test : α → α → Bool) : ∀ (p l : List α), l.length < p.length → startsWith test p l = false
  | [], _, h => by simp at h
  | _ :: _, [], _ => rfl
  | y :: ys, x :: xs, h => by
    unfold startsWith
    rw [startsWith_short test ys xs (by simp at h; omega), Bool.and_false]

theorem startsWith_append (test : α → α → Bool) : ∀ (p l m : List α), p.length ≤ l.length → startsWith test p (l ++ m) = startsWith test p l
  | [], _, _, _ => rfl
  | _ :: _, [], _, h => by simp at h
  | y :: ys, x :: xs, m, h => by
    rw [List.cons_append]
    unfold startsWith
    rw [startsWith_append test ys xs m (by simp at h; omega)]

theorem findSeparator_spec (test : α → α → Bool) (seq sep : List α) {e b : Nat} (he : e ≤ seq.length) (hb : b ≤ e) : ∀ (k i : Nat), b ≤ i → e + 1 < i + k →
    (∀ n < i - b, startsWith test sep ((seg seq b e).drop n) = false) →
    (findSeparator test seq sep k i e = none ∧ ∀ n, startsWith test sep ((seg seq b e).drop n) = true → sep = [] ∧ e < b + n) ∨
    ∃ s : Nat, findSeparator test seq sep k i e = some ((s : Int), (s : Int) + sep.length) ∧ b ≤ s ∧ s + sep.length ≤ e ∧
      SeqCut test sep (seg seq b e) (seg seq b s) (seg seq (s + sep.length) e)
  | 0, i, h1, h2, h3 => by
    refine Or.inl ⟨rfl, fun n hn => ?_⟩
    by_cases hni : n < i - b
    · rw [h3 n hni] at hn; cases hn
    · cases sep with
      | nil => exact ⟨rfl, by omega⟩
      | cons a t =>
        rw [startsWith_short] at hn
        · cases hn
        · rw [List.length_drop, seg_length _ he, List.length_cons]; omega
  | k + 1, i, h1, h2, h3 => by
    have hdrop : ∀ n, (seg seq b e).drop n = seg seq (b + n) e := by
      intro n; unfold seg; rw [List.drop_drop]
    unfold findSeparator
    by_cases hle : i + sep.length ≤ e
    · rw [if_pos (by omega), lookingAt_eq _ _ _ _ _ _ (by omega) (by omega), List.drop_zero, Int.toNat_natCast]
      have hsame : startsWith test sep (seq.drop i) = startsWith test sep (seg seq i (i + sep.length)) := by
        have : seq.drop i = seg seq i (i + sep.length) ++ seq.drop (i + sep.length) := by
          have := seg_split seq (show i ≤ i + sep.length by omega) (show i + sep.length ≤ seq.length by omega)
          unfold seg at this ⊢
          rwa [List.take_length] at this
        rw [this, startsWith_append]
        rw [seg_length _ (by omega)]; omega
      have hsplit : seg seq i e = seg seq i (i + sep.length) ++ seg seq (i + sep.length) e := seg_split _ (by omega) (by omega)
      have hseg : startsWith test sep (seg seq i e) = startsWith test sep (seq.drop i) := by
        rw [hsplit, startsWith_append, hsame]
        rw [seg_length _ (by omega)]; omega
      by_cases ht : startsWith test sep (seq.drop i) = true
      · rw [if_pos ht]
        refine Or.inr ⟨i, rfl, h1, hle, seg seq i (i + sep.length), ?_, ?_, by rw [← hsame]; exact ht, ?_⟩
        · rw [seg_split seq h1 (show i ≤ e by omega), hsplit, List.append_assoc]
        · rw [seg_length _ (by omega)]; omega
        · intro n hn
          rw [seg_length _ (by omega)] at hn
          exact h3 n hn
      · rw [if_neg ht]
        have hcast : (i : Int) + 1 = ((i + 1 : Nat) : Int) := by omega
        rw [hcast]
        refine findSeparator_spec test seq sep he hb k (i + 1) (by omega) (by omega) (fun n hn => ?_)
        by_cases hni : n < i - b
        · exact h3 n hni
        · rw [hdrop, show b + n = i by omega, hseg]
          simpa using ht
    · rw [if_neg (by omega)]
      refine Or.inl ⟨rfl, fun n hn => ?_⟩
      by_cases hni : n < i - b
      · rw [h3 n hni] at hn; cases hn
      · cases sep with
        | nil => exact ⟨rfl, by simp at hle; omega⟩
        | cons a t =>
          rw [startsWith_short] at hn
          · cases hn
          · rw [List.length_drop, seg_length _ he]
            rw [List.length_cons] at hle ⊢
            omega

theorem finds_seq (test : α → α → Bool) (seq sep : List α) {e : Nat} (he : e ≤ seq.length) (hne : sep ≠ []) :
    Finds seq (findSeparator test seq sep (seq.length + 2)) e (SeqCut test sep) where
  some_ok := fun {b i j} hb h => by
    have hl : 0 < sep.length := by cases sep with | nil => exact absurd rfl hne | cons _ _ => simp
    rcases findSeparator_spec test seq sep he hb (seq.length + 2) b (Nat.le_refl _) (by omega) (fun n hn => by omega) with ⟨h', _⟩ | ⟨s, h', h1, h2, h3⟩
    · rw [h'] at h; cases h
    · rw [h'] at h
      cases h
      exact ⟨s, s + sep.length, rfl, by omega, h1, by omega, h2, h3⟩
  none_ok := fun {b} hb h x y => by
    rcases findSeparator_spec test seq sep he hb (seq.length + 2) b (Nat.le_refl _) (by omega) (fun n hn => by omega) with ⟨_, ha⟩ | ⟨s, h', _⟩
    · rintro ⟨mid, hz, hlen, hs, _⟩
      refine hne (ha x.length ?_).1
      rw [hz, List.append_assoc, List.drop_left, startsWith_append _ _ _ _ (by omega)]
      exact hs
    · rw [h'] at h; cases h

/-! ### Cuts are unique -/

theorem objCut_unique {test : α → Bool} {l b a b' a' : List α} (h : ObjCut test l b a) (h' : ObjCut test l b' a') : b = b' ∧ a = a' := by
  obtain ⟨x, rfl, hx, hb⟩ := h
  obtain ⟨x', he, hx', hb'⟩ := h'
  induction b generalizing b' with
  | nil =>
    cases b' with
    | nil => simp at he; exact ⟨rfl, he.2⟩
    | cons y b' =>
      simp at he
      have := hb' y (by simp)
      rw [← he.1, hx] at this; cases this
  | cons z b ih =>
    cases b' with
    | nil =>
      simp at he
      have := hb z (by simp)
      rw [he.1, hx'] at this; cases this
    | cons y b' =>
      simp at he
      have := ih (fun y hy => hb y (by simp [hy])) he.2 (fun y hy => hb' y (by simp [hy]))
      exact ⟨by rw [he.1, this.1], this.2⟩

theorem allParts_unique {Cut : List α → List α → List α → Prop} (hu : ∀ {l b a b' a'}, Cut l b a → Cut l b' a' → b = b' ∧ a = a') {l : List α}
    {ps qs : List (List α)} (h : AllParts Cut l ps) : AllParts Cut l qs → ps = qs := by
  induction h generalizing qs with
  | whole hn =>
    intro h'
    cases h' with
    | whole _ => rfl
    | cut hc _ => exact absurd hc (hn _ _)
  | cut hc _ ih =>
    intro h'
    cases h' with
    | whole hn => exact absurd hc (hn _ _)
    | cut hc' hr =>
      obtain ⟨rfl, rfl⟩ := hu hc hc'
      rw [ih hr]

/-! ### Joining -/

theorem copyTo_some (w rest s : List α) (h : s.length ≤ rest.length) :
    copyTo (some (w ++ rest, w.length)) s = some ((w ++ s) ++ rest.drop s.length, (w ++ s).length) := by
  unfold copyTo
  dsimp only
  rw [if_pos (by rw [List.length_append]; omega), List.take_left, List.drop_length_add_append, List.length_append]

/-- What the loop writes. -/
def tailText (separator : List α) (conjunction : Option (List α)) (maxIndex : Nat) : List (List α) → Nat → List α
  | [], _ => []
  | s :: rest, i =>
    separatorAt separator conjunction maxIndex i ++ s ++ tailText separator conjunction maxIndex rest (i + 1)

theorem joinLoop_eq (separator : List α) (conjunction : Option (List α)) (maxIndex : Nat) : ∀ (l : List (List α)) (i : Nat) (w rest : List α),
    (tailText separator conjunction maxIndex l i).length ≤ rest.length →
    joinLoop separator conjunction maxIndex l i (some (w ++ rest, w.length)) =
      some (w ++ tailText separator conjunction maxIndex l i ++ rest.drop (tailText separator conjunction maxIndex l i).length,
        (w ++ tailText separator conjunction maxIndex l i).length)
  | [], i, w, rest, _ => by simp [joinLoop, tailText]
  | s :: l, i, w, rest, h => by
    unfold joinLoop
    rw [tailText] at h ⊢
    generalize separatorAt separator conjunction maxIndex i = sep at h ⊢
    simp only [List.length_append] at h
    rw [copyTo_some _ _ _ (by omega), copyTo_some _ _ _ (by rw [List.length_drop]; omega), List.drop_drop,
      joinLoop_eq separator conjunction maxIndex l (i + 1) _ _ (by rw [List.length_drop]; omega), List.drop_drop]
    simp only [List.append_assoc, List.length_append, Nat.add_assoc]

theorem tailText_joined (separator : List α) (conjunction : Option (List α)) : ∀ (l : List (List α)) (s : List α) (i maxIndex : Nat), i + l.length = maxIndex + 1 →
    s ++ tailText separator conjunction maxIndex l i = joined separator (conjunction.getD separator) (s :: l)
  | [], s, i, m, _ => by simp [tailText, joined]
  | [t], s, i, m, h => by
    have hi : i = m := by simp at h; omega
    cases conjunction <;> simp [tailText, joined, hi, separatorAt]
  | t :: u :: l, s, i, m, h => by
    have hi : i ≠ m := by simp at h; omega
    have ih := tailText_joined separator conjunction (u :: l) t (i + 1) m (by simp at h ⊢; omega)
    have hsep : separatorAt separator conjunction m i = separator := by
      unfold separatorAt
      cases conjunction
      · rfl
      · dsimp only; rw [if_neg hi]
    rw [tailText, hsep]
    have hj : joined separator (conjunction.getD separator) (s :: t :: u :: l) = s ++ separator ++ joined separator (conjunction.getD separator) (t :: u :: l) := rfl
    rw [hj, ← ih]
    simp

theorem foldl_length : ∀ (l : List (List α)) (n : Int), l.foldl (fun n s => n + (s.length : Int)) n = n + (l.flatten.length : Int)
  | [], n => by simp
  | s :: l, n => by
    rw [List.foldl_cons, foldl_length l, List.flatten_cons, List.length_append]; omega

theorem tailText_length (separator : List α) (conjunction : Option (List α)) : ∀ (l : List (List α)) (i maxIndex : Nat), i + l.length = maxIndex + 1 → l ≠ [] →
    ((tailText separator conjunction maxIndex l i).length : Int) = l.flatten.length + separator.length * l.length +
      extraSize separator conjunction
  | [], _, _, _, h => absurd rfl h
  | [t], i, m, h, _ => by
    have hi : i = m := by simp at h; omega
    cases conjunction <;> simp [tailText, hi, separatorAt, extraSize] <;> omega
  | t :: u :: l, i, m, h, _ => by
    have hi : i ≠ m := by simp at h; omega
    have ih := tailText_length separator conjunction (u :: l) (i + 1) m (by simp at h ⊢; omega) (by simp)
    have hsep : separatorAt separator conjunction m i = separator := by
      unfold separatorAt
      cases conjunction
      · rfl
      · dsimp only; rw [if_neg hi]
    rw [tailText, hsep, List.length_append, List.length_append, List.flatten_cons, List.length_append, List.length_cons]
    have hm : (separator.length : Int) * (((u :: l).length + 1 : Nat) : Int) = separator.length * (u :: l).length + separator.length := by
      push_cast; rw [Int.mul_add, Int.mul_one]
    rw [hm]
    push_cast at ih ⊢
    omega

end Verif.Common
