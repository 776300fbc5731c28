/-
C135: the hash functions of tables agree with their key tests.
-/
import Verif.Hash.Model
import Verif.Hash.Spec
import Verif.Table.Props

namespace Verif.Hash

open Verif.Table (World Op Obs Tab)

/-! ### hash codes are integers -/

theorem sshift_bound (x : Word) (n : Nat) (hn : n ≤ 63) :
    -2 ^ (63 - n) ≤ (x.sshiftRight n).toInt ∧ (x.sshiftRight n).toInt < 2 ^ (63 - n) := by
  rw [BitVec.toInt_sshiftRight]
  have h1 := BitVec.le_toInt x
  have h2 := BitVec.toInt_lt (x := x)
  simp only [Nat.add_one_sub_one] at h1 h2
  rw [Int.shiftRight_eq_div_pow]
  have hp : (2 : Int) ^ 63 = 2 ^ (63 - n) * 2 ^ n := by rw [← Int.pow_add]; congr 1; omega
  have hpos : (0 : Int) < 2 ^ n := Int.pow_pos (by decide)
  constructor
  · rw [Int.le_ediv_iff_mul_le (by exact_mod_cast hpos)]
    push_cast
    have : -(2 : Int) ^ (63 - n) * 2 ^ n = -2 ^ 63 := by rw [hp, Int.neg_mul]
    rw [this]; exact h1
  · rw [Int.ediv_lt_iff_lt_mul (by exact_mod_cast hpos)]
    push_cast
    rw [← hp]; exact h2

theorem untag_range (x : Word) : InRange (untag x) := by
  have := sshift_bound x 2 (by decide)
  exact this

theorem isInteger_range {x : Word} (h : isInteger x = true) : InRange x.toInt := by
  have hs : (x.sshiftRight 61).toInt = 0 ∨ (x.sshiftRight 61).toInt = -1 := by
    simp only [isInteger, Bool.or_eq_true, beq_iff_eq] at h
    rcases h with h | h <;> rw [h]
    · left; decide
    · right; decide
  rw [BitVec.toInt_sshiftRight, Int.shiftRight_eq_div_pow] at hs
  unfold InRange
  push_cast at hs
  omega

theorem hashIndex_range (x : Word) : InRange (hashIndex x) := by
  unfold hashIndex
  split
  · exact isInteger_range ‹_›
  · exact untag_range _

theorem range_msb {i : Int} (h : InRange i) :
    (BitVec.ofInt 64 i).toInt = i := by
  rw [BitVec.toInt_ofInt]
  unfold InRange at h
  exact Int.bmod_eq_of_le (by omega) (by omega)

/-- `logxor` of two integers is an integer: it cannot overflow. -/
theorem logxor_range {a b : Int} (ha : InRange a) (hb : InRange b) : InRange (logxor a b) := by
  have key : ∀ x y : Word, isInteger x = true → isInteger y = true → isInteger (x ^^^ y) = true := by
    intro x y hx hy
    simp only [isInteger, Bool.or_eq_true, beq_iff_eq] at hx hy ⊢
    have hd : (x ^^^ y).sshiftRight 61 = x.sshiftRight 61 ^^^ y.sshiftRight 61 := by
      rw [BitVec.sshiftRight_xor_distrib]
    rw [hd]
    rcases hx with hx | hx <;> rcases hy with hy | hy <;> rw [hx, hy] <;> decide
  have conv : ∀ i : Int, InRange i → isInteger (BitVec.ofInt 64 i) = true := by
    intro i hi
    have hb := range_msb hi
    have hs : ((BitVec.ofInt 64 i).sshiftRight 61).toInt = 0 ∨
        ((BitVec.ofInt 64 i).sshiftRight 61).toInt = -1 := by
      rw [BitVec.toInt_sshiftRight, Int.shiftRight_eq_div_pow, hb]
      unfold InRange at hi
      push_cast
      omega
    simp only [isInteger, Bool.or_eq_true, beq_iff_eq]
    rcases hs with h | h
    · left; apply BitVec.eq_of_toInt_eq; rw [h]; decide
    · right; apply BitVec.eq_of_toInt_eq; rw [h]; decide
  exact isInteger_range (key _ _ (conv a ha) (conv b hb))

/-- Merging two hash codes that are integers gives an integer. -/
theorem mergeIds_range {a b : Int} (ordered : Bool) (ha : InRange a) (hb : InRange b) :
    InRange (mergeIds a b ordered) := by
  unfold mergeIds
  apply logxor_range hb
  split
  · exact hashIndex_range _
  · exact ha

/-- C135. The hash code of an object is an `<integer>`. -/
theorem object_hash_integer (H : Nat → Box) (addr : Nat → Word) (x : Obj)
    (hi : ∀ i, x = .int i → InRange i) (hc : ∀ c, x = .char c → c < 0x110000) :
    InRange (objectHash H addr x) := by
  cases x with
  | int i => exact hi i rfl
  | bool b => cases b <;> (simp [objectHash, InRange])
  | char c =>
    have := hc c rfl
    simp only [objectHash, InRange]; omega
  | ref a =>
    simp only [objectHash]
    split
    · exact hashIndex_range _
    · exact mergeIds_range _ (hashIndex_range _) (hashIndex_range _)
    all_goals exact hashIndex_range _

example : InRange (objectHash (fun _ => .double 5 (-1)) (fun _ => 0) (.ref 3)) :=
  object_hash_integer _ _ _ (by intro i h; cases h) (by intro i h; cases h)

theorem foldl_mod_range {α : Type} (f : α → Int) (l : List α) :
    ∀ {h : Int}, InRange h → InRange (l.foldl (fun hash c => (hash * 64 + f c) % 970747) h) := by
  induction l with
  | nil => intro h hh; exact hh
  | cons c l ih =>
    intro h _
    rw [List.foldl_cons]
    apply ih
    unfold InRange; omega

/-- C135. Every string has a hash code (no index is out of range), and it is an `<integer>`. -/
theorem string_hash_integer (s : Str) (hc : ∀ c ∈ s.codes, c < 0x110000)
    (hl : InRange s.codes.length) : ∃ i, stringHash s = some i ∧ InRange i := by
  unfold stringHash
  by_cases h : s.codes.length ≤ 30
  · exact ⟨_, if_pos h, foldl_mod_range _ _ hl⟩
  · simp only [if_neg h]
    have hget : ∀ i, i < s.codes.length → ∃ c, s.codes[i]? = some c ∧ c < 0x110000 := by
      intro i hi
      exact ⟨_, List.getElem?_eq_getElem hi, hc _ (List.getElem_mem hi)⟩
    obtain ⟨c0, h0, b0⟩ := hget 0 (by omega)
    obtain ⟨c1, h1, b1⟩ := hget (s.codes.length / 2) (by omega)
    obtain ⟨c2, h2, b2⟩ := hget (s.codes.length - 1) (by omega)
    refine ⟨_, by rw [h0, Option.map_some, Option.bind_some, h1, Option.map_some,
      Option.bind_some, h2, Option.map_some], ?_⟩
    have hr : ∀ c : Nat, c < 0x110000 → InRange ((c : Int) + 232333) := by
      intro c hc; unfold InRange; omega
    exact mergeIds_range _ (mergeIds_range _ (mergeIds_range _ hl (hr _ b0)) (hr _ b1)) (hr _ b2)

example : ∃ i, stringHash ⟨false, List.replicate 100 65⟩ = some i ∧ InRange i :=
  string_hash_integer _ (by intro c hc; rw [List.mem_replicate] at hc; omega)
    (by simp [InRange])

/-! ### object tables -/

theorem eq32_symm (a b : BitVec 32) (h : eq32 a b = true) : eq32 b a = true := by
  simp only [eq32, Bool.and_eq_true, Bool.or_eq_true, Bool.not_eq_true', beq_iff_eq] at h ⊢
  exact ⟨⟨h.1.2, h.1.1⟩, h.2.elim (fun e => .inl e.symm) (fun e => .inr ⟨e.2, e.1⟩)⟩

theorem eq64_symm (a b : BitVec 64) (h : eq64 a b = true) : eq64 b a = true := by
  simp only [eq64, Bool.and_eq_true, Bool.or_eq_true, Bool.not_eq_true', beq_iff_eq] at h ⊢
  exact ⟨⟨h.1.2, h.1.1⟩, h.2.elim (fun e => .inl e.symm) (fun e => .inr ⟨e.2, e.1⟩)⟩

theorem eq32_trans (a b c : BitVec 32) (h : eq32 a b = true) (h' : eq32 b c = true) :
    eq32 a c = true := by
  simp only [eq32, Bool.and_eq_true, Bool.or_eq_true, Bool.not_eq_true', beq_iff_eq] at h h' ⊢
  refine ⟨⟨h.1.1, h'.1.2⟩, ?_⟩
  rcases h.2 with e | e
  · rw [e]; exact h'.2
  · rcases h'.2 with e' | e'
    · rw [← e']; exact .inr e
    · exact .inr ⟨e.1, e'.2⟩

theorem eq64_trans (a b c : BitVec 64) (h : eq64 a b = true) (h' : eq64 b c = true) :
    eq64 a c = true := by
  simp only [eq64, Bool.and_eq_true, Bool.or_eq_true, Bool.not_eq_true', beq_iff_eq] at h h' ⊢
  refine ⟨⟨h.1.1, h'.1.2⟩, ?_⟩
  rcases h.2 with e | e
  · rw [e]; exact h'.2
  · rcases h'.2 with e' | e'
    · rw [← e']; exact .inr e
    · exact .inr ⟨e.1, e'.2⟩

theorem valueEq_symm (a b : Box) (h : valueEq a b = true) : valueEq b a = true := by
  cases a <;> cases b <;>
    simp only [valueEq, Bool.and_eq_true, beq_iff_eq, Bool.false_eq_true] at h ⊢
  · exact h.symm
  · exact ⟨h.1.symm, h.2.symm⟩
  · exact eq32_symm _ _ h
  · exact eq64_symm _ _ h

theorem valueEq_trans (a b c : Box) (h : valueEq a b = true) (h' : valueEq b c = true) :
    valueEq a c = true := by
  cases a <;> cases b <;> cases c <;>
    simp only [valueEq, Bool.and_eq_true, beq_iff_eq, Bool.false_eq_true] at h h' ⊢
  · exact h.trans h'
  · exact ⟨h.1.trans h'.1, h.2.trans h'.2⟩
  · exact eq32_trans _ _ _ h h'
  · exact eq64_trans _ _ _ h h'

/-- C135. `==` is an equivalence, whatever the objects are (also for a NaN). -/
theorem identical_equivalence (H : Nat → Box) : Equivalence' (identical H) where
  refl a := by cases a <;> simp [identical]
  symm a b h := by
    cases a <;> cases b <;>
      simp only [identical, Bool.or_eq_true, beq_iff_eq] at h ⊢ <;> try exact h.symm
    exact h.elim (fun e => .inl e.symm) (fun e => .inr (valueEq_symm _ _ e))
  trans a b c h h' := by
    have ref_only : ∀ {x y : Obj}, identical H x y = true → x = y ∨
        ∃ i j, x = .ref i ∧ y = .ref j ∧ valueEq (H i) (H j) = true := by
      intro x y hxy
      cases x <;> cases y <;> simp only [identical, Bool.or_eq_true, beq_iff_eq] at hxy <;>
        try exact .inl hxy
      rcases hxy with e | e
      · exact .inl (by rw [e])
      · exact .inr ⟨_, _, rfl, rfl, e⟩
    rcases ref_only h with e | ⟨i, j, e1, e2, e3⟩
    · rw [e]; exact h'
    · rcases ref_only h' with f | ⟨i', j', f1, f2, f3⟩
      · rw [← f]; exact h
      · subst e1; subst f2; rw [e2] at f1; cases f1
        simp only [identical, Bool.or_eq_true, beq_iff_eq]
        exact .inr (valueEq_trans _ _ _ e3 f3)

/-- A negative zero as a single float. -/
def negZero : BitVec 32 := 0x80000000#32

theorem eq32_same {a b : BitVec 32} (h : eq32 a b = true) (ha : a ≠ negZero) (hb : b ≠ negZero) :
    a = b := by
  simp only [eq32, Bool.and_eq_true, Bool.or_eq_true, beq_iff_eq] at h
  rcases h.2 with e | ⟨e, e'⟩
  · exact e
  · have z : ∀ x : BitVec 32, x &&& 0x7FFFFFFF#32 = 0 → x = 0 ∨ x = negZero := by
      intro x hx
      have hm : ∀ i, i < 31 → x.getLsbD i = false := by
        intro i hi
        have := congrArg (fun y => y.getLsbD i) hx
        simp only [BitVec.getLsbD_and, BitVec.ofNat_eq_ofNat, BitVec.getLsbD_zero] at this
        have h1 : (0x7FFFFFFF#32).getLsbD i = true := by
          have : ∀ i : Fin 31, (0x7FFFFFFF#32).getLsbD i.val = true := by decide
          exact this ⟨i, hi⟩
        rw [h1, Bool.and_true] at this
        exact this
      cases hb : x.getLsbD 31
      · left
        apply BitVec.eq_of_getLsbD_eq
        intro i hi
        rcases Nat.lt_or_ge i 31 with h | h
        · rw [hm i h]; simp
        · have : i = 31 := by omega
          subst this; rw [hb]; simp
      · right
        apply BitVec.eq_of_getLsbD_eq
        intro i hi
        have hz : ∀ i : Fin 31, negZero.getLsbD i.val = false := by decide
        rcases Nat.lt_or_ge i 31 with h | h
        · rw [hm i h]; exact (hz ⟨i, h⟩).symm
        · have : i = 31 := by omega
          subst this; rw [hb]; decide
    rcases z a e with h | h
    · rcases z b e' with h' | h'
      · rw [h, h']
      · exact absurd h' hb
    · exact absurd h ha

/-- A key that `object-hash` is right about. -/
def Hashable (H : Nat → Box) (x : Obj) : Prop :=
  ∀ a, x = .ref a → (∀ b, H a ≠ .doubleFloat b) ∧ H a ≠ .single negZero

/-- C135 (partial). Two objects that are `==` have the same hash code in an object table, wherever
    the collector has put them.  Missing: the claim is false for double floats and for the negative
    zero of single floats (`object_hash_violated`, `object_hash_zero_violated`). -/
theorem object_hash_partial (H : Nat → Box) (addr : Nat → Word) (x y : Obj)
    (hx : Hashable H x) (hy : Hashable H y) (h : identical H x y = true) :
    objectHash H addr x = objectHash H addr y := by
  cases x <;> cases y <;> simp only [identical, beq_iff_eq] at h <;> try (rw [h])
  rename_i a b
  rw [Bool.or_eq_true, beq_iff_eq] at h
  rcases h with h | h
  · rw [h]
  · obtain ⟨h1, h2⟩ := hx a rfl
    obtain ⟨h3, h4⟩ := hy b rfl
    simp only [objectHash]
    revert h h1 h2 h3 h4
    cases H a <;> cases H b <;> intro h h1 h2 h3 h4 <;>
      simp only [valueEq, Bool.and_eq_true, beq_iff_eq, Bool.false_eq_true] at h
    · rw [h]
    · rw [h.1, h.2]
    · rw [eq32_same h (fun e => h2 (by rw [e])) (fun e => h4 (by rw [e]))]
    · exact absurd rfl (h1 _)

/-- Two boxes with the same large machine word are `==` and get one hash code. -/
example :
    identical (fun _ => .word 0xFFFFFFFF00000001) (.ref 1) (.ref 2) = true ∧
    objectHash (fun _ => .word 0xFFFFFFFF00000001) (fun a => BitVec.ofNat 64 a * 16) (.ref 1) =
      objectHash (fun _ => .word 0xFFFFFFFF00000001) (fun a => BitVec.ofNat 64 a * 16) (.ref 2) :=
  ⟨by decide, object_hash_partial _ _ _ _ (by intro a _; exact ⟨by simp, by simp⟩)
    (by intro a _; exact ⟨by simp, by simp⟩) (by decide)⟩

/-- C135 is violated for double floats: they are `==` by value, and hashed by address. -/
theorem object_hash_violated :
    ∃ H : Nat → Box, ∃ addr : Nat → Word, identical H (.ref 1) (.ref 2) = true ∧
      objectHash H addr (.ref 1) ≠ objectHash H addr (.ref 2) :=
  ⟨fun _ => .doubleFloat 0x3FF8000000000000#64, fun a => BitVec.ofNat 64 a * 16,
    by decide, by decide⟩

/-- C135 is violated for the two zeros of single floats, which are `==`. -/
theorem object_hash_zero_violated :
    ∃ H : Nat → Box, ∀ addr : Nat → Word, identical H (.ref 1) (.ref 2) = true ∧
      objectHash H addr (.ref 1) ≠ objectHash H addr (.ref 2) :=
  ⟨fun a => if a = 1 then .single 0 else .single negZero, fun addr => ⟨by decide, by
    show hashIndex ((0 : BitVec 32).setWidth 64) ≠ hashIndex (negZero.setWidth 64)
    decide⟩⟩

/-- The world of an object table: the boxes are at `addr t` at time `t`. -/
def objectWorld (H : Nat → Box) (addr : Nat → Nat → Word) (spur : Nat → Bool) : World Obj where
  eq := identical H
  hash t := objectHash H (addr t)
  spur := spur

theorem objectWorld_lawful {H : Nat → Box} (hH : ∀ a, Hashable H (.ref a)) (addr : Nat → Nat → Word)
    (spur : Nat → Bool) : (objectWorld H addr spur).Lawful where
  refl := (identical_equivalence H).refl
  symm := (identical_equivalence H).symm
  trans := (identical_equivalence H).trans
  hash_eq t a b h := by
    have hk : ∀ x : Obj, Hashable H x := by
      intro x a e; exact hH a a rfl
    exact object_hash_partial H (addr t) a b (hk a) (hk b) h

/-- C135 (partial). An object table whose keys are neither double floats nor negative zeros is a
    map for `==`, whatever the collector does. -/
theorem object_table_is_map_partial {V : Type} {H : Nat → Box} (hH : ∀ a, Hashable H (.ref a))
    (addr : Nat → Nat → Word) (spur : Nat → Bool) {initial : Int} {grow : Int → Int}
    {T : Tab Obj V} (hT : Verif.Table.make initial grow = some T) {fuel : Nat}
    {ops : List (Op Obj V)} {os : List (Obs Obj V)} {s : Verif.Table.St Obj V}
    (hrun : Verif.Table.run (objectWorld H addr spur) fuel (Verif.Table.start T) ops = .ok (os, s)) :
    ∃ sp, Verif.Table.SpecRun (identical H) Verif.Table.SpecSt.init ops os sp :=
  Verif.Table.table_is_map (objectWorld_lawful hH addr spur) hT hrun

/-- The world of the next theorem: two boxes with the double float 1.5. -/
def floatWorld : World Obj :=
  objectWorld (fun _ => .doubleFloat 0x3FF8000000000000#64) (fun _ a => BitVec.ofNat 64 a * 16)
    (fun _ => false)

/-- An empty table of objects. -/
def emptyTable : Tab Obj Nat :=
  { vecs := fun _ => Verif.Table.mkTV 37, cur := 0, initial := 0, grow := Verif.Table.defaultGrow }

/-- C135 is violated: what is stored in an object table under 1.5 is not found under another
    1.5, although the two are `==`. -/
theorem object_table_violated :
    identical (fun _ => .doubleFloat 0x3FF8000000000000#64) (.ref 1) (.ref 2) = true ∧
    Verif.Table.make 0 Verif.Table.defaultGrow = some emptyTable ∧
    Verif.Table.seen (Verif.Table.run floatWorld 5 (Verif.Table.start emptyTable)
      [.put (.ref 1) 7, .get (.ref 1), .get (.ref 2)]) =
      some [.done, .found (some 7), .found none] := by
  refine ⟨by decide, ?_, by decide +kernel⟩
  have : Verif.Table.computeEntryCount 0 = some 37 := by decide +kernel
  simp [Verif.Table.make, this, emptyTable]

/-- An object table with machine words, at addresses that change at time 3. -/
example :
    (objectWorld (fun a => .word (BitVec.ofNat 64 (a / 2)))
      (fun t a => BitVec.ofNat 64 (if t < 3 then a else a + 9) * 16) (fun _ => false)).Lawful ∧
    Verif.Table.seen (Verif.Table.run (objectWorld (fun a => .word (BitVec.ofNat 64 (a / 2)))
      (fun t a => BitVec.ofNat 64 (if t < 3 then a else a + 9) * 16) (fun _ => false)) 5
      (Verif.Table.start emptyTable) [.put (.ref 2) 7, .get (.ref 3), .get (.ref 4)]) =
      some [.done, .found (some 7), .found none] :=
  ⟨objectWorld_lawful (by intro a b _; exact ⟨by simp, by simp⟩) _ _, by decide +kernel⟩

/-! ### string tables -/

theorem sameLoop_true (x y : List Nat) (b : Bool) (hl : x.length = y.length) :
    sameLoop b x y = true ↔ b = true ∧ x = y := by
  induction x generalizing y b with
  | nil => cases y with
    | nil => simp [sameLoop]
    | cons => cases hl
  | cons c cs ih => cases y with
    | nil => cases hl
    | cons d ds =>
      simp only [List.length_cons, Nat.add_right_cancel_iff] at hl
      simp only [sameLoop]
      cases b with
      | false => simp
      | true => simp [ih ds (c == d) hl]

theorem grovel_true (x y : List Nat) (n : Nat) : ∀ i, i + n = x.length → x.length = y.length →
    (grovel x y i n = true ↔ x.drop i = y.drop i) := by
  induction n with
  | zero =>
    intro i hi hl
    simp [grovel, List.drop_eq_nil_of_le (by omega : x.length ≤ i),
      List.drop_eq_nil_of_le (by omega : y.length ≤ i)]
  | succ n ih =>
    intro i hi hl
    simp only [grovel, Bool.and_eq_true, beq_iff_eq]
    have hx : i < x.length := by omega
    have hy : i < y.length := by omega
    rw [ih (i + 1) (by omega) hl, List.drop_eq_getElem_cons hx, List.drop_eq_getElem_cons hy,
      List.getElem?_eq_getElem hx, List.getElem?_eq_getElem hy, List.cons.injEq, Option.some.injEq]

/-- C135. Two strings are `=` exactly if they have the same characters, also when one is a byte
    string and the other a unicode string. -/
theorem string_equal (x y : Str) : strEq x y = true ↔ x.codes = y.codes := by
  unfold strEq
  by_cases hl : x.codes.length = y.codes.length
  · split
    · rw [if_neg (by simpa using hl), sameLoop_true _ _ _ hl]; simp
    · rw [Bool.and_eq_true, grovel_true _ _ _ 0 (by simp) hl]; simp [hl]
  · have : x.codes ≠ y.codes := fun e => hl (by rw [e])
    simp [hl, this]

example : strEq ⟨false, [97, 98]⟩ ⟨true, [97, 98]⟩ = true ∧
    strEq ⟨false, [97, 98]⟩ ⟨false, [97, 99]⟩ = false := by decide

/-- C135. Strings that are `=` have the same hash code in a string table. -/
theorem string_hash_respects : Respects strEq stringHash := by
  intro a b h
  rw [string_equal] at h
  unfold stringHash
  rw [h]

/-- The world of a string table. -/
def stringWorld (spur : Nat → Bool) : World Str where
  eq := strEq
  hash _ s := (stringHash s).getD 0
  spur := spur

theorem stringWorld_lawful (spur : Nat → Bool) : (stringWorld spur).Lawful where
  refl a := (string_equal a a).2 rfl
  symm a b h := (string_equal b a).2 ((string_equal a b).1 h).symm
  trans a b c h h' := (string_equal a c).2 (((string_equal a b).1 h).trans ((string_equal b c).1 h'))
  hash_eq t a b h := by
    show (stringHash a).getD 0 = (stringHash b).getD 0
    rw [string_hash_respects a b h]

/-- C135. A `<string-table>` is a map from the texts of strings, whatever classes the strings
    have, while the program does not change strings that are keys. -/
theorem string_table_is_map {V : Type} (spur : Nat → Bool) {initial : Int} {grow : Int → Int}
    {T : Tab Str V} (hT : Verif.Table.make initial grow = some T) {fuel : Nat}
    {ops : List (Op Str V)} {os : List (Obs Str V)} {s : Verif.Table.St Str V}
    (hrun : Verif.Table.run (stringWorld spur) fuel (Verif.Table.start T) ops = .ok (os, s)) :
    ∃ sp, Verif.Table.SpecRun (fun x y => decide (x.codes = y.codes)) Verif.Table.SpecSt.init
      ops os sp := by
  have : (stringWorld spur).eq = fun x y => decide (x.codes = y.codes) := by
    funext x y
    show strEq x y = _
    rw [Bool.eq_iff_iff, string_equal]; simp
  rw [← this]
  exact Verif.Table.table_is_map (stringWorld_lawful spur) hT hrun

/-- An empty table of strings. -/
def emptyStrings : Tab Str Nat :=
  { vecs := fun _ => Verif.Table.mkTV 37, cur := 0, initial := 0, grow := Verif.Table.defaultGrow }

example : Verif.Table.seen (Verif.Table.run (stringWorld fun _ => false) 5
    (Verif.Table.start emptyStrings)
    [.put ⟨false, List.replicate 40 97⟩ 7, .get ⟨true, List.replicate 40 97⟩, .get ⟨true, [97]⟩]) =
      some [.done, .found (some 7), .found none] := by decide +kernel

/-! ### symbol tables -/

theorem lower_iff : ∀ c d : BitVec 8, lower c = lower d ↔ SameLetter c d := by
  intro c d
  have h1 : ∀ c : BitVec 8, (lower c).toNat = if 65 ≤ c.toNat ∧ c.toNat ≤ 90 then c.toNat + 32
      else c.toNat := by
    intro c
    unfold lower
    have : (0x41#8 ≤ c ∧ c ≤ 0x5A#8) ↔ (65 ≤ c.toNat ∧ c.toNat ≤ 90) := by
      simp [BitVec.le_def]
    by_cases h : 65 ≤ c.toNat ∧ c.toNat ≤ 90
    · rw [if_pos (this.2 h), if_pos h, BitVec.toNat_add]
      have : (0x61#8 - 0x41#8).toNat = 32 := by decide
      rw [this]; omega
    · rw [if_neg (fun h' => h (this.1 h')), if_neg h]
  have hc := c.isLt
  have hd := d.isLt
  constructor
  · intro h
    have h := congrArg BitVec.toNat h
    rw [h1, h1] at h
    by_cases e : c.toNat = d.toNat
    · exact .inl (BitVec.eq_of_toNat_eq e)
    · right
      split at h <;> split at h
      · omega
      · exact ⟨c.toNat - 65, by omega, .inl ⟨by omega, by omega⟩⟩
      · exact ⟨d.toNat - 65, by omega, .inr ⟨by omega, by omega⟩⟩
      · omega
  · intro h
    apply BitVec.eq_of_toNat_eq
    rw [h1, h1]
    rcases h with h | ⟨i, hi, h | h⟩
    · rw [h]
    · split <;> split <;> omega
    · split <;> split <;> omega

theorem ciLoop_true (x y : List (BitVec 8)) (n : Nat) : ∀ i, i + n = y.length →
    x.length = y.length →
    (ciLoop x y i n = true ↔ (x.drop i).map lower = (y.drop i).map lower) := by
  induction n with
  | zero =>
    intro i hi hl
    simp [ciLoop, List.drop_eq_nil_of_le (by omega : x.length ≤ i),
      List.drop_eq_nil_of_le (by omega : y.length ≤ i)]
  | succ n ih =>
    intro i hi hl
    have hx : i < x.length := by omega
    have hy : i < y.length := by omega
    rw [List.drop_eq_getElem_cons hx, List.drop_eq_getElem_cons hy]
    simp only [ciLoop, List.getElem?_eq_getElem hx, List.getElem?_eq_getElem hy, Bool.and_eq_true,
      Bool.or_eq_true, beq_iff_eq, List.map_cons, List.cons.injEq]
    rw [ih (i + 1) (by omega) hl]
    constructor
    · rintro ⟨h | h, h'⟩
      · exact ⟨by rw [h], h'⟩
      · exact ⟨h, h'⟩
    · rintro ⟨h, h'⟩
      exact ⟨.inr h, h'⟩

theorem ciEq_iff_map (x y : List (BitVec 8)) : ciEq x y = true ↔ x.map lower = y.map lower := by
  unfold ciEq
  by_cases hl : x.length = y.length
  · rw [Bool.and_eq_true, ciLoop_true x y _ 0 (by simp) hl]; simp [hl]
  · have : x.map lower ≠ y.map lower := fun e => hl (by simpa using congrArg List.length e)
    simp [hl, this]

/-- C135. Two strings name the same symbol exactly if they have the same length and the same
    characters but for the case of the letters `A` to `Z`. -/
theorem symbol_names_equal (x y : List (BitVec 8)) :
    ciEq x y = true ↔ x.length = y.length ∧
      ∀ (i : Nat) (hx : i < x.length) (hy : i < y.length), SameLetter x[i] y[i] := by
  rw [ciEq_iff_map]
  constructor
  · intro h
    have hl : x.length = y.length := by simpa using congrArg List.length h
    refine ⟨hl, ?_⟩
    intro i hx hy
    rw [← lower_iff]
    have := congrArg (fun l => l[i]?) h
    simpa [List.getElem?_eq_getElem hx, List.getElem?_eq_getElem hy] using this
  · rintro ⟨hl, h⟩
    apply List.ext_getElem
    · simp [hl]
    · intro i h1 h2
      simp only [List.getElem_map]
      exact (lower_iff _ _).2 (h i (by simpa using h1) (by simpa using h2))

example : ciEq [0x46#8, 0x6F#8, 0x4F#8] [0x66#8, 0x4F#8, 0x6F#8] = true ∧
    ciEq [0x40#8] [0x60#8] = false := by decide

/-- The mask of the hash function does not tell the cases of a letter apart. -/
theorem mask_lower (c : BitVec 8) : lower c &&& 0x9F#8 = c &&& 0x9F#8 := by
  have : ∀ i : Fin 256, lower (BitVec.ofFin i) &&& 0x9F#8 = BitVec.ofFin i &&& 0x9F#8 := by
    decide +kernel
  exact this c.toFin

/-- C135. Names of one symbol have the same hash code. -/
theorem symbol_hash_respects : Respects ciEq ciHash := by
  have key : ∀ (x : List (BitVec 8)) (h : Int),
      (x.map lower).foldl (fun hash c => (hash * 64 + ((c &&& 0x9F#8).toNat : Int)) % 970747) h =
      x.foldl (fun hash c => (hash * 64 + ((c &&& 0x9F#8).toNat : Int)) % 970747) h := by
    intro x
    induction x with
    | nil => intro h; rfl
    | cons c x ih => intro h; rw [List.map_cons, List.foldl_cons, List.foldl_cons, mask_lower, ih]
  intro a b h
  rw [ciEq_iff_map] at h
  unfold ciHash
  rw [← key a, ← key b, h]

/-- C135. The hash code of a symbol's name is an `<integer>`. -/
theorem symbol_hash_integer (x : List (BitVec 8)) : InRange (ciHash x) :=
  foldl_mod_range (fun c : BitVec 8 => ((c &&& 0x9F#8).toNat : Int)) x (by simp [InRange])

/-- The world of the symbol table. -/
def symbolWorld (spur : Nat → Bool) : World (List (BitVec 8)) where
  eq := ciEq
  hash _ := ciHash
  spur := spur

theorem symbolWorld_lawful (spur : Nat → Bool) : (symbolWorld spur).Lawful where
  refl a := (ciEq_iff_map a a).2 rfl
  symm a b h := (ciEq_iff_map b a).2 ((ciEq_iff_map a b).1 h).symm
  trans a b c h h' := (ciEq_iff_map a c).2 (((ciEq_iff_map a b).1 h).trans ((ciEq_iff_map b c).1 h'))
  hash_eq _ a b h := symbol_hash_respects a b h

/-- C135. The table of symbols is a map from names up to case. -/
theorem symbol_table_is_map {V : Type} (spur : Nat → Bool) {initial : Int} {grow : Int → Int}
    {T : Tab (List (BitVec 8)) V} (hT : Verif.Table.make initial grow = some T) {fuel : Nat}
    {ops : List (Op (List (BitVec 8)) V)} {os : List (Obs (List (BitVec 8)) V)}
    {s : Verif.Table.St (List (BitVec 8)) V}
    (hrun : Verif.Table.run (symbolWorld spur) fuel (Verif.Table.start T) ops = .ok (os, s)) :
    ∃ sp, Verif.Table.SpecRun ciEq Verif.Table.SpecSt.init ops os sp :=
  Verif.Table.table_is_map (symbolWorld_lawful spur) hT hrun

/-! ### collections -/

section collections
variable {K E : Type} {test : K → K → Bool} {eq : E → E → Bool}

theorem find_some (ht : Equivalence' test) {c : List (K × E)} (hd : Distinct test c) {k : K} {e : E} :
    find test k c = some e ↔ IsAt test c k e := by
  induction c with
  | nil => simp [find, IsAt]
  | cons p c ih =>
    obtain ⟨k', e'⟩ := p
    obtain ⟨hp, hd'⟩ := List.pairwise_cons.1 hd
    simp only [find]
    split
    · rename_i h
      constructor
      · intro e1; exact ⟨k', by simp [Option.some.inj e1], h⟩
      · rintro ⟨k2, hm, h2⟩
        rcases List.mem_cons.1 hm with hm | hm
        · rw [Prod.mk.injEq] at hm; rw [hm.2]
        · have := hp _ hm
          rw [ht.trans _ _ _ h (ht.symm _ _ h2)] at this
          cases this
    · rename_i h
      rw [ih hd']
      constructor
      · rintro ⟨k2, hm, h2⟩; exact ⟨k2, List.mem_cons_of_mem _ hm, h2⟩
      · rintro ⟨k2, hm, h2⟩
        rcases List.mem_cons.1 hm with hm | hm
        · rw [Prod.mk.injEq] at hm; rw [hm.1] at h2; exact absurd h2 h
        · exact ⟨k2, hm, h2⟩

theorem collLoop_true (c2 : List (K × E)) (b : Bool) (l : List (K × E)) :
    collLoop test eq c2 b l = true ↔
      b = true ∧ ∀ p ∈ l, ∃ e, find test p.1 c2 = some e ∧ eq p.2 e = true := by
  induction l generalizing b with
  | nil => simp [collLoop]
  | cons p l ih =>
    obtain ⟨k, e1⟩ := p
    simp only [collLoop]
    cases b with
    | false => simp
    | true =>
      simp only [if_true, ih, true_and, List.mem_cons, forall_eq_or_imp]
      cases find test k c2 <;> simp

/-- Taking the entry with a given key out of a collection. -/
theorem take_out (ht : Equivalence' test) {c : List (K × E)} (hd : Distinct test c) {k k' : K} {e : E}
    (hm : (k', e) ∈ c) (hk : test k' k = true) :
    ∃ c', c.Perm ((k', e) :: c') ∧ Distinct test c' ∧ ∀ p ∈ c', test p.1 k = false := by
  obtain ⟨a, b, rfl⟩ := List.append_of_mem hm
  refine ⟨a ++ b, List.perm_middle, ?_, ?_⟩
  · exact hd.sublist (by simp)
  · intro p hp
    have hd2 : Distinct test ((k', e) :: (a ++ b)) := by
      refine List.Perm.pairwise List.perm_middle hd ?_
      intro x y h
      cases h' : test y.1 x.1 with
      | false => rfl
      | true => rw [ht.symm _ _ h'] at h; cases h
    have := (List.pairwise_cons.1 hd2).1 p hp
    cases h' : test p.1 k with
    | false => rfl
    | true =>
      rw [ht.trans _ _ _ hk (ht.symm _ _ h')] at this
      cases this

/-- Two collections of one size, the first part of the second: they can be matched up. -/
theorem match_up (ht : Equivalence' test) : ∀ (c1 c2 : List (K × E)), Distinct test c1 →
    Distinct test c2 → c1.length = c2.length →
    (∀ p ∈ c1, ∃ e, IsAt test c2 p.1 e ∧ eq p.2 e = true) →
    ∃ c2', c2.Perm c2' ∧ List.Forall₂ (fun p q => test q.1 p.1 = true ∧ eq p.2 q.2 = true) c1 c2' := by
  intro c1
  induction c1 with
  | nil =>
    intro c2 _ _ hl _
    have : c2 = [] := List.length_eq_zero_iff.1 hl.symm
    subst this
    exact ⟨[], List.Perm.refl _, .nil⟩
  | cons p c1 ih =>
    intro c2 hd1 hd2 hl h
    obtain ⟨e, ⟨k', hm, hk⟩, he⟩ := h p (by simp)
    obtain ⟨c', hperm, hd', hne⟩ := take_out ht hd2 hm hk
    obtain ⟨hp1, hd1'⟩ := List.pairwise_cons.1 hd1
    have hl' : c1.length = c'.length := by
      have := hperm.length_eq; simp at this hl; omega
    obtain ⟨c2', hp2, hf⟩ := ih c' hd1' hd' hl' (by
      intro q hq
      obtain ⟨e', ⟨k2, hm2, hk2⟩, he'⟩ := h q (List.mem_cons_of_mem _ hq)
      refine ⟨e', ⟨k2, ?_, hk2⟩, he'⟩
      rcases List.mem_cons.1 (hperm.mem_iff.1 hm2) with h2 | h2
      · rw [Prod.mk.injEq] at h2
        have h3 := hp1 q hq
        rw [h2.1] at hk2
        rw [ht.trans _ _ _ (ht.symm _ _ hk) hk2] at h3
        cases h3
      · exact h2)
    exact ⟨(k', e) :: c2', hperm.trans (hp2.cons _), .cons ⟨hk, he⟩ hf⟩

theorem forall2_right {α β : Type} {R : α → β → Prop} {l : List α} {l' : List β}
    (h : List.Forall₂ R l l') : ∀ b ∈ l', ∃ a ∈ l, R a b := by
  induction h with
  | nil => intro b hb; cases hb
  | cons h _ ih =>
    intro b hb
    rcases List.mem_cons.1 hb with hb | hb
    · exact ⟨_, List.mem_cons_self, by rw [hb]; exact h⟩
    · obtain ⟨a, ha, hr⟩ := ih b hb
      exact ⟨a, List.mem_cons_of_mem _ ha, hr⟩

/-- C135. `=` on two collections with the same key test is true exactly if they are the same maps:
    the same keys, with elements that are `=`. -/
theorem collection_equal (ht : Equivalence' test) {c1 c2 : List (K × E)} (hd1 : Distinct test c1)
    (hd2 : Distinct test c2) : collEq test eq c1 c2 = true ↔ SameMap test eq c1 c2 := by
  have half : (∀ p ∈ c1, ∃ e, find test p.1 c2 = some e ∧ eq p.2 e = true) ↔
      (∀ p ∈ c1, ∃ e, IsAt test c2 p.1 e ∧ eq p.2 e = true) := by
    simp only [find_some ht hd2]
  have moved : ∀ {c : List (K × E)} {k k' : K} {e : E}, IsAt test c k e → test k k' = true →
      IsAt test c k' e := by
    rintro c k k' e ⟨k2, hm, h⟩ h'
    exact ⟨k2, hm, ht.trans _ _ _ h h'⟩
  constructor
  · intro h
    unfold collEq at h
    split at h
    · cases h
    · rename_i hl
      have hl : c1.length = c2.length := by simpa using hl
      rw [collLoop_true, half] at h
      obtain ⟨c2', hp, hf⟩ := match_up ht c1 c2 hd1 hd2 hl h.2
      constructor
      · rintro k e ⟨k', hm, hk⟩
        obtain ⟨e', h1, h2⟩ := h.2 _ hm
        exact ⟨e', moved h1 hk, h2⟩
      · rintro k e ⟨k', hm, hk⟩
        obtain ⟨p, hp1, h1, h2⟩ := forall2_right hf _ (hp.mem_iff.1 hm)
        exact ⟨p.2, ⟨p.1, hp1, ht.trans _ _ _ (ht.symm _ _ h1) hk⟩, h2⟩
  · rintro ⟨h1, h2⟩
    have hA : ∀ p ∈ c1, ∃ e, IsAt test c2 p.1 e ∧ eq p.2 e = true := by
      intro p hp
      exact h1 p.1 p.2 ⟨p.1, hp, ht.refl _⟩
    -- the keys of each are among those of the other, so the sizes agree
    have count : ∀ (a b : List (K × E)), Distinct test a → Distinct test b →
        (∀ p ∈ a, ∃ q ∈ b, test q.1 p.1 = true) → a.length ≤ b.length := by
      intro a
      induction a with
      | nil => intro b _ _ _; simp
      | cons p a ih =>
        intro b hda hdb h
        obtain ⟨q, hq, hk⟩ := h p (by simp)
        obtain ⟨b', hperm, hdb', hne⟩ := take_out (e := q.2) ht hdb (k' := q.1) hq hk
        obtain ⟨hp1, hda'⟩ := List.pairwise_cons.1 hda
        have := ih b' hda' hdb' (by
          intro r hr
          obtain ⟨s, hs, hk2⟩ := h r (List.mem_cons_of_mem _ hr)
          rcases List.mem_cons.1 (hperm.mem_iff.1 hs) with h2 | h2
          · rw [h2] at hk2
            have h3 := hp1 r hr
            rw [ht.trans _ _ _ (ht.symm _ _ hk) hk2] at h3
            cases h3
          · exact ⟨s, h2, hk2⟩)
        have hl := hperm.length_eq
        simp at hl ⊢
        omega
    have hl : c1.length = c2.length := by
      apply Nat.le_antisymm
      · apply count c1 c2 hd1 hd2
        intro p hp
        obtain ⟨e, ⟨k', hm, hk⟩, _⟩ := hA p hp
        exact ⟨_, hm, hk⟩
      · apply count c2 c1 hd2 hd1
        intro p hp
        obtain ⟨e, ⟨k', hm, hk⟩, _⟩ := h2 p.1 p.2 ⟨p.1, hp, ht.refl _⟩
        exact ⟨_, hm, hk⟩
    unfold collEq
    rw [if_neg (by simpa using hl), collLoop_true, half]
    exact ⟨rfl, hA⟩

/-- The key test `=` on natural numbers. -/
theorem beq_equivalence : Equivalence' (fun a b : Nat => a == b) where
  refl a := by simp
  symm a b h := by simpa using (by simpa using h : a = b).symm
  trans a b c h h' := by simp at h h' ⊢; omega

example : collEq (fun a b : Nat => a == b) (fun a b : Nat => a == b) [(1, 5), (2, 6)] [(2, 6), (1, 5)]
      = true ∧
    SameMap (fun a b : Nat => a == b) (fun a b : Nat => a == b) [(1, 5), (2, 6)] [(2, 6), (1, 5)] :=
  ⟨by decide, (collection_equal beq_equivalence (by simp [Distinct]) (by simp [Distinct])).1 (by decide)⟩

theorem ofInt_logxor (a b : Int) :
    BitVec.ofInt 64 (logxor a b) = BitVec.ofInt 64 a ^^^ BitVec.ofInt 64 b := by
  unfold logxor; rw [BitVec.ofInt_toInt]

/-- The hash code of a collection does not depend on the order of iteration. -/
theorem collectionHash_perm (f : K → Int) (g : E → Int) {c c' : List (K × E)} (h : c.Perm c') :
    collectionHash f g false c = collectionHash f g false c' := by
  unfold collectionHash
  refine h.foldl_eq' ?_ 0
  intro p _ q _ z
  have swap : ∀ x y : Int, logxor y (logxor x z) = logxor x (logxor y z) := by
    intro x y
    unfold logxor
    rw [BitVec.ofInt_toInt, BitVec.ofInt_toInt]
    congr 1
    rw [← BitVec.xor_assoc, ← BitVec.xor_assoc, BitVec.xor_comm (BitVec.ofInt 64 y)]
  simp only [mergeIds]
  exact swap _ _

/-- C135. Collections that are `=` have the same `collection-hash`, whatever their classes and the
    order of iteration, if the hash functions given agree with the key test and with `=` on the
    elements. -/
theorem collection_hash_respects (ht : Equivalence' test) {keyHash : K → Int} {elementHash : E → Int}
    (hk : Respects test keyHash) (he : Respects eq elementHash) {c1 c2 : List (K × E)}
    (hd1 : Distinct test c1) (hd2 : Distinct test c2) (h : collEq test eq c1 c2 = true) :
    collectionHash keyHash elementHash false c1 = collectionHash keyHash elementHash false c2 := by
  unfold collEq at h
  split at h
  · cases h
  · rename_i hl
    rw [collLoop_true] at h
    obtain ⟨c2', hp, hf⟩ := match_up (eq := eq) ht c1 c2 hd1 hd2 (by simpa using hl) (by
      intro p hp
      obtain ⟨e, h1, h2⟩ := h.2 p hp
      exact ⟨e, (find_some ht hd2).1 h1, h2⟩)
    rw [collectionHash_perm _ _ hp]
    unfold collectionHash
    generalize (0 : Int) = z
    clear hp h hl hd1 hd2
    induction hf generalizing z with
    | nil => rfl
    | cons h1 _ ih =>
      rw [List.foldl_cons, List.foldl_cons, ih, he _ _ h1.2, hk _ _ h1.1]

example : collectionHash (fun k : Nat => (k : Int)) (fun e : Nat => (e : Int) * 7) false
      [(1, 5), (2, 6), (3, 9)] =
    collectionHash (fun k : Nat => (k : Int)) (fun e : Nat => (e : Int) * 7) false
      [(3, 9), (1, 5), (2, 6)] :=
  collection_hash_respects (test := fun a b => a == b) (eq := fun a b => a == b) beq_equivalence
    (by intro a b h; simp at h; rw [h]) (by intro a b h; simp at h; rw [h])
    (by simp [Distinct]) (by simp [Distinct]) (by decide)

/-- The option `ordered: #t` of `collection-hash` gives up this property. -/
theorem collection_hash_ordered_violated :
    collEq (fun a b : Nat => a == b) (fun a b : Nat => a == b) [(1, 5), (2, 6)] [(2, 6), (1, 5)] = true ∧
    collectionHash (fun k : Nat => (k : Int)) (fun e : Nat => (e : Int)) true [(1, 5), (2, 6)] ≠
      collectionHash (fun k : Nat => (k : Int)) (fun e : Nat => (e : Int)) true [(2, 6), (1, 5)] := by
  decide

/-- C135. Two sequences are `=` exactly if they have the same length and elements that are `=` in
    order. -/
theorem sequence_equal (x y : List E) : seqEq eq x y = true ↔
    x.length = y.length ∧ ∀ (i : Nat) (hx : i < x.length) (hy : i < y.length),
      eq x[i] y[i] = true := by
  induction x generalizing y with
  | nil => cases y <;> simp [seqEq]
  | cons a x ih => cases y with
    | nil => simp [seqEq]
    | cons b y =>
      simp only [seqEq, Bool.and_eq_true, ih, List.length_cons, Nat.add_right_cancel_iff]
      constructor
      · rintro ⟨h, hl, hi⟩
        refine ⟨hl, ?_⟩
        intro i hx hy
        cases i with
        | zero => exact h
        | succ i => exact hi i (by omega) (by omega)
      · rintro ⟨hl, hi⟩
        exact ⟨hi 0 (by omega) (by omega), hl, fun i hx hy => hi (i + 1) (by omega) (by omega)⟩

/-- C135. Sequences that are `=` have the same `sequence-hash`. -/
theorem sequence_hash_respects {elementHash : E → Int} (he : Respects eq elementHash) :
    Respects (seqEq eq) (sequenceHash elementHash) := by
  intro x y h
  unfold sequenceHash
  generalize (0 : Int) = z
  induction x generalizing y z with
  | nil => cases y with
    | nil => rfl
    | cons => cases h
  | cons a x ih => cases y with
    | nil => cases h
    | cons b y =>
      simp only [seqEq, Bool.and_eq_true] at h
      rw [List.foldl_cons, List.foldl_cons, he _ _ h.1, ih y h.2]

/-- C135. The hash codes of collections and sequences are `<integer>`s. -/
theorem collection_hash_integer {keyHash : K → Int} {elementHash : E → Int} (ordered : Bool)
    (c : List (K × E)) (hk : ∀ p ∈ c, InRange (keyHash p.1)) (he : ∀ p ∈ c, InRange (elementHash p.2)) :
    InRange (collectionHash keyHash elementHash ordered c) := by
  unfold collectionHash
  have : ∀ z, InRange z → InRange (c.foldl (fun id p =>
      mergeIds id (mergeIds (elementHash p.2) (keyHash p.1) true) ordered) z) := by
    induction c with
    | nil => intro z hz; exact hz
    | cons p c ih =>
      intro z hz
      rw [List.foldl_cons]
      exact ih (fun q hq => hk q (by simp [hq])) (fun q hq => he q (by simp [hq])) _
        (mergeIds_range _ hz (mergeIds_range _ (he p (by simp)) (hk p (by simp))))
  exact this 0 (by simp [InRange])

theorem sequence_hash_integer {elementHash : E → Int} (s : List E)
    (he : ∀ e ∈ s, InRange (elementHash e)) : InRange (sequenceHash elementHash s) := by
  unfold sequenceHash
  have : ∀ z, InRange z → InRange (s.foldl (fun id e => mergeIds id (elementHash e) true) z) := by
    induction s with
    | nil => intro z hz; exact hz
    | cons p s ih =>
      intro z hz
      rw [List.foldl_cons]
      exact ih (fun q hq => he q (by simp [hq])) _ (mergeIds_range _ hz (he p (by simp)))
  exact this 0 (by simp [InRange])

end collections

end Verif.Hash
