import Verif.JamSelect.Model
import Verif.JamSelect.Spec
/-
Lemmas on the reading of numbers and on members.
-/
namespace Verif.JamSelect
open Verif.Common (copySeq)
open Verif.IntString (stringToInteger readDigits characterToInteger fits skipBlanks readSign whitespace)

theorem char_digit {c : Char} (h : '0'.toNat ≤ c.toNat ∧ c.toNat ≤ '9'.toNat) :
    characterToInteger c = some (c.toNat - '0'.toNat) ∧ c.toNat - '0'.toNat < 10 := by
  have h0 : '0'.toNat = 48 := rfl
  have h9 : '9'.toNat = 57 := rfl
  rw [h0, h9] at h
  rw [h0]
  unfold characterToInteger
  rw [if_pos (by omega)]
  exact ⟨rfl, by omega⟩

def numFrom (v : Nat) (ds : List Char) : Nat := ds.foldl (fun v c => v * 10 + (c.toNat - '0'.toNat)) v

theorem numFrom_ge (v : Nat) (ds : List Char) : v ≤ numFrom v ds := by
  induction ds generalizing v with
  | nil => exact Nat.le_refl _
  | cons c ds ih =>
    have := ih (v * 10 + (c.toNat - '0'.toNat))
    have e : numFrom v (c :: ds) = numFrom (v * 10 + (c.toNat - '0'.toNat)) ds := rfl
    omega

theorem fits_of {n : Nat} {z : Int} (hz : z = n) (h : n < 2 ^ 61) : fits z = true := by
  unfold fits
  subst hz
  simp
  omega

theorem readDigits_num (ds tail : List Char) (ht : ∀ c ∈ tail.head?, characterToInteger c = none) :
    ∀ (v i : Nat) (valid : Bool), (∀ c ∈ ds, '0'.toNat ≤ c.toNat ∧ c.toNat ≤ '9'.toNat) → numFrom v ds < 2 ^ 61 →
    readDigits 10 1 (ds ++ tail) i valid v = some (valid || !ds.isEmpty, ((numFrom v ds : Nat) : Int), i + ds.length) := by
  induction ds with
  | nil =>
    intro v i valid _ _
    cases tail with
    | nil => simp [readDigits, numFrom]
    | cons c tail =>
      have := ht c (by simp)
      simp [readDigits, this, numFrom]
  | cons c ds ih =>
    intro v i valid hd hn
    obtain ⟨h1, h2⟩ := char_digit (hd c (by simp))
    have e : numFrom v (c :: ds) = numFrom (v * 10 + (c.toNat - '0'.toNat)) ds := rfl
    rw [e] at hn ⊢
    have hge := numFrom_ge (v * 10 + (c.toNat - '0'.toNat)) ds
    have := ih (v * 10 + (c.toNat - '0'.toNat)) (i + 1) true (fun c hc => hd c (by simp [hc])) hn
    generalize hk : c.toNat - '0'.toNat = k at *
    simp only [List.cons_append]
    unfold readDigits
    rw [h1]
    simp only
    rw [if_neg (show ¬ ((k : Nat) : Int) ≥ 10 by omega)]
    have f1 : fits ((v : Int) * 10) = true := fits_of (n := v * 10) (by simp) (by omega)
    have f2 : fits ((k : Int) * 1) = true := fits_of (n := k) (by simp) (by omega)
    have f3 : fits ((v : Int) * 10 + (k : Int) * 1) = true := fits_of (n := v * 10 + k) (by simp) (by omega)
    rw [f1, f2, f3]
    have e2 : (v : Int) * 10 + (k : Int) * 1 = ((v * 10 + k : Nat) : Int) := by simp
    rw [e2, this]
    simp; omega

theorem read_number (pre ds tail : List Char) (n : Nat) (h : Writes ds n)
    (ht : ∀ c ∈ tail.head?, characterToInteger c = none) :
    stringToInteger (pre ++ (ds ++ tail)) 10 (pre.length : Nat) none (some 0) = .ok (((n : Nat) : Int), ((pre.length + ds.length : Nat) : Int)) := by
  obtain ⟨h0, hd, hn, hlt⟩ := h
  have hl : 0 < ds.length := List.length_pos_iff.2 h0
  have hr : readDigits 10 1 (ds ++ tail) pre.length false 0 = some (true, ((n : Nat) : Int), pre.length + ds.length) := by
    have := readDigits_num ds tail ht 0 pre.length false hd (by show num ds < _; omega)
    have e : numFrom 0 ds = n := hn
    rw [e] at this
    have h0' : ds.isEmpty = false := by simp [h0]
    simpa [h0'] using this
  unfold stringToInteger
  have hst : (((pre.length : Nat) : Int) = 0 ∨ (((pre.length : Nat) : Int) > 0 ∧ ((pre.length : Nat) : Int) < ((pre ++ (ds ++ tail)).length : Nat))) := by
    rw [List.length_append, List.length_append]; omega
  rw [if_neg (not_not_intro hst)]
  simp only [Option.any_none]
  rw [if_neg (by simp), if_neg (by omega)]
  simp only [Option.getD_none, Int.toNat_natCast, List.take_length, List.drop_left]
  have hsb : skipBlanks (ds ++ tail) pre.length = (ds ++ tail, pre.length) := by
    cases ds with
    | nil => exact absurd rfl h0
    | cons c ds =>
      have hc := hd c (by simp)
      have : whitespace c = false := by
        unfold whitespace
        simp only [decide_eq_false_iff_not]
        intro hm
        simp only [List.mem_cons, List.not_mem_nil, or_false] at hm
        rcases hm with hm | hm | hm | hm | hm <;> subst hm <;> revert hc <;> decide
      simp [skipBlanks, this]
  have hrs : readSign (ds ++ tail) pre.length = (1, ds ++ tail, pre.length) := by
    cases ds with
    | nil => exact absurd rfl h0
    | cons c ds =>
      have hc := hd c (by simp)
      have h1 : c ≠ '+' := by intro e; subst e; revert hc; decide
      have h2 : c ≠ '-' := by intro e; subst e; revert hc; decide
      simp only [List.cons_append]
      unfold readSign
      split
      · rename_i e; cases e; exact absurd rfl h1
      · rename_i e; cases e; exact absurd rfl h2
      · rfl
  simp only [hsb, hrs, hr]

theorem filterMap_zipIdx {α : Type} (l : List α) (k n m : Nat) :
    (l.zipIdx k).filterMap (fun p => if n ≤ p.2 ∧ p.2 ≤ m then some p.1 else none) = (l.take (m + 1 - k)).drop (n - k) := by
  induction l generalizing k with
  | nil => simp
  | cons x l ih =>
    rw [List.zipIdx_cons, List.filterMap_cons, ih]
    by_cases hm : k ≤ m
    · have e1 : m + 1 - k = (m + 1 - (k + 1)) + 1 := by omega
      rw [e1, List.take_succ_cons]
      by_cases hn : n ≤ k
      · have e2 : n - k = 0 := by omega
        have e3 : n - (k + 1) = 0 := by omega
        simp [hm, hn, e2, e3]
      · have e2 : n - k = (n - (k + 1)) + 1 := by omega
        rw [e2, List.drop_succ_cons]
        simp [hn]
    · have e1 : m + 1 - k = 0 := by omega
      have e2 : m + 1 - (k + 1) = 0 := by omega
      simp [hm, e1, e2]

theorem members_eq {α : Type} (l : List α) (n m : Nat) : members l n m = (l.take m).drop (n - 1) := by
  unfold members
  rw [filterMap_zipIdx]; simp

theorem one_members {α : Type} (l : List α) (n : Nat) (h1 : 1 ≤ n) (h2 : n ≤ l.length) : one l n = some (members l n n) := by
  have e : ((n : Int) - 1).toNat = n - 1 := by omega
  unfold one
  rw [if_neg (by omega), e, members_eq, List.getElem?_eq_getElem (by omega)]
  simp only [Option.map_some, Option.some.injEq]
  apply List.ext_getElem
  · simp; omega
  · intro i h3 h4
    simp at h3
    subst h3
    simp

theorem copy_members {α : Type} (l : List α) (n m : Nat) (h1 : 1 ≤ n) (h2 : n ≤ m + 1) (h3 : m ≤ l.length) :
    copySeq l ((n : Int) - 1) (m : Nat) = some (members l n m) := by
  have e : ((n : Int) - 1).toNat = n - 1 := by omega
  unfold copySeq
  rw [if_neg (by omega), e, members_eq, Int.toNat_natCast]

theorem thenColon_at {α : Type} (colon : List α → Int → Option (List α)) (v tail : List Char) (r : List α) (i : Nat) (hi : i = v.length) :
    thenColon colon (v ++ tail) (i : Nat) r = if tail.head? = some ':' then colon r ((i : Nat) + 1) else some r := by
  subst hi
  unfold thenColon
  cases tail with
  | nil => simp
  | cons c t =>
    have : ((v.length : Nat) : Int) < ((v ++ c :: t).length : Nat) := by simp; omega
    simp only [this, true_and]
    simp

end Verif.JamSelect
