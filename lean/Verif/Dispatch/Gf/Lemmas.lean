/-
Lemmas about the list of methods of a generic function.
-/
import Verif.Dispatch.Gf.Spec
import Verif.Dispatch.Engine.Props

namespace Verif.Dispatch.Gf
open Verif.Types Verif.Dispatch
variable {C : Type} [DecidableEq C]

theorem copyOverWithout_eq {α : Type} : ∀ (l : List α) (i : Nat), copyOverWithout l i = l.eraseIdx i
  | [], _ => by simp [copyOverWithout]
  | _ :: _, 0 => by simp [copyOverWithout]
  | x :: l, i + 1 => by simp [copyOverWithout, copyOverWithout_eq l i]

theorem shiftDown_set {α : Type} (m : α) (R : List α) : ∀ (B A : List α) (x : α),
    (shiftDown (A ++ x :: (B ++ R)) A.length B.length).set (A.length + B.length) m =
      A ++ (B ++ m :: R)
  | [], A, x => by simp [shiftDown]
  | b :: B, A, x => by
    have ih := shiftDown_set m R B (A ++ [b]) b
    simp only [List.length_append, List.length_cons, List.length_nil] at ih
    have h : (A ++ x :: ((b :: B) ++ R))[A.length + 1]? = some b := by
      rw [List.getElem?_append_right (by omega)]
      simp
    simp only [List.length_cons, shiftDown, h]
    have h2 : (A ++ x :: ((b :: B) ++ R)).set A.length b = (A ++ [b]) ++ b :: (B ++ R) := by
      simp [List.set_append]
    rw [h2, show A.length + (B.length + 1) = A.length + (0 + 1) + B.length by omega]
    rw [show A.length + 1 = A.length + (0 + 1) by omega, ih]
    simp

theorem split_at {α : Type} {l : List α} {i : Nat} {x : α} (h : l[i]? = some x) :
    ∃ A R, l = A ++ x :: R ∧ A.length = i := by
  obtain ⟨hi, rfl⟩ := List.getElem?_eq_some_iff.1 h
  exact ⟨l.take i, l.drop (i + 1), by simp, by simp; omega⟩

/-- The entries, with the library of the rest written out. -/
theorem entries_append {glib : Nat} {A B : List (Meth C)} {L : List Nat} {n : Node C}
    (h : A.length = L.length) :
    entries glib { meths := A ++ B, libs := L, root := n } =
      A.zip L ++ B.map fun m => (m, glib) := by
  simp only [entries, List.length_append, h]
  rw [List.zip_append h]
  congr 1
  have : L.length + B.length - L.length = B.length := by omega
  rw [this]
  clear h this
  induction B with
  | nil => rfl
  | cons b B ih => simp [List.replicate_succ, ih]

theorem split_len {α : Type} (l : List α) {n : Nat} (h : n ≤ l.length) :
    ∃ A B, l = A ++ B ∧ A.length = n :=
  ⟨l.take n, l.drop n, by simp, by simp [h]⟩

theorem locate_some {K : DWorld C} {nreq : Nat} {m : Meth C} : ∀ {l : List (Meth C)} {i k : Nat}
    {x : Meth C}, l[i]? = some x → sameSpecs K nreq x m = true →
    (∀ j < i, ∀ y, l[j]? = some y → sameSpecs K nreq y m = false) →
    locate K nreq m l k = some (x, k + i)
  | [], _, _, _, h, _, _ => by simp at h
  | y :: l, 0, k, x, h, hs, _ => by
    simp at h; subst h
    simp [locate, hs]
  | y :: l, i + 1, k, x, h, hs, hb => by
    have h0 := hb 0 (by omega) y (by simp)
    simp only [locate, h0]
    rw [if_neg (by simp), locate_some (i := i) (by simpa using h) hs
      (fun j hj z hz => hb (j + 1) (by omega) z (by simpa using hz))]
    congr 2; omega

theorem locate_none {K : DWorld C} {nreq : Nat} {m : Meth C} : ∀ {l : List (Meth C)} {k : Nat},
    (∀ y ∈ l, sameSpecs K nreq y m = false) → locate K nreq m l k = none
  | [], _, _ => rfl
  | y :: l, k, h => by
    simp only [locate, h y (by simp)]
    rw [if_neg (by simp)]
    exact locate_none fun z hz => h z (by simp [hz])

/-- Replacing a method, except the first of those without a library of their own. -/
theorem add_replace {K : DWorld C} {nreq glib : Nat} {g : Gf C} {m old : Meth C} {lib idx : Nat}
    (hlen : g.libs.length ≤ g.meths.length) (hi : g.meths[idx]? = some old)
    (hloc : locate K nreq m g.meths 0 = some (old, idx)) (hne : lib = glib ∨ idx ≠ g.libs.length) :
    (entries glib (addMethod K nreq glib g m lib).2).Perm
      ((m, lib) :: (entries glib g).eraseIdx idx) ∧
    (addMethod K nreq glib g m lib).2.meths.length = g.meths.length ∧
    (addMethod K nreq glib g m lib).2.libs.length ≤ g.meths.length := by
  obtain ⟨meths, libs, root⟩ := g
  simp only at hlen hi hloc hne
  simp only [addMethod, hloc]
  by_cases h1 : idx < libs.length
  · rw [if_pos h1]
    obtain ⟨P, R, rfl, hP⟩ := split_len meths hlen
    have hiP : P[idx]? = some old := by
      rw [List.getElem?_append_left (by omega)] at hi; exact hi
    obtain ⟨A, B, rfl, hA⟩ := split_at hiP
    obtain ⟨l, hl⟩ : ∃ l, libs[idx]? = some l := ⟨libs[idx], by simp [h1]⟩
    obtain ⟨LA, LB, rfl, hLA⟩ := split_at hl
    have hAL : A.length = LA.length := by omega
    have hBL : B.length = LB.length := by simp at hP; omega
    have hE : entries glib { meths := (A ++ old :: B) ++ R, libs := LA ++ l :: LB, root := root } =
        A.zip LA ++ (old, l) :: (B.zip LB ++ R.map fun m => (m, glib)) := by
      rw [entries_append (by simp; omega), List.zip_append hAL]
      simp
    have hEr : (entries glib { meths := (A ++ old :: B) ++ R, libs := LA ++ l :: LB, root := root }).eraseIdx
        idx = A.zip LA ++ (B.zip LB ++ R.map fun m => (m, glib)) := by
      rw [hE]
      have : idx = (A.zip LA).length := by simp; omega
      rw [this, List.eraseIdx_append_of_length_le (by simp)]
      simp
    rw [hEr]
    by_cases h2 : lib ≠ glib
    · rw [if_pos h2]
      have e1 : ((A ++ old :: B) ++ R).set idx m = (A ++ m :: B) ++ R := by
        subst hA; simp [List.set_append]
      have e2 : (LA ++ l :: LB).set idx lib = LA ++ lib :: LB := by
        subst hLA; simp [List.set_append]
      simp only [e1, e2]
      refine ⟨?_, by simp, by simp at hP ⊢; omega⟩
      rw [entries_append (by simp; omega), List.zip_append hAL]
      simp only [List.zip_cons_cons, List.append_assoc, List.cons_append]
      exact List.perm_middle
    · rw [if_neg h2]
      push Not at h2
      subst h2
      have hn : (LA ++ l :: LB).length - 1 - idx = B.length := by simp; omega
      have hn2 : (LA ++ l :: LB).length - 1 = A.length + B.length := by simp; omega
      have e1 := shiftDown_set m R B A old
      rw [hn, hn2]
      subst hA
      have e0 : (A ++ old :: B) ++ R = A ++ old :: (B ++ R) := by simp
      simp only [e0, e1, copyOverWithout_eq]
      have e2 : (LA ++ l :: LB).eraseIdx A.length = LA ++ LB := by
        rw [← hLA, List.eraseIdx_append_of_length_le (by simp)]; simp
      simp only [e2]
      refine ⟨?_, by simp; omega, by simp; omega⟩
      rw [show A ++ (B ++ m :: R) = (A ++ B) ++ m :: R by simp, entries_append (by simp; omega),
        List.zip_append hAL]
      simp only [List.map_cons, List.append_assoc]
      rw [← List.append_assoc, ← List.append_assoc]
      exact List.perm_middle
  · rw [if_neg h1]
    have hle : libs.length ≤ idx := by omega
    by_cases h2 : lib ≠ glib
    · rw [if_pos h2]
      have h3 : idx ≠ libs.length := hne.resolve_left h2
      rw [if_pos h3]
      obtain ⟨P, R', rfl, hP⟩ := split_len meths hlen
      rw [List.getElem?_append_right (by omega)] at hi
      obtain ⟨B', R, rfl, hB'⟩ := split_at hi
      cases B' with
      | nil => simp at hB'; omega
      | cons y B =>
        have hy : (P ++ (y :: B ++ old :: R))[libs.length]? = some y := by
          rw [List.getElem?_append_right (by omega)]; simp [hP]
        simp only [hy]
        have e1 : (P ++ (y :: B ++ old :: R)).set idx y = P ++ (y :: (B ++ y :: R)) := by
          have : idx = P.length + (B.length + 1) := by simp at hB'; omega
          subst this
          rw [List.set_append]
          simp [List.set_append]
        have e2 : (P ++ (y :: (B ++ y :: R))).set libs.length m = (P ++ [m]) ++ (B ++ y :: R) := by
          rw [← hP]; simp [List.set_append]
        simp only [e1, e2]
        refine ⟨?_, by simp, by simp; omega⟩
        rw [entries_append (by simp; omega), List.zip_append hP, entries_append hP]
        have hidx : idx = (P.zip libs).length + ((y :: B).length) := by simp at hB' ⊢; omega
        rw [hidx, List.eraseIdx_append_of_length_le (by simp)]
        have : ((y :: B ++ old :: R).map fun m => (m, glib)).eraseIdx
            ((P.zip libs).length + (y :: B).length - (P.zip libs).length) =
            (y :: B ++ R).map fun m => (m, glib) := by
          rw [List.map_append, List.eraseIdx_append_of_length_le (by simp)]
          simp
        rw [this]
        simp only [List.zip_cons_cons, List.zip_nil_right, List.append_assoc, List.map_append,
          List.map_cons, List.cons_append, List.nil_append]
        refine List.perm_middle.trans (List.Perm.cons _ (List.Perm.append_left _ ?_))
        exact List.perm_middle
    · rw [if_neg h2]
      push Not at h2
      subst h2
      obtain ⟨P, R', rfl, hP⟩ := split_len meths hlen
      rw [List.getElem?_append_right (by omega)] at hi
      obtain ⟨B, R, rfl, hB⟩ := split_at hi
      have e1 : (P ++ (B ++ old :: R)).set idx m = P ++ (B ++ m :: R) := by
        have : idx = P.length + B.length := by omega
        subst this
        simp [List.set_append]
      simp only [e1]
      refine ⟨?_, by simp, by simp; omega⟩
      rw [entries_append hP, entries_append hP]
      have hidx : idx = (P.zip libs).length + B.length := by simp; omega
      rw [hidx, List.eraseIdx_append_of_length_le (by simp)]
      have : ((B ++ old :: R).map fun m => (m, lib)).eraseIdx
          ((P.zip libs).length + B.length - (P.zip libs).length) =
          (B ++ R).map fun m => (m, lib) := by
        rw [List.map_append, List.eraseIdx_append_of_length_le (by simp)]
        simp
      rw [this]
      simp only [List.map_append, List.map_cons]
      rw [← List.append_assoc, ← List.append_assoc]
      exact List.perm_middle

theorem add_new {K : DWorld C} {nreq glib : Nat} {g : Gf C} {m : Meth C} {lib : Nat}
    (hloc : locate K nreq m g.meths 0 = none) :
    entries glib (addMethod K nreq glib g m lib).2 = (m, lib) :: entries glib g := by
  simp only [addMethod, hloc, entries]
  simp

theorem removeFrom_spec {glib : Nat} {g : Gf C} {m : Meth C} : ∀ (P l : List (Meth C)) (i : Nat),
    P.length = i → g.meths = P ++ l → m ∉ P → g.libs.length ≤ g.meths.length →
    (m ∉ l → removeFrom g m l i = (none, g)) ∧
    (m ∈ l → (removeFrom g m l i).1 = some m ∧ (removeFrom g m l i).2.root = g.root ∧
      (removeFrom g m l i).2.libs.length ≤ (removeFrom g m l i).2.meths.length ∧
      ∃ k, g.meths[k]? = some m ∧ (∀ j < k, g.meths[j]? ≠ some m) ∧
        entries glib (removeFrom g m l i).2 = (entries glib g).eraseIdx k)
  | P, [], i, _, _, _, _ => by simp [removeFrom]
  | P, x :: l, i, hi, hg, hP, hlen => by
    by_cases hx : x = m
    · subst hx
      refine ⟨by simp, fun _ => ?_⟩
      simp only [removeFrom, if_true, copyOverWithout_eq]
      have e1 : g.meths.eraseIdx i = P ++ l := by
        rw [hg, List.eraseIdx_append_of_length_le (by omega)]
        simp [hi]
      refine ⟨trivial, trivial, ?_, i, by rw [hg]; simp [← hi], ?_, ?_⟩
      · simp only [e1]
        rw [hg] at hlen
        by_cases h : i < g.libs.length
        · rw [if_pos h, List.length_eraseIdx_of_lt h]; simp at hlen ⊢; omega
        · rw [if_neg h]; simp at hlen ⊢; omega
      · intro j hj he
        rw [hg, List.getElem?_append_left (by omega)] at he
        exact hP (List.mem_of_getElem? he)
      · simp only [e1]
        rw [hg] at hlen
        by_cases h : i < g.libs.length
        · rw [if_pos h]
          obtain ⟨meths, libs, root⟩ := g
          simp only at *
          subst hg
          obtain ⟨b, hb⟩ : ∃ b, libs[i]? = some b := ⟨libs[i], by simp [h]⟩
          obtain ⟨LA, LB, rfl, hLA⟩ := split_at hb
          have e2 : (LA ++ b :: LB).eraseIdx i = LA ++ LB := by
            subst hLA; rw [List.eraseIdx_append_of_length_le (by simp)]; simp
          rw [e2]
          obtain ⟨A, B, rfl, hA⟩ := split_len l (n := LB.length) (by simp at hlen; omega)
          rw [show P ++ (A ++ B) = (P ++ A) ++ B by simp, entries_append (by simp; omega),
            show P ++ x :: (A ++ B) = (P ++ x :: A) ++ B by simp, entries_append (by simp; omega),
            List.zip_append (by omega), List.zip_append (by omega)]
          have : i = (P.zip LA).length := by simp; omega
          rw [this]
          simp only [List.zip_cons_cons, List.append_assoc, List.cons_append]
          rw [List.eraseIdx_append_of_length_le (by simp)]
          simp
        · rw [if_neg h]
          obtain ⟨meths, libs, root⟩ := g
          simp only at *
          subst hg
          obtain ⟨A, B, rfl, hA⟩ := split_len P (n := libs.length) (by omega)
          rw [List.append_assoc, List.append_assoc, entries_append hA, entries_append hA]
          have : i = (A.zip libs).length + B.length := by simp at hi ⊢; omega
          rw [this, List.eraseIdx_append_of_length_le (by simp), List.map_append, List.map_append,
            List.eraseIdx_append_of_length_le (by simp)]
          simp
    · have ih := removeFrom_spec (glib := glib) (g := g) (m := m) (P ++ [x]) l (i + 1) (by simp [hi])
        (by simp [hg]) (by simp [hP, Ne.symm hx]) hlen
      simp only [removeFrom, if_neg hx]
      refine ⟨fun h => ih.1 (by simp at h; exact h.2), fun h => ih.2 ?_⟩
      rcases List.mem_cons.1 h with h | h
      · exact absurd h.symm hx
      · exact h

end Verif.Dispatch.Gf
