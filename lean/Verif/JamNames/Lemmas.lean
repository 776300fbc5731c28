import Verif.JamNames.Model
import Verif.JamNames.Spec
/-
Lemmas on the words of a string and on the search for separators.
-/
namespace Verif.JamNames
open Verif.Common (Res splitFun splitLoop copySeq)

theorem gristEnd_some {l : List Char} {e : Nat} (h : gristEnd l = some e) :
    ∃ a r, l = a ++ '>' :: r ∧ '>' ∉ a ∧ a.length = e := by
  induction l generalizing e with
  | nil => simp [gristEnd] at h
  | cons c r ih =>
    unfold gristEnd at h
    by_cases hc : c = '>'
    · rw [if_pos hc] at h
      cases h
      exact ⟨[], r, by simp [hc], by simp, rfl⟩
    · rw [if_neg hc] at h
      cases hr : gristEnd r with
      | none => rw [hr] at h; cases h
      | some e' =>
        rw [hr] at h
        cases h
        obtain ⟨a, r', h1, h2, h3⟩ := ih hr
        refine ⟨c :: a, r', by rw [h1]; rfl, ?_, by simp [h3]⟩
        intro hm
        rcases List.mem_cons.1 hm with hm | hm
        · exact hc hm.symm
        · exact h2 hm

theorem gristEnd_of {a r : List Char} (h : '>' ∉ a) : gristEnd (a ++ '>' :: r) = some a.length := by
  induction a with
  | nil => simp [gristEnd]
  | cons c a ih =>
    have hc : c ≠ '>' := fun e => h (by simp [e])
    have := ih (fun e => h (by simp [e]))
    simp [gristEnd, hc, this]

theorem splitter_some (d : Char → Bool) (a : Int) (rest : List Char) :
    ∀ (pre : List Char) (k : Nat), rest.length < k →
    splitterLoop d (pre ++ rest) ((pre ++ rest).length : Nat) k (pre.length : Nat) (some a) =
      some (a, ((pre.length + (rest.takeWhile d).length : Nat) : Int)) := by
  induction rest with
  | nil =>
    intro pre k hk
    obtain ⟨k, rfl⟩ : ∃ k', k = k' + 1 := ⟨k - 1, by simp at hk; omega⟩
    simp [splitterLoop]
  | cons c r ih =>
    intro pre k hk
    obtain ⟨k, rfl⟩ : ∃ k', k = k' + 1 := ⟨k - 1, by omega⟩
    have hlt : ¬ ((pre.length : Nat) : Int) ≥ ((pre ++ c :: r).length : Nat) := by simp; omega
    have hget : (pre ++ c :: r)[(((pre.length : Nat) : Int)).toNat]? = some c := by simp
    unfold splitterLoop
    rw [if_neg hlt, hget]
    by_cases hd : d c = true
    · have := ih (pre ++ [c]) k (by simp at hk; omega)
      simp only [List.append_assoc, List.cons_append, List.nil_append] at this
      simp only [hd, if_true, Option.getD_some, List.takeWhile_cons]
      have e : ((pre.length : Nat) : Int) + 1 = ((pre ++ [c]).length : Nat) := by simp
      rw [e, this]
      simp; omega
    · simp [hd]

theorem splitter_none (d : Char → Bool) (rest : List Char) :
    ∀ (pre : List Char) (k : Nat), rest.length < k →
    splitterLoop d (pre ++ rest) ((pre ++ rest).length : Nat) k (pre.length : Nat) none =
      if rest.dropWhile (fun c => !d c) = [] then none
      else some (((pre.length + (rest.takeWhile (fun c => !d c)).length : Nat) : Int),
        ((pre.length + (rest.takeWhile (fun c => !d c)).length + ((rest.dropWhile (fun c => !d c)).takeWhile d).length : Nat) : Int)) := by
  induction rest with
  | nil =>
    intro pre k hk
    obtain ⟨k, rfl⟩ : ∃ k', k = k' + 1 := ⟨k - 1, by simp at hk; omega⟩
    simp [splitterLoop]
  | cons c r ih =>
    intro pre k hk
    obtain ⟨k, rfl⟩ : ∃ k', k = k' + 1 := ⟨k - 1, by omega⟩
    have hlt : ¬ ((pre.length : Nat) : Int) ≥ ((pre ++ c :: r).length : Nat) := by simp; omega
    have hget : (pre ++ c :: r)[(((pre.length : Nat) : Int)).toNat]? = some c := by simp
    have e : ((pre.length : Nat) : Int) + 1 = ((pre ++ [c]).length : Nat) := by simp
    unfold splitterLoop
    rw [if_neg hlt, hget]
    by_cases hd : d c = true
    · have := splitter_some d (pre.length : Nat) r (pre ++ [c]) k (by simp at hk; omega)
      simp only [List.append_assoc, List.cons_append, List.nil_append] at this
      simp only [hd, if_true, Option.getD_none]
      rw [e, this]
      simp [hd]; omega
    · have := ih (pre ++ [c]) k (by simp at hk; omega)
      simp only [List.append_assoc, List.cons_append, List.nil_append] at this
      simp only [hd]
      rw [if_neg (by simp), e, this]
      simp only [List.dropWhile_cons, List.takeWhile_cons, hd]
      simp
      split <;> simp <;> omega

theorem words_skip_all {d : Char → Bool} {l : List Char} {ws : List (List Char)} (s : List Char)
    (hs : ∀ c ∈ s, d c = true) (h : Words d l ws) : Words d (s ++ l) ws := by
  induction s with
  | nil => exact h
  | cons c s ih => exact .skip (hs c (by simp)) (ih (fun c hc => hs c (by simp [hc])))

theorem words_whole {d : Char → Bool} {w : List Char} (h0 : w ≠ []) (hw : ∀ c ∈ w, d c = false) : Words d w [w] := by
  have := Words.word (d := d) (l := []) h0 hw (by simp) .nil
  simpa using this

theorem mem_takeWhile {p : Char → Bool} {l : List Char} {c : Char} (h : c ∈ l.takeWhile p) : p c = true := by
  have := List.all_takeWhile (p := p) (l := l)
  exact List.all_eq_true.1 this c h

theorem copySeq_mid (pre a r : List Char) :
    copySeq (pre ++ (a ++ r)) ((pre.length : Nat) : Int) ((pre.length + a.length : Nat) : Int) = some a := by
  unfold copySeq
  rw [if_neg (by simp; omega), Int.toNat_natCast, Int.toNat_natCast, List.take_length_add_append]
  simp

theorem head_dropWhile (p : Char → Bool) (l : List Char) : ∀ c ∈ (l.dropWhile p).head?, p c = false := by
  intro c hc
  have := List.head?_dropWhile_not p l
  cases h : (l.dropWhile p).head? with
  | none => rw [h] at hc; cases hc
  | some x => rw [h] at hc this; cases hc; simpa using this

theorem splitLoop_words (d : Char → Bool) (str : List Char) (count : Int) (k : Nat) (hk : str.length < k) :
    ∀ (fuel : Nat) (pre rest : List Char) (parts : List (List Char)) (nparts : Int), str = pre ++ rest →
    rest.length < fuel → nparts + rest.length ≤ count →
    ∃ ws, splitLoop str (fun b e => splitterLoop d str e k b none) (str.length : Nat) count true fuel (pre.length : Nat) parts nparts =
      .ok (ws.reverse ++ parts) ∧ Words d rest ws := by
  intro fuel
  induction fuel with
  | zero => intro pre rest parts nparts _ h; omega
  | succ fuel ih =>
    intro pre rest parts nparts hs hf hc
    have hfind := splitter_none d rest pre k (by rw [hs] at hk; simp at hk; omega)
    rw [← hs] at hfind
    generalize hA : rest.takeWhile (fun c => !d c) = A at hfind
    generalize hB : rest.dropWhile (fun c => !d c) = B at hfind
    have hAB : rest = A ++ B := by rw [← hA, ← hB, List.takeWhile_append_dropWhile]
    have hAd : ∀ c ∈ A, d c = false := by
      intro c hc
      rw [← hA] at hc
      simpa using mem_takeWhile hc
    have hBh : ∀ c ∈ B.head?, d c = true := by
      intro c hc
      rw [← hB] at hc
      simpa using head_dropWhile _ _ c hc
    unfold splitLoop
    simp only [hfind]
    by_cases hB0 : B = []
    · subst hB0
      have hcopy : copySeq str ((pre.length : Nat) : Int) ((str.length : Nat) : Int) = some rest := by
        have := copySeq_mid pre rest []
        simp only [List.append_nil] at this
        rw [hs]
        simpa using this
      simp only [if_true, Option.filter_none, hcopy]
      simp only [List.append_nil] at hAB
      by_cases hr : rest = []
      · exact ⟨[], by simp [hr], by rw [hr]; exact .nil⟩
      · refine ⟨[rest], by simp [hr], words_whole hr (by rw [hAB]; exact hAd)⟩
    · rw [if_neg hB0]
      generalize hS : B.takeWhile d = S
      generalize hR : B.dropWhile d = R
      have hSR : B = S ++ R := by rw [← hS, ← hR, List.takeWhile_append_dropWhile]
      have hSd : ∀ c ∈ S, d c = true := by
        intro c hc
        rw [← hS] at hc
        exact mem_takeWhile hc
      have hSpos : 0 < S.length := by
        cases B with
        | nil => exact absurd rfl hB0
        | cons c B' =>
          have : d c = true := hBh c (by simp)
          rw [← hS]; simp [this]
      have hlen : str.length = pre.length + (A.length + (S.length + R.length)) := by
        rw [hs, hAB, hSR]; simp
      have hrl : rest.length = A.length + (S.length + R.length) := by rw [hAB, hSR]; simp
      have hle : ((pre.length + A.length + S.length : Nat) : Int) ≤ ((str.length : Nat) : Int) := by omega
      rw [Option.filter_some, if_pos (by simpa using hle)]
      have hne : ¬ (((pre.length + A.length : Nat) : Int) = ((pre.length + A.length + S.length : Nat) : Int)) := by omega
      have hcopy : copySeq str ((pre.length : Nat) : Int) ((pre.length + A.length : Nat) : Int) = some A := by
        rw [hs, hAB]; exact copySeq_mid pre A B
      have hbpos : ((pre.length + A.length + S.length : Nat) : Int) = (((pre ++ A ++ S).length : Nat) : Int) := by simp; omega
      simp only [if_neg hne, hcopy]
      have hwB : ∀ {ws}, Words d R ws → Words d B ws := fun h => by rw [hSR]; exact words_skip_all S hSd h
      by_cases hA0 : A = []
      · simp only [hA0, and_self, if_true]
        obtain ⟨ws, h1, h2⟩ := ih (pre ++ A ++ S) R parts nparts (by rw [hs, hAB, hSR]; simp) (by omega) (by omega)
        rw [← hbpos] at h1
        simp only [hA0] at h1
        refine ⟨ws, h1, ?_⟩
        rw [hAB, hA0]
        exact hwB h2
      · have hAl : 0 < A.length := List.length_pos_iff.2 hA0
        rw [if_neg (by simp [hA0]), if_pos (by omega)]
        obtain ⟨ws, h1, h2⟩ := ih (pre ++ A ++ S) R (A :: parts) (nparts + 1) (by rw [hs, hAB, hSR]; simp) (by omega) (by omega)
        rw [← hbpos] at h1
        refine ⟨A :: ws, by rw [h1]; simp, ?_⟩
        rw [hAB]
        exact .word hA0 hAd hBh (hwB h2)

theorem splitString_words (d : Char → Bool) (str : List Char) : ∃ ws, splitString d str = .ok ws ∧ Words d str ws := by
  obtain ⟨ws, h1, h2⟩ := splitLoop_words d str ((str.length : Nat) + 1) (str.length + 2) (by omega) (str.length + 2) [] str [] 1
    (by simp) (by omega) (by omega)
  refine ⟨ws, ?_, h2⟩
  unfold splitString splitFun
  simp only [Option.getD_none, List.length_nil] at h1 ⊢
  rw [show ((0 : Nat) : Int) = 0 from rfl] at h1
  rw [h1]
  simp

theorem tokenizeLoop_words (delim : Char) (var : List Char) (rest : List Char) :
    ∀ (pre w : List Char) (strings : List (List Char)), var = pre ++ (w ++ rest) → (∀ c ∈ w, (c == delim) = false) →
    ∃ ws, tokenizeLoop delim var rest (pre.length + w.length) pre.length strings = some (strings ++ ws) ∧
      Words (· == delim) (w ++ rest) ws := by
  induction rest with
  | nil =>
    intro pre w strings hv hw
    unfold tokenizeLoop collectString
    by_cases h0 : w = []
    · exact ⟨[], by simp [h0], by rw [h0]; exact .nil⟩
    · have hl : 0 < w.length := List.length_pos_iff.2 h0
      rw [if_neg (by omega), hv, copySeq_mid]
      exact ⟨[w], rfl, by rw [List.append_nil]; exact words_whole h0 hw⟩
  | cons c r ih =>
    intro pre w strings hv hw
    unfold tokenizeLoop
    by_cases hc : c = delim
    · rw [if_pos hc]
      unfold collectString
      by_cases h0 : w = []
      · subst h0
        obtain ⟨ws, h1, h2⟩ := ih (pre ++ [c]) [] strings (by rw [hv]; simp) (by simp)
        refine ⟨ws, ?_, .skip (by simp [hc]) h2⟩
        simpa using h1
      · have hl : 0 < w.length := List.length_pos_iff.2 h0
        rw [if_neg (by omega)]
        have hcp : copySeq var ((pre.length : Nat) : Int) ((pre.length + w.length : Nat) : Int) = some w := by
          rw [hv]; exact copySeq_mid pre w (c :: r)
        simp only [hcp, Option.map_some]
        obtain ⟨ws, h1, h2⟩ := ih (pre ++ w ++ [c]) [] (strings ++ [w]) (by rw [hv]; simp) (by simp)
        refine ⟨w :: ws, ?_, .word h0 hw (by simp [hc]) (.skip (by simp [hc]) h2)⟩
        simpa [Nat.add_assoc] using h1
    · rw [if_neg hc]
      obtain ⟨ws, h1, h2⟩ := ih pre (w ++ [c]) strings (by rw [hv]; simp)
        (by
          intro x hx
          rcases List.mem_append.1 hx with hx | hx
          · exact hw x hx
          · rw [List.mem_singleton.1 hx]; simpa using hc)
      refine ⟨ws, ?_, by simpa using h2⟩
      simpa [Nat.add_assoc] using h1

theorem word_cut {d : Char → Bool} {w v l m : List Char} (hw : ∀ c ∈ w, d c = false) (hv : ∀ c ∈ v, d c = false)
    (hl : ∀ c ∈ l.head?, d c = true) (hm : ∀ c ∈ m.head?, d c = true) (h : w ++ l = v ++ m) : w = v ∧ l = m := by
  induction w generalizing v with
  | nil =>
    cases v with
    | nil => exact ⟨rfl, h⟩
    | cons x v =>
      simp only [List.nil_append] at h
      subst h
      have h1 := hl x (by simp)
      have h2 := hv x (by simp)
      rw [h1] at h2; cases h2
  | cons y w ih =>
    cases v with
    | nil =>
      simp only [List.nil_append] at h
      subst h
      have h1 := hm y (by simp)
      have h2 := hw y (by simp)
      rw [h1] at h2; cases h2
    | cons x v =>
      simp only [List.cons_append, List.cons.injEq] at h
      obtain ⟨h1, h2⟩ := ih (fun c hc => hw c (by simp [hc])) (fun c hc => hv c (by simp [hc])) h.2
      exact ⟨by rw [h.1, h1], h2⟩

theorem Words.unique {d : Char → Bool} {l : List Char} {ws vs : List (List Char)} (h : Words d l ws) (h' : Words d l vs) : ws = vs := by
  induction h generalizing vs with
  | nil =>
    generalize hl : ([] : List Char) = l at h'
    cases h' with
    | nil => rfl
    | skip _ _ => cases hl
    | @word w l' _ h0 _ _ _ =>
      cases w with
      | nil => exact absurd rfl h0
      | cons _ _ => cases hl
  | @skip c l ws hc _ ih =>
    generalize hl : c :: l = l' at h'
    cases h' with
    | nil => cases hl
    | skip _ h2 => cases hl; exact ih h2
    | @word w l' _ h0 hw _ _ =>
      cases w with
      | nil => exact absurd rfl h0
      | cons x _ =>
        have : d x = false := hw x (by simp)
        simp only [List.cons_append, List.cons.injEq] at hl
        rw [← hl.1, hc] at this; cases this
  | @word w l ws h0 hw hl _ ih =>
    generalize he : w ++ l = l' at h'
    cases h' with
    | nil =>
      cases w with
      | nil => exact absurd rfl h0
      | cons _ _ => cases he
    | @skip c _ _ hc _ =>
      cases w with
      | nil => exact absurd rfl h0
      | cons x _ =>
        have : d x = false := hw x (by simp)
        simp only [List.cons_append, List.cons.injEq] at he
        rw [he.1, hc] at this; cases this
    | @word v m vs _ hv hm h2 =>
      obtain ⟨h3, h4⟩ := word_cut hw hv hl hm he
      subst h3; subst h4
      rw [ih h2]

end Verif.JamNames
