import Verif.Header.Lemmas

/-!
# C147: the headers of source files

A file is a list of lines (`LinesOk`, `textOf`; `every_file`).  The header are the lines before the first blank one; a line with a
keyword is followed by its continuation lines, which are indented (`groups`).
-/

namespace Verif.Header

/-- C147: every file has lines. -/
theorem every_file (file : List Char) : ∃ ls, LinesOk ls ∧ textOf ls = file := lines_exist _ file (Nat.le_refl _)

/-- The lines read and the lines after them are the file. -/
theorem consumed_body (ls : List Line) : textOf (consumed ls) ++ textOf (bodyOf ls) = textOf ls := by
  unfold textOf consumed bodyOf headerOf
  rw [← List.flatMap_append, List.append_assoc, List.take_append_drop, List.takeWhile_append_dropWhile]

/-- C147: if the header is well formed, then the table has for each keyword its strings in their order, the number of lines is
that of the lines up to the blank one, and the position is the end of that line. -/
theorem header_read (ls : List Line) (h : LinesOk ls) (hh : HeaderOk ls) :
    readHeader (textOf ls) = some (valueOf ls, ((consumed ls).filter fun l => l.ending ≠ []).length,
      (textOf (consumed ls)).length) := by
  have h1 : enterAll (fun _ => []) (groups (headerOf ls)) = some (valueOf ls) := by
    rw [enterAll_some _ _ hh.1 (fun _ _ _ => rfl) (hh.2.imp fun hp he => (mem_unique _).2 (hp he))]
    rfl
  rw [readHeader, readLoop_text ls.length ls _ _ _ (Nat.le_refl _) h (by omega), h1]
  simp only [Option.map_some, Nat.zero_add, Option.some.injEq, Prod.mk.injEq, true_and]
  refine ⟨rfl, ?_⟩
  rw [← consumed_body ls, List.length_append]
  omega

/-- C147: the source begins at this position. -/
theorem source_begins (ls : List Line) (h : LinesOk ls) (keys : Keys) (lines chars : Nat)
    (hr : readHeader (textOf ls) = some (keys, lines, chars)) : (textOf ls).drop chars = textOf (bodyOf ls) := by
  rw [readHeader, readLoop_text ls.length ls _ _ _ (Nat.le_refl _) h (by omega)] at hr
  cases he : enterAll (fun _ => []) (groups (headerOf ls)) with
  | none =>
    rw [he] at hr
    exact absurd hr (by simp)
  | some k =>
    rw [he] at hr
    simp only [Option.map_some, Option.some.injEq, Prod.mk.injEq] at hr
    rw [← hr.2.2, ← consumed_body ls, List.length_append, Nat.add_sub_cancel, List.drop_left]

/-- C147: the header is refused exactly if it is not well formed. -/
theorem header_refused (ls : List Line) (h : LinesOk ls) : readHeader (textOf ls) = none ↔ ¬ HeaderOk ls := by
  constructor
  · intro hn hh
    rw [header_read ls h hh] at hn
    exact absurd hn (by simp)
  · intro hh
    rw [readHeader, readLoop_text ls.length ls _ _ _ (Nat.le_refl _) h (by omega)]
    cases he : enterAll (fun _ => []) (groups (headerOf ls)) with
    | none => rfl
    | some k =>
      obtain ⟨h1, _, h3⟩ := enterAll_none _ _ k he
      exact absurd ⟨h1, h3.imp fun hp e => (mem_unique _).1 (hp e)⟩ hh

/-- C147: what is stripped are spaces and tabs, and none are left at the ends. -/
theorem strip_spec (s : List Char) : ∃ a b, s = a ++ strip s ++ b ∧ (∀ c ∈ a ++ b, c = ' ' ∨ c = '\t') ∧
    ∀ c, (strip s).head? = some c ∨ (strip s).getLast? = some c → c ≠ ' ' ∧ c ≠ '\t' := by
  have hw : ∀ c, white c = true ↔ c = ' ' ∨ c = '\t' := fun c => by simp [white]
  have hnot : ∀ c, white c = false → c ≠ ' ' ∧ c ≠ '\t' := by
    intro c h
    constructor
    · rintro rfl
      exact absurd h (by decide)
    · rintro rfl
      exact absurd h (by decide)
  have htake : ∀ (l : List Char), ∀ c ∈ l.takeWhile white, c = ' ' ∨ c = '\t' := by
    intro l c hc
    have := List.all_takeWhile (p := white) (l := l)
    rw [List.all_eq_true] at this
    exact (hw c).1 (this c hc)
  have hd : s.dropWhile white = strip s ++ ((s.dropWhile white).reverse.takeWhile white).reverse := by
    unfold strip
    rw [← List.reverse_append, List.takeWhile_append_dropWhile, List.reverse_reverse]
  refine ⟨s.takeWhile white, ((s.dropWhile white).reverse.takeWhile white).reverse, ?_, ?_, ?_⟩
  · rw [List.append_assoc, ← hd, List.takeWhile_append_dropWhile]
  · intro c hc
    rcases List.mem_append.1 hc with hc | hc
    · exact htake _ c hc
    · exact htake _ c (List.mem_reverse.1 hc)
  · intro c hc
    refine hnot c ?_
    rcases hc with hc | hc
    · have h1 : (s.dropWhile white).head? = some c := by
        rw [hd, List.head?_append, hc]
        rfl
      have := List.head?_dropWhile_not (p := white) s
      rw [h1] at this
      simpa using this
    · unfold strip at hc
      rw [List.getLast?_reverse] at hc
      have := List.head?_dropWhile_not (p := white) (s.dropWhile white).reverse
      rw [hc] at this
      simpa using this

/-- C147: the module and the language of a source file: the first string of `module` must not be empty; `language` may be missing
or has one string that is not empty. -/
theorem module_and_language (ls : List Line) (h : LinesOk ls) (line : Nat) (m l : List Char) :
    headerData (textOf ls) = some (line, m, l) ↔ HeaderOk ls ∧ line = ((consumed ls).filter fun l => l.ending ≠ []).length ∧
      (∃ s more, valueOf ls "module".toList = s :: more ∧ s ≠ [] ∧ m = symbol s) ∧
      ((valueOf ls "language".toList = [] ∧ l = "infix-dylan".toList) ∨
        ∃ t, valueOf ls "language".toList = [t] ∧ t ≠ [] ∧ l = symbol t) := by
  by_cases hh : HeaderOk ls
  · unfold headerData
    rw [header_read ls h hh, Option.bind_some, dataOf_iff, language_iff]
    exact ⟨fun e => ⟨hh, e⟩, fun e => e.2⟩
  · constructor
    · intro e
      unfold headerData at e
      rw [(header_refused ls h).2 hh] at e
      exact absurd e (by simp)
    · exact fun e => absurd e.1 hh

/-- C147: of the strings of `module` all but the first are ignored. -/
theorem module_lines_violated : headerData "Module: a\n  b\n\nx".toList = some (3, "a".toList, "infix-dylan".toList) ∧
    headerData "Module: a\nLanguage: b\n c\n\nx".toList = none := by
  decide +kernel

/-! ### Examples -/

/-- A file. -/
def sample : List Line := [⟨"Module:\t x ".toList, ['\r', '\n']⟩, ⟨"Author: A".toList, ['\n']⟩, ⟨"   B ".toList, ['\r']⟩,
  ⟨"author: C:".toList, ['\n']⟩, ⟨" ".toList, ['\n']⟩, ⟨"source: 1".toList, []⟩]

theorem sample_lines : LinesOk sample := by
  simp [sample, LinesOk, textOf]

theorem sample_header : HeaderOk sample := by
  have hg : groups (headerOf sample) = [(⟨"Module:\t x ".toList, ['\r', '\n']⟩, []),
      (⟨"Author: A".toList, ['\n']⟩, [⟨"   B ".toList, ['\r']⟩]), (⟨"author: C:".toList, ['\n']⟩, [])] := by
    have h1 : headerOf sample = [⟨"Module:\t x ".toList, ['\r', '\n']⟩, ⟨"Author: A".toList, ['\n']⟩, ⟨"   B ".toList, ['\r']⟩,
      ⟨"author: C:".toList, ['\n']⟩] := rfl
    rw [h1, groups]
    simp only [List.takeWhile, List.dropWhile, Line.indented]
    simp [groups, Line.indented]
  unfold HeaderOk
  rw [hg]
  constructor
  · intro g hm
    simp only [List.mem_cons, List.not_mem_nil, or_false] at hm
    rcases hm with rfl | rfl | rfl <;> decide
  · simp only [List.pairwise_cons, List.mem_cons, List.not_mem_nil, or_false]
    refine ⟨?_, ?_, by simp, List.Pairwise.nil⟩
    · rintro g (rfl | rfl) <;> decide
    · rintro g rfl
      decide

example : (readHeader (textOf sample)).map (fun r => (r.1 "author".toList, r.2)) =
    some (["A".toList, "B".toList, "C:".toList], 5, 42) := by
  decide +kernel

/-- Headers that are refused. -/
example : (readHeader "a: b\nc\n\n".toList).isNone ∧ (readHeader "Module: b\nmodule: c\n\n".toList).isNone := by
  decide +kernel

end Verif.Header
