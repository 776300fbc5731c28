/-
The properties C84 to C88.
-/
import Verif.Locators.Lemmas

namespace Verif.Locators

theorem ProperPath.canonical {path : List Item} (h : ProperPath path) : Canonical path := fun s hs => ⟨(h s hs).2.1, (h s hs).2.2.1⟩

/-- Every directory that is made has a canonical path. -/
theorem makeDir_canonical (path : List Item) (rel : Bool) : Canonical (makeDir path rel).path := by
  intro s hs
  unfold makeDir recanonicalize at hs
  obtain ⟨i, hi, he⟩ := List.mem_map.mp hs
  cases i with
  | self => cases he
  | parent => cases he
  | name t =>
    dsimp only at he
    split_ifs at he with h1 h2
    cases he
    exact ⟨h1, h2⟩

/-! ### C84: strings and locators -/

theorem dirOfString_eq (s : Str) : dirOfString s = ⟨canonicalize (words s), decide (s.head? ≠ some '/')⟩ := by
  unfold dirOfString
  rw [parsePath_eq]

/-- The locator made from a string names the directory the string names. -/
theorem dirOfString_place (cwd : Place) (s : Str) : (dirOfString s).place cwd = posixDir cwd s := by
  rw [dirOfString_eq]
  unfold Dir.place posixDir
  dsimp only
  rw [foldl_canonicalize _ _ (fun t ht => by simpa using (List.mem_filter.mp ht).2)]
  unfold words
  rw [foldl_words]
  congr 1
  unfold origin
  by_cases h : s.head? = some '/' <;> simp [h]

theorem dirOfString_proper (s : Str) : ProperPath (dirOfString s).path := by
  rw [dirOfString_eq]; exact canonicalize_proper s

/-- Every directory locator has a string; reading the string gives the locator again. -/
theorem dir_roundtrip (d : Dir) (h : ProperPath d.path) : ∃ s, dirToString d = some s ∧ dirOfString s = d := by
  refine ⟨_, pathToString_eq d.path d.relative, ?_⟩
  rw [dirOfString_eq]
  cases d with
  | mk path rel =>
    cases rel with
    | true =>
      simp only [if_true, List.nil_append]
      rw [words_printed h, canonicalize_itemName h]
      simp [head_printed h]
    | false =>
      simp only [Bool.false_eq_true, if_false, List.singleton_append]
      have hw : words ('/' :: printed path) = words (printed path) := by simp [words, pieces]
      rw [hw, words_printed h, canonicalize_itemName h]
      simp

/-- The string of a directory locator names the directory the locator names, and ends with a slash unless
    it is empty. -/
theorem dirToString_place (d : Dir) (h : ProperPath d.path) : ∃ s, dirToString d = some s ∧ (∀ cwd, posixDir cwd s = d.place cwd) ∧
    (s = [] ∨ s.getLast? = some '/') := by
  obtain ⟨s, hs, hr⟩ := dir_roundtrip d h
  refine ⟨s, hs, fun cwd => by rw [← dirOfString_place, hr], ?_⟩
  have he : s = (if d.relative then [] else ['/']) ++ printed d.path := Option.some.inj (hs.symm.trans (pathToString_eq d.path d.relative))
  rcases List.eq_nil_or_concat d.path with hp | ⟨init, last, hp⟩
  · cases hr : d.relative
    · exact Or.inr (by rw [he, hp, hr]; rfl)
    · exact Or.inl (by rw [he, hp, hr]; rfl)
  · refine Or.inr ?_
    rw [he, hp]
    have hpr : printed (init.concat last) = (printed init ++ itemName last) ++ ['/'] := by
      unfold printed; simp
    rw [hpr, ← List.append_assoc, List.getLast?_concat]

/-- Printing what was read and reading it again gives the same locator. -/
theorem dir_reread (s : Str) : ∃ t, dirToString (dirOfString s) = some t ∧ dirOfString t = dirOfString s :=
  dir_roundtrip _ (dirOfString_proper s)

/-- Making a file locator from a directory and a name keeps both. -/
theorem file_make_name (d : Option Dir) (name : Str) (cwd : Place) :
    fileName (makeFileNamed d name) = name ∧
      (makeFileNamed d name).place cwd = ((match d with | some d => d.place cwd | none => cwd), name) :=
  ⟨fileName_makeFileNamed d name, makeFileNamed_place d name cwd⟩

theorem slice_prefix {s : Str} {i : Nat} (h : i < s.length) : slice s 0 (i + 1) = slice s 0 i ++ [s[i]] := by
  simp only [slice, List.drop_zero, Nat.sub_zero]
  rw [List.take_add_one, List.getElem?_eq_getElem h]; rfl

/-- The directory part of a string, and what follows it. -/
theorem fileOfString_some {s : Str} {pos : Nat} (hf : findFromEnd s '/' s.length = some pos) :
    ∃ a b, s = a ++ '/' :: b ∧ '/' ∉ b ∧ fileOfString s = makeFileNamed (some (dirOfString (a ++ ['/']))) b := by
  have h := findFromEnd_split hf
  have h1 := findFromEnd_some hf
  refine ⟨slice s 0 pos, slice s (pos + 1) s.length, h.1, h.2, ?_⟩
  have hg : s[pos]'h1.1 = '/' := by
    have := h1.2.1
    rw [List.getElem?_eq_getElem h1.1] at this
    exact Option.some.inj this
  unfold fileOfString
  rw [hf]
  dsimp only
  rw [slice_prefix h1.1, hg]

/-- The locator made from a string names the file the string names. -/
theorem fileOfString_place (cwd : Place) (s : Str) : (fileOfString s).place cwd = posixFile cwd s := by
  cases hf : findFromEnd s '/' s.length with
  | none =>
    have hn := findFromEnd_notMem hf
    have hh : s.head? ≠ some '/' := fun hc => hn (List.mem_of_mem_head? hc)
    unfold fileOfString
    rw [hf]
    dsimp only
    rw [makeFileNamed_place]
    unfold posixFile origin
    rw [pieces_noslash s hn, if_neg hh]; rfl
  | some pos =>
    obtain ⟨a, b, hs, hb, he⟩ := fileOfString_some hf
    rw [he, makeFileNamed_place]
    dsimp only
    rw [dirOfString_place]
    unfold posixFile posixDir
    have h1 : pieces s = pieces a ++ [b] := by rw [hs, pieces_snoc_slash, pieces_noslash b hb]
    have h2 : pieces (a ++ ['/']) = pieces a ++ [[]] := by rw [pieces_snoc_slash]; rfl
    have h3 : origin cwd (a ++ ['/']) = origin cwd s := by
      unfold origin
      rw [hs]
      cases a <;> rfl
    rw [h1, h2, h3, List.dropLast_concat, List.getLast?_concat, List.foldl_append]
    rfl

theorem dirOfString_relative_ne {a : Str} (h : (dirOfString (a ++ ['/'])).relative = true) : (dirOfString (a ++ ['/'])).path ≠ [] := by
  rw [dirOfString_eq] at h ⊢
  dsimp only at h ⊢
  cases a with
  | nil => simp at h
  | cons c a =>
    have hc : c ≠ '/' := by simpa using h
    have : ∃ w ws, words (c :: a ++ ['/']) = w :: ws := by
      unfold words
      rw [List.cons_append, pieces, if_neg hc]
      cases hp : pieces (a ++ ['/']) with
      | nil => exact absurd hp (pieces_ne _)
      | cons p ps => exact ⟨c :: p, ps.filter (· ≠ []), by simp⟩
    obtain ⟨w, ws, hw⟩ := this
    rw [hw]
    simp [canonicalize]

theorem makeFileNamed_extension (d : Option Dir) (name : Str) :
    (∀ e ∈ (makeFileNamed d name).extension, '.' ∉ e) ∧ ((makeFileNamed d name).extension = none → '.' ∉ (makeFileNamed d name).base) := by
  unfold makeFileNamed
  cases hf : findFromEnd name '.' name.length with
  | none => exact ⟨fun e he => by simp at he, fun _ => findFromEnd_notMem hf⟩
  | some pos =>
    refine ⟨fun e he => ?_, fun h => by simp at h⟩
    simp only [Option.mem_def, Option.some.injEq] at he
    rw [← he]
    exact (findFromEnd_split hf).2

theorem fileOfString_proper (s : Str) : ProperFile (fileOfString s) := by
  cases hf : findFromEnd s '/' s.length with
  | none =>
    have hn := findFromEnd_notMem hf
    have he : fileOfString s = makeFileNamed none s := by unfold fileOfString; rw [hf]
    rw [he]
    refine ⟨fun d hd => ?_, by rw [fileName_makeFileNamed]; exact hn, makeFileNamed_extension _ _⟩
    rw [directory_makeFileNamed] at hd
    simp at hd
  | some pos =>
    obtain ⟨a, b, hs, hb, he⟩ := fileOfString_some hf
    rw [he]
    refine ⟨fun d hd => ?_, by rw [fileName_makeFileNamed]; exact hb, makeFileNamed_extension _ _⟩
    rw [directory_makeFileNamed, Option.mem_def, Option.filter_eq_some_iff] at hd
    have hd1 := Option.some.inj hd.1
    subst hd1
    exact ⟨dirOfString_proper _, dirOfString_relative_ne, by simpa using hd.2⟩

/-- The parts of a name give the name, and the name gives the parts. -/
theorem makeFileNamed_fileName {f : File} (hd : ∀ d ∈ f.directory, isCurrent d = false)
    (he : (∀ e ∈ f.extension, '.' ∉ e) ∧ (f.extension = none → '.' ∉ f.base)) : makeFileNamed f.directory (fileName f) = f := by
  have hfl : f.directory.filter (fun d => !isCurrent d) = f.directory := by
    cases h : f.directory with
    | none => rfl
    | some d => simp [Option.filter, hd d (by rw [h]; rfl)]
  cases f with
  | mk dir base ext =>
    cases ext with
    | none =>
      have := he.2 rfl
      unfold makeFileNamed fileName
      dsimp only at this hfl ⊢
      rw [findFromEnd_eq_none this, hfl]
    | some e =>
      have := he.1 e rfl
      unfold makeFileNamed fileName
      dsimp only at this hfl ⊢
      rw [findFromEnd_eq this, hfl]
      simp only [slice, List.length_append, List.length_cons, Nat.sub_zero, List.drop_zero, List.take_left]
      rw [show base.length + (e.length + 1) - (base.length + 1) = e.length by omega, List.drop_length_add_append]
      simp

/-- Every file locator made from a string, or with a name, has a string; reading it gives the locator
    again. -/
theorem file_roundtrip (f : File) (h : ProperFile f) : ∃ s, fileToString f = some s ∧ fileOfString s = f := by
  have hm := makeFileNamed_fileName (fun d hd => (h.dir d hd).2.2) h.extension
  cases hd : f.directory with
  | none =>
    refine ⟨fileName f, by unfold fileToString; rw [hd], ?_⟩
    unfold fileOfString
    rw [findFromEnd_eq_none h.noSlash]
    dsimp only
    rw [← hd]; exact hm
  | some d =>
    have hp := h.dir d (by rw [hd]; rfl)
    obtain ⟨t, ht, hr⟩ := dir_roundtrip d hp.1
    obtain ⟨t', ht', _, hend⟩ := dirToString_place d hp.1
    have htt : t' = t := Option.some.inj (ht'.symm.trans ht)
    subst htt
    have hne : t' ≠ [] := by
      intro hc
      rw [hc] at hr
      have e : (⟨[], true⟩ : Dir) = d := hr
      exact hp.2.1 (by rw [← e]) (by rw [← e])
    have hlast : ∃ a, t' = a ++ ['/'] := by
      rcases hend with hend | hend
      · exact absurd hend hne
      · obtain ⟨ys, hys⟩ := List.getLast?_eq_some_iff.mp hend
        exact ⟨ys, hys⟩
    obtain ⟨a, rfl⟩ := hlast
    refine ⟨a ++ ['/'] ++ fileName f, by unfold fileToString; rw [hd]; dsimp only; rw [ht]; rfl, ?_⟩
    have hs : a ++ ['/'] ++ fileName f = a ++ '/' :: fileName f := by simp
    rw [hs]
    unfold fileOfString
    rw [findFromEnd_eq h.noSlash]
    dsimp only
    have e1 : slice (a ++ '/' :: fileName f) 0 (a.length + 1) = a ++ ['/'] := by
      rw [← hs]
      simp only [slice, List.drop_zero, Nat.sub_zero]
      rw [show a.length + 1 = (a ++ ['/']).length by simp, List.take_left]
    have e2 : slice (a ++ '/' :: fileName f) (a.length + 1) (a ++ '/' :: fileName f).length = fileName f := by
      rw [← hs]
      unfold slice
      rw [show a.length + 1 = (a ++ ['/']).length by simp, List.drop_left, List.take_of_length_le]
      simp only [List.length_append, List.length_cons, List.length_nil]
      omega
    rw [e1, e2, hr, ← hd]
    exact hm

theorem file_reread (s : Str) : ∃ t, fileToString (fileOfString s) = some t ∧ fileOfString t = fileOfString s ∧
    ∀ cwd, posixFile cwd t = posixFile cwd s := by
  obtain ⟨t, h1, h2⟩ := file_roundtrip _ (fileOfString_proper s)
  exact ⟨t, h1, h2, fun cwd => by rw [← fileOfString_place, ← fileOfString_place, h2]⟩

/-! ### C85: simplifying -/

/-- Simplifying keeps the place, whatever the current directory. -/
theorem simplifyDir_place (d : Dir) (h : Canonical d.path) (cwd : Place) : (simplifyDir d).place cwd = d.place cwd := by
  rw [simplifyDir_eq h]
  exact simplifyPath_walk _ _ _

/-- The simplified path goes up first and then down, and has no `.` unless it is only that. -/
theorem simplifyDir_simple (d : Dir) (h : Canonical d.path) : Simple (simplifyDir d).path (simplifyDir d).relative ∧
    (simplifyDir d).relative = d.relative := by
  rw [simplifyDir_eq h]
  exact ⟨simplifyPath_simple _ _, rfl⟩

theorem simplifyDir_canonical (d : Dir) (h : Canonical d.path) : Canonical (simplifyDir d).path := by
  rw [simplifyDir_eq h]
  exact fun s hs => h s (simplifyPath_mem hs)

/-- Simple locators stay as they are; simplifying twice is simplifying once. -/
theorem simplifyDir_idempotent (d : Dir) (h : Canonical d.path) : simplifyDir (simplifyDir d) = simplifyDir d := by
  have hs := (simplifyDir_simple d h).1
  rw [simplifyDir_eq (simplifyDir_canonical d h), simplifyPath_of_simple hs]

/-- Two relative locators that name the same directory from everywhere are simplified to the same
    locator. -/
theorem simplifyDir_complete (d e : Dir) (hd : Canonical d.path) (he : Canonical e.path) (hr : d.relative = true) (hr' : e.relative = true)
    (h : ∀ cwd, d.place cwd = e.place cwd) : simplifyDir d = simplifyDir e := by
  have h1 := (simplifyDir_simple d hd).1
  have h2 := (simplifyDir_simple e he).1
  rw [simplifyDir_eq hd] at h1 ⊢
  rw [simplifyDir_eq he] at h2 ⊢
  dsimp only at h1 h2
  rw [hr] at h1 ⊢
  rw [hr'] at h2 ⊢
  have hu : simplifyPath d.path true = simplifyPath e.path true := by
    refine simple_unique h1 h2 (fun c => ?_)
    rw [simplifyPath_walk, simplifyPath_walk]
    have := h c
    unfold Dir.place at this
    rwa [hr, hr'] at this
  rw [hu]

/-- Two absolute locators for the same directory are simplified to the same locator, if neither goes above
    the root. -/
theorem simplifyDir_complete_absolute_partial (d e : Dir) (hd : Canonical d.path) (he : Canonical e.path) (hr : d.relative = false)
    (hr' : e.relative = false) (hp : Item.parent ∉ (simplifyDir d).path) (hp' : Item.parent ∉ (simplifyDir e).path)
    (h : ∀ cwd, d.place cwd = e.place cwd) : simplifyDir d = simplifyDir e := by
  have key : ∀ {f : Dir}, Canonical f.path → f.relative = false → Item.parent ∉ (simplifyDir f).path →
      simplifyDir f = ⟨(f.place []).map .name, false⟩ := by
    intro f hf hfr hfp
    have hs := (simplifyDir_simple f hf).1
    have hpl := simplifyDir_place f hf []
    rw [simplifyDir_eq hf] at hs hfp hpl ⊢
    dsimp only at hs hfp
    rw [hfr] at hs hfp hpl ⊢
    rcases hs with ⟨n, names, hn, _⟩ | ⟨hc, _⟩
    · have h0 : n = 0 := by
        cases n with
        | zero => rfl
        | succ n => exact absurd (by rw [hn]; simp) hfp
      rw [h0, List.replicate_zero, List.nil_append] at hn
      have : f.place [] = names := by
        rw [← hpl]
        unfold Dir.place
        dsimp only
        rw [hn, walk_names]; rfl
      rw [this, hn]
    · cases hc
  rw [key hd hr hp, key he hr' hp', h []]

/-- `/..` is the root, but it is not simplified to `/`. -/
theorem simplifyDir_complete_absolute_violated : ∃ d e : Dir, ProperPath d.path ∧ ProperPath e.path ∧ d.relative = false ∧ e.relative = false ∧
    (∀ cwd, d.place cwd = e.place cwd) ∧ simplifyDir d ≠ simplifyDir e :=
  ⟨dirOfString "/..".toList, dirOfString "/".toList, dirOfString_proper _, dirOfString_proper _, by decide +kernel, by decide +kernel,
    fun cwd => by rw [dirOfString_place, dirOfString_place]; rfl, by decide +kernel⟩

/-- A locator with a canonical path. -/
def CanonicalFile (f : File) : Prop := ∀ d ∈ f.directory, Canonical d.path

theorem simplifyFile_place (f : File) (h : CanonicalFile f) (cwd : Place) : (simplifyFile f).place cwd = f.place cwd := by
  unfold simplifyFile
  dsimp only
  split_ifs with hc
  · rfl
  · rw [makeFile_place]
    unfold File.place
    have hn : fileName ⟨none, f.base, f.extension⟩ = fileName f := rfl
    rw [hn]
    cases hd : f.directory with
    | none => rfl
    | some d =>
      simp only [Option.map_some]
      rw [simplifyDir_place d (h d (by rw [hd]; rfl))]

/-- Simplifying a file locator twice is simplifying it once. -/
theorem simplifyFile_idempotent (f : File) (h : CanonicalFile f) : simplifyFile (simplifyFile f) = simplifyFile f := by
  have key : ∀ g : File, g.directory.map simplifyDir = g.directory → simplifyFile g = g := by
    intro g hg
    unfold simplifyFile
    dsimp only
    rw [if_pos hg.symm]
  apply key
  unfold simplifyFile
  dsimp only
  split_ifs with hc
  · exact hc.symm
  · unfold makeFile
    dsimp only
    cases hd : f.directory with
    | none => rfl
    | some d =>
      simp only [Option.map_some, Option.filter]
      split_ifs
      · rw [Option.map_some, simplifyDir_idempotent d (h d (by rw [hd]; rfl))]
      · rfl

/-! ### C86: relative locators -/

theorem relativePath_mem {path from' : List Item} {s : Str} (h : Item.name s ∈ relativePath path from') : Item.name s ∈ path := by
  obtain ⟨j, _, _, _, _, hr⟩ := relativePath_spec path from'
  rw [hr, List.mem_append] at h
  rcases h with h | h
  · have := List.eq_of_mem_replicate h; cases this
  · exact List.mem_of_mem_drop h

/-- There is an answer unless the locator is absolute and the other is not, and the answer is relative. -/
theorem relativeDir_total (l from' : Dir) : (relativeDir l from' = none ↔ l.relative = false ∧ from'.relative = true) ∧
    ∀ r ∈ relativeDir l from', r.relative = true := by
  unfold relativeDir
  split_ifs with h1 h2
  · exact ⟨by simp [h1], by simp⟩
  · exact ⟨by simp [h1], by simp [makeDir]⟩
  · exact ⟨by simp [h1], by simp [makeDir]⟩

/-- Merging the relative locator with the place it was made for gives the first place again, if both are
    absolute or both relative and the second has only names after what they share. -/
theorem relativeDir_place_partial (l from' : Dir) (hl : Canonical l.path) (hf : Canonical from'.path) (hr : l.relative = from'.relative)
    (hshare : ∃ (pre rest : List Item) (names : List Str), from'.path = pre ++ names.map .name ∧ l.path = pre ++ rest) :
    ∃ r, relativeDir l from' = some r ∧ ∀ cwd, r.place (from'.place cwd) = l.place cwd ∧ (mergeDir r from').place cwd = l.place cwd := by
  obtain ⟨pre, rest, names, e1, e2⟩ := hshare
  unfold relativeDir
  rw [if_neg (by rw [hr]; intro h; rw [h.1] at h; exact absurd h.2 (by simp))]
  have hself : recanonicalize [Item.self] = [Item.self] := rfl
  split_ifs with hc
  · refine ⟨_, rfl, fun cwd => ?_⟩
    have h1 : (makeDir [.self] true).place (from'.place cwd) = l.place cwd := by
      unfold Dir.place makeDir
      rw [hself, hc, hr]; rfl
    refine ⟨h1, ?_⟩
    unfold mergeDir makeDir
    rw [hself]
    dsimp only
    rw [if_pos rfl, recanonicalize_canonical (fun s hs => hf s (by simpa using hs))]
    unfold Dir.place
    rw [hc, hr]
    simp [List.foldl_append, walk]
  · refine ⟨_, rfl, fun cwd => ?_⟩
    have hcan : Canonical (relativePath l.path from'.path) := fun s hs => hl s (relativePath_mem hs)
    have hw := relativePath_walk e1 e2 (if from'.relative then cwd else [])
    have h1 : (makeDir (relativePath l.path from'.path) true).place (from'.place cwd) = l.place cwd := by
      unfold Dir.place makeDir
      rw [recanonicalize_canonical hcan, hr]
      dsimp only
      rw [if_pos rfl, ← List.foldl_append, hw]
    refine ⟨h1, ?_⟩
    unfold mergeDir makeDir
    rw [recanonicalize_canonical hcan]
    dsimp only
    rw [if_pos rfl, recanonicalize_canonical]
    · unfold Dir.place
      rw [hr]
      exact hw
    · intro s hs
      rcases List.mem_append.mp hs with h | h
      · exact hf s h
      · exact hcan s h

/-- For two absolute, simplified locators below the root the condition holds. -/
theorem relativeDir_place_names_partial (l from' : Dir) (names names' : List Str) (hl : l = ⟨names.map .name, false⟩)
    (hf : from' = ⟨names'.map .name, false⟩) (hp : Canonical l.path) (hp' : Canonical from'.path) :
    ∃ r, relativeDir l from' = some r ∧ ∀ cwd, (mergeDir r from').place cwd = l.place cwd := by
  obtain ⟨r, h1, h2⟩ := relativeDir_place_partial l from' hp hp' (by rw [hl, hf]) ⟨[], l.path, names', by rw [hf]; rfl, rfl⟩
  exact ⟨r, h1, fun cwd => (h2 cwd).2⟩

/-- From `../x` to `y`: the answer goes up twice from `../x`, which is not where it started. -/
theorem relativeDir_place_violated : ∃ l from' r : Dir, ProperPath l.path ∧ ProperPath from'.path ∧ l.relative = from'.relative ∧
    relativeDir l from' = some r ∧ ∃ cwd, (mergeDir r from').place cwd ≠ l.place cwd :=
  ⟨dirOfString "y".toList, dirOfString "../x".toList, ⟨[.parent, .parent, .name ['y']], true⟩, dirOfString_proper _, dirOfString_proper _,
    by decide +kernel, by decide +kernel, [['a'], ['b']], by decide +kernel⟩

/-- A relative locator and an absolute one are compared as if both were relative. -/
theorem relativeDir_mixed_violated : ∃ l from' r : Dir, ProperPath l.path ∧ ProperPath from'.path ∧ l.relative = true ∧ from'.relative = false ∧
    relativeDir l from' = some r ∧ ∃ cwd, (mergeDir r from').place cwd ≠ l.place cwd :=
  ⟨dirOfString "a".toList, dirOfString "/a".toList, ⟨[.self], true⟩, dirOfString_proper _, dirOfString_proper _,
    by decide +kernel, by decide +kernel, by decide +kernel, [['b']], by decide +kernel⟩

/-! ### C87: merging -/

/-- A relative directory is meant from the other directory; an absolute one stays. -/
theorem mergeDir_place (l from' : Dir) (hl : Canonical l.path) (hf : Canonical from'.path) (cwd : Place) :
    (mergeDir l from').place cwd = l.place (from'.place cwd) := by
  unfold mergeDir
  split_ifs with h
  · unfold makeDir
    rw [recanonicalize_canonical]
    · unfold Dir.place
      dsimp only
      rw [h, List.foldl_append]; rfl
    · intro s hs
      rcases List.mem_append.mp hs with h | h
      · exact hf s h
      · exact hl s h
  · unfold Dir.place
    rw [if_neg h, if_neg h]

/-- A file and a directory. -/
theorem mergeFile_place (l : File) (from' : Dir) (hl : CanonicalFile l) (hf : Canonical from'.path) (cwd : Place) :
    (mergeFile l from').place cwd = l.place (from'.place cwd) := by
  have key : ∀ m : Dir, m.place cwd = (match l.directory with | some d => d.place (from'.place cwd) | none => from'.place cwd) →
      (if some m = l.directory then l else makeFile (some m) l.base l.extension).place cwd = l.place (from'.place cwd) := by
    intro m hm
    split_ifs with hc
    · unfold File.place
      rw [← hc] at hm ⊢
      dsimp only at hm ⊢
      rw [hm]
    · rw [makeFile_place]
      unfold File.place
      dsimp only
      rw [hm]
      rfl
  unfold mergeFile
  apply key
  cases hd : l.directory with
  | none => rfl
  | some d => exact mergeDir_place d from' (hl d (by rw [hd]; rfl)) hf cwd

/-- A directory and a file: the file of that name in the merged directory. -/
theorem mergeDirFile_place (l : Dir) (from' : File) (hl : Canonical l.path) (hf : CanonicalFile from') (cwd : Place) :
    (mergeDirFile l from').place cwd = (l.place (from'.place cwd).1, (from'.place cwd).2) := by
  unfold mergeDirFile
  dsimp only
  rw [makeFile_place]
  unfold File.place
  dsimp only
  cases hd : from'.directory with
  | none => rfl
  | some d =>
    dsimp only
    rw [mergeDir_place l d hl (hf d (by rw [hd]; rfl))]; rfl

/-- Two files: the first is meant from the directory of the second. -/
theorem mergeFiles_place (l from' : File) (hl : CanonicalFile l) (hf : CanonicalFile from') (cwd : Place) :
    (mergeFiles l from').place cwd = l.place (from'.place cwd).1 := by
  unfold mergeFiles
  cases hd : from'.directory with
  | none =>
    dsimp only
    unfold File.place
    rw [hd]
  | some d =>
    dsimp only
    rw [mergeFile_place l d hl (hf d (by rw [hd]; rfl))]
    unfold File.place
    rw [hd]

/-- A subdirectory is found by following the names, one after the other. -/
theorem subdirectory_place (d : Dir) (sub : List Str) (hd : Canonical d.path) (hs : ∀ s ∈ sub, s ≠ []) (cwd : Place) :
    (subdirectory d sub).place cwd = sub.foldl follow (d.place cwd) := by
  have hsplit : recanonicalize (d.path ++ sub.map .name) = d.path ++ canonicalize sub := by
    have h1 := recanonicalize_canonical hd
    unfold recanonicalize at h1 ⊢
    rw [List.map_append, h1, List.map_map]
    congr 1
  unfold subdirectory makeDir Dir.place
  rw [hsplit]
  dsimp only
  rw [List.foldl_append, foldl_canonicalize sub _ hs]

/-- A file below a directory. -/
theorem fileLocator_place (d : Dir) (names : List Str) (name : Str) (hd : Canonical d.path) (hs : ∀ s ∈ names, s ≠ []) (cwd : Place) :
    (fileLocator d names name).place cwd = (names.foldl follow (d.place cwd), name) := by
  unfold fileLocator
  rw [makeFileNamed_place]
  dsimp only
  split_ifs with h
  · rw [h]; rfl
  · rw [subdirectory_place d names hd hs]

/-- The relative locator of a file in a directory. -/
theorem relativeFile_place_partial (l : File) (d from' : Dir) (hd : l.directory = some d) (hl : Canonical d.path) (hf : Canonical from'.path)
    (hr : d.relative = from'.relative) (hshare : ∃ (pre rest : List Item) (names : List Str), from'.path = pre ++ names.map .name ∧ d.path = pre ++ rest) :
    ∃ r, relativeFile l from' = some r ∧ ∀ cwd, (mergeFile r from').place cwd = l.place cwd := by
  obtain ⟨r, h1, h2⟩ := relativeDir_place_partial d from' hl hf hr hshare
  have hrc : Canonical r.path := by
    unfold relativeDir at h1
    split_ifs at h1 <;> cases h1 <;> exact makeDir_canonical _ _
  unfold relativeFile
  rw [hd]
  dsimp only
  rw [h1]
  dsimp only
  refine ⟨_, rfl, fun cwd => ?_⟩
  split_ifs with hc
  · rw [mergeFile_place l from' (fun e he => by rw [hd] at he; cases he; exact hl) hf]
    unfold File.place
    rw [hd]
    dsimp only
    rw [← (h2 cwd).1, hc]
  · rw [mergeFile_place _ from' ?_ hf, makeFile_place]
    · unfold File.place
      rw [hd]
      dsimp only
      rw [(h2 cwd).1]; rfl
    · intro e he
      unfold makeFile at he
      rw [Option.mem_def, Option.filter_eq_some_iff] at he
      have := Option.some.inj he.1
      rw [← this]; exact hrc

/-- A file locator without a directory is answered as it is, whatever the other directory. -/
theorem relativeFile_place_violated : ∃ (l : File) (from' : Dir) (r : File), ProperFile l ∧ ProperPath from'.path ∧ fileRelative l = from'.relative ∧
    relativeFile l from' = some r ∧ ∃ cwd, (mergeFile r from').place cwd ≠ l.place cwd :=
  ⟨fileOfString "foo".toList, dirOfString "bar".toList, fileOfString "foo".toList, fileOfString_proper _, dirOfString_proper _,
    by decide +kernel, by decide +kernel, [], by decide +kernel⟩

/-! ### C88: the directory and the name of a locator -/

/-- A locator whose last item is a name has the directory before it, and that name in it. -/
theorem dirDirectory_place_partial (d : Dir) (init : List Item) (s : Str) (hd : Canonical d.path) (hp : d.path = init ++ [.name s]) :
    dirName d = some (some s) ∧ (∀ p ∈ dirDirectory d, ∀ cwd, d.place cwd = p.place cwd ++ [s]) ∧
      (dirDirectory d = none ↔ d.relative = true ∧ init = []) := by
  refine ⟨?_, ?_, ?_⟩
  · unfold dirName; rw [hp]; simp
  · intro p hpp cwd
    unfold dirDirectory at hpp
    by_cases h : d.path.length > (if d.relative then 1 else 0)
    · rw [if_pos h] at hpp
      simp only [Option.mem_def, Option.some.injEq] at hpp
      rw [← hpp]
      unfold makeDir
      rw [recanonicalize_canonical (fun t ht => hd t (List.mem_of_mem_take ht))]
      unfold Dir.place
      dsimp only
      rw [hp]
      simp [walk]
    · rw [if_neg h] at hpp
      simp at hpp
  · unfold dirDirectory
    rw [hp]
    cases d.relative <;> simp

/-- The directory of `a/..` is `a`, and its name is not a string. -/
theorem dirDirectory_place_violated : ∃ d p : Dir, ProperPath d.path ∧ dirDirectory d = some p ∧
    (∀ cwd, (p.place cwd).length = (d.place cwd).length + 1) ∧ dirName d = none :=
  ⟨dirOfString "a/..".toList, ⟨[.name ['a']], true⟩, dirOfString_proper _, by decide +kernel, fun cwd => by
    have : dirOfString "a/..".toList = ⟨[.name ['a'], .parent], true⟩ := by decide +kernel
    rw [this]; simp [Dir.place, walk], by decide +kernel⟩

/-! ### The hypotheses are met -/

example : (dirOfString "/usr//lib/../share/".toList).place [['x']] = ["usr".toList, "share".toList] := by decide +kernel
example : posixDir [['x']] "../a/./b".toList = [['a'], ['b']] := by decide +kernel
example : dirToString (dirOfString "a//./..//b".toList) = some "a/./../b/".toList := by decide +kernel
example : fileToString (fileOfString "./foo.tar.gz".toList) = some "foo.tar.gz".toList := by decide +kernel
example : (fileOfString "/a/foo.tar.gz".toList).base = "foo.tar".toList ∧ (fileOfString "/a/foo.tar.gz".toList).extension = some "gz".toList := by
  decide +kernel
example : simplifyDir (dirOfString "a/../../b/./c/..".toList) = dirOfString "../b".toList := by decide +kernel
example : simplifyDir (dirOfString "a/..".toList) = dirOfString ".".toList := by decide +kernel
example : simplifyFile (fileOfString "a/../f.c".toList) = fileOfString "f.c".toList := by decide +kernel
example : relativeDir (dirOfString "/a/b/c".toList) (dirOfString "/a/d".toList) = some (dirOfString "../b/c".toList) := by decide +kernel
example : mergeDir (dirOfString "../b/c".toList) (dirOfString "/a/d".toList) = dirOfString "/a/d/../b/c".toList := by decide +kernel
example : ∃ (pre rest : List Item) (names : List Str), (dirOfString "../a/d".toList).path = pre ++ names.map .name ∧ (dirOfString "../a/../b".toList).path = pre ++ rest :=
  ⟨[.parent, .name ['a']], [.parent, .name ['b']], [['d']], by decide +kernel, by decide +kernel⟩
example : mergeFiles (fileOfString "x/f.c".toList) (fileOfString "/a/g.c".toList) = fileOfString "/a/x/f.c".toList := by decide +kernel
example : mergeDirFile (dirOfString "x".toList) (fileOfString "/a/g.c".toList) = fileOfString "/a/x/g.c".toList := by decide +kernel
example : relativeFile (fileOfString "/a/b/f.c".toList) (dirOfString "/a/d".toList) = some (fileOfString "../b/f.c".toList) := by decide +kernel
example : fileLocator (dirOfString "/a".toList) [['b'], ['.', '.']] "f.c".toList = fileOfString "/a/b/../f.c".toList := by decide +kernel
example : dirDirectory (dirOfString "/a/b".toList) = some (dirOfString "/a".toList) := by decide +kernel

end Verif.Locators
