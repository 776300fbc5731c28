/-
Streams over sequences, and the functions that read from any stream.
-/
import Verif.SeqStream.Generic
import Verif.Streams.Props

namespace Verif.SeqStream

/-! ### C80: a sequence stream is the part of the sequence it was made for -/

section
variable {α : Type} [DecidableEq α]

/-- A stream made on a sequence answers every history of calls like the part of the sequence between
    `start:` and `end:` with a position in it (an output stream: like an empty sequence).  `end:` is
    for input streams only, as `initialize` demands.  Missing: the calls excluded by `History`
    (see the `_violated` theorems below). -/
theorem sequence_stream_partial {d : Dir} {l : List α} {start : Nat} {fin : Option Nat} (h1 : start ≤ fin.getD l.length)
    (h2 : fin.getD l.length ≤ l.length) (hd : d ≠ .input → fin = none) (stretchy : Bool) (fill : α) (ops : List (Op α))
    (ho : History start fin.isSome d ⟨if d = .output then [] else part l start fin, 0⟩ ops) :
    (run (open' d l start (fin.map (fun n => (n : Int))) stretchy fill) ops).1 =
      (specRun d ⟨if d = .output then [] else part l start fin, 0⟩ ops).1 :=
  (run_view ops (open_view h1 h2 hd stretchy fill) ho).1

example : History 0 true .input (⟨part [1, 2, 3, 4, 5, 6] 0 (some 4), 0⟩ : Text Nat)
      [.read 2 false, .unread 9, .peek true, .setEnd, .adjustPosition (-1) .fin, .readElement false, .readElement true, .setPosition 7, .size] ∧
    (specRun .input (⟨part [1, 2, 3, 4, 5, 6] 0 (some 4), 0⟩ : Text Nat)
      [.read 2 false, .unread 9, .peek true, .setEnd, .adjustPosition (-1) .fin, .readElement false, .readElement true, .setPosition 7, .size]).1 =
    [.elements [1, 2], .elt 9, .elt 9, .count 4, .count 3, .elt 4, .eosValue, .positionError, .count 4] := by
  refine ⟨?_, by decide +kernel⟩
  simp [History, CallOk, target, Op.fromEnd, spec, callSpec, readSpec, moveSpec, part, Op.reads, Op.writes]

example : History 0 false .inputOutput (⟨[1, 2, 3], 0⟩ : Text Nat)
      [.readElement false, .write [7, 8, 9, 10], .contents false, .setPosition 0, .read 9 false, .contents true, .size] ∧
    (specRun .inputOutput (⟨[1, 2, 3], 0⟩ : Text Nat)
      [.readElement false, .write [7, 8, 9, 10], .contents false, .setPosition 0, .read 9 false, .contents true, .size]).1 =
    [.elt 1, .done, .elements [1, 7, 8, 9, 10], .count 0, .incomplete 5 [1, 7, 8, 9, 10], .elements [1, 7, 8, 9, 10], .count 0] := by
  refine ⟨?_, by decide +kernel⟩
  simp [History, CallOk, target, Op.fromEnd, spec, callSpec, readSpec, moveSpec, overwrite, Op.reads, Op.writes]

end

/-- With `start:` a position before it is refused although it is within the part (positions are counted
    from the beginning of the part), and a position counted from the end is wrong. -/
theorem sequence_stream_start_violated :
    (run (open' .input [1, 2, 3, 4, 5, 6] 2 none false 0) [.read 3 false, .setPosition 1]).1 = [.elements [3, 4, 5], .positionError] ∧
    (specRun .input ⟨part [1, 2, 3, 4, 5, 6] 2 none, 0⟩ [.read 3 false, .setPosition 1]).1 = [.elements [3, 4, 5], .count 1] ∧
    (run (open' .input [1, 2, 3, 4, 5, 6] 2 (some 6) false 0) [.setStart]).1 = [.positionError] ∧
    (run (open' .input [1, 2, 3, 4, 5, 6] 2 (some 6) false 0) [.adjustPosition (-1) .fin]).1 = [.positionError] ∧
    (specRun .input ⟨part [1, 2, 3, 4, 5, 6] 2 (some 6), 0⟩ [.adjustPosition (-1) .fin]).1 = [.count 3] := by
  decide +kernel

/-- The end cannot be asked for when `end:` was not given. -/
theorem sequence_stream_end_violated :
    (run (open' .input [1, 2, 3] 0 none false 0) [.setEnd]).1 = [.noLimit] ∧
    (specRun .input ⟨[1, 2, 3], 0⟩ [.setEnd]).1 = [.count 3] := by
  decide +kernel

/-- Asking for the contents of a stream with `start:` and clearing them leaves a stream with a negative
    size; of a stream with `end:`, the contents are still there. -/
theorem sequence_stream_clear_violated :
    (run (open' .input [1, 2, 3] 1 none false 0) [.contents true, .size]).1 = [.elements [2, 3], .count (-1)] ∧
    (run (open' .input [1, 2, 3] 0 (some 2) false 0) [.contents true, .contents true]).1 = [.elements [1, 2], .elements [1, 2]] ∧
    (specRun .input ⟨part [1, 2, 3] 1 none, 0⟩ [.contents true, .size]).1 = [.elements [2, 3], .count 0] ∧
    (specRun .input ⟨part [1, 2, 3] 0 (some 2), 0⟩ [.contents true, .contents true]).1 = [.elements [1, 2], .elements []] := by
  decide +kernel

/-- Unreading at the beginning of a part moves before it and changes the sequence outside it. -/
theorem sequence_stream_unread_violated :
    (run (open' .input [1, 2, 3] 1 none false 0) [.unread 9, .position]) =
      ([.elt 9, .count (-1)], { (open' .input [9, 2, 3] 1 none false 0) with current := 0 }) ∧
    (specRun .input ⟨part [1, 2, 3] 1 none, 0⟩ [.unread 9, .position]).1 = [.elt 9, .count 0] := by
  decide +kernel

/-- Without `end:` a position behind the end is accepted; a write there makes elements appear that
    were cleared before or were never written. -/
theorem sequence_stream_position_violated :
    (run (open' .output [0, 0, 0, 0] 0 none false 0) [.write [1, 2, 3], .contents true, .setPosition 2, .writeElement 7, .contents false]).1 =
      [.done, .elements [1, 2, 3], .count 2, .done, .elements [1, 2, 7]] ∧
    (specRun .output ⟨[], 0⟩ [.write [1, 2, 3], .contents true, .setPosition 2, .writeElement 7, .contents false]).1 =
      [.done, .elements [1, 2, 3], .positionError, .done, .elements [7]] := by
  decide +kernel

/-! ### C81: what is written to a string is there -/

/-- What a write writes. -/
def written {α : Type} : Op α → List α
  | .writeElement a => [a]
  | .write l => l
  | _ => []

section
variable {α : Type} [DecidableEq α]

omit [DecidableEq α] in
theorem history_writes : ∀ (ops : List (Op α)) (t : Text α), (∀ op ∈ ops, op.writes = true) →
    ∀ (more : List (Op α)), (∀ u, History 0 false .output u more) → History 0 false .output t (ops ++ more)
  | [], _, _, _, h => h _
  | op :: ops, t, hw, more, h => by
    refine ⟨?_, history_writes ops _ (fun o ho => hw o (by simp [ho])) more h⟩
    have := hw op (by simp)
    cases op <;> simp_all [CallOk, target, Op.fromEnd, Op.writes]

omit [DecidableEq α] in
theorem specRun_writes : ∀ (ops : List (Op α)) (l : List α), (∀ op ∈ ops, op.writes = true) →
    ∀ more, specRun .output ⟨l, l.length⟩ (ops ++ more) =
      (ops.map (fun _ => .done) ++ (specRun .output ⟨l ++ (ops.map written).flatten, (l ++ (ops.map written).flatten).length⟩ more).1,
       (specRun .output ⟨l ++ (ops.map written).flatten, (l ++ (ops.map written).flatten).length⟩ more).2)
  | [], l, _, more => by simp
  | op :: ops, l, hw, more => by
    have hs : spec .output ⟨l, l.length⟩ op = (.done, ⟨l ++ written op, (l ++ written op).length⟩) := by
      have := hw op (by simp)
      cases op <;> simp_all [spec, callSpec, Op.writes, Op.reads, written, overwrite]
    rw [List.cons_append, specRun, hs]
    dsimp only
    rw [specRun_writes ops (l ++ written op) (fun o ho => hw o (by simp [ho])) more]
    simp

/-- Everything that was written to a sequence or string stream, element by element or in pieces of any
    sizes, is in its contents in the order of the calls and nothing else is, whatever sequence the
    stream was made with and however it grows; `with-output-to-string` returns these contents.  Asking
    for the contents with clearing starts again from nothing. -/
theorem written_is_contents (l : List α) (stretchy : Bool) (fill : α) (ops ops' : List (Op α)) (h : ∀ op ∈ ops, op.writes = true)
    (h' : ∀ op ∈ ops', op.writes = true) (clear : Bool) :
    (run (open' .output l 0 none stretchy fill) (ops ++ .contents clear :: (ops' ++ [.contents false]))).1 =
      ops.map (fun _ => .done) ++ .elements (ops.map written).flatten :: (ops'.map (fun _ => .done) ++
        [.elements ((if clear then [] else (ops.map written).flatten) ++ (ops'.map written).flatten)]) := by
  have hmore : ∀ u : Text α, History 0 false .output u (.contents clear :: (ops' ++ [.contents false])) := by
    intro u
    refine ⟨by simp [CallOk, target, Op.fromEnd], history_writes ops' _ h' _ ?_⟩
    intro v
    exact ⟨by simp [CallOk, target, Op.fromEnd], trivial⟩
  have hh := history_writes ops ⟨[], 0⟩ h _ hmore
  have := sequence_stream_partial (d := .output) (l := l) (start := 0) (fin := none) (by simp) (by simp) (by simp) stretchy fill _ hh
  have e : open' .output l ((0 : Nat) : Int) ((none : Option Nat).map (fun n => (n : Int))) stretchy fill = open' .output l 0 none stretchy fill := rfl
  rw [e] at this
  rw [this]
  have hw := specRun_writes ops [] h (.contents clear :: (ops' ++ [.contents false]))
  simp only [if_true]
  rw [show (⟨[], 0⟩ : Text α) = ⟨[], ([] : List α).length⟩ from rfl, hw]
  dsimp only
  rw [List.nil_append]
  congr 1
  rw [specRun]
  generalize (ops.map written).flatten = w
  have hs : spec .output (⟨w, w.length⟩ : Text α) (.contents clear) =
      (.elements w, ⟨if clear then [] else w, (if clear then [] else w : List α).length⟩) := by
    cases clear <;> simp [spec, callSpec, Op.reads, Op.writes]
  rw [hs]
  dsimp only
  rw [specRun_writes ops' _ h']
  simp [specRun, spec, callSpec, Op.reads, Op.writes]

example : (run (open' .output [] 0 none false ' ') [.write "ab".toList, .writeElement 'c', .write "defgh".toList, .contents true,
      .writeElement 'x', .contents false]).1 =
    [.done, .done, .done, .elements "abcdefgh".toList, .done, .elements "x".toList] := by decide +kernel

end

/-! ### C82: the functions on any stream -/

section
variable {α σ : Type}

/-- `read-to` answers the elements before the first that passes the test, and whether there was one;
    this one is read, too. -/
theorem read_to {r : Src σ α} {holds : σ → List α → Prop} (h : Faithful r holds) (test : α → Bool) (sup : Bool) {s : σ} {rest : List α}
    (hs : holds s rest) {k : Nat} (hk : rest.length < k) :
    ∃ s', readTo r test sup k s = (if rest.isEmpty then eosAns sup else .found (before test rest) (rest.any test), s') ∧
      holds s' (since test rest).tail := by
  obtain ⟨s1, e1, i1⟩ := h.atEnd hs
  unfold readTo
  rw [e1]
  cases rest with
  | nil => exact ⟨s1, by simp, by simpa [since] using i1⟩
  | cons a rest =>
    obtain ⟨s2, e2, i2⟩ := readToLoop_eq h test (a :: rest) k [] s1 i1 hk
    exact ⟨s2, by rw [List.nil_append] at e2; simpa using e2, i2⟩

/-- `read-through` answers the elements up to and including the first that passes the test. -/
theorem read_through {r : Src σ α} {holds : σ → List α → Prop} (h : Faithful r holds) (test : α → Bool) (sup : Bool) {s : σ} {rest : List α}
    (hs : holds s rest) {k : Nat} (hk : rest.length < k) :
    ∃ s', readThrough r test sup k s =
        (if rest.isEmpty then eosAns sup else .found (before test rest ++ (since test rest).take 1) (rest.any test), s') ∧
      holds s' (since test rest).tail := by
  obtain ⟨s1, e1, i1⟩ := h.atEnd hs
  unfold readThrough
  rw [e1]
  cases rest with
  | nil => exact ⟨s1, by simp, by simpa [since] using i1⟩
  | cons a rest =>
    obtain ⟨s2, e2, i2⟩ := readThroughLoop_eq h test (a :: rest) k [] s1 i1 hk
    exact ⟨s2, by rw [List.nil_append] at e2; simpa using e2, i2⟩

/-- `read-to-end` answers all that is left. -/
theorem read_to_end {r : Src σ α} {holds : σ → List α → Prop} (h : Faithful r holds) {s : σ} {rest : List α}
    (hs : holds s rest) {k : Nat} (hk : rest.length < k) :
    ∃ s', readToEnd r k [] s = (.elements rest, s') ∧ holds s' [] := by
  obtain ⟨s2, e2, i2⟩ := readToEnd_eq h rest k [] s hs hk
  exact ⟨s2, by rw [e2, List.nil_append], i2⟩

/-- `skip-through` answers whether there is an element that passes the test, and reads up to and
    including the first. -/
theorem skip_through {r : Src σ α} {holds : σ → List α → Prop} (h : Faithful r holds) (test : α → Bool) {s : σ} {rest : List α}
    (hs : holds s rest) {k : Nat} (hk : rest.length < k) :
    ∃ s', skipThrough r test k s = (.bool (rest.any test), s') ∧ holds s' (since test rest).tail :=
  skipThrough_eq h test rest k s hs hk

/-- The two parts the elements are split into are all elements in their order, no element of the first
    passes the test, and the first of the second does. -/
theorem split_ok (test : α → Bool) (l : List α) : before test l ++ since test l = l ∧ (∀ a ∈ before test l, test a = false) ∧
    (∀ a ∈ (since test l).head?, test a = true) := by
  refine ⟨List.takeWhile_append_dropWhile, ?_, ?_⟩
  · intro a ha
    have : ∀ (l : List α) (a : α), a ∈ before test l → test a = false := by
      intro l
      induction l with
      | nil => intro a h; simp [before] at h
      | cons b l ih =>
        intro a h
        unfold before at h
        rw [List.takeWhile_cons] at h
        split_ifs at h with hb
        · rcases List.mem_cons.mp h with rfl | h
          · simpa using hb
          · exact ih a h
        · simp at h
    exact this l a ha
  · have : ∀ (l : List α), ∀ a ∈ (since test l).head?, test a = true := by
      intro l
      induction l with
      | nil => intro a h; simp [since] at h
      | cons b l ih =>
        intro a h
        unfold since at h
        rw [List.dropWhile_cons] at h
        split_ifs at h with hb
        · exact ih a h
        · simp at h; subst h; simpa using hb
    exact this l

variable [DecidableEq α]

/-- `read-line` answers the first line and whether a line end followed it; a line ends with a newline, a
    return, or a return and a newline. -/
theorem read_line {r : Src σ α} {holds : σ → List α → Prop} (h : Faithful r holds) {nl rt : α} (hne : rt ≠ nl) (sup : Bool) {s : σ}
    {rest : List α} (hs : holds s rest) {k : Nat} (hk : rest.length < k) :
    ∃ s', readLine r nl rt sup k s =
        (if rest.isEmpty then eosAns sup else .found (firstLine nl rt rest).1 (firstLine nl rt rest).2.1, s') ∧
      holds s' (firstLine nl rt rest).2.2 := by
  obtain ⟨s1, e1, i1⟩ := h.atEnd hs
  unfold readLine
  rw [e1]
  cases rest with
  | nil => exact ⟨s1, by simp, by rw [firstLine_nil]; exact i1⟩
  | cons a rest =>
    obtain ⟨s2, e2, i2⟩ := lineLoop_eq h hne (a :: rest) k [] s1 i1 hk
    exact ⟨s2, by rw [List.nil_append] at e2; simpa using e2, i2⟩

/-- `read-line-into!` puts the line into the string from `start` on.  A line that does not fit makes
    the string longer if `grow?` was asked for, with blanks before the line if the string was shorter
    than `start`, and is an error otherwise. -/
theorem read_line_into {r : Src σ α} {holds : σ → List α → Prop} (h : Faithful r holds) {nl rt : α} (hne : rt ≠ nl) (blank : α)
    (str : List α) (start : Nat) (growing sup : Bool) {s : σ} {rest : List α} (hs : holds s rest) {k : Nat} (hk : rest.length < k) :
    (growing = true ∨ start + (firstLine nl rt rest).1.length ≤ str.length ∨ (firstLine nl rt rest).1 = [] →
      ∃ s', readLineInto r nl rt blank str start growing sup k s =
          (if rest.isEmpty then eosAns sup
           else .found (if (firstLine nl rt rest).1 = [] then str else patchGrow blank str start (firstLine nl rt rest).1)
             (firstLine nl rt rest).2.1, s') ∧
        holds s' (firstLine nl rt rest).2.2) ∧
    (growing = false → str.length < start + (firstLine nl rt rest).1.length → (firstLine nl rt rest).1 ≠ [] →
      (readLineInto r nl rt blank str start growing sup k s).1 = .bounds) := by
  obtain ⟨s1, e1, i1⟩ := h.atEnd hs
  have hst : Stored blank growing str start [] ⟨str, (start : Int), none⟩ := by
    by_cases hle : start ≤ str.length
    · have := Stored.within (blank := blank) (growing := growing) (str := str) (start := start) (got := []) (by simpa using hle)
      simpa [overwrite] using this
    · exact .beyond (by omega)
  unfold readLineInto
  rw [e1]
  cases rest with
  | nil =>
    refine ⟨fun _ => ⟨s1, by simp, by rw [firstLine_nil]; exact i1⟩, fun _ _ hc => ?_⟩
    rw [firstLine_nil] at hc; exact absurd rfl hc
  | cons a rest =>
    refine ⟨fun hfit => ?_, fun hg hb hn => ?_⟩
    · obtain ⟨s2, t2, e2, h2, i2⟩ := lineIntoLoop_eq h hne blank growing str start (a :: rest) k [] _ s1 hst i1 hk (by simpa using hfit)
      rw [List.nil_append] at h2
      refine ⟨s2, ?_, i2⟩
      rw [← h2.result]
      simpa using e2
    · subst hg
      have := lineIntoLoop_bounds h hne blank str start (a :: rest) k [] _ s1 hst i1 hk ⟨by simpa using hb, hn⟩
      simpa using this

/-- `read-text-into!` stores the next `n` characters, every line end as one newline, and says so if
    there are fewer. -/
theorem read_text_into {r : Src σ α} {holds : σ → List α → Prop} (h : Faithful r holds) (nl rt : α) (n : Nat) (text : List α)
    (start : Nat) (sup : Bool) (hfit : start + n ≤ text.length) {s : σ} {rest : List α} (hs : holds s rest) :
    ∃ s', readTextInto r nl rt n text start sup s =
        (if (nextText nl rt n rest).1.length = n then .count n else eosAns sup, overwrite text start (nextText nl rt n rest).1, s') ∧
      holds s' (nextText nl rt n rest).2 := by
  obtain ⟨s1, e1, i1⟩ := textLoop_eq h nl rt sup n rest start text s hs hfit
  unfold readTextInto
  rw [e1]
  split_ifs
  · exact ⟨s1, rfl, i1⟩
  · exact ⟨s1, rfl, i1⟩

omit [DecidableEq α] in
/-- What a sequence stream still has to deliver. -/
def Shows (s : St α) (rest : List α) : Prop :=
  ∃ (start : Nat) (limited : Bool) (d : Dir) (pre : List α) (t : Text α), View start limited d s pre t ∧ d ≠ .output ∧ rest = t.items.drop t.pos

/-- The functions work on sequence streams. -/
theorem sequence_source : Faithful (source (α := α)) Shows := by
  refine ⟨?_, ?_, ?_⟩
  · rintro s rest ⟨start, limited, d, pre, t, h, hd, rfl⟩
    obtain ⟨s', e, i⟩ := step_view h (op := .atEnd) (by simp [CallOk, target, Op.fromEnd])
    have hs : spec d t .atEnd = (.bool (decide (d ≠ .output ∧ t.items.length ≤ t.pos)), t) := by simp [spec, callSpec, Op.reads, Op.writes]
    rw [hs] at e i
    simp only [step, Prod.mk.injEq, Ans.bool.injEq] at e
    refine ⟨s, ?_, start, limited, d, pre, t, h, hd, rfl⟩
    simp only [source, e.1]
    congr 1
    rw [Bool.eq_iff_iff, decide_eq_true_iff, List.isEmpty_iff, List.drop_eq_nil_iff]
    exact ⟨fun hx => hx.2, fun hx => ⟨hd, hx⟩⟩
  · rintro s a rest ⟨start, limited, d, pre, t, h, hd, hrest⟩
    have hlt : t.pos < t.items.length := by
      by_cases hc : t.pos < t.items.length
      · exact hc
      · rw [List.drop_eq_nil_of_le (by omega)] at hrest; cases hrest
    rw [List.drop_eq_getElem_cons hlt] at hrest
    obtain ⟨rfl, rfl⟩ := List.cons.inj hrest
    obtain ⟨s', e, i⟩ := step_view h (op := .readElement false) (by simp [CallOk, target, Op.fromEnd])
    have hs : spec d t (.readElement false) = (.elt t.items[t.pos], { t with pos := t.pos + 1 }) := by
      simp [spec, callSpec, Op.reads, Op.writes, hd, hlt]
    rw [hs] at e i
    simp only [step] at e
    exact ⟨s', by simp only [source, e], start, limited, d, pre, _, i, hd, rfl⟩
  · rintro s rest ⟨start, limited, d, pre, t, h, hd, rfl⟩
    obtain ⟨s', e, i⟩ := step_view h (op := .peek true) (by simp [CallOk, target, Op.fromEnd])
    have hs : spec d t (.peek true) = ((match t.items[t.pos]? with | some a => .elt a | none => .eosValue), t) := by
      simp only [spec, callSpec, Op.reads, Op.writes, hd, eosAns]
      cases t.items[t.pos]? <;> simp
    rw [hs] at e i
    simp only [step] at e
    refine ⟨s', ?_, start, limited, d, pre, t, i, hd, rfl⟩
    simp only [source, e]
    rw [List.head?_drop]
    cases t.items[t.pos]? <;> rfl

omit [DecidableEq α] in
/-- A new stream delivers its part of the sequence. -/
theorem open_shows {d : Dir} (hdo : d ≠ .output) {l : List α} {start : Nat} {fin : Option Nat} (h1 : start ≤ fin.getD l.length)
    (h2 : fin.getD l.length ≤ l.length) (hd : d ≠ .input → fin = none) (stretchy : Bool) (fill : α) :
    Shows (open' d l start (fin.map (fun n => (n : Int))) stretchy fill) (part l start fin) := by
  have h := open_view h1 h2 hd stretchy fill
  rw [if_neg hdo] at h
  exact ⟨start, _, d, _, _, h, hdo, rfl⟩

end

/-- A file stream as a source. -/
def fileSource : Src Streams.St Streams.Byte where
  atEnd s := (match Streams.atEnd s with | .ok r => r | .fail _ => (true, s))
  readElement s := (match Streams.readElement s with | .ok r => r | .fail _ => (none, s))
  peek s := (match Streams.peek s with | .ok r => r | .fail _ => (none, s))

/-- What a file stream still has to deliver. -/
def FileShows (s : Streams.St) (rest : List Streams.Byte) : Prop :=
  ∃ (B : Nat) (c : List Streams.Byte) (p : Nat), Streams.RInv B .input s c p ∧ rest = c.drop p

/-- The functions work on file streams for reading. -/
theorem file_source : Faithful fileSource FileShows := by
  refine ⟨?_, ?_, ?_⟩
  · rintro s rest ⟨B, c, p, h, rfl⟩
    obtain ⟨s', e, i, _⟩ := Streams.getInput_inv h.ready
    refine ⟨s', ?_, B, c, p, i, rfl⟩
    have hdo : s.dir ≠ .output := by rw [h.hdir]; simp
    simp only [fileSource, Streams.atEnd, if_neg hdo, e, Streams.Res.bind]
    congr 1
    rw [← decide_not, Bool.eq_iff_iff, decide_eq_true_iff, List.isEmpty_iff, List.drop_eq_nil_iff]
    omega
  · rintro s a rest ⟨B, c, p, h, hrest⟩
    have hlt : p < c.length := by
      by_cases hc : p < c.length
      · exact hc
      · rw [List.drop_eq_nil_of_le (by omega)] at hrest; cases hrest
    rw [List.drop_eq_getElem_cons hlt] at hrest
    obtain ⟨rfl, rfl⟩ := List.cons.inj hrest
    obtain ⟨s', e, i⟩ := Streams.readElement_inv h.ready
    rw [if_pos hlt] at i
    exact ⟨s', by simp only [fileSource, e, List.getElem?_eq_getElem hlt], B, c, _, i, rfl⟩
  · rintro s rest ⟨B, c, p, h, rfl⟩
    obtain ⟨s', e, i⟩ := Streams.peek_inv h.ready
    exact ⟨s', by simp only [fileSource, e, List.head?_drop], B, c, p, i, rfl⟩

/-- A new file stream delivers the file from its position on. -/
theorem file_shows {n B p : Nat} (hB : Streams.roundToPowerOfTwo n = some B) {file : List Streams.Byte} (nul : Streams.Buf)
    (hp : p ≤ file.length) : ∃ s, Streams.openStream .input B file p nul = .ok s ∧ FileShows s (file.drop p) := by
  obtain ⟨k, hk⟩ := Streams.pow_of_round hB
  obtain ⟨s, e, i⟩ := Streams.open_input hk (nul := nul) hp
  exact ⟨s, e, B, file, p, i, rfl⟩

example : (readLine source '\n' '\r' false 20 (open' .input "ab\r\ncd".toList 0 none false ' ')).1 = .found "ab".toList true ∧
    (readTo source (· == 'c') false 20 (open' .input "ab\r\ncd".toList 1 (some 4) false ' ')).1 = .found "b\r\n".toList false ∧
    (readLineInto source '\n' '\r' ' ' "xyz".toList 2 true false 20 (open' .input "ab\rcd".toList 0 none false ' ')).1 = .found "xyab".toList true ∧
    (readTextInto source '\n' '\r' 4 "......".toList 1 false (open' .input "a\r\nb\rcd".toList 0 none false ' ')).2.1 = ".a\nb\n.".toList := by
  decide +kernel

/-! ### C83: `read-into!` on sequence streams -/

section
variable {α : Type} [DecidableEq α]

omit [DecidableEq α] in
theorem intoLoop_copyLoop (seq : List α) (pos start : Int) : ∀ (k : Nat) (i : Int) (dst : List α),
    intoLoop seq pos start k i dst = copyLoop seq k (i + pos) (i + start) dst
  | 0, _, _ => rfl
  | k + 1, i, dst => by
    unfold intoLoop copyLoop
    cases at? seq (i + pos) with
    | none => rfl
    | some a =>
      dsimp only
      split_ifs
      · rw [intoLoop_copyLoop seq pos start k (i + 1)]
        congr 1 <;> omega
      · rfl

omit [DecidableEq α] in
/-- When there are `n` elements and room for them, `read-into!` stores the next `n` elements from
    `start` on, changes nothing else, and they are read.  Missing: fewer elements
    (`read_into_violated`). -/
theorem read_into_partial {s : St α} {rest : List α} (h : Shows s rest) {n : Nat} (hn : n ≤ rest.length) {dst : List α} {start : Nat}
    (hroom : start + n ≤ dst.length) (sup : Bool) :
    ∃ s', readInto s n dst start sup = (.count n, overwrite dst start (rest.take n), s') ∧ Shows s' (rest.drop n) := by
  obtain ⟨st, limited, d, pre, t, h, hd, rfl⟩ := h
  rw [List.length_drop] at hn
  have hp := h.hpos
  have hlim := h.hlim
  have hcur := h.hc
  have hll := h.length_le
  have hrd : ¬ s.readable = false := by unfold St.readable; rw [h.hd]; simpa using hd
  unfold readInto
  rw [if_neg hrd]
  dsimp only
  have hmin : min (n : Int) (min (s.lim - s.current) ((dst.length : Int) - (start : Int))) = n := by omega
  rw [hmin, if_neg (by omega), Int.toNat_natCast, intoLoop_copyLoop]
  have hcp := copyLoop_eq s.seq n (st + t.pos) start dst (by omega) hroom
  rw [show (0 : Int) + s.current = ((st + t.pos : Nat) : Int) by omega, Int.zero_add, hcp]
  dsimp only
  rw [h.slice (by omega)]
  refine ⟨_, rfl, st, limited, d, pre, { t with pos := t.pos + n }, h.move (by omega) (by omega), hd, ?_⟩
  rw [List.drop_drop]

example : (readInto (open' .input [1, 2, 3, 4] 1 none false 0) 2 [7, 8, 9, 10] 1 false).2.1 = [7, 2, 3, 10] := by decide +kernel

/-- When fewer elements are left than were asked for, none is stored although they count as read: they
    are lost, and the error carries what was in the destination before. -/
theorem read_into_violated :
    (readInto (open' .input [1, 2, 3] 0 none false 0) 4 [7, 8, 9, 10] 0 false).1 = .incomplete 3 [7, 8, 9] ∧
    (readInto (open' .input [1, 2, 3] 0 none false 0) 4 [7, 8, 9, 10] 0 false).2.1 = [7, 8, 9, 10] ∧
    atEnd (readInto (open' .input [1, 2, 3] 0 none false 0) 4 [7, 8, 9, 10] 0 false).2.2 = true := by
  decide +kernel

end

end Verif.SeqStream
