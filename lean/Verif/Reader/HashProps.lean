import Verif.Reader.Hash

namespace Verif.Reader

/-- Every `close` in the data has a backslash before it; `prev` is what comes before the data. -/
def Escaped (close : Byte) : Byte → List Byte → Prop
  | _, [] => True
  | prev, c :: cs => (c = close → prev = code '\\') ∧ Escaped close c cs

/-- The last byte of the data, or `prev` if there is none. -/
def lastByte : Byte → List Byte → Byte
  | prev, [] => prev
  | _, c :: cs => lastByte c cs

/-- The lexer that `make-hash-literal` leaves is the one of the model of the builders. -/
theorem hashData_lexer (source : List Byte) (lx : Lexer) :
    (hashData source lx).map (·.2) = hashLiteral source lx := by
  unfold hashData hashLiteral
  cases h : source.drop lx.pos with
  | nil => rfl
  | cons d rest =>
    dsimp only
    cases h2 : hashDelimiters.lookup d with
    | none => rfl
    | some close =>
      simp only [Option.map_map]
      rfl

theorem hashLoop_escaped (close : Byte) (rest : List Byte) :
    ∀ (data : List Byte) (i : Nat) (prev : Byte) (lx : Lexer),
      Escaped close prev data → lastByte prev data ≠ code '\\' →
      ∃ lx', hashLoop close (data ++ close :: rest) i prev lx = some (i + data.length, lx') ∧
        lx'.pos = i + data.length + 1 ∧ lx'.line = lx.line + data.count (code '\n') := by
  intro data
  induction data with
  | nil =>
    intro i prev lx _ hl
    refine ⟨{ lx with pos := i + 1 }, ?_, rfl, rfl⟩
    simp only [List.nil_append, hashLoop]
    rw [if_pos ⟨trivial, hl⟩]
    rfl
  | cons c cs ih =>
    intro i prev lx he hl
    obtain ⟨he1, he2⟩ := he
    simp only [List.cons_append, hashLoop]
    rw [if_neg (fun h => h.2 (he1 h.1))]
    obtain ⟨lx', a1, a2, a3⟩ := ih (i + 1) c
      (if c = code '\n' then { lx with line := lx.line + 1, lineStart := i } else lx) he2 hl
    refine ⟨lx', ?_, ?_, ?_⟩
    · rw [a1]
      simp only [List.length_cons]
      congr 2
      omega
    · rw [a2]
      simp only [List.length_cons]
      omega
    · rw [a3]
      by_cases hc : c = code '\n'
      · rw [if_pos hc, hc, List.count_cons_self]
        dsimp only
        omega
      · rw [if_neg hc, List.count_cons_of_ne hc]

/-- **C126** (part) The data of a literal with delimiters is the text between the opening delimiter and the first
    closing one without a backslash before it; reading goes on after that, and the lines are counted.  Missing:
    data that ends in a backslash (`backslash_end_violated`). -/
theorem hash_literals_partial (before data rest : List Byte) (d close : Byte) (lx : Lexer)
    (hd : hashDelimiters.lookup d = some close) (hpos : lx.pos = before.length)
    (he : Escaped close 0 data) (hl : lastByte 0 data ≠ code '\\') :
    ∃ lx', hashData (before ++ d :: (data ++ close :: rest)) lx = some (data, lx') ∧
      (before ++ d :: (data ++ close :: rest)).drop lx'.pos = rest ∧
      lx'.line = lx.line + data.count (code '\n') := by
  obtain ⟨lx', a1, a2, a3⟩ := hashLoop_escaped close rest data (lx.pos + 1) 0 lx he hl
  refine ⟨lx', ?_, ?_, a3⟩
  · unfold hashData
    have h1 : (before ++ d :: (data ++ close :: rest)).drop lx.pos = d :: (data ++ close :: rest) := by
      rw [hpos, List.drop_left]
    have h2 : (before ++ d :: (data ++ close :: rest)).drop (lx.pos + 1) = data ++ close :: rest := by
      rw [← List.drop_drop, h1]
      rfl
    rw [h1]
    dsimp only
    rw [hd]
    dsimp only
    rw [a1, h2]
    simp only [Option.map_some]
    rw [Nat.add_sub_cancel_left, List.take_left]
  · have h3 : before ++ d :: (data ++ close :: rest) = (before ++ d :: data ++ [close]) ++ rest := by
      simp
    rw [h3]
    have : lx'.pos = (before ++ d :: data ++ [close]).length := by
      rw [a2, hpos]
      simp
      omega
    rw [this, List.drop_left]

/-- `#:foo:{a\}b}` -/
example : Escaped (code '}') 0 (bytes "a\\}b") ∧ lastByte 0 (bytes "a\\}b") ≠ code '\\' ∧
    hashDelimiters.lookup (code '{') = some (code '}') := by
  refine ⟨?_, by decide +kernel, by decide +kernel⟩
  exact ⟨by decide +kernel, by decide +kernel, by decide +kernel, by decide +kernel, trivial⟩

/-- The bytes up to the first that ends a word. -/
theorem hashWord_word (rest : List Byte)
    (hr : ∀ c r, rest = c :: r → delimiterCode c = true) :
    ∀ (w : List Byte) (i : Nat), (∀ c ∈ w, delimiterCode c = false) →
      hashWord (w ++ rest) i = i + w.length := by
  intro w
  induction w with
  | nil =>
    intro i _
    cases rest with
    | nil => rfl
    | cons c r =>
      simp only [List.nil_append, hashWord]
      rw [if_pos (hr c r rfl)]
      rfl
  | cons c cs ih =>
    intro i hw
    simp only [List.cons_append, hashWord]
    rw [if_neg (by simp [hw c List.mem_cons_self]), ih _ (fun x hx => hw x (List.mem_cons_of_mem _ hx))]
    simp only [List.length_cons]
    omega

/-- **C126** The data of a literal without delimiters is the text up to the next white space, comma, semicolon or
    bracket, or up to the end of the source. -/
theorem hash_words (before w rest : List Byte) (lx : Lexer) (hpos : lx.pos = before.length)
    (hne : w ≠ []) (hw : ∀ c ∈ w, delimiterCode c = false)
    (hd : ∀ c cs, w = c :: cs → hashDelimiters.lookup c = none)
    (hr : ∀ c r, rest = c :: r → delimiterCode c = true) :
    hashData (before ++ (w ++ rest)) lx =
      some (w, { lx with pos := before.length + w.length }) := by
  unfold hashData
  rw [hpos, List.drop_left]
  cases w with
  | nil => exact absurd rfl hne
  | cons c cs =>
    simp only [List.cons_append]
    rw [hd c cs rfl]
    dsimp only
    have := hashWord_word rest hr (c :: cs) before.length hw
    rw [List.cons_append] at this
    rw [this, Nat.add_sub_cancel_left]
    have h2 : (c :: (cs ++ rest)).take (c :: cs).length = c :: cs := by
      rw [← List.cons_append, List.take_left]
    rw [h2]

example : hashData (bytes "#:foo:bar, x") ⟨6, 1, 0, 0, 0, 0, 0⟩ = some (bytes "bar", ⟨9, 1, 0, 0, 0, 0, 0⟩) := by
  decide +kernel

/-- **C126 violated** Data between delimiters cannot end in a backslash, however many there are: the closing
    delimiter after it counts as part of the data. -/
theorem backslash_end_violated :
    ∃ lx : Lexer, hashData (bytes "#:p:\"C:\\\\\" x\"") lx = some (bytes "C:\\\\\" x", ⟨13, 1, 0, 0, 0, 0, 0⟩) :=
  ⟨⟨4, 1, 0, 0, 0, 0, 0⟩, by decide +kernel⟩

end Verif.Reader
