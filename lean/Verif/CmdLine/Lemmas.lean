import Verif.CmdLine.Spec

/-!
# Lemmas on command lines
-/

namespace Verif.CmdLine

theorem white_iff (c : Char) : white c = true ↔ c = ' ' ∨ c = '\t' ∨ c = '\n' := by
  simp [white, or_assoc]

/-- A coding that a tokenizer reads. -/
def Reads (next : List Char → List Char × List Char) (coding : List Char → List Char) (a : List Char) : Prop :=
  (∃ c r, coding a = c :: r ∧ white c = false) ∧
    ∀ rest : List Char, (∀ c, rest.head? = some c → white c = true) → next (coding a ++ rest) = (a, rest.drop 1)

theorem dropWhile_append {p : Char → Bool} : ∀ {ws rest : List Char}, (∀ c ∈ ws, p c = true) →
    (ws ++ rest).dropWhile p = rest.dropWhile p
  | [], _, _ => rfl
  | c :: ws, rest, h => by
    rw [List.cons_append, List.dropWhile_cons, if_pos (h c (by simp))]
    exact dropWhile_append fun d hd => h d (by simp [hd])

theorem tokens_assemble {next : List Char → List Char × List Char} {coding : List Char → List Char} :
    ∀ (args : List (List Char × List Char)) (lead : List Char) (n : Nat), (∀ c ∈ lead, white c = true) → SepOk args →
    (∀ x ∈ args, Reads next coding x.1) → args.length < n →
    tokens next n (assemble coding lead args) = args.map Prod.fst
  | [], lead, n, hl, _, _, hn => by
    obtain ⟨n, rfl⟩ : ∃ m, n = m + 1 := ⟨n - 1, by omega⟩
    have : (assemble coding lead []).dropWhile white = [] := by
      unfold assemble
      rw [dropWhile_append hl]
      rfl
    rw [tokens, this]
    rfl
  | (a, s) :: args, lead, n, hl, hs, hr, hn => by
    obtain ⟨n, rfl⟩ : ∃ m, n = m + 1 := ⟨n - 1, by omega⟩
    simp only [List.length_cons] at hn
    obtain ⟨⟨c, r, hc, hw⟩, hnext⟩ := hr (a, s) (by simp)
    obtain ⟨h1, h2, h3⟩ := hs
    simp only at hc hnext h1 h2
    have hws : ∀ c ∈ s, white c = true := fun c hc => (white_iff c).2 (h1 c hc)
    have hdrop : (assemble coding lead ((a, s) :: args)).dropWhile white =
        coding a ++ (s ++ args.flatMap fun x => coding x.1 ++ x.2) := by
      unfold assemble
      rw [dropWhile_append hl, List.flatMap_cons, List.append_assoc, hc, List.cons_append, List.dropWhile_cons, hw]
      simp
    have hhead : ∀ d, (s ++ args.flatMap fun x => coding x.1 ++ x.2).head? = some d → white d = true := by
      intro d hd
      cases s with
      | cons e t =>
        simp only [List.cons_append, List.head?_cons, Option.some.injEq] at hd
        exact hws d (by simp [hd])
      | nil =>
        cases args with
        | nil => simp at hd
        | cons x l => exact absurd rfl (h2 (by simp))
    have hrest : (s ++ args.flatMap fun x => coding x.1 ++ x.2).drop 1 = assemble coding (s.drop 1) args := by
      cases s with
      | cons e t => rfl
      | nil =>
        cases args with
        | nil => rfl
        | cons x l => exact absurd rfl (h2 (by simp))
    rw [tokens, hdrop]
    have hn2 := hnext _ hhead
    rw [hc, List.cons_append] at hn2 ⊢
    simp only
    rw [hn2, hrest, tokens_assemble args (s.drop 1) n (fun d hd => hws d (List.mem_of_mem_drop hd)) h3
      (fun x hx => hr x (by simp [hx])) (by omega)]
    rfl

theorem length_assemble {coding : List Char → List Char} : ∀ (args : List (List Char × List Char)) (lead : List Char),
    (∀ x ∈ args, coding x.1 ≠ []) → args.length ≤ (assemble coding lead args).length
  | [], _, _ => Nat.zero_le _
  | x :: args, lead, h => by
    have ih := length_assemble args [] fun y hy => h y (by simp [hy])
    have h1 := List.length_pos_iff.2 (h x (by simp))
    simp only [assemble, List.nil_append, List.flatMap_cons, List.length_append, List.length_cons] at ih ⊢
    omega

theorem white_head {rest : List Char} (h : ∀ c, rest.head? = some c → white c = true) :
    rest = [] ∨ ∃ c r, rest = c :: r ∧ white c = true := by
  cases rest with
  | nil => exact .inl rfl
  | cons c r => exact .inr ⟨c, r, rfl, h c rfl⟩

/-! ### Unix -/

theorem unixToken_end {token rest : List Char} (h : ∀ c, rest.head? = some c → white c = true) :
    unixToken false none token rest = (token, rest.drop 1) := by
  rcases white_head h with rfl | ⟨c, r, rfl, hw⟩
  · rfl
  · have hc := (white_iff c).1 hw
    rw [unixToken]
    rcases hc with rfl | rfl | rfl <;> simp [white]

theorem unixToken_quoted (rest : List Char) : ∀ (a token : List Char), '\'' ∉ a →
    unixToken false (some '"') token (unixQc a ++ '"' :: rest) = unixToken false none (token ++ a) rest
  | [], token, _ => by
    simp [unixQc, unixToken, white]
  | c :: a, token, h => by
    rw [List.mem_cons, not_or] at h
    have ih := unixToken_quoted rest a (token ++ [c]) h.2
    rw [List.append_assoc, List.singleton_append] at ih
    rw [← ih, unixQc]
    by_cases hc : c ∈ ['$', '`', '"', '\\']
    · rw [if_pos hc]
      simp only [List.cons_append]
      rw [unixToken]
      simp [white]
      rw [unixToken]
      simp
    · rw [if_neg hc, List.cons_append, unixToken]
      simp only [List.mem_cons, List.not_mem_nil, or_false, not_or] at hc
      obtain ⟨_, _, h3, h4⟩ := hc
      by_cases hw : white c = true
      · simp [hw]
      · simp [hw, h4, h3, Ne.symm h3, Ne.symm h.1]

theorem unixToken_plain {rest : List Char} (h : ∀ c, rest.head? = some c → white c = true) : ∀ (a token : List Char),
    (∀ c ∈ a, c ∉ unixSpecial ∧ c ≠ '\n') → unixToken false none token (a ++ rest) = (token ++ a, rest.drop 1)
  | [], token, _ => by
    rw [List.nil_append, List.append_nil]
    exact unixToken_end h
  | c :: a, token, ha => by
    obtain ⟨h1, h2⟩ := ha c (by simp)
    have ih := unixToken_plain h a (token ++ [c]) fun d hd => ha d (by simp [hd])
    rw [List.append_assoc, List.singleton_append] at ih
    rw [← ih, List.cons_append, unixToken]
    simp only [unixSpecial, List.mem_cons, List.not_mem_nil, or_false, not_or] at h1
    simp [white, h1, h2]

/-- What the quoting does. -/
theorem unixNqc_eq : ∀ (r pre : List Char), (∀ c ∈ pre, c ∉ unixSpecial) →
    (unixNqc pre r = '"' :: (unixQc (pre ++ r) ++ ['"']) ∧ (pre ++ r = [] ∨ ∃ c ∈ r, c ∈ unixSpecial)) ∨
      (unixNqc pre r = pre ++ r ∧ pre ++ r ≠ [] ∧ ∀ c ∈ pre ++ r, c ∉ unixSpecial)
  | [], pre, h => by
    rw [unixNqc, List.append_nil]
    by_cases hp : pre = []
    · left
      subst hp
      exact ⟨rfl, .inl rfl⟩
    · rw [if_neg hp]
      exact .inr ⟨rfl, hp, h⟩
  | c :: r, pre, h => by
    rw [unixNqc]
    by_cases hc : c ∈ unixSpecial
    · left
      rw [if_pos hc, unixQ]
      refine ⟨?_, .inr ⟨c, by simp, hc⟩⟩
      have hq : ∀ (p s : List Char), (∀ c ∈ p, c ∉ unixSpecial) → unixQc (p ++ s) = p ++ unixQc s := by
        intro p s hp
        induction p with
        | nil => rfl
        | cons d p ih =>
          have hd : d ∉ ['$', '`', '"', '\\'] := by
            intro hm
            refine hp d (by simp) ?_
            simp only [List.mem_cons, List.not_mem_nil, or_false] at hm
            rcases hm with rfl | rfl | rfl | rfl <;> decide
          rw [List.cons_append, unixQc, if_neg hd, ih fun e he => hp e (by simp [he])]
          rfl
      rw [hq pre _ h, List.append_assoc]
    · rw [if_neg hc]
      have ih := unixNqc_eq r (pre ++ [c]) (fun d hd => by
        rcases List.mem_append.1 hd with hd | hd
        · exact h d hd
        · rw [List.mem_singleton.1 hd]
          exact hc)
      rw [show pre ++ [c] ++ r = pre ++ c :: r by simp] at ih
      rcases ih with ⟨h1, h2⟩ | ih
      · refine .inl ⟨h1, ?_⟩
        rcases h2 with h2 | ⟨d, hd, h2⟩
        · exact .inl h2
        · exact .inr ⟨d, by simp [hd], h2⟩
      · exact .inr ih

theorem unixQuote_eq (a : List Char) :
    (unixQuote a = '"' :: (unixQc a ++ ['"']) ∧ (a = [] ∨ ∃ c ∈ a, c ∈ unixSpecial)) ∨
      (unixQuote a = a ∧ a ≠ [] ∧ ∀ c ∈ a, c ∉ unixSpecial) :=
  unixNqc_eq a [] (by simp)

theorem unix_reads {a : List Char} (h1 : '\'' ∉ a) (h2 : '\n' ∈ a → ∃ c ∈ a, c ∈ unixSpecial) :
    Reads (unixToken false none []) unixQuote a := by
  rcases unixQuote_eq a with ⟨h, _⟩ | ⟨h, hne, hs⟩
  · refine ⟨⟨'"', _, h, rfl⟩, fun rest hr => ?_⟩
    rw [h, List.cons_append, List.append_assoc, List.singleton_append, unixToken]
    simp only [Bool.false_eq_true, if_false, Option.isSome_none, Bool.false_and, reduceCtorEq, Char.reduceEq, true_or, if_true]
    rw [unixToken_quoted rest a [] h1, List.nil_append]
    exact unixToken_end hr
  · have hn : ∀ c ∈ a, c ∉ unixSpecial ∧ c ≠ '\n' := by
      intro c hc
      refine ⟨hs c hc, ?_⟩
      rintro rfl
      obtain ⟨d, hd, hd2⟩ := h2 hc
      exact hs d hd hd2
    constructor
    · cases a with
      | nil => exact absurd rfl hne
      | cons c r =>
        refine ⟨c, r, h, ?_⟩
        obtain ⟨g1, g2⟩ := hn c (by simp)
        simp only [unixSpecial, List.mem_cons, List.not_mem_nil, or_false, not_or] at g1
        simp [white, g1, g2]
    · intro rest hr
      rw [h, unixToken_plain hr a [] hn]
      rfl

/-! ### Windows -/

theorem slashes_succ (n : Nat) : slashes (n + 1) = '\\' :: slashes n := rfl

theorem slashes_append (n : Nat) (s : List Char) : slashes n ++ '\\' :: s = slashes (n + 1) ++ s := by
  have : slashes (n + 1) = slashes n ++ ['\\'] := List.replicate_succ' 
  rw [this]
  simp

theorem winToken_slashes (q : Bool) (token s : List Char) : ∀ (n m : Nat),
    winToken (some m) q token (slashes n ++ s) = winToken (some (m + n)) q token s
  | 0, m => rfl
  | n + 1, m => by
    rw [slashes_succ, List.cons_append, winToken, if_pos rfl, winToken_slashes q token s n]
    congr 2
    omega

theorem winToken_run (q : Bool) (token s : List Char) (n : Nat) :
    winToken none q token (slashes (n + 1) ++ s) = winToken (some (n + 1)) q token s := by
  rw [slashes_succ, List.cons_append, winToken]
  have hw : white '\\' = false := by decide
  simp only [hw, Bool.and_false, Bool.false_eq_true, if_false, if_true]
  rw [winToken_slashes, Nat.add_comm]

theorem winToken_end {token rest : List Char} (h : ∀ c, rest.head? = some c → white c = true) :
    winToken none false token rest = (token, rest.drop 1) := by
  rcases white_head h with rfl | ⟨c, r, rfl, hw⟩
  · rfl
  · have hc := (white_iff c).1 hw
    rw [winToken]
    rcases hc with rfl | rfl | rfl <;> simp [white]

theorem winToken_quoted (rest : List Char) : ∀ (a token : List Char) (n : Nat),
    winToken none true token (winQc n a ++ '"' :: rest) = winToken none false (token ++ (slashes n ++ a)) rest
  | [], token, n => by
    rw [winQc, List.append_nil]
    cases n with
    | zero =>
      show winToken none true token ('"' :: rest) = _
      rw [winToken]
      simp [white, slashes]
    | succ n =>
      rw [show 2 * (n + 1) = (2 * n + 1) + 1 by omega, winToken_run, winToken]
      have h1 : (2 * n + 1 + 1) % 2 = 0 := by omega
      have h2 : (2 * n + 1 + 1) / 2 = n + 1 := by omega
      simp [h1, h2]
  | c :: a, token, n => by
    rw [winQc]
    by_cases h1 : c = '\\'
    · rw [if_pos h1, winToken_quoted rest a token (n + 1), h1, slashes_append]
    · rw [if_neg h1]
      by_cases h2 : c = '"'
      · rw [if_pos h2, List.append_assoc, List.cons_append, slashes_append, winToken_run, List.cons_append, winToken,
          if_neg (by decide), if_pos rfl, if_neg (by omega), show (2 * n + 1 - 1) / 2 = n by omega,
          winToken_quoted rest a _ 0, h2]
        simp [slashes]
      · rw [if_neg h2, List.append_assoc, List.cons_append]
        have ih := winToken_quoted rest a (token ++ slashes n ++ [c]) 0
        have hgoal : token ++ slashes n ++ [c] ++ (slashes 0 ++ a) = token ++ (slashes n ++ c :: a) := by simp [slashes]
        rw [hgoal] at ih
        rw [← ih]
        cases n with
        | zero =>
          show winToken none true token (c :: _) = _
          rw [winToken]
          by_cases hw : white c = true
          · simp [hw, slashes]
          · simp [hw, h1, h2, slashes]
        | succ n =>
          rw [winToken_run, winToken, if_neg h1, if_neg h2]
          simp

theorem winToken_plain {rest : List Char} (h : ∀ c, rest.head? = some c → white c = true) : ∀ (a token : List Char),
    (∀ c ∈ a, white c = false ∧ c ≠ '"') →
    winToken none false token (a ++ rest) = (token ++ a, rest.drop 1) ∧
      ∀ n, winToken (some n) false token (a ++ rest) = (token ++ (slashes n ++ a), rest.drop 1)
  | [], token, _ => by
    simp only [List.nil_append, List.append_nil]
    refine ⟨winToken_end h, fun n => ?_⟩
    rcases white_head h with rfl | ⟨c, r, rfl, hw⟩
    · rfl
    · have hc := (white_iff c).1 hw
      rw [winToken]
      rcases hc with rfl | rfl | rfl <;> simp [white]
  | c :: a, token, ha => by
    obtain ⟨h1, h2⟩ := ha c (by simp)
    have ih := fun token => winToken_plain h a token fun d hd => ha d (by simp [hd])
    constructor
    · rw [List.cons_append, winToken]
      simp only [h1, Bool.and_false, Bool.false_eq_true, if_false, h2]
      by_cases hc : c = '\\'
      · rw [if_pos hc, (ih token).2 1, hc]
        rfl
      · rw [if_neg hc, (ih (token ++ [c])).1, List.append_assoc]
        rfl
    · intro n
      rw [List.cons_append, winToken]
      by_cases hc : c = '\\'
      · rw [if_pos hc, (ih token).2 (n + 1), hc, slashes_append]
      · rw [if_neg hc, if_neg h2]
        simp only [h1, Bool.false_and, Bool.false_eq_true, if_false]
        rw [(ih _).1]
        simp

theorem winQc_slashes (s : List Char) : ∀ n m : Nat, winQc m (slashes n ++ s) = winQc (m + n) s
  | 0, m => rfl
  | n + 1, m => by
    rw [slashes_succ, List.cons_append, winQc, if_pos rfl, winQc_slashes s n (m + 1), show m + 1 + n = m + (n + 1) by omega]

/-- A part that is written as it is. -/
def Clean (pre : List Char) : Prop := ∀ s, winQc 0 (pre ++ s) = pre ++ winQc 0 s

theorem clean_add {pre : List Char} (h : Clean pre) (n : Nat) {c : Char} (h1 : c ≠ '\\') (h2 : c ≠ '"') :
    Clean (pre ++ slashes n ++ [c]) := by
  intro s
  rw [show pre ++ slashes n ++ [c] ++ s = pre ++ (slashes n ++ c :: s) by simp, h, winQc_slashes, winQc, if_neg h1, if_neg h2]
  simp

/-- The argument is quoted as a whole, or it is not changed and needs no quotes. -/
theorem winNqc_eq : ∀ (r pre : List Char) (n : Nat), Clean pre → (∀ c ∈ pre, c ≠ ' ' ∧ c ≠ '\t' ∧ c ≠ '"') →
    winNqc n pre r = '"' :: (winQc 0 (pre ++ (slashes n ++ r)) ++ ['"']) ∨
      (winNqc n pre r = pre ++ (slashes n ++ r) ∧ pre ++ (slashes n ++ r) ≠ [] ∧
        ∀ c ∈ pre ++ (slashes n ++ r), c ≠ ' ' ∧ c ≠ '\t' ∧ c ≠ '"')
  | [], pre, 0, hc, hp => by
    rw [winNqc]
    by_cases he : pre = []
    · subst he
      exact .inl rfl
    · rw [if_neg he]
      have e : pre ++ (slashes 0 ++ []) = pre := by simp [slashes]
      rw [e]
      exact .inr ⟨rfl, he, hp⟩
  | [], pre, n + 1, hc, hp => by
    rw [winNqc]
    refine .inr ⟨by simp, by simp [slashes_succ], ?_⟩
    intro c hm
    rcases List.mem_append.1 hm with hm | hm
    · exact hp c hm
    · rw [List.append_nil] at hm
      rw [List.eq_of_mem_replicate hm]
      decide
  | c :: r, pre, 0, hc, hp => by
    rw [winNqc]
    simp only [slashes, List.replicate_zero, List.nil_append]
    by_cases h1 : c ∈ ['|', '<', '>', '&', '^', ' ', '\t', '"']
    · rw [if_pos h1, winQ, ← List.append_assoc, ← hc]
      exact .inl rfl
    · rw [if_neg h1]
      by_cases h2 : c = '\\'
      · rw [if_pos h2, h2]
        exact winNqc_eq r pre 1 hc hp
      · rw [if_neg h2]
        simp only [List.mem_cons, List.not_mem_nil, or_false, not_or] at h1
        have h3 : Clean (pre ++ [c]) := by
          have := clean_add hc 0 h2 h1.2.2.2.2.2.2.2
          simpa [slashes] using this
        have ih := winNqc_eq r (pre ++ [c]) 0 h3 (by
          intro d hd
          rcases List.mem_append.1 hd with hd | hd
          · exact hp d hd
          · rw [List.mem_singleton.1 hd]
            exact ⟨h1.2.2.2.2.2.1, h1.2.2.2.2.2.2.1, h1.2.2.2.2.2.2.2⟩)
        simp only [slashes, List.replicate_zero, List.nil_append, List.append_assoc, List.singleton_append] at ih
        exact ih
  | c :: r, pre, n + 1, hc, hp => by
    rw [winNqc]
    by_cases h1 : c ∈ [' ', '\t']
    · rw [if_pos h1, winQ]
      left
      have h2 : c ≠ '\\' ∧ c ≠ '"' := by
        simp only [List.mem_cons, List.not_mem_nil, or_false] at h1
        rcases h1 with rfl | rfl <;> decide
      rw [hc, winQc_slashes, Nat.zero_add, winQc, if_neg h2.1, if_neg h2.2, winQc, if_neg h2.1, if_neg h2.2]
      simp [slashes]
    · rw [if_neg h1]
      simp only [List.mem_cons, List.not_mem_nil, or_false, not_or] at h1
      by_cases h2 : c = '"'
      · rw [if_pos h2, winQ, ← List.append_assoc, ← hc]
        exact .inl rfl
      · rw [if_neg h2]
        by_cases h3 : c = '\\'
        · rw [if_pos h3, h3, slashes_append]
          exact winNqc_eq r pre (n + 2) hc hp
        · rw [if_neg h3]
          have ih := winNqc_eq r (pre ++ slashes (n + 1) ++ [c]) 0 (clean_add hc (n + 1) h3 h2) (by
            intro d hd
            rcases List.mem_append.1 hd with hd | hd
            · rcases List.mem_append.1 hd with hd | hd
              · exact hp d hd
              · rw [List.eq_of_mem_replicate hd]
                decide
            · rw [List.mem_singleton.1 hd]
              exact ⟨h1.1, h1.2, h2⟩)
          rw [show pre ++ slashes (n + 1) ++ [c] ++ (slashes 0 ++ r) = pre ++ (slashes (n + 1) ++ c :: r) by simp [slashes]] at ih
          exact ih

theorem win_reads {a : List Char} (hn : '\n' ∈ a → ' ' ∈ a ∨ '\t' ∈ a ∨ '"' ∈ a) :
    Reads (winToken none false []) winQuote a := by
  have h := winNqc_eq a [] 0 (fun s => rfl) (by simp)
  simp only [slashes, List.replicate_zero, List.nil_append] at h
  rcases h with h | ⟨h, hne, hs⟩
  · refine ⟨⟨'"', _, h, rfl⟩, fun rest hr => ?_⟩
    rw [show winQuote a = _ from h, List.cons_append, List.append_assoc, List.singleton_append, winToken]
    have hw : white '"' = false := by decide
    simp only [hw, Bool.and_false, Bool.false_eq_true, if_false, Char.reduceEq, if_true, Bool.not_false]
    rw [winToken_quoted rest a [] 0]
    exact winToken_end hr
  · have hs2 : ∀ c ∈ a, white c = false ∧ c ≠ '"' := by
      intro c hc
      obtain ⟨g1, g2, g3⟩ := hs c hc
      have g4 : c ≠ '\n' := by
        rintro rfl
        rcases hn hc with h | h | h
        · exact (hs _ h).1 rfl
        · exact (hs _ h).2.1 rfl
        · exact (hs _ h).2.2 rfl
      exact ⟨by simp [white, g1, g2, g4], g3⟩
    constructor
    · cases a with
      | nil => exact absurd rfl hne
      | cons c r => exact ⟨c, r, h, (hs2 c (by simp)).1⟩
    · intro rest hr
      rw [show winQuote a = a from h, (winToken_plain hr a [] hs2).1]
      rfl

/-- The operators of the command interpreter that `quote-argument` knows. -/
def winOps : List Char := ['|', '<', '>', '&', '^']

theorem winNqc_ops : ∀ (r pre : List Char) (n : Nat), (∀ p c s, slashes n ++ r = p ++ '\\' :: c :: s → c ∉ winOps) →
    (∀ c ∈ pre, c ∉ winOps) → (∃ s, winNqc n pre r = '"' :: s) ∨ ∀ c ∈ pre ++ (slashes n ++ r), c ∉ winOps
  | [], pre, n, _, hp => by
    right
    intro c hc
    rcases List.mem_append.1 hc with hc | hc
    · exact hp c hc
    · rw [List.append_nil] at hc
      rw [List.eq_of_mem_replicate hc]
      decide
  | c :: r, pre, 0, ho, hp => by
    rw [winNqc]
    simp only [slashes, List.replicate_zero, List.nil_append] at ho ⊢
    by_cases h1 : c ∈ ['|', '<', '>', '&', '^', ' ', '\t', '"']
    · rw [if_pos h1]
      exact .inl ⟨_, rfl⟩
    · rw [if_neg h1]
      by_cases h2 : c = '\\'
      · rw [if_pos h2]
        subst h2
        exact winNqc_ops r pre 1 ho hp
      · rw [if_neg h2]
        have hc : c ∉ winOps := by
          simp only [List.mem_cons, List.not_mem_nil, or_false, not_or] at h1
          simp [winOps, h1]
        have ih := winNqc_ops r (pre ++ [c]) 0 (by
          intro p d s e
          simp only [slashes, List.replicate_zero, List.nil_append] at e
          exact ho (c :: p) d s (by rw [e]; rfl)) (by
          intro d hd
          rcases List.mem_append.1 hd with hd | hd
          · exact hp d hd
          · rw [List.mem_singleton.1 hd]
            exact hc)
        simp only [slashes, List.replicate_zero, List.nil_append, List.append_assoc, List.singleton_append] at ih
        exact ih
  | c :: r, pre, n + 1, ho, hp => by
    rw [winNqc]
    by_cases h1 : c ∈ [' ', '\t']
    · rw [if_pos h1]
      exact .inl ⟨_, rfl⟩
    · rw [if_neg h1]
      by_cases h2 : c = '"'
      · rw [if_pos h2]
        exact .inl ⟨_, rfl⟩
      · rw [if_neg h2]
        by_cases h3 : c = '\\'
        · rw [if_pos h3]
          subst h3
          rw [slashes_append] at ho ⊢
          exact winNqc_ops r pre (n + 2) ho hp
        · rw [if_neg h3]
          have hc : c ∉ winOps := ho (slashes n) c r (by rw [slashes_append])
          have ih := winNqc_ops r (pre ++ slashes (n + 1) ++ [c]) 0 (by
            intro p d s e
            refine ho (slashes (n + 1) ++ c :: p) d s ?_
            rw [show r = p ++ '\\' :: d :: s from e]
            simp) (by
            intro d hd
            rcases List.mem_append.1 hd with hd | hd
            · rcases List.mem_append.1 hd with hd | hd
              · exact hp d hd
              · rw [List.eq_of_mem_replicate hd]
                decide
            · rw [List.mem_singleton.1 hd]
              exact hc)
          rw [show pre ++ slashes (n + 1) ++ [c] ++ (slashes 0 ++ r) = pre ++ (slashes (n + 1) ++ c :: r) by simp [slashes]] at ih
          exact ih

theorem quote_mem_winQc : ∀ (a : List Char) (n : Nat), '"' ∈ winQc n a → '"' ∈ a
  | [], n, h => absurd (List.eq_of_mem_replicate h) (by decide)
  | c :: a, n, h => by
    rw [winQc] at h
    by_cases h1 : c = '\\'
    · rw [if_pos h1] at h
      exact List.mem_cons_of_mem _ (quote_mem_winQc a _ h)
    · rw [if_neg h1] at h
      by_cases h2 : c = '"'
      · simp [h2]
      · rw [if_neg h2] at h
        rcases List.mem_append.1 h with h | h
        · exact absurd (List.eq_of_mem_replicate h) (by decide)
        · rcases List.mem_cons.1 h with h | h
          · exact absurd h.symm h2
          · exact List.mem_cons_of_mem _ (quote_mem_winQc a _ h)

/-! ### The shell -/

theorem shell_double (r : List Char) : ∀ (a word : List Char), shell .double (some word) (unixQc a ++ '"' :: r) =
    shell .plain (some (word ++ a)) r
  | [], word => by simp [unixQc, shell]
  | c :: a, word => by
    have ih := shell_double r a (word ++ [c])
    rw [List.append_assoc, List.singleton_append] at ih
    rw [← ih, unixQc]
    by_cases hc : c ∈ ['$', '`', '"', '\\']
    · rw [if_pos hc, List.cons_append, List.cons_append, shell, if_neg (by decide), if_pos rfl, shell]
      have hn : c ≠ '\n' := by
        rintro rfl
        exact absurd hc (by decide)
      rw [if_neg hn, if_pos hc]
      rfl
    · rw [if_neg hc, List.cons_append, shell]
      simp only [List.mem_cons, List.not_mem_nil, or_false, not_or] at hc
      simp [hc]

theorem shell_plain (r : List Char) : ∀ (a : List Char) (word : List Char), (∀ c ∈ a, c ∉ unixSpecial) →
    (∀ c ∈ a, c ∉ ['\n', '*', '?', '[']) → shell .plain (some word) (a ++ r) = shell .plain (some (word ++ a)) r
  | [], word, _, _ => by simp
  | c :: a, word, h1, h2 => by
    have ih := shell_plain r a (word ++ [c]) (fun d hd => h1 d (by simp [hd])) fun d hd => h2 d (by simp [hd])
    rw [List.append_assoc, List.singleton_append] at ih
    rw [← ih, List.cons_append, shell]
    have g1 := h1 c (by simp)
    have g2 := h2 c (by simp)
    simp only [unixSpecial, List.mem_cons, List.not_mem_nil, or_false, not_or] at g1 g2
    simp [g1, g2]

/-- An argument that the shell reads as it is, if it is not quoted. -/
def harmless (a : List Char) : Prop :=
  (∀ c ∈ a, c ∉ ['\n', '*', '?', '[']) ∧ a.head? ≠ some '#' ∧ a.head? ≠ some '~'

theorem shell_word {a : List Char} (h : harmless a ∨ ∃ c ∈ a, c ∈ unixSpecial) (r : List Char) :
    shell .plain none (unixQuote a ++ r) = shell .plain (some a) r := by
  rcases unixQuote_eq a with ⟨hq, _⟩ | ⟨hq, hne, hs⟩
  · rw [hq, List.cons_append, List.append_assoc, List.singleton_append, shell]
    simp only [Char.reduceEq, or_self, if_false, if_true, Option.getD_none]
    rw [shell_double]
    rfl
  · have hh : harmless a := by
      rcases h with h | ⟨c, hc, h⟩
      · exact h
      · exact absurd h (hs c hc)
    obtain ⟨g1, g2, g3⟩ := hh
    rw [hq]
    cases a with
    | nil => exact absurd rfl hne
    | cons c a =>
      have e1 := hs c (by simp)
      have e2 := g1 c (by simp)
      simp only [List.head?_cons, ne_eq, Option.some.injEq] at g2 g3
      simp only [unixSpecial, List.mem_cons, List.not_mem_nil, or_false, not_or] at e1 e2
      rw [List.cons_append, shell]
      simp only [e1, e2, g2, g3, or_self, and_false, if_false, List.mem_cons, List.not_mem_nil, Option.getD_none, List.nil_append]
      rw [shell_plain r a [c] (fun d hd => hs d (by simp [hd])) fun d hd => g1 d (by simp [hd])]
      rfl

end Verif.CmdLine
