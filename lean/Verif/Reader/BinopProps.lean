/-
C111: binary operators are grouped by their precedence and associativity.
-/
import Verif.Reader.BinopSpec

namespace Verif.Reader
open BinopSpec

variable {α : Type}

/-! ### The two tables agree -/

theorem prec_lt (a b : Op) : precedence a < precedence b ↔ level a < level b := by
  cases a <;> cases b <;> decide

theorem prec_eq (a b : Op) : precedence a = precedence b ↔ level a = level b := by
  cases a <;> cases b <;> decide

theorem right_eq (a : Op) : rightAssociative a = fromRight a := by cases a <;> decide

theorem left_eq (a : Op) : leftAssociative a = !fromRight a := by cases a <;> decide

theorem level_right (a b : Op) : level a = level b → fromRight a = fromRight b := by
  cases a <;> cases b <;> decide

theorem mac_iff (a : Op) : macroOperator a = true ↔ a = .assign ∨ a = .and ∨ a = .or := by
  cases a <;> decide

/-! ### Contexts: what is pending before an expression -/

/-- What is pending before an operand. -/
abbrev Ctx (α : Type) := Option (Seq α × Op)

def put : Ctx α → Expr α → Seq α
  | none, e => .frag e
  | some (p, op), e => .seq p op e

theorem put_some (p : Seq α) (op : Op) (e : Expr α) : put (some (p, op)) e = .seq p op e := rfl

/-- The new operator is shifted over the context. -/
def shifts (new : Op) : Ctx α → Prop
  | none => True
  | some (_, op) => level op < level new ∨ (level op = level new ∧ fromRight new = true)

def fits : Ctx α → Expr α → Prop
  | _, .leaf _ => True
  | c, .node _ o _ _ => shifts o c

/-- The state after an expression, with its right edge pending. -/
def load : Ctx α → Expr α → Seq α
  | c, .leaf a => put c (.leaf a)
  | c, .node _ op l r => load (some (put c l, op)) r

theorem pending_put (c : Ctx α) (e e' : Expr α) : (put c e).pending = (put c e').pending := by
  cases c with
  | none => rfl
  | some x => rfl

theorem pending_foldOne (p : Seq α) (op : Op) (a : Expr α) : (foldOne p op a).pending = p.pending := by
  cases p <;> rfl

theorem foldOne_put (c : Ctx α) (l : Expr α) (op : Op) (r : Expr α) :
    foldOne (put c l) op r = put c (foldFragment l op r) := by
  cases c with
  | none => rfl
  | some x => rfl

/-- The right edge of `e` is tighter than the operator, or the same and grouped from the left. -/
def edge (new : Op) : Expr α → Prop
  | .leaf _ => True
  | .node _ o _ r => (level new < level o ∨ (level new = level o ∧ fromRight new = false)) ∧ edge new r

theorem edge_of_grouped (new : Op) (e : Expr α) (h : Grouped e) (hl : mayBeLeft new e) : edge new e := by
  induction e with
  | leaf a => trivial
  | node m o l r ihl ihr =>
    refine ⟨hl, ihr h.2.1 ?_⟩
    have hr := h.2.2.2.1
    cases r with
    | leaf a => trivial
    | node m' o' l' r' =>
      simp only [mayBeLeft, mayBeRight] at hl hr ⊢
      have := level_right new o
      have h2 := level_right o o'
      rcases hr with hr | ⟨hr, hr'⟩ <;> rcases hl with hl | ⟨hl, hl'⟩
      · exact Or.inl (Nat.lt_trans hl hr)
      · exact Or.inl (hl ▸ hr)
      · exact Or.inl (hr ▸ hl)
      · rw [this hl, hr'] at hl'; exact absurd hl' (by decide)

theorem folds_iff (op new : Op) :
    (precedence op > precedence new ∨ (precedence op = precedence new ∧ leftAssociative new = true)) ↔
      (level new < level op ∨ (level new = level op ∧ fromRight new = false)) := by
  rw [gt_iff_lt, prec_lt, prec_eq, left_eq, eq_comm (a := level op)]; simp

theorem shifts_iff (op new : Op) :
    (precedence op < precedence new ∨ (precedence op = precedence new ∧ leftAssociative new = false)) ↔
      (level op < level new ∨ (level op = level new ∧ fromRight new = true)) := by
  rw [prec_lt, prec_eq, left_eq]; simp

theorem not_both {op new : Op} (h : level new < level op ∨ (level new = level op ∧ fromRight new = false)) :
    ¬ (level op < level new ∨ (level op = level new ∧ fromRight new = true)) := by
  rintro (h' | ⟨h', h''⟩) <;> rcases h with h | ⟨h, hh⟩
  · exact absurd h (Nat.lt_asymm h')
  · exact absurd h' (by rw [h]; exact Nat.lt_irrefl _)
  · exact absurd h (by rw [h']; exact Nat.lt_irrefl _)
  · rw [hh] at h''; exact absurd h'' (by decide)

/-- A grouped expression is what its parts are folded to. -/
theorem foldFragment_grouped {m : Bool} {o : Op} {l r : Expr α} (h : Grouped (.node m o l r)) :
    foldFragment l o r = .node m o l r := by
  have : macroOperator o = m := by
    have h1 := h.2.2.2.2; rw [← mac_iff] at h1
    cases m <;> cases hm : macroOperator o <;> simp_all
  simp [foldFragment, this]

theorem pending_load_le (c : Ctx α) (e : Expr α) : (put c e).pending ≤ (load c e).pending := by
  induction e generalizing c with
  | leaf a => exact Nat.le_refl _
  | node m o l r ihl ihr =>
    have := ihr (some (put c l, o))
    simp only [load]
    rw [pending_put c _ l]
    simp only [put, Seq.pending] at this ⊢
    omega

theorem pending_load_lt (c : Ctx α) (m : Bool) (o : Op) (l r : Expr α) :
    (put c (.node m o l r)).pending < (load c (.node m o l r)).pending := by
  have := pending_load_le (some (put c l, o)) r
  rw [pending_put c _ l]
  simp only [put, Seq.pending, load] at this ⊢
  omega

/-- Folding the right edge of `e` for a looser operator gives `e` back, and goes on with the context. -/
theorem foldTighter_load (new : Op) (c : Ctx α) (e : Expr α) (h : Grouped e) (he : edge new e) (n : Nat)
    (hn : (load c e).pending ≤ n) :
    ∃ m, (put c e).pending ≤ m ∧
      foldTighter (precedence new) (leftAssociative new) n (load c e) =
        foldTighter (precedence new) (leftAssociative new) m (put c e) := by
  induction e generalizing c n with
  | leaf a => exact ⟨n, hn, rfl⟩
  | node mac o l r ihl ihr =>
    obtain ⟨m, hm, hmm⟩ := ihr (some (put c l, o)) h.2.1 he.2 n hn
    obtain ⟨k, rfl⟩ : ∃ k, m = k + 1 := ⟨m - 1, by simp only [put_some, Seq.pending] at hm; omega⟩
    refine ⟨k, ?_, ?_⟩
    · rw [pending_put c _ l]; simp only [put_some, Seq.pending] at hm; omega
    · simp only [load]
      rw [hmm, put_some]
      rw [foldTighter.eq_def]
      dsimp only
      rw [if_pos ((folds_iff o new).2 he.1), foldOne_put, foldFragment_grouped h]

theorem foldTighter_put (new : Op) (c : Ctx α) (e : Expr α) (hc : shifts new c) (n : Nat) :
    foldTighter (precedence new) (leftAssociative new) n (put c e) = put c e := by
  cases c with
  | none => cases n <;> rfl
  | some x =>
    cases n with
    | zero => rfl
    | succ n =>
      simp only [put]
      rw [foldTighter.eq_def]
      dsimp only
      rw [if_neg]
      exact fun h => not_both ((folds_iff _ _).1 h) hc

theorem append_put (new : Op) (arg : Expr α) (c : Ctx α) (e : Expr α) (hc : shifts new c) (n : Nat)
    (hn : (put c e).pending ≤ n) : append new arg n (put c e) = .seq (put c e) new arg := by
  cases c with
  | none => cases n <;> rfl
  | some x =>
    cases n with
    | zero => simp [put, Seq.pending] at hn
    | succ n =>
      simp only [put]
      rw [append.eq_def]
      dsimp only
      rw [if_pos ((shifts_iff _ _).2 hc)]

/-- The last pending operator of a loaded expression is one of its right edge. -/
theorem load_top (new : Op) (c : Ctx α) (m : Bool) (o : Op) (l r : Expr α) (he : edge new (.node m o l r)) :
    ∃ p o' a, load c (.node m o l r) = .seq p o' a ∧
      (level new < level o' ∨ (level new = level o' ∧ fromRight new = false)) := by
  induction r generalizing c m o l with
  | leaf a => exact ⟨_, _, _, rfl, he.1⟩
  | node m' o' l' r' ihl ihr => exact ihr (some (put c l, o)) m' o' l' he.2

theorem append_load (new : Op) (arg : Expr α) (c : Ctx α) (e : Expr α) (h : Grouped e) (hl : mayBeLeft new e)
    (hc : shifts new c) (n : Nat) (hn : (load c e).pending ≤ n) :
    append new arg n (load c e) = .seq (put c e) new arg := by
  have he := edge_of_grouped new e h hl
  cases e with
  | leaf a => exact append_put new arg c _ hc n hn
  | node m o l r =>
    obtain ⟨p, o', a, hp, ho⟩ := load_top new c m o l r he
    have hlt := pending_load_lt c m o l r
    cases n with
    | zero => omega
    | succ n =>
      obtain ⟨k, -, hf⟩ := foldTighter_load new c _ h he (n + 1) hn
      rw [foldTighter_put new c _ hc, hp, foldTighter.eq_def] at hf
      dsimp only at hf
      rw [if_pos ((folds_iff _ _).2 ho)] at hf
      rw [hp, append.eq_def]
      dsimp only
      rw [if_neg (fun hh => not_both ho ((shifts_iff _ _).1 hh)), hf]
      exact append_put new arg c _ hc n (by omega)

/-- Reading the operators and operands of a grouped expression. -/
theorem read_load (c : Ctx α) (e : Expr α) (h : Grouped e) (hf : fits c e) :
    (others e).foldl (fun s x => appendBinop s x.1 (.leaf x.2)) (put c (.leaf (firstOperand e))) = load c e := by
  induction e generalizing c with
  | leaf a => rfl
  | node m o l r ihl ihr =>
    have hc : shifts o c := hf
    have hfl : fits c l := by
      cases l with
      | leaf a => trivial
      | node m' o' l' r' =>
        have hm := h.2.2.1
        simp only [mayBeLeft] at hm
        cases c with
        | none => trivial
        | some x =>
          obtain ⟨p, q⟩ := x
          simp only [fits, shifts] at hc ⊢
          rcases hc with hc | ⟨hc, hc'⟩ <;> rcases hm with hm | ⟨hm, hm'⟩
          · exact Or.inl (Nat.lt_trans hc hm)
          · exact Or.inl (hm ▸ hc)
          · exact Or.inl (hc ▸ hm)
          · rw [hm'] at hc'; exact absurd hc' (by decide)
    have hfr : fits (some (put c l, o)) r := by
      cases r with
      | leaf a => trivial
      | node m' o' l' r' =>
        have hm := h.2.2.2.1
        simp only [mayBeRight] at hm
        simp only [fits, shifts]
        rcases hm with hm | ⟨hm, hm'⟩
        · exact Or.inl hm
        · exact Or.inr ⟨hm, by rw [← level_right o o' hm]; exact hm'⟩
    simp only [others, firstOperand, List.foldl_append, List.foldl_cons]
    rw [ihl c h.1 hfl, appendBinop, append_load o _ c l h.1 h.2.2.1 hc _ (Nat.le_refl _)]
    exact ihr (some (put c l, o)) h.2.1 hfr

theorem fragmentOf_load (c : Ctx α) (e : Expr α) (h : Grouped e) (n : Nat) (hn : (load c e).pending ≤ n) :
    ∃ m, (put c e).pending ≤ m ∧ fragmentOf n (load c e) = fragmentOf m (put c e) := by
  induction e generalizing c n with
  | leaf a => exact ⟨n, hn, rfl⟩
  | node mac o l r ihl ihr =>
    obtain ⟨m, hm, hmm⟩ := ihr (some (put c l, o)) h.2.1 n hn
    obtain ⟨k, rfl⟩ : ∃ k, m = k + 1 := ⟨m - 1, by simp only [put_some, Seq.pending] at hm; omega⟩
    refine ⟨k, ?_, ?_⟩
    · rw [pending_put c _ l]; simp only [put_some, Seq.pending] at hm; omega
    · simp only [load]
      rw [hmm, put_some]
      rw [fragmentOf.eq_def]
      dsimp only
      rw [foldOne_put, foldFragment_grouped h]

theorem parse_grouped (e : Expr α) (h : Grouped e) : parse (firstOperand e) (others e) = e := by
  have hf : fits (none : Ctx α) e := by cases e <;> trivial
  have := read_load none e h hf
  simp only [put] at this
  unfold parse
  rw [this, binopFragment]
  obtain ⟨m, -, hm⟩ := fragmentOf_load none e h _ (Nat.le_refl _)
  rw [hm]; cases m <;> rfl

/-! ### Every reading has a grouping -/

/-- Write an operator and an operand after an expression. -/
def insert (new : Op) (a : α) : Expr α → Expr α
  | .leaf b => .node (macroOperator new) new (.leaf b) (.leaf a)
  | .node m o l r =>
    if level o < level new ∨ (level o = level new ∧ fromRight new = true) then .node m o l (insert new a r)
    else .node (macroOperator new) new (.node m o l r) (.leaf a)

theorem insert_others (new : Op) (a : α) (e : Expr α) :
    firstOperand (insert new a e) = firstOperand e ∧ others (insert new a e) = others e ++ [(new, a)] := by
  induction e with
  | leaf b => exact ⟨rfl, rfl⟩
  | node m o l r ihl ihr =>
    simp only [insert]
    split
    · simp only [firstOperand, others, ihr.1, ihr.2, true_and]; simp
    · simp [firstOperand, others]

theorem insert_grouped (new : Op) (a : α) (e : Expr α) (h : Grouped e) :
    Grouped (insert new a e) ∧ ∀ op, mayBeRight op e → (level op < level new ∨ (level op = level new ∧ fromRight new = true)) →
      mayBeRight op (insert new a e) := by
  induction e with
  | leaf b =>
    refine ⟨⟨trivial, trivial, trivial, trivial, mac_iff new⟩, ?_⟩
    intro op _ ho
    simp only [insert, mayBeRight]
    rcases ho with ho | ⟨ho, ho'⟩
    · exact Or.inl ho
    · exact Or.inr ⟨ho, by rw [level_right _ _ ho]; exact ho'⟩
  | node m o l r ihl ihr =>
    simp only [insert]
    split
    · next hs =>
      obtain ⟨h1, h2⟩ := ihr h.2.1
      exact ⟨⟨h.1, h1, h.2.2.1, h2 o h.2.2.2.1 hs, h.2.2.2.2⟩, fun op ho _ => ho⟩
    · next hs =>
      refine ⟨⟨h, trivial, ?_, trivial, mac_iff new⟩, ?_⟩
      · simp only [mayBeLeft]
        rw [not_or, not_and] at hs
        by_cases hh : level new < level o
        · exact Or.inl hh
        · have : level o = level new := Nat.le_antisymm (Nat.not_lt.1 hh) (Nat.not_lt.1 hs.1)
          exact Or.inr ⟨this.symm, by simpa using hs.2 this⟩
      · intro op _ ho
        simp only [mayBeRight]
        rcases ho with ho | ⟨ho, ho'⟩
        · exact Or.inl ho
        · exact Or.inr ⟨ho, by rw [level_right _ _ ho]; exact ho'⟩

theorem exists_grouped (first : α) (rest : List (Op × α)) :
    ∃ e, Grouped e ∧ firstOperand e = first ∧ others e = rest := by
  suffices H : ∀ (rest : List (Op × α)) (e : Expr α), Grouped e →
      ∃ e', Grouped e' ∧ firstOperand e' = firstOperand e ∧ others e' = others e ++ rest from by
    obtain ⟨e, h1, h2, h3⟩ := H rest (.leaf first) trivial
    exact ⟨e, h1, h2, h3⟩
  intro rest
  induction rest with
  | nil => intro e h; exact ⟨e, h, rfl, by simp⟩
  | cons x rest ih =>
    intro e h
    obtain ⟨e', h1, h2, h3⟩ := ih (insert x.1 x.2 e) (insert_grouped x.1 x.2 e h).1
    refine ⟨e', h1, ?_, ?_⟩
    · rw [h2, (insert_others x.1 x.2 e).1]
    · rw [h3, (insert_others x.1 x.2 e).2]; simp

/-- **C111** An operand followed by any number of operators and operands is read as an expression that
    has these operands and operators in this order and that needs no parentheses: the operands of an operator
    are expressions of tighter operators, or of equally tight ones on the side from which it groups. -/
theorem operators_grouped (first : α) (rest : List (Op × α)) :
    Grouped (parse first rest) ∧ firstOperand (parse first rest) = first ∧ others (parse first rest) = rest := by
  obtain ⟨e, h, rfl, rfl⟩ := exists_grouped first rest
  rw [parse_grouped e h]
  exact ⟨h, rfl, rfl⟩

/-- **C111** There is no other such expression. -/
theorem operators_grouped_unique (e : Expr α) (first : α) (rest : List (Op × α)) (h : Grouped e)
    (hf : firstOperand e = first) (ho : others e = rest) : e = parse first rest := by
  subst hf ho; exact (parse_grouped e h).symm

/-- **C111** An expression that needs no parentheses is read back as itself. -/
theorem operators_round_trip (e : Expr α) (h : Grouped e) : parse (firstOperand e) (others e) = e :=
  parse_grouped e h

/-- `a := b := c + d * e ^ f ^ g * h - i`. -/
example : parse 'a' [(.assign, 'b'), (.assign, 'c'), (.plus, 'd'), (.times, 'e'), (.power, 'f'), (.power, 'g'),
      (.times, 'h'), (.minus, 'i')] =
    .node true .assign (.leaf 'a') (.node true .assign (.leaf 'b')
      (.node false .minus
        (.node false .plus (.leaf 'c')
          (.node false .times (.node false .times (.leaf 'd')
            (.node false .power (.leaf 'e') (.node false .power (.leaf 'f') (.leaf 'g')))) (.leaf 'h')))
        (.leaf 'i'))) := by decide

/-- `a - b - c` is grouped from the left; the other grouping needs parentheses. -/
example : Grouped (.node false .minus (.node false .minus (.leaf 'a') (.leaf 'b')) (.leaf 'c')) ∧
    ¬ Grouped (.node false .minus (.leaf 'a') (.node false .minus (.leaf 'b') (.leaf 'c'))) := by
  simp only [Grouped, mayBeLeft, mayBeRight]; decide

end Verif.Reader
