import Verif.Mangle.Lemmas
/-
Helper lemmas about the C demangler.
-/
namespace Verif.Mangle

theorem cDigits_suffix (l : List Byte) : ∀ v, ∃ d, l = d ++ (cDigits l v).2 := by
  induction l with
  | nil => intro v; exact ⟨[], rfl⟩
  | cons c l ih =>
    intro v
    simp only [cDigits]
    split
    · obtain ⟨d, hd⟩ := ih ((v * 10 + (c.val - 48)) % 2 ^ 32)
      exact ⟨c :: d, by rw [List.cons_append, ← hd]⟩
    · exact ⟨[], rfl⟩

theorem cDigits_length (l : List Byte) (v : Nat) : (cDigits l v).2.length ≤ l.length := by
  obtain ⟨d, hd⟩ := cDigits_suffix l v
  conv_rhs => rw [hd]
  simp

/-- The loop with as many rounds as it may need. -/
def cRun (signed : Bool) (size : Nat) (src : List Byte) (st : CState) : Out :=
  cLoop signed size (src.length + 1) src st

/-- One round of the loop, given what is done with the rest. -/
def cBody (signed : Bool) (size : Nat) (go : List Byte → CState → Out) (src : List Byte) (st : CState) : Out :=
  match src with
  | [] => cFinish size st.out
  | c :: src =>
    if c = 0 ∨ ¬ st.out.length < size - 1 then cFinish size st.out
    else if signed = true ∧ c.val ≥ 128 then .badIndex
    else if demangleMap c ≠ 0 then go src { st with out := st.out ++ [demangleMap c] }
    else if c = code 'Z' then
      let (value, rest) := cDigits src 0
      match rest with
      | z :: rest =>
        if z = code 'Z' then
          go rest { st with out := st.out ++ [Fin.ofNat 256 value] }
        else .fail
      | [] => .fail
    else if c = code 'K' then
      match src with
      | [] => .readPast
      | a :: src =>
        if (signed = true ∧ a.val ≥ 128) ∨ a.val ≥ abbrevLength then .fail
        else
          let out := match (dylanModules.map (fun (a, b) => (b, a))).lookup a with
            | some m => copyString (size - 1) (copyString (size - 1) st.out m)
                (str [':', 'd', 'y', 'l', 'a', 'n'])
            | none => st.out
          go src { st with out := out, moduleSeen := true }
    else if c = code 'Y' then
      go src { st with out := st.out ++ [code ':'], moduleSeen := true }
    else if c = code 'V' then
      go src { st with out := st.out ++ [code ':'], library := some st.out.length }
    else if c = code 'M' ∨ c = code 'I' then
      let st := match st.moduleSeen, st.library with
        | false, some l =>
          { st with out := copyString (size - 1) st.out (st.out.drop l), moduleSeen := true }
        | _, _ => st
      if c = code 'M' then
        if st.out.length < size then go src { st with out := st.out ++ [code '#'] }
        else .writePast
      else go src st
    else .fail

theorem cLoop_succ (signed : Bool) (size fuel : Nat) (src : List Byte) (st : CState) :
    cLoop signed size (fuel + 1) src st = cBody signed size (cLoop signed size fuel) src st := rfl

/-- A round depends on the rest only for shorter sources. -/
theorem cBody_congr {signed : Bool} {size : Nat} {go go' : List Byte → CState → Out} {src : List Byte}
    (h : ∀ s st, s.length < src.length → go s st = go' s st) (st : CState) :
    cBody signed size go src st = cBody signed size go' src st := by
  cases src with
  | nil => rfl
  | cons c src =>
    simp only [List.length_cons] at h
    have h0 : ∀ st, go src st = go' src st := fun st => h src st (by omega)
    unfold cBody
    dsimp only
    refine if_congr Iff.rfl rfl ?_
    refine if_congr Iff.rfl rfl ?_
    refine if_congr Iff.rfl (h0 _) ?_
    refine if_congr Iff.rfl ?_ ?_
    · have hl := cDigits_length src 0
      revert hl
      generalize cDigits src 0 = p
      obtain ⟨value, rest⟩ := p
      intro hl
      cases rest with
      | nil => rfl
      | cons z rest => exact if_congr Iff.rfl (h _ _ (by simp at hl; omega)) rfl
    refine if_congr Iff.rfl ?_ ?_
    · cases src with
      | nil => rfl
      | cons a src => exact if_congr Iff.rfl rfl (h _ _ (by simp only [List.length_cons]; omega))
    refine if_congr Iff.rfl (h0 _) ?_
    refine if_congr Iff.rfl (h0 _) ?_
    refine if_congr Iff.rfl ?_ rfl
    exact if_congr Iff.rfl (if_congr Iff.rfl (h0 _) rfl) (h0 _)

theorem cLoop_fuel (signed : Bool) (size : Nat) : ∀ (f : Nat) (src : List Byte) (st : CState), src.length < f →
    cLoop signed size f src st = cRun signed size src st := by
  have key : ∀ (n : Nat) (src : List Byte), src.length ≤ n → ∀ f g st, src.length < f → src.length < g →
      cLoop signed size f src st = cLoop signed size g src st := by
    intro n
    induction n with
    | zero =>
      intro src hs f g st hf hg
      obtain ⟨f, rfl⟩ : ∃ k, f = k + 1 := ⟨f - 1, by omega⟩
      obtain ⟨g, rfl⟩ : ∃ k, g = k + 1 := ⟨g - 1, by omega⟩
      rw [cLoop_succ, cLoop_succ]
      exact cBody_congr (fun s st h => by omega) st
    | succ n ih =>
      intro src hs f g st hf hg
      obtain ⟨f, rfl⟩ : ∃ k, f = k + 1 := ⟨f - 1, by omega⟩
      obtain ⟨g, rfl⟩ : ∃ k, g = k + 1 := ⟨g - 1, by omega⟩
      rw [cLoop_succ, cLoop_succ]
      exact cBody_congr (fun s st h => ih s (by omega) _ _ _ (by omega) (by omega)) st
  intro f src st hf
  exact key src.length src (le_refl _) _ _ st hf (by omega)

/-- The loop as an equation. -/
theorem cRun_eq (signed : Bool) (size : Nat) (src : List Byte) (st : CState) :
    cRun signed size src st = cBody signed size (cRun signed size) src st := by
  unfold cRun
  rw [cLoop_succ]
  exact cBody_congr (fun s st h => cLoop_fuel signed size _ s st h) st

theorem copyString_eq (limit : Nat) (xs : List Byte) : ∀ out : List Byte, out.length ≤ limit →
    copyString limit out xs = (out ++ xs).take limit := by
  induction xs with
  | nil => intro out h; simp [copyString, List.take_of_length_le h]
  | cons x xs ih =>
    intro out h
    simp only [copyString]
    split
    · rw [ih _ (by simp; omega)]; simp
    · have : out.length = limit := by omega
      rw [← this]; simp

theorem copyString_length (limit : Nat) (xs out : List Byte) (h : out.length ≤ limit) :
    (copyString limit out xs).length ≤ limit ∧ (copyString limit out xs).length ≤ out.length + xs.length := by
  rw [copyString_eq _ _ _ h]
  simp

/-- The function ended well. -/
def Fine (size : Nat) (o : Out) : Prop := o = .fail ∨ ∃ l : List Byte, o = .ok (l ++ [0]) ∧ l.length < size

/-- There is room for what is still to come, even if the library is to be written twice. -/
def Room (size : Nat) (src : List Byte) (st : CState) : Prop :=
  code 'M' ∉ src ∨
    st.out.length + 28 * src.length + (if st.moduleSeen = true then 0 else st.out.length) + 1 ≤ size

/-- The condition under which a round is safe. -/
structure CInv (signed : Bool) (size : Nat) (src : List Byte) (st : CState) : Prop where
  small : signed = true → ∀ c ∈ src, c.val < 128
  noK : ∀ pre, src ≠ pre ++ [code 'K']
  bound : st.out.length + 1 ≤ size
  room : Room size src st

theorem cFinish_fine {size : Nat} {out : List Byte} (h : out.length + 1 ≤ size) : Fine size (cFinish size out) := by
  right
  exact ⟨out, by simp [cFinish, show out.length < size by omega], by omega⟩

theorem noK_tail {c : Byte} {src : List Byte} (h : ∀ pre, c :: src ≠ pre ++ [code 'K']) :
    ∀ pre, src ≠ pre ++ [code 'K'] := fun pre he => h (c :: pre) (by simp [he])

theorem noK_append {d src : List Byte} (h : ∀ pre, d ++ src ≠ pre ++ [code 'K']) :
    ∀ pre, src ≠ pre ++ [code 'K'] := fun pre he => h (d ++ pre) (by simp [he])

theorem dylanModules_length {a : Byte} {m : List Byte}
    (h : (dylanModules.map (fun (a, b) => (b, a))).lookup a = some m) : m.length ≤ 21 := by
  rw [List.lookup_eq_some_iff] at h
  obtain ⟨l1, l2, he, -⟩ := h
  have : ∀ q ∈ dylanModules.map (fun (a, b) => (b, a)), q.2.length ≤ 21 := by decide
  exact this (a, m) (by rw [he]; simp)

theorem cRun_fine (signed : Bool) (size : Nat) : ∀ (n : Nat) (src : List Byte) (st : CState), src.length ≤ n →
    CInv signed size src st → Fine size (cRun signed size src st) := by
  intro n
  induction n with
  | zero =>
    intro src st hn inv
    have : src = [] := by simpa using hn
    subst this
    rw [cRun_eq]
    exact cFinish_fine inv.bound
  | succ n ih =>
    intro src st hn inv
    rw [cRun_eq]
    cases src with
    | nil => exact cFinish_fine inv.bound
    | cons c src =>
      obtain ⟨small, noK, bound, room⟩ := inv
      simp only [List.length_cons] at hn
      have small' : signed = true → ∀ c ∈ src, c.val < 128 := fun h x hx => small h x (by simp [hx])
      have noK' := noK_tail noK
      have room' : code 'M' ∉ src ∨ st.out.length + 28 * (src.length + 1) +
          (if st.moduleSeen = true then 0 else st.out.length) + 1 ≤ size := by
        rcases room with h | h
        · left; simp at h; exact h.2
        · right; simpa using h
      unfold cBody
      dsimp only
      split
      · exact cFinish_fine bound
      rename_i h0
      push Not at h0
      split
      · rename_i hs
        exact absurd (small hs.1 c (by simp)) (by omega)
      split
      · refine ih _ _ (by omega) ⟨small', noK', by simp; omega, ?_⟩
        rcases room' with h | h
        · exact Or.inl h
        · right; simp only [List.length_append, List.length_singleton]; split at h <;> simp_all <;> omega
      split
      · obtain ⟨d, hd⟩ := cDigits_suffix src 0
        revert hd
        generalize cDigits src 0 = p
        obtain ⟨value, rest⟩ := p
        intro hd
        dsimp only at hd ⊢
        cases rest with
        | nil => exact Or.inl rfl
        | cons z rest =>
          dsimp only
          split
          · subst hd
            simp only [List.length_append, List.length_cons] at hn room'
            refine ih _ _ (by omega) ⟨fun h x hx => small' h x (by simp [hx]),
              noK_tail (noK_append noK'), by simp; omega, ?_⟩
            rcases room' with h | h
            · left; simp at h; exact h.2.2
            · right; simp only [List.length_append, List.length_singleton]; split at h <;> simp_all <;> omega
          · exact Or.inl rfl
      split
      · rename_i hK
        cases src with
        | nil => exact absurd (by simp [hK]) (noK [])
        | cons a src =>
          dsimp only
          split
          · exact Or.inl rfl
          · have hout : ∀ out, (out = match (dylanModules.map (fun (a, b) => (b, a))).lookup a with
                | some m => copyString (size - 1) (copyString (size - 1) st.out m)
                    (str [':', 'd', 'y', 'l', 'a', 'n'])
                | none => st.out) → out.length + 1 ≤ size ∧ out.length ≤ st.out.length + 27 := by
              intro out ho
              cases hk : (dylanModules.map (fun (a, b) => (b, a))).lookup a with
              | none => rw [hk] at ho; simp only at ho; rw [ho]; omega
              | some m =>
                rw [hk] at ho; simp only at ho
                have hm := dylanModules_length hk
                have h1 := copyString_length (size - 1) m st.out (by omega)
                have h2 := copyString_length (size - 1) (str [':', 'd', 'y', 'l', 'a', 'n'])
                  (copyString (size - 1) st.out m) h1.1
                rw [ho]
                have : (str [':', 'd', 'y', 'l', 'a', 'n']).length = 6 := rfl
                rw [this] at h2
                omega
            have ho := hout _ rfl
            revert ho
            generalize (match (dylanModules.map (fun (a, b) => (b, a))).lookup a with
                | some m => copyString (size - 1) (copyString (size - 1) st.out m)
                    (str [':', 'd', 'y', 'l', 'a', 'n'])
                | none => st.out) = out
            intro ho
            simp only [List.length_cons] at hn room'
            refine ih _ _ (by omega) ⟨fun h x hx => small' h x (by simp [hx]), noK_tail noK', ho.1, ?_⟩
            rcases room' with h | h
            · left; simp at h; exact h.2
            · right; simp only [↓reduceIte]; have := ho.2; split at h <;> omega
      split
      · refine ih _ _ (by omega) ⟨small', noK', by simp; omega, ?_⟩
        rcases room' with h | h
        · exact Or.inl h
        · right; simp only [List.length_append, List.length_singleton, ↓reduceIte]; split at h <;> omega
      split
      · refine ih _ _ (by omega) ⟨small', noK', by simp; omega, ?_⟩
        rcases room' with h | h
        · exact Or.inl h
        · right; simp only [List.length_append, List.length_singleton]; split at h <;> simp_all <;> omega
      split
      · have hst : ∀ st' : CState, (st' = match st.moduleSeen, st.library with
            | false, some l =>
              { st with out := copyString (size - 1) st.out (st.out.drop l), moduleSeen := true }
            | _, _ => st) → st'.out.length + 1 ≤ size ∧
              st'.out.length + (if st'.moduleSeen = true then 0 else st'.out.length) ≤
                st.out.length + (if st.moduleSeen = true then 0 else st.out.length) := by
          intro st' he
          cases hm : st.moduleSeen with
          | true => rw [hm] at he; simp only at he; rw [he]; simp [hm]; omega
          | false =>
            rw [hm] at he
            cases hl : st.library with
            | none => rw [hl] at he; simp only at he; rw [he]; simp [hm]; omega
            | some l =>
              rw [hl] at he; simp only at he
              have h1 := copyString_length (size - 1) (st.out.drop l) st.out (by omega)
              rw [he]
              simp only [List.length_drop] at h1
              simp
              omega
        have hs := hst _ rfl
        revert hs
        generalize (match st.moduleSeen, st.library with
            | false, some l =>
              ({ st with out := copyString (size - 1) st.out (st.out.drop l), moduleSeen := true } : CState)
            | _, _ => st) = st'
        intro hs
        split
        · rename_i hM
          have hr : st.out.length + 28 * (src.length + 1) +
              (if st.moduleSeen = true then 0 else st.out.length) + 1 ≤ size := by
            rcases room with h | h
            · simp [hM] at h
            · simpa using h
          rw [if_pos (by omega)]
          refine ih _ _ (by omega) ⟨small', noK', by simp; omega, ?_⟩
          right
          simp only [List.length_append, List.length_singleton]
          have := hs.2
          generalize (if st.moduleSeen = true then 0 else st.out.length) = z at *
          split at this <;> simp_all <;> omega
        · refine ih _ _ (by omega) ⟨small', noK', hs.1, ?_⟩
          rcases room' with h | h
          · exact Or.inl h
          · right; have := hs.2; omega
      · exact Or.inl rfl

end Verif.Mangle
