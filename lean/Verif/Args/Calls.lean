import Verif.Args.Lemmas

/-! # Calls of methods, `apply` and generic functions: lemmas -/

namespace Verif.Args

variable {V : Type} [DecidableEq V]

omit [DecidableEq V] in
theorem firstUnknown_none (allowed : V → Bool) (l : List V)
    (h : ∀ k ∈ (pairs l).map Prod.fst, allowed k = true) : firstUnknown allowed l = none := by
  unfold firstUnknown
  rw [List.find?_eq_none.2]
  · rfl
  · intro p hp
    simp [h p.1 (List.mem_map_of_mem hp)]

/-- What the entry points of a method do: the meaning but for unknown keywords,
which are accepted. -/
def bindLax (fn : Fn V) (args : List V) : M V (List (Cell V)) :=
  if ¬ countOk fn args.length then .error (.error (.count args.length))
  else
    match wrongType fn args with
    | some v => .error (.error (.type v))
    | none =>
      if fn.opt = .key ∧ (args.length - fn.required) % 2 = 1 then .error (.error .odd)
      else .ok (parameters fn args)

theorem bindLax_count (fn : Fn V) (args : List V) (h : ¬ countOk fn args.length) :
    bindLax fn args = .error (.error (.count args.length)) := by
  unfold bindLax
  exact if_pos h

theorem bindLax_type (fn : Fn V) (args : List V) (h : countOk fn args.length) (v : V)
    (hw : wrongType fn args = some v) : bindLax fn args = .error (.error (.type v)) := by
  unfold bindLax
  rw [hw]
  exact if_neg (not_not_intro h)

theorem bindLax_odd (fn : Fn V) (args : List V) (h : countOk fn args.length)
    (hw : wrongType fn args = none) (hk : fn.opt = .key)
    (ho : (args.length - fn.required) % 2 = 1) : bindLax fn args = .error (.error .odd) := by
  unfold bindLax
  rw [hw]
  dsimp only
  rw [if_neg (not_not_intro h), if_pos ⟨hk, ho⟩]

theorem bindLax_ok (fn : Fn V) (args : List V) (h : countOk fn args.length)
    (hw : wrongType fn args = none)
    (ho : ¬ (fn.opt = .key ∧ (args.length - fn.required) % 2 = 1)) :
    bindLax fn args = .ok (parameters fn args) := by
  unfold bindLax
  rw [hw]
  dsimp only
  rw [if_neg ho]
  exact if_neg (not_not_intro h)

/-- Where all keywords are accepted, this is the meaning of the call. -/
theorem bind_eq_lax (fn : Fn V) (args : List V)
    (h : fn.opt = .key → firstUnknown fn.accepts (args.drop fn.required) = none) :
    bind fn args = bindLax fn args := by
  unfold bind bindLax
  by_cases hc : countOk fn args.length
  · simp only [hc, not_true, if_false]
    cases wrongType fn args with
    | some v => rfl
    | none =>
      dsimp only
      by_cases hk : fn.opt = .key
      · rw [h hk]
        simp [hk]
      · simp [hk]
  · simp [hc]

theorem bind_allKeys (fn : Fn V) (args : List V) :
    bind { fn with allKeys := true } args = bindLax fn args :=
  bind_eq_lax { fn with allKeys := true } args (fun _ => firstUnknown_none _ _ (fun _ _ => rfl))

omit [DecidableEq V] in
theorem getD_front (l : List V) (extra : List (Cell V)) (j : Nat) (hj : j < l.length) :
    (l.map Cell.val ++ extra).getD j .junk = .val l[j] := by
  rw [List.getD_eq_getElem?_getD, List.getElem?_append_left (by simpa using hj)]
  simp [hj]

omit [DecidableEq V] in
theorem take_front (l : List V) (extra : List (Cell V)) (n : Nat) (hn : n ≤ l.length) :
    (l.map Cell.val ++ extra).take n = (l.take n).map .val := by
  rw [List.take_append_of_le_length (by simpa using hn), List.map_take]

omit [DecidableEq V] in
theorem callCheck_ok (n : Nat) (h : n ≤ maxArguments) : callCheck (V := V) n = .ok () := by
  unfold callCheck
  rw [if_neg (by omega)]

omit [DecidableEq V] in
theorem cells_front (b : Buf V) (l : List V) (n : Nat) (hn : n ≤ l.length)
    (h : ∀ j (hj : j < l.length), j < n → b j = .val l[j]) : cells b n = (l.take n).map .val := by
  have hl : ((l.take n).map Cell.val).length = n := by simp; omega
  have := cells_eq b ((l.take n).map Cell.val) (fun j hj => by
    rw [hl] at hj
    rw [h j (by omega) hj]
    simp)
  rwa [hl] at this

omit [DecidableEq V] in
theorem readVals_drop (b : Buf V) (l : List V) (n : Nat) (hn : n ≤ l.length)
    (hm : l.length ≤ maxArguments)
    (h : ∀ j (hj : j < l.length), b j = .val l[j]) :
    readVals b n (l.length - n) = .ok (l.drop n) := by
  have := readVals_ok b (l.drop n) n (fun j hj => by
    rw [h (n + j) (by simp at hj; omega)]
    simp) (by simp; omega)
  simpa using this

/-- The external entry point, called with the words `l` and possibly more. -/
theorem xepCall_eq (t : Teb V) (fn : Fn V) (hok : fn.Ok) (l : List V) (extra : List (Cell V))
    (hn : l.length ≤ maxArguments) (ha : fn.arity ≤ 64) :
    xepCall t fn l.length (l.map .val ++ extra) = bindLax fn l := by
  unfold xepCall
  cases ho : fn.opt with
  | none =>
    have hc : countOk fn l.length ↔ l.length = fn.required := by unfold countOk; rw [ho]
    dsimp only
    by_cases h10 : fn.required < 10
    · rw [if_pos h10]
      unfold xepNumbered basicRequiredCallCheck
      rw [callCheck_ok _ hn]
      dsimp only
      by_cases hl : l.length = fn.required
      · rw [if_neg (by simpa using hl)]
        dsimp only
        rw [if_neg (by simp; omega), typeCheckArgs_eq fn hok l (by omega) _
          (fun j hj _ => getD_front l extra j hj)]
        cases hw : wrongType fn l with
        | some v => rw [bindLax_type fn l (hc.2 hl) v hw]
        | none =>
          rw [bindLax_ok fn l (hc.2 hl) hw (by simp [ho])]
          dsimp only
          rw [take_front l extra _ (by omega)]
          unfold parameters
          rw [ho]
          simp
      · rw [if_pos hl]
        rw [bindLax_count fn l (fun h => hl (hc.1 h))]
    · rw [if_neg h10]
      have har : fn.required ≤ 64 := by unfold Fn.arity at ha; rw [ho] at ha; exact ha
      obtain ⟨b, hb, hv, _⟩ := transferVarargs_front l extra t.arguments hn
      unfold xepGeneral requiredCallCheck basicRequiredCallCheck
      rw [hb]
      dsimp only
      rw [callCheck_ok _ hn]
      dsimp only
      by_cases hl : l.length = fn.required
      · rw [if_neg (by simpa using hl)]
        dsimp only
        rw [hl, typeCheckArgs_eq fn hok l (by omega) _ (fun j hj _ => hv j hj)]
        cases hw : wrongType fn l with
        | some v => rw [bindLax_type fn l (hc.2 hl) v hw]
        | none =>
          rw [bindLax_ok fn l (hc.2 hl) hw (by simp [ho])]
          dsimp only
          rw [iepApply_ok b _ har,
            cells_front b l _ (by omega) (fun j hj _ => hv j hj)]
          unfold parameters
          rw [ho]
          simp
      · rw [if_pos hl]
        rw [bindLax_count fn l (fun h => hl (hc.1 h))]
  | rest =>
    have hc : countOk fn l.length ↔ fn.required ≤ l.length := by unfold countOk; rw [ho]
    have har : fn.required + 1 ≤ 64 := by unfold Fn.arity at ha; rw [ho] at ha; exact ha
    dsimp only
    by_cases h10 : fn.required < 10
    · rw [if_pos h10]
      unfold restXepNumbered basicOptionalCallCheck
      by_cases hl : fn.required ≤ l.length
      · have hd : (l.map Cell.val ++ extra).drop fn.required
            = (l.drop fn.required).map Cell.val ++ extra := by
          rw [List.drop_append_of_le_length (by simpa using hl), List.map_drop]
        obtain ⟨b, hb, hv, _⟩ := transferVarargs_front (l.drop fn.required) extra t.arguments
          (by simp; omega)
        rw [hd]
        simp only [List.length_drop] at hb
        rw [hb]
        dsimp only
        rw [callCheck_ok _ hn]
        dsimp only
        rw [if_neg (by omega)]
        dsimp only
        rw [typeCheckArgs_eq fn hok l hl _ (fun j hj _ => getD_front l extra j hj)]
        cases hw : wrongType fn l with
        | some v => rw [bindLax_type fn l (hc.2 hl) v hw]
        | none =>
          rw [bindLax_ok fn l (hc.2 hl) hw (by simp [ho])]
          dsimp only
          have := readVals_ok b (l.drop fn.required) 0 (fun j hj => by
            rw [Nat.zero_add]; exact hv j hj) (by simp; omega)
          simp only [List.length_drop] at this
          rw [this, take_front l extra _ hl]
          dsimp only
          unfold parameters
          rw [ho]
      · rw [show l.length - fn.required = 0 by omega]
        simp only [transferVarargs]
        rw [callCheck_ok _ hn]
        dsimp only
        rw [if_pos (by omega)]
        rw [bindLax_count fn l (fun h => hl (hc.1 h))]
    · rw [if_neg h10]
      obtain ⟨b, hb, hv, _⟩ := transferVarargs_front l extra t.arguments hn
      unfold restXepGeneral optionalCallCheck basicOptionalCallCheck
      rw [hb]
      dsimp only
      rw [callCheck_ok _ hn]
      dsimp only
      by_cases hl : fn.required ≤ l.length
      · rw [if_neg (by omega)]
        dsimp only
        rw [typeCheckArgs_eq fn hok l hl _ (fun j hj _ => hv j hj)]
        cases hw : wrongType fn l with
        | some v => rw [bindLax_type fn l (hc.2 hl) v hw]
        | none =>
          rw [bindLax_ok fn l (hc.2 hl) hw (by simp [ho])]
          dsimp only
          obtain ⟨b', hb', hv'⟩ := copyRequired_ok b fn.required 0 t.newArguments
            (by unfold maxArguments; omega)
          rw [hb', readVals_drop b l _ hl hn hv]
          dsimp only
          rw [store_ok _ _ _ (by unfold maxArguments; omega)]
          dsimp only
          rw [iepApply_ok _ _ har, cells_append,
            cells_front _ l _ hl (fun j hj hj' => by
              have : j ≠ fn.required := by omega
              simp only [Buf.set, if_neg this]
              rw [hv' j, if_pos (by omega), hv j hj])]
          unfold parameters
          rw [ho]
          simp [Buf.set]
      · rw [if_pos (by omega)]
        rw [bindLax_count fn l (fun h => hl (hc.1 h))]
  | key =>
    have hc : countOk fn l.length ↔ fn.required ≤ l.length := by unfold countOk; rw [ho]
    have har : fn.required + 1 + fn.keys.length ≤ 64 := by
      unfold Fn.arity at ha; rw [ho] at ha; exact ha
    dsimp only
    obtain ⟨b, hb, hv, _⟩ := transferVarargs_front l extra t.arguments hn
    unfold restKeyXep keywordCallCheck optionalCallCheck basicOptionalCallCheck
    rw [hb]
    dsimp only
    rw [callCheck_ok _ hn]
    dsimp only
    by_cases hl : fn.required ≤ l.length
    · rw [if_neg (by omega)]
      dsimp only
      rw [typeCheckArgs_eq fn hok l hl _ (fun j hj _ => hv j hj)]
      cases hw : wrongType fn l with
      | some v => rw [bindLax_type fn l (hc.2 hl) v hw]
      | none =>
        dsimp only
        by_cases hodd : (l.length - fn.required) % 2 = 1
        · rw [if_pos hodd, bindLax_odd fn l (hc.2 hl) hw ho hodd]
        · rw [if_neg hodd, bindLax_ok fn l (hc.2 hl) hw (by simp [hodd])]
          dsimp only
          rw [readVals_drop b l _ hl hn hv]
          dsimp only
          obtain ⟨b', hb', hv'⟩ := processKeywordCallInto_ok t.newArguments fn hok
            (by unfold maxArguments; omega) b l (l.drop fn.required) (fun j hj _ => hv j hj) hl
            (by simp; omega)
          rw [hb']
          dsimp only
          rw [iepApply_ok _ _ (by omega), hv']
          unfold parameters
          rw [ho]
          simp
    · rw [if_pos (by omega)]
      rw [bindLax_count fn l (fun h => hl (hc.1 h))]

omit [DecidableEq V] in
theorem fillApplyBuffer_ok : ∀ (l : List V) (i : Nat) (b : Buf V), i + l.length ≤ maxArguments →
    ∃ b', fillApplyBuffer l i b = .ok b' ∧
      (∀ j (hj : j < l.length), b' (i + j) = .val l[j]) ∧
      ∀ j, (j < i ∨ i + l.length ≤ j) → b' j = b j := by
  intro l
  induction l with
  | nil => intro i b _; exact ⟨b, rfl, fun j hj => absurd hj (by simp), fun _ _ => rfl⟩
  | cons v r ih =>
    intro i b h
    simp only [List.length_cons] at h
    obtain ⟨b', hb, hv, hk⟩ := ih (i + 1) (b.set i (.val v)) (by omega)
    refine ⟨b', ?_, fun j hj => ?_, fun j hj => ?_⟩
    · unfold fillApplyBuffer
      rw [store_ok _ _ _ (by omega)]
      exact hb
    · cases j with
      | zero =>
        rw [Nat.add_zero, hk i (by omega)]
        simp [Buf.set]
      | succ j =>
        have := hv j (by simpa using hj)
        rw [show i + (j + 1) = i + 1 + j by omega, this]
        simp
    · simp only [List.length_cons] at hj
      rw [hk j (by omega)]
      have : j ≠ i := by omega
      simp [Buf.set, this]

theorem primitiveApply_eq (t : Teb V) (fn : Fn V) (hok : fn.Ok) (args last : List V)
    (hn : args.length + last.length ≤ 64) (ha : fn.arity ≤ 64) :
    primitiveApply t fn args last = bindLax fn (args ++ last) := by
  obtain ⟨b, hb, hv, _⟩ := fillApplyBuffer_ok args 0 t.applyBuffer (by unfold maxArguments; omega)
  obtain ⟨b', hb', hv', hk'⟩ := fillApplyBuffer_ok last args.length b
    (by unfold maxArguments; omega)
  have hall : ∀ j (hj : j < (args ++ last).length), b' j = .val (args ++ last)[j] := by
    intro j hj
    by_cases h : j < args.length
    · rw [hk' j (by omega), List.getElem_append_left h]
      have := hv j h
      rwa [Nat.zero_add] at this
    · have := hv' (j - args.length) (by simp at hj; omega)
      rw [show args.length + (j - args.length) = j by omega] at this
      rw [this, List.getElem_append_right (by omega)]
  unfold primitiveApply
  rw [hb]
  dsimp only
  rw [hb']
  dsimp only
  rw [show args.length + 1 + last.length - 1 = (args ++ last).length by rw [List.length_append]; omega]
  have hlen : (args ++ last).length ≤ 64 := by simpa using hn
  generalize args ++ last = l at *
  unfold primitiveXepApply
  by_cases h9 : l.length ≤ 9
  · rw [if_pos h9, cells_front b' l l.length (Nat.le_refl _) (fun j hj _ => hall j hj),
      List.take_length]
    have := xepCall_eq t fn hok l [] (by unfold maxArguments; omega) ha
    rwa [List.append_nil] at this
  · rw [if_neg h9, if_neg (by omega)]
    rw [show 64 = l.length + (64 - l.length) by omega, cells_append,
      cells_front b' l l.length (Nat.le_refl _) (fun j hj _ => hall j hj), List.take_length]
    exact xepCall_eq t fn hok l _ (by unfold maxArguments; omega) ha

/-! ### Generic functions -/

theorem knownKeyword_eq (k : V) : ∀ l : List V, knownKeyword k l = decide (k ∈ l)
  | [] => by simp [knownKeyword]
  | a :: r => by
    unfold knownKeyword
    by_cases h : a = k
    · simp [h]
    · rw [if_neg h, knownKeyword_eq k r]
      have : ¬ k = a := fun e => h e.symm
      simp [this]

theorem checkLoop_eq (kwds : List V) : ∀ l : List V,
    checkLoop kwds l = firstUnknown (fun k => decide (k ∈ kwds)) l
  | [] => by simp [checkLoop, firstUnknown, pairs]
  | [_] => by simp [checkLoop, firstUnknown, pairs]
  | k :: v :: r => by
    have := checkLoop_eq kwds r
    unfold checkLoop
    rw [knownKeyword_eq, this]
    unfold firstUnknown
    simp only [pairs, List.find?_cons]
    by_cases h : k ∈ kwds <;> simp [h]

theorem mem_addKeys (x : V) : ∀ (keys : List (V × V)) (ans : List V),
    x ∈ addKeys keys ans ↔ x ∈ keys.map Prod.fst ∨ x ∈ ans
  | [], ans => by simp [addKeys]
  | (k, d) :: r, ans => by
    unfold addKeys
    split
    · rename_i h
      rw [mem_addKeys x r ans]
      simp only [List.map_cons, List.mem_cons]
      constructor
      · rintro (h | h) <;> simp [h]
      · rintro ((rfl | h) | h) <;> simp [*]
    · rw [mem_addKeys x r (k :: ans)]
      simp only [List.map_cons, List.mem_cons]
      constructor
      · rintro (h | h | h) <;> simp [h]
      · rintro ((h | h) | h) <;> simp [h]

theorem addKeys_nodup : ∀ (keys : List (V × V)) (ans : List V), ans.Nodup →
    (addKeys keys ans).Nodup
  | [], ans, h => h
  | (k, d) :: r, ans, h => by
    unfold addKeys
    split
    · exact addKeys_nodup r ans h
    · rename_i hk
      exact addKeys_nodup r (k :: ans) (List.nodup_cons.2 ⟨hk, h⟩)

theorem outerKeys_spec : ∀ (methods : List (Fn V)) (ans : List V), ans.Nodup →
    match outerKeys methods ans with
    | none => ∃ m ∈ methods, m.allKeys = true
    | some ks => ks.Nodup ∧ (∀ m ∈ methods, m.allKeys = false) ∧
        ∀ x, x ∈ ks ↔ (∃ m ∈ methods, x ∈ m.keys.map Prod.fst) ∨ x ∈ ans
  | [], ans, h => by simp [outerKeys, h]
  | m :: r, ans, h => by
    unfold outerKeys
    cases ha : m.allKeys with
    | true => simp [ha]
    | false =>
      have := outerKeys_spec r (addKeys m.keys ans) (addKeys_nodup _ _ h)
      rw [if_neg (by simp)]
      cases ho : outerKeys r (addKeys m.keys ans) with
      | none =>
        rw [ho] at this
        obtain ⟨m', hm, he⟩ := this
        exact ⟨m', List.mem_cons_of_mem _ hm, he⟩
      | some ks =>
        rw [ho] at this
        obtain ⟨h1, h2, h3⟩ := this
        refine ⟨h1, ?_, fun x => ?_⟩
        · intro m' hm
          rcases List.mem_cons.1 hm with rfl | hm
          · exact ha
          · exact h2 m' hm
        · rw [h3 x, mem_addKeys]
          constructor
          · rintro (⟨m', hm, hx⟩ | hx | hx)
            · exact Or.inl ⟨m', List.mem_cons_of_mem _ hm, hx⟩
            · exact Or.inl ⟨m, List.mem_cons_self, hx⟩
            · exact Or.inr hx
          · rintro (⟨m', hm, hx⟩ | hx)
            · rcases List.mem_cons.1 hm with rfl | hm
              · exact Or.inr (Or.inl hx)
              · exact Or.inl ⟨m', hm, hx⟩
            · exact Or.inr (Or.inr hx)

/-- The arguments of a method entry point. -/
def mepArgs (args : List V) (n : Nat) : List (Cell V) :=
  (args.take n).map .val ++ [.vec (args.drop n)]

omit [DecidableEq V] in
theorem mepArgs_length (args : List V) (n : Nat) (h : n ≤ args.length) :
    (mepArgs args n).length = n + 1 := by
  simp [mepArgs]; omega

omit [DecidableEq V] in
theorem mepArgs_get (args : List V) (n : Nat) (h : n ≤ args.length) :
    (mepArgs args n)[n]? = some (.vec (args.drop n)) := by
  unfold mepArgs
  rw [List.getElem?_append_right (by simp; omega)]
  have : n - ((args.take n).map Cell.val).length = 0 := by simp; omega
  rw [this]
  rfl

omit [DecidableEq V] in
theorem mepArgs_getD (args : List V) (n : Nat) (j : Nat) (hj : j < args.length) (hn : j < n) :
    (mepArgs args n).getD j .junk = .val args[j] := by
  unfold mepArgs
  rw [getD_front _ _ j (by simp; omega)]
  simp

/-- The method entry point: right if the argument count of the thread is right, or
is too small and the missing words are in the buffer already. -/
theorem keyMep_eq (t : Teb V) (fn : Fn V) (hok : fn.Ok) (hk : fn.opt = .key)
    (ha : fn.arity ≤ 64) (args : List V) (hn : fn.required ≤ args.length)
    (he : (args.length - fn.required) % 2 = 0)
    (hc : t.argumentCount ≤ (fn.required : Int) + 1)
    (hbuf : ∀ j : Nat, t.argumentCount ≤ (j : Int) → j ≤ fn.required →
      t.a j = (mepArgs args fn.required).getD j .junk) :
    keyMep t fn (mepArgs args fn.required) = .ok (parameters fn args) := by
  have har : fn.required + 1 + fn.keys.length ≤ 64 := by
    unfold Fn.arity at ha; rw [hk] at ha; exact ha
  have hlen := mepArgs_length args fn.required hn
  have hget : ∀ j, (mepArgs args fn.required).getD j .junk =
      (mepArgs args fn.required)[j]?.getD .junk := fun j => List.getD_eq_getElem?_getD
  have hvec := mepArgs_get args fn.required hn
  have hval := mepArgs_getD args fn.required
  generalize hp : mepArgs args fn.required = p at *
  match p, hlen with
  | a1 :: more, hlen =>
    unfold keyMep
    dsimp only
    obtain ⟨a, hta, hva⟩ := transferVarargs_ok more 1 (t.argumentCount - 1).toNat 0 (t.a.set 0 a1)
      (by simp at hlen; omega) (by unfold maxArguments; omega)
    have hall : ∀ j, j ≤ fn.required → a j = (a1 :: more).getD j .junk := by
      intro j hj
      rw [hva j]
      by_cases h0 : j = 0
      · subst h0
        rw [if_neg (by omega)]
        simp [Buf.set]
      · by_cases hin : 1 + 0 ≤ j ∧ j < 1 + 0 + (t.argumentCount - 1).toNat
        · rw [if_pos hin]
          obtain ⟨i, rfl⟩ : ∃ i, j = i + 1 := ⟨j - 1, by omega⟩
          simp
        · rw [if_neg hin]
          simp only [Buf.set, if_neg h0]
          exact hbuf j (by omega) hj
    rw [hta]
    dsimp only
    have hr : a fn.required = .vec (args.drop fn.required) := by
      rw [hall _ (Nat.le_refl _), hget, hvec]
      rfl
    rw [hr]
    dsimp only
    obtain ⟨b, hb, hv⟩ := processKeywordCallInto_ok
      (if fn.required + fn.keys.length + 1 < 10 then t.iepA else t.newArguments) fn hok
      (by unfold maxArguments; omega) a args (args.drop fn.required)
      (fun j hj hjr => by rw [hall j (by omega), hval j hj hjr]) hn (by simpa using he)
    rw [hb]
    dsimp only
    rw [iepApply_ok _ _ (by omega), hv]
    unfold parameters
    rw [hk]
    simp

/-- The same with the method entry points of all methods with optional arguments. -/
theorem mepCall_eq (t : Teb V) (fn : Fn V) (hok : fn.Ok) (hopt : fn.opt ≠ .none)
    (ha : fn.arity ≤ 64) (args : List V) (hn : fn.required ≤ args.length)
    (he : fn.opt = .key → (args.length - fn.required) % 2 = 0)
    (hc : fn.opt = .key → t.argumentCount ≤ (fn.required : Int) + 1 ∧
      ∀ j : Nat, t.argumentCount ≤ (j : Int) → j ≤ fn.required →
        t.a j = (mepArgs args fn.required).getD j .junk) :
    mepCall t fn (mepArgs args fn.required) = .ok (parameters fn args) := by
  unfold mepCall
  cases ho : fn.opt with
  | none => exact absurd ho hopt
  | rest =>
    dsimp only
    unfold parameters mepArgs
    rw [ho]
  | key =>
    exact keyMep_eq t fn hok ho ha args hn (he ho) (hc ho).1 (hc ho).2

theorem mepApplyWithOptionals_eq (t : Teb V) (fn : Fn V) (hok : fn.Ok) (hopt : fn.opt ≠ .none)
    (ha : fn.arity ≤ 64) (args : List V) (hn : fn.required ≤ args.length)
    (h8 : fn.required ≤ 8) (he : fn.opt = .key → (args.length - fn.required) % 2 = 0) :
    mepApplyWithOptionals t fn (mepArgs args fn.required) = .ok (parameters fn args) := by
  unfold mepApplyWithOptionals
  have hlen := mepArgs_length args fn.required hn
  dsimp only
  rw [if_pos (by omega)]
  refine mepCall_eq _ fn hok hopt ha args hn he (fun _ => ⟨?_, fun j h1 h2 => ?_⟩)
  · dsimp only; omega
  · dsimp only at h1; omega

/-! ### The engine node that is chosen -/

theorem nodup_subset_length : ∀ (a b : List V), a.Nodup → (∀ x ∈ a, x ∈ b) → a.length ≤ b.length
  | [], b, _, _ => by simp
  | x :: r, b, hn, hs => by
    rw [List.nodup_cons] at hn
    have hx := hs x List.mem_cons_self
    have := nodup_subset_length r (b.erase x) hn.2 (fun y hy => by
      have hne : y ≠ x := fun e => hn.1 (e ▸ hy)
      exact (List.mem_erase_of_ne hne).2 (hs y (List.mem_cons_of_mem _ hy)))
    rw [List.length_erase_of_mem hx] at this
    have : 0 < b.length := List.length_pos_of_mem hx
    simp only [List.length_cons]
    omega

/-- Lists without repetitions of the same length, one within the other. -/
theorem nodup_subset_eq (a b : List V) (ha : a.Nodup) (hl : b.length ≤ a.length)
    (hs : ∀ x ∈ a, x ∈ b) (x : V) (hx : x ∈ b) : x ∈ a := by
  by_cases h : x ∈ a
  · exact h
  · have := nodup_subset_length (x :: a) b (List.nodup_cons.2 ⟨h, ha⟩) (fun y hy => by
      rcases List.mem_cons.1 hy with rfl | hy
      · exact hx
      · exact hs y hy)
    simp only [List.length_cons] at this
    omega

omit [DecidableEq V] in
theorem firstUnknown_congr (p q : V → Bool) (l : List V) (h : ∀ k, p k = q k) :
    firstUnknown p l = firstUnknown q l := by
  have : p = q := funext h
  rw [this]

/-- The check of the chosen engine node is the check that the meaning asks for,
but for a method that takes the place of the node. -/
theorem howFor_check (L : Lang V) (sig : GfSig) (m : Fn V) (methods : List (Fn V))
    (hkey : sig.key = true) (opts : List V) (he : opts.length % 2 = 0) :
    match howFor (determineCallKeywords sig methods) m with
    | none => firstUnknown (gfAccepts sig methods) opts = none ∧ m.next = false ∧
        ∀ k, gfAccepts sig methods k = true
    | some how => checkKeywords L how m opts = firstUnknown (gfAccepts sig methods) opts := by
  unfold determineCallKeywords
  cases hall : sig.allKeys with
  | true =>
    have hacc : ∀ k, gfAccepts sig methods k = true := fun k => by simp [gfAccepts, hall]
    have hf : firstUnknown (gfAccepts sig methods) opts = none :=
      firstUnknown_none _ _ (fun k _ => hacc k)
    simp only [if_true, howFor]
    cases hn : m.next with
    | true => simp [checkKeywords, he, hf]
    | false => simp [hf, hacc]
  | false =>
    simp only [Bool.false_eq_true, if_false, hkey, if_true]
    have hs := outerKeys_spec methods [] List.nodup_nil
    cases hk : outerKeys methods [] with
    | none =>
      rw [hk] at hs
      obtain ⟨m', hm, ha⟩ := hs
      have hacc : ∀ k, gfAccepts sig methods k = true := fun k => by
        simp only [gfAccepts, hall, Bool.false_or, List.any_eq_true]
        exact ⟨m', hm, by simp [Fn.accepts, ha]⟩
      have hf : firstUnknown (gfAccepts sig methods) opts = none :=
        firstUnknown_none _ _ (fun k _ => hacc k)
      simp only [howFor]
      cases hn : m.next with
      | true => simp [checkKeywords, he, hf]
      | false => simp [hf, hacc]
    | some ks =>
      rw [hk] at hs
      obtain ⟨hnd, hno, hmem⟩ := hs
      have hacc : ∀ k, gfAccepts sig methods k = decide (k ∈ ks) := by
        intro k
        rw [Bool.eq_iff_iff]
        simp only [gfAccepts, hall, Bool.false_or, List.any_eq_true, decide_eq_true_eq, hmem k,
          List.not_mem_nil, or_false]
        constructor
        · rintro ⟨m', hm, h⟩
          refine ⟨m', hm, ?_⟩
          simpa [Fn.accepts, hno m' hm] using h
        · rintro ⟨m', hm, h⟩
          refine ⟨m', hm, ?_⟩
          simpa [Fn.accepts, hno m' hm] using h
      simp only [howFor]
      split
      · rename_i hnone
        split at hnone <;> simp at hnone
      · rename_i how hhow
        by_cases hcond : ks.length = (specVector m.keys).length / 2 ∧
            ∀ k ∈ ks, k ∈ m.keys.map Prod.fst
        · rw [if_pos hcond] at hhow
          injection hhow with hhow
          subst hhow
          simp only [checkKeywords, he]
          rw [if_neg (by omega), checkLoop_eq]
          apply firstUnknown_congr
          intro k
          rw [hacc k]
          have h2 := hcond.2
          have h1 : (m.keys.map Prod.fst).length ≤ ks.length := by
            have := specVector_length m.keys
            rw [List.length_map]; omega
          simp only [decide_eq_decide]
          exact ⟨fun h => nodup_subset_eq ks _ hnd h1 h2 k h, h2 k⟩
        · rw [if_neg hcond] at hhow
          injection hhow with hhow
          subst hhow
          simp only [checkKeywords, he]
          rw [if_neg (by omega), checkLoop_eq]
          exact firstUnknown_congr _ _ _ (fun k => (hacc k).symm)

end Verif.Args
