import Verif.Args.Spec

/-! # Lemmas on argument passing -/

namespace Verif.Args

variable {V : Type}

theorem store_ok (b : Buf V) (i : Nat) (c : Cell V) (h : i < maxArguments) :
    store b i c = .ok (b.set i c) := by simp [store, h]

theorem transferVarargs_ok (passed : List (Cell V)) (off : Nat) : ∀ (n i : Nat) (b : Buf V),
    i + n ≤ passed.length → off + i + n ≤ maxArguments →
    ∃ b', transferVarargs passed off n i b = .ok b' ∧
      ∀ j, b' j = if off + i ≤ j ∧ j < off + i + n then passed.getD (j - off) .junk else b j := by
  intro n
  induction n with
  | zero =>
    intro i b _ _
    refine ⟨b, rfl, fun j => ?_⟩
    rw [if_neg (by omega)]
  | succ n ih =>
    intro i b h1 h2
    have hi : i < passed.length := by omega
    obtain ⟨b', hb, hv⟩ := ih (i + 1) (b.set (off + i) passed[i]) (by omega) (by omega)
    refine ⟨b', ?_, fun j => ?_⟩
    · unfold transferVarargs
      rw [List.getElem?_eq_getElem hi]
      dsimp only
      rw [store_ok _ _ _ (by omega)]
      exact hb
    · rw [hv j]
      by_cases hj : j = off + i
      · subst hj
        rw [if_neg (by omega), if_pos (by omega)]
        simp [Buf.set, hi]
      · by_cases hc : off + (i + 1) ≤ j ∧ j < off + (i + 1) + n
        · rw [if_pos hc, if_pos (by omega)]
        · rw [if_neg hc, if_neg (by omega)]
          simp [Buf.set, hj]

/-- Buffering everything that was passed. -/
theorem transferVarargs_all (l : List V) (b : Buf V) (h : l.length ≤ maxArguments) :
    ∃ b', transferVarargs (l.map Cell.val) 0 l.length 0 b = .ok b' ∧
      (∀ j (hj : j < l.length), b' j = .val l[j]) ∧ ∀ j, l.length ≤ j → b' j = b j := by
  obtain ⟨b', hb, hv⟩ := transferVarargs_ok (l.map Cell.val) 0 l.length 0 b (by simp) (by omega)
  refine ⟨b', hb, fun j hj => ?_, fun j hj => ?_⟩
  · rw [hv j, if_pos (by omega)]
    simp [hj]
  · rw [hv j, if_neg (by omega)]

/-- More words may be passed than the values that count. -/
theorem transferVarargs_front (l : List V) (extra : List (Cell V)) (b : Buf V)
    (h : l.length ≤ maxArguments) :
    ∃ b', transferVarargs (l.map Cell.val ++ extra) 0 l.length 0 b = .ok b' ∧
      (∀ j (hj : j < l.length), b' j = .val l[j]) ∧ ∀ j, l.length ≤ j → b' j = b j := by
  obtain ⟨b', hb, hv⟩ := transferVarargs_ok (l.map Cell.val ++ extra) 0 l.length 0 b
    (by simp) (by omega)
  refine ⟨b', hb, fun j hj => ?_, fun j hj => ?_⟩
  · rw [hv j, if_pos (by omega)]
    rw [List.getD_eq_getElem?_getD, List.getElem?_append_left (by simpa using hj)]
    simp [hj]
  · rw [hv j, if_neg (by omega)]

theorem readVals_ok (b : Buf V) : ∀ (l : List V) (base : Nat),
    (∀ j (hj : j < l.length), b (base + j) = .val l[j]) → base + l.length ≤ maxArguments →
    readVals b base l.length = .ok l := by
  intro l
  induction l with
  | nil => intro base _ _; rfl
  | cons v r ih =>
    intro base h hb
    have h0 := h 0 (by simp)
    simp at h0
    have := ih (base + 1) (fun j hj => by
      have := h (j + 1) (by simpa using hj)
      simp at this
      rw [← this]; congr 1; omega) (by simp at hb; omega)
    simp only [List.length_cons, readVals]
    simp only [List.length_cons] at hb
    rw [if_pos (by omega), h0, this]

theorem cells_eq (b : Buf V) (l : List (Cell V))
    (h : ∀ j (hj : j < l.length), b j = l[j]) : cells b l.length = l := by
  apply List.ext_getElem
  · simp [cells]
  · intro j h1 h2
    simp [cells, h j h2]

theorem cells_append (b : Buf V) (n m : Nat) :
    cells b (n + m) = cells b n ++ (List.range m).map (fun j => b (n + j)) := by
  simp [cells, List.range_add, Function.comp_def]

theorem iepApply_ok (b : Buf V) (n : Nat) (h : n ≤ 64) : iepApply n b = .ok (cells b n) := by
  unfold iepApply
  split
  · rfl
  · rw [if_neg (by omega)]
    congr 1
    unfold cells
    rw [← List.map_take, List.take_range]
    congr 2
    omega

/-! ### Type checks -/

theorem typeCheckLoop_eq (b : Buf V) : ∀ (l : List V) (specs : List (V → Bool)) (i : Nat),
    (∀ j (hj : j < l.length), b (i + j) = .val l[j]) → (specs.drop i).length = l.length →
    typeCheckLoop specs b l.length i =
      match ((specs.drop i).zip l).find? (fun p => ! p.1 p.2) with
      | some p => .error (.error (.type p.2))
      | none => .ok () := by
  intro l
  induction l with
  | nil => intro specs i _ _; simp [typeCheckLoop]
  | cons v r ih =>
    intro specs i h hl
    have h0 := h 0 (by simp)
    simp at h0
    have hi : i < specs.length := by simp at hl; omega
    have hd : specs.drop i = specs[i] :: specs.drop (i + 1) := List.drop_eq_getElem_cons hi
    have := ih specs (i + 1) (fun j hj => by
      have := h (j + 1) (by simpa using hj)
      simp at this
      rw [← this]; congr 1; omega) (by simp at hl ⊢; omega)
    simp only [List.length_cons, typeCheckLoop]
    rw [List.getElem?_eq_getElem hi, h0, hd]
    simp only [List.zip_cons_cons, List.find?_cons]
    cases ht : specs[i] v with
    | true => simp [this]
    | false => simp

theorem typeCheckArgs_eq [DecidableEq V] (fn : Fn V) (hok : fn.Ok) (args : List V)
    (hn : fn.required ≤ args.length) (b : Buf V)
    (hb : ∀ j (hj : j < args.length), j < fn.required → b j = .val args[j]) :
    typeCheckArgs fn fn.required b =
      match wrongType fn args with
      | some v => .error (.error (.type v))
      | none => .ok () := by
  unfold typeCheckArgs wrongType
  cases hs : fn.specs with
  | none => rfl
  | some ts =>
    have ht := hok.types ts hs
    have hlen : (args.take fn.required).length = fn.required := by simp; omega
    have := typeCheckLoop_eq b (args.take fn.required) ts 0 (fun j hj => by
      rw [Nat.zero_add, hb j (by simp at hj; omega) (by omega)]
      simp) (by simp [ht]; omega)
    rw [hlen] at this
    dsimp only
    rw [this]
    simp only [List.drop_zero]
    cases (ts.zip (args.take fn.required)).find? (fun p => ! p.1 p.2) <;> rfl

/-! ### Keywords -/

variable [DecidableEq V]

omit [DecidableEq V] in
theorem copyRequired_ok (arguments : Buf V) : ∀ (n i : Nat) (b : Buf V), i + n ≤ maxArguments →
    ∃ b', copyRequired arguments n i b = .ok b' ∧
      ∀ j, b' j = if i ≤ j ∧ j < i + n then arguments j else b j := by
  intro n
  induction n with
  | zero => intro i b _; exact ⟨b, rfl, fun j => by rw [if_neg (by omega)]⟩
  | succ n ih =>
    intro i b h
    obtain ⟨b', hb, hv⟩ := ih (i + 1) (b.set i (arguments i)) (by omega)
    refine ⟨b', ?_, fun j => ?_⟩
    · unfold copyRequired
      rw [store_ok _ _ _ (by omega)]
      exact hb
    · rw [hv j]
      by_cases hj : j = i
      · subst hj
        rw [if_neg (by omega), if_pos (by omega)]
        simp [Buf.set]
      · by_cases hc : i + 1 ≤ j ∧ j < i + 1 + n
        · rw [if_pos hc, if_pos (by omega)]
        · rw [if_neg hc, if_neg (by omega)]
          simp [Buf.set, hj]

omit [DecidableEq V] in
theorem specVector_length : ∀ keys : List (V × V), (specVector keys).length = 2 * keys.length
  | [] => rfl
  | (k, d) :: r => by simp [specVector, specVector_length r]; omega

omit [DecidableEq V] in
theorem storeDefaults_ok : ∀ (keys : List (V × V)) (at_ : Nat) (b : Buf V),
    at_ + keys.length ≤ maxArguments →
    ∃ b', storeDefaults (specVector keys) at_ b = .ok b' ∧
      (∀ j (hj : j < keys.length), b' (at_ + j) = .val keys[j].2) ∧
      ∀ j, (j < at_ ∨ at_ + keys.length ≤ j) → b' j = b j := by
  intro keys
  induction keys with
  | nil => intro at_ b _; exact ⟨b, rfl, fun j hj => absurd hj (by simp), fun _ _ => rfl⟩
  | cons kd r ih =>
    obtain ⟨k, d⟩ := kd
    intro at_ b h
    simp only [List.length_cons] at h
    obtain ⟨b', hb, hv, hk⟩ := ih (at_ + 1) (b.set at_ (.val d)) (by omega)
    refine ⟨b', ?_, fun j hj => ?_, fun j hj => ?_⟩
    · simp only [specVector, storeDefaults]
      rw [store_ok _ _ _ (by omega)]
      exact hb
    · cases j with
      | zero =>
        rw [Nat.add_zero, hk at_ (by omega)]
        simp [Buf.set]
      | succ j =>
        have := hv j (by simpa using hj)
        rw [show at_ + (j + 1) = at_ + 1 + j by omega, this]
        simp
    · simp only [List.length_cons] at hj
      rw [hk j (by omega)]
      have : j ≠ at_ := by omega
      simp [Buf.set, this]

theorem storeKeyword_ok (kw v : V) : ∀ (keys : List (V × V)) (at_ : Nat) (b : Buf V),
    (keys.map Prod.fst).Nodup → at_ + keys.length ≤ maxArguments →
    ∃ b', storeKeyword kw v (specVector keys) at_ b = .ok b' ∧
      (∀ j (hj : j < keys.length),
        b' (at_ + j) = if kw = keys[j].1 then .val v else b (at_ + j)) ∧
      ∀ j, (j < at_ ∨ at_ + keys.length ≤ j) → b' j = b j := by
  intro keys
  induction keys with
  | nil => intro at_ b _ _; exact ⟨b, rfl, fun j hj => absurd hj (by simp), fun _ _ => rfl⟩
  | cons kd r ih =>
    obtain ⟨k, d⟩ := kd
    intro at_ b hn h
    simp only [List.length_cons] at h
    simp only [List.map_cons, List.nodup_cons] at hn
    by_cases hkw : kw = k
    · subst hkw
      refine ⟨b.set at_ (.val v), ?_, fun j hj => ?_, fun j hj => ?_⟩
      · simp only [specVector, storeKeyword, if_true]
        exact store_ok _ _ _ (by omega)
      · cases j with
        | zero => simp [Buf.set]
        | succ j =>
          have hj' : j < r.length := by simpa using hj
          have : kw ≠ r[j].1 := by
            intro e
            exact hn.1 (e ▸ List.mem_map_of_mem (List.getElem_mem hj'))
          simp [Buf.set, this]
      · simp only [List.length_cons] at hj
        have : j ≠ at_ := by omega
        simp [Buf.set, this]
    · obtain ⟨b', hb, hv, hk⟩ := ih (at_ + 1) b hn.2 (by omega)
      refine ⟨b', ?_, fun j hj => ?_, fun j hj => ?_⟩
      · simp only [specVector, storeKeyword]
        rw [if_neg hkw]
        exact hb
      · cases j with
        | zero =>
          rw [Nat.add_zero, hk at_ (by omega)]
          simp [hkw]
        | succ j =>
          have := hv j (by simpa using hj)
          rw [show at_ + (j + 1) = at_ + 1 + j by omega, this]
          simp
      · simp only [List.length_cons] at hj
        exact hk j (by omega)

theorem pairs_take_succ : ∀ (l : List V) (i : Nat) (h : 2 * i + 1 < l.length),
    pairs (l.take (2 * i + 2)) = pairs (l.take (2 * i)) ++ [(l[2 * i], l[2 * i + 1])]
  | [], i, h => by simp at h
  | [_], i, h => by simp at h
  | k :: v :: r, 0, h => by simp [pairs]
  | k :: v :: r, i + 1, h => by
    have h' : 2 * i + 1 < r.length := by simp at h; omega
    have := pairs_take_succ r i h'
    have h2 : 2 * i + 2 + 1 < (k :: v :: r).length := by simp; omega
    show pairs ((k :: v :: r).take (2 * i + 2 + 2)) = pairs ((k :: v :: r).take (2 * i + 2)) ++
      [((k :: v :: r)[2 * i + 2], (k :: v :: r)[2 * i + 2 + 1])]
    simp only [List.take_succ_cons, pairs, this, List.cons_append]
    simp

theorem processKeywordParameters_ok (required : Nat) (keys : List (V × V))
    (hn : (keys.map Prod.fst).Nodup) (hb : required + 1 + keys.length ≤ maxArguments)
    (optionals : List V) : ∀ (i : Nat) (b : Buf V), 2 * i ≤ optionals.length →
    ∃ b', processKeywordParameters required (specVector keys) optionals (2 * i) b = .ok b' ∧
      (∀ j (hj : j < keys.length), b' (required + 1 + j) =
        match (pairs (optionals.take (2 * i))).find? (fun p => p.1 = keys[j].1) with
        | some p => .val p.2
        | none => b (required + 1 + j)) ∧
      ∀ j, (j < required + 1 ∨ required + 1 + keys.length ≤ j) → b' j = b j := by
  intro i
  induction i with
  | zero =>
    intro b _
    exact ⟨b, rfl, fun j hj => by simp [pairs], fun _ _ => rfl⟩
  | succ i ih =>
    intro b h
    have h1 : 2 * i + 1 < optionals.length := by omega
    obtain ⟨b1, hs, hv, hk⟩ := storeKeyword_ok optionals[2 * i] optionals[2 * i + 1] keys
      (required + 1) b hn hb
    obtain ⟨b', hp, hv', hk'⟩ := ih b1 (by omega)
    refine ⟨b', ?_, fun j hj => ?_, fun j hj => ?_⟩
    · rw [show 2 * (i + 1) = 2 * i + 2 by omega]
      unfold processKeywordParameters
      rw [List.getElem?_eq_getElem h1, List.getElem?_eq_getElem (show 2 * i < optionals.length by omega)]
      dsimp only
      rw [hs]
      exact hp
    · rw [hv' j hj, hv j hj, show 2 * (i + 1) = 2 * i + 2 by omega,
        pairs_take_succ optionals i h1, List.find?_append]
      cases hf : (pairs (optionals.take (2 * i))).find? (fun p => p.1 = keys[j].1) with
      | some p => simp
      | none =>
        by_cases he : optionals[2 * i] = keys[j].1 <;> simp [he, List.find?_cons]
    · rw [hk' j hj, hk j hj]

/-- The words that `process_keyword_call_into` leaves for the body. -/
theorem processKeywordCallInto_ok (newArguments : Buf V) (fn : Fn V) (hok : fn.Ok)
    (hb : fn.required + 1 + fn.keys.length ≤ maxArguments) (req : Buf V) (args optionals : List V)
    (hreq : ∀ j (hj : j < args.length), j < fn.required → req j = .val args[j])
    (hn : fn.required ≤ args.length) (he : optionals.length % 2 = 0) :
    ∃ b, processKeywordCallInto newArguments fn fn.required req optionals =
        .ok (fn.required + fn.keys.length + 1, b) ∧
      cells b (fn.required + fn.keys.length + 1) =
        (args.take fn.required).map .val ++ .vec optionals ::
          fn.keys.map (fun key => .val (keywordValue optionals key)) := by
  obtain ⟨b1, h1, hv1⟩ := copyRequired_ok req fn.required 0 newArguments (by omega)
  obtain ⟨b2, h2, hv2, hk2⟩ := storeDefaults_ok fn.keys (fn.required + 1) b1 hb
  obtain ⟨b3, h3, hv3, hk3⟩ := processKeywordParameters_ok fn.required fn.keys hok.distinct hb
    optionals (optionals.length / 2) b2 (by omega)
  refine ⟨b3.set fn.required (.vec optionals), ?_, ?_⟩
  · unfold processKeywordCallInto defaultArguments
    dsimp only
    rw [h1]
    dsimp only
    rw [h2]
    dsimp only
    rw [show 2 * (optionals.length / 2) = optionals.length by omega] at h3
    rw [h3]
    dsimp only
    rw [store_ok _ _ _ (by omega), specVector_length]
    dsimp only
    congr 3
    omega
  · rw [show 2 * (optionals.length / 2) = optionals.length by omega, List.take_length] at hv3
    rw [show fn.required + fn.keys.length + 1 = fn.required + (1 + fn.keys.length) by omega,
      cells_append]
    congr 1
    · have : ((args.take fn.required).map Cell.val).length = fn.required := by simp; omega
      have h := cells_eq (b3.set fn.required (.vec optionals))
        ((args.take fn.required).map Cell.val) (fun j hj => by
          rw [this] at hj
          have hne : j ≠ fn.required := by omega
          simp only [Buf.set, if_neg hne]
          rw [hk3 j (by omega), hk2 j (by omega), hv1 j, if_pos (by omega),
            hreq j (by omega) (by omega)]
          simp)
      rw [this] at h
      exact h
    · rw [List.range_add]
      simp only [List.range_one, List.map_append, List.map_cons, List.map_nil, List.map_map,
        List.singleton_append]
      congr 1
      · simp [Buf.set]
      · apply List.ext_getElem
        · simp
        · intro j hj1 hj2
          have hj : j < fn.keys.length := by simpa using hj1
          simp only [List.getElem_map, List.getElem_range, Function.comp_apply]
          have hne : fn.required + (1 + j) ≠ fn.required := by omega
          simp only [Buf.set, if_neg hne]
          rw [show fn.required + (1 + j) = fn.required + 1 + j by omega, hv3 j hj, hv2 j hj]
          unfold keywordValue
          cases (pairs optionals).find? (fun p => p.1 = fn.keys[j].1) <;> rfl

end Verif.Args
