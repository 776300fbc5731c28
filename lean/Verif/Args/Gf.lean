import Verif.Args.Calls

/-! # Calls of generic functions: lemmas -/

namespace Verif.Args

variable {V : Type} [DecidableEq V]

/-- Some part of the call takes all keywords. -/
def TakesAllKeys (sig : GfSig) (methods : List (Fn V)) : Prop :=
  sig.allKeys = true ∨ ∃ x ∈ methods, x.allKeys = true

/-- What the call does, as far as it is right to expect it: `L.dfalse` in the
place of a keyword is taken for an odd number of arguments. -/
def gfDoes (L : Lang V) (sig : GfSig) (m : Fn V) (methods : List (Fn V)) (args : List V) :
    Result V :=
  if args.length < m.required then (none, .error (.error (.count args.length)))
  else if sig.key = true then
    if (args.length - m.required) % 2 = 1 then (none, .error (.error .odd))
    else
      match firstUnknown (gfAccepts sig methods) (args.drop m.required) with
      | none => (none, .ok (parameters m args))
      | some k =>
        if k = L.dfalse then (none, .error (.error .odd))
        else if L.isSymbol k then (some k, .ok (parameters m args))
        else (none, .error (.error (.keywordExpected k)))
  else (none, .ok (parameters m args))

omit [DecidableEq V] in
/-- The count of the thread and its buffer, when the engine is entered. -/
def Entered (t : Teb V) (m : Fn V) (args : List V) : Prop :=
  t.argumentCount ≤ (m.required : Int) + 1 ∧
    ∀ j : Nat, t.argumentCount ≤ (j : Int) → j ≤ m.required →
      t.a j = (mepArgs args m.required).getD j .junk

theorem howFor_odd (L : Lang V) (sig : GfSig) (m : Fn V) (methods : List (Fn V))
    (hkey : sig.key = true) (opts : List V) (ho : opts.length % 2 = 1)
    (hdirect : m.next = true ∨ ¬ TakesAllKeys sig methods) :
    ∃ how, howFor (determineCallKeywords sig methods) m = some how ∧
      checkKeywords L how m opts = some L.dfalse := by
  have hck : ∀ how, checkKeywords L how m opts = some L.dfalse := fun how => by
    simp [checkKeywords, ho]
  have : ∃ how, howFor (determineCallKeywords sig methods) m = some how := by
    unfold determineCallKeywords
    cases hall : sig.allKeys with
    | true =>
      rcases hdirect with h | h
      · exact ⟨.unrestricted, by simp [howFor, h]⟩
      · exact absurd (Or.inl hall) h
    | false =>
      simp only [Bool.false_eq_true, if_false, hkey, if_true]
      have hs := outerKeys_spec methods [] List.nodup_nil
      cases hk : outerKeys methods [] with
      | none =>
        rw [hk] at hs
        rcases hdirect with h | h
        · exact ⟨.unrestricted, by simp [howFor, h]⟩
        · exact absurd (Or.inr hs) h
      | some ks =>
        simp only [howFor]
        split
        · exact ⟨_, rfl⟩
        · exact ⟨_, rfl⟩
  obtain ⟨how, h⟩ := this
  exact ⟨how, h, hck how⟩

theorem engine_eq (L : Lang V) (t : Teb V) (sig : GfSig) (m : Fn V) (methods : List (Fn V))
    (hok : m.Ok) (hcong : Congruent sig m) (ha : m.arity ≤ 64) (h8 : m.required ≤ 8)
    (spread : Bool) (args : List V) (hn : m.required ≤ args.length)
    (ht : sig.key = true → spread = true → Entered t m args)
    (hdirect : sig.key = true → (args.length - m.required) % 2 = 1 →
      m.next = true ∨ ¬ TakesAllKeys sig methods) :
    engine L t (howFor (determineCallKeywords sig methods) m) m spread
      (mepArgs args m.required) = gfDoes L sig m methods args := by
  have hopt : m.opt ≠ .none := by
    rw [hcong.opt]; split <;> simp
  have hrun : (m.opt = .key → (args.length - m.required) % 2 = 0) →
      (if spread then mepCall t m (mepArgs args m.required)
        else mepApplyWithOptionals t m (mepArgs args m.required)) = .ok (parameters m args) := by
    intro he
    cases hs : spread with
    | true =>
      rw [if_pos rfl]
      refine mepCall_eq t m hok hopt ha args hn he (fun hk => ?_)
      refine ht ?_ hs
      rw [hcong.opt] at hk
      cases h : sig.key with
      | true => rfl
      | false => rw [h] at hk; exact absurd hk (by simp)
    | false =>
      rw [if_neg (by simp)]
      exact mepApplyWithOptionals_eq t m hok hopt ha args hn h8 he
  unfold gfDoes
  rw [if_neg (by omega)]
  by_cases hkey : sig.key = true
  · rw [if_pos hkey]
    by_cases ho : (args.length - m.required) % 2 = 1
    · obtain ⟨how, hh, hc⟩ := howFor_odd L sig m methods hkey (args.drop m.required)
        (by simpa using ho) (hdirect hkey ho)
      rw [if_pos ho, hh]
      simp only [engine, keyedEngine]
      rw [mepArgs_get args m.required hn]
      dsimp only
      rw [hc]
      simp [invalidKeyword]
    · have he : (args.drop m.required).length % 2 = 0 := by simp; omega
      have hchk := howFor_check L sig m methods hkey (args.drop m.required) he
      rw [if_neg ho]
      cases hh : howFor (determineCallKeywords sig methods) m with
      | none =>
        rw [hh] at hchk
        rw [hchk.1]
        simp only [engine, plainEngine]
        rw [hrun (fun _ => by omega)]
      | some how =>
        rw [hh] at hchk
        dsimp only at hchk
        simp only [engine, keyedEngine]
        rw [mepArgs_get args m.required hn]
        dsimp only
        rw [hchk]
        cases hf : firstUnknown (gfAccepts sig methods) (args.drop m.required) with
        | none =>
          dsimp only
          rw [hrun (fun _ => by omega)]
        | some k =>
          dsimp only
          unfold invalidKeyword
          split
          · rfl
          · unfold invalidKeywordTrap
            rw [mepApplyWithOptionals_eq t m hok hopt ha args hn h8 (fun _ => by omega)]
            cases L.isSymbol k <;> simp
  · rw [if_neg hkey]
    have hall : sig.allKeys = false := by
      cases h : sig.allKeys with
      | false => rfl
      | true => exact absurd (hcong.allKeys h) hkey
    have : howFor (determineCallKeywords sig methods) m = none := by
      simp [determineCallKeywords, hall, hkey, howFor]
    rw [this]
    simp only [engine, plainEngine]
    rw [hrun (fun hk => by
      rw [hcong.opt, if_neg hkey] at hk
      exact absurd hk (by simp))]

omit [DecidableEq V] in
theorem cells_mepArgs (b : Buf V) (args : List V) (n : Nat) (hn : n ≤ args.length)
    (h : ∀ j (hj : j < args.length), j < n → b j = .val args[j])
    (hv : b n = .vec (args.drop n)) : cells b (n + 1) = mepArgs args n := by
  rw [cells_append, cells_front b args n hn h]
  simp [mepArgs, hv]

/-- A call through the entry point of the generic function. -/
theorem gfCall_eq (L : Lang V) (t : Teb V) (sig : GfSig) (m : Fn V) (methods : List (Fn V))
    (hok : m.Ok) (hcong : Congruent sig m) (ha : m.arity ≤ 64) (h8 : m.required ≤ 8)
    (args : List V) (hlen : args.length ≤ 256)
    (hcount : sig.key = true → m.required ≤ 6 → t.argumentCount ≤ (m.required : Int) + 1)
    (hdirect : sig.key = true → (args.length - m.required) % 2 = 1 →
      m.next = true ∨ ¬ TakesAllKeys sig methods) :
    gfCall L t sig m methods args = gfDoes L sig m methods args := by
  have hle : args.length ≤ maxArguments := hlen
  unfold gfCall
  dsimp only
  by_cases h6 : m.required ≤ 6
  · rw [if_pos h6]
    unfold gfOptionalXepNumbered basicOptionalCallCheck
    rw [callCheck_ok _ hle]
    dsimp only
    by_cases hn : args.length < m.required
    · rw [if_pos hn]
      dsimp only
      unfold gfDoes
      rw [if_pos hn]
    · rw [if_neg hn]
      dsimp only
      obtain ⟨a, hta, hva, _⟩ := transferVarargs_all args t.a hle
      rw [hta]
      dsimp only
      rw [readVals_drop a args _ (by omega) hle hva]
      dsimp only
      rw [store_ok _ _ _ (by unfold maxArguments; omega)]
      dsimp only
      have hcells : cells (a.set m.required (.vec (args.drop m.required))) (m.required + 1)
          = mepArgs args m.required := by
        refine cells_mepArgs _ args _ (by omega) (fun j hj hjr => ?_) ?_
        · have : j ≠ m.required := by omega
          simp only [Buf.set, if_neg this]
          exact hva j hj
        · simp [Buf.set]
      rw [hcells]
      refine engine_eq L _ sig m methods hok hcong ha h8 true args (by omega)
        (fun hk _ => ⟨hcount hk h6, fun j _ hj => ?_⟩) hdirect
      dsimp only
      by_cases hjr : j = m.required
      · subst hjr
        rw [List.getD_eq_getElem?_getD, mepArgs_get args m.required (by omega)]
        simp [Buf.set]
      · rw [mepArgs_getD args m.required j (by omega) (by omega)]
        simp only [Buf.set, if_neg hjr]
        exact hva j (by omega)
  · rw [if_neg h6]
    unfold gfOptionalXepGeneral basicOptionalCallCheck
    obtain ⟨b, htb, hvb, _⟩ := transferVarargs_all args t.arguments hle
    rw [htb]
    dsimp only
    rw [callCheck_ok _ hle]
    dsimp only
    by_cases hn : args.length < m.required
    · rw [if_pos hn]
      dsimp only
      unfold gfDoes
      rw [if_pos hn]
    · rw [if_neg hn]
      dsimp only
      rw [readVals_drop b args _ (by omega) hle hvb]
      dsimp only
      rw [cells_front b args _ (by omega) (fun j hj _ => hvb j hj)]
      exact engine_eq L _ sig m methods hok hcong ha h8 false args (by omega)
        (fun _ h => absurd h (by simp)) hdirect

/-- A call in compiled code. -/
theorem congruentCall_eq (L : Lang V) (t : Teb V) (sig : GfSig) (m : Fn V)
    (methods : List (Fn V)) (hok : m.Ok) (hcong : Congruent sig m) (ha : m.arity ≤ 64)
    (h8 : m.required ≤ 8) (required optionals : List V) (hreq : required.length = m.required)
    (hdirect : sig.key = true → optionals.length % 2 = 1 →
      m.next = true ∨ ¬ TakesAllKeys sig methods) :
    congruentCall L t sig m methods required optionals =
      gfDoes L sig m methods (required ++ optionals) := by
  have hp : required.map Cell.val ++ [.vec optionals] =
      mepArgs (required ++ optionals) m.required := by
    unfold mepArgs
    rw [← hreq, List.take_left, List.drop_left]
  unfold congruentCall
  dsimp only
  rw [hp, mepArgs_length _ _ (by simp; omega)]
  refine engine_eq L _ sig m methods hok hcong ha h8 _ _ (by simp; omega)
    (fun _ _ => ⟨?_, fun j h1 h2 => ?_⟩) (fun hk ho => hdirect hk ?_)
  · dsimp only; omega
  · dsimp only at h1; omega
  · rw [List.length_append, hreq] at ho
    simpa using ho

end Verif.Args
