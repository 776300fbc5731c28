import Verif.Signal.Lemmas
import Mathlib.Tactic.ByContra

/-! # What the meaning of a piece of program keeps -/

namespace Verif.Signal

/-- What only grows. -/
structure Ext (m : Mem) (x : Notes) (m' : Mem) (x' : Notes) : Prop where
  blocks : m.blocks ≤ m'.blocks
  len : m.doneLast.length ≤ m'.doneLast.length
  done : ∀ sid, m.doneLast.getD sid false = true → m'.doneLast.getD sid false = true
  mark : x'.mark = false → x.mark = false

theorem Ext.refl (m : Mem) (x : Notes) : Ext m x m x :=
  ⟨Nat.le_refl _, Nat.le_refl _, fun _ h => h, fun h => h⟩

theorem Ext.trans {m x m' x' m'' x''} (h : Ext m x m' x') (h' : Ext m' x' m'' x'') :
    Ext m x m'' x'' :=
  ⟨Nat.le_trans h.blocks h'.blocks, Nat.le_trans h.len h'.len, fun s hs => h'.done s (h.done s hs),
    fun hm => h.mark (h'.mark hm)⟩

/-- The closures belong to searches, and those in the last handlers to searches
with `done-last?` set. -/
structure Inv (m : Mem) (x : Notes) : Prop where
  len : x.inLast.length = m.nexts.length
  sid : ∀ t sid hs c, m.nexts[t]? = some (sid, hs, c) →
    sid < m.doneLast.length ∧ (x.inLast.getD t false = true → m.doneLast.getD sid false = true)

/-- The same for a search under way. -/
def POk (m : Mem) : Piece → Prop
  | .search l sid _ _ => sid < m.doneLast.length ∧ (l = true → m.doneLast.getD sid false = true)
  | .invoke l sid _ _ _ =>
    sid < m.doneLast.length ∧ (l = true → m.doneLast.getD sid false = true)
  | _ => True

theorem POk.ext {m x m' x'} (h : Ext m x m' x') {p} (hp : POk m p) : POk m' p := by
  cases p <;> first | trivial | exact ⟨Nat.lt_of_lt_of_le hp.1 h.len, fun hl => h.done _ (hp.2 hl)⟩

/-- Blocks that are not over. -/
def Live (live : List Exit) (m : Mem) : Prop := ∀ h ∈ live, h < m.blocks

theorem Live.ext {live m x m' x'} (h : Ext m x m' x') (hl : Live live m) : Live live m' :=
  fun i hi => Nat.lt_of_lt_of_le (hl i hi) h.blocks

theorem Live.new {live m} (hl : Live live m) : Live (m.blocks :: live) m.newBlock := by
  intro h hh
  rcases List.mem_cons.1 hh with rfl | hh
  · exact Nat.lt_succ_self _
  · exact Nat.lt_succ_of_lt (hl h hh)

/-- Ends that lead to a block lead to one that is not over. -/
def ResOk (live clauses : List Exit) : Res → Prop
  | .exit h _ => h ∈ live
  | .clause b _ _ _ => b ∈ clauses
  | _ => True

/-- What holds of the end of a piece of program. -/
structure Good (live clauses : List Exit) (m : Mem) (x : Notes) (r : Res × Mem × Notes) : Prop where
  ext : Ext m x r.2.1 r.2.2
  inv : Inv r.2.1 r.2.2
  res : ResOk live clauses r.1

theorem Good.trans {live clauses m x m' x' r} (h : Ext m x m' x') (g : Good live clauses m' x' r) :
    Good live clauses m x r := ⟨h.trans g.ext, g.inv, g.res⟩

def Res.isVal : Res → Bool
  | .val _ => true
  | _ => false

theorem andThen_some {M : Meaning} {f r} (h : Meaning.andThen M f = some r) :
    ∃ r1, M = some r1 ∧
      ((∃ vs m x, r1 = (.val vs, m, x) ∧ f vs m x = some r) ∨ (r1.1.isVal = false ∧ r = r1)) := by
  cases M with
  | none => simp [Meaning.andThen] at h
  | some r1 =>
    refine ⟨r1, rfl, ?_⟩
    obtain ⟨o, m, x⟩ := r1
    cases o with
    | val vs => exact Or.inl ⟨vs, m, x, rfl, h⟩
    | _ => exact Or.inr ⟨rfl, by simp only [Meaning.andThen, Option.some.injEq] at h; exact h.symm⟩

theorem good_andThen {live clauses m x} {M : Meaning} {f r} (h : Meaning.andThen M f = some r)
    (hM : ∀ r1, M = some r1 → Good live clauses m x r1)
    (hf : ∀ vs m1 x1 r, Ext m x m1 x1 → Inv m1 x1 → f vs m1 x1 = some r → Good live clauses m1 x1 r) :
    Good live clauses m x r := by
  obtain ⟨r1, h1, h2⟩ := andThen_some h
  have g := hM r1 h1
  rcases h2 with ⟨vs, m1, x1, rfl, h2⟩ | ⟨_, rfl⟩
  · exact Good.trans g.ext (hf vs m1 x1 r g.ext g.inv h2)
  · exact g

theorem getD_append {α} (l : List α) (a d : α) (i : Nat) (h : i < l.length) :
    (l ++ [a]).getD i d = l.getD i d := by
  simp [List.getD, List.getElem?_append_left h]

theorem getD_set_true (l : List Bool) (i j : Nat) (h : l.getD j false = true) :
    (l.set i true).getD j false = true := by
  simp only [List.getD_eq_getElem?_getD, List.getElem?_set] at h ⊢
  by_cases hij : i = j
  · subst hij
    by_cases hl : i < l.length
    · simp [hl]
    · simp [List.getElem?_eq_none (Nat.le_of_not_lt hl)] at h
  · simpa [hij] using h

theorem getD_set_self (l : List Bool) (i : Nat) (h : i < l.length) :
    (l.set i true).getD i false = true := by
  simp [List.getD_eq_getElem?_getD, h]

theorem Ext.log (m x e) : Ext m x (m.log e) x := ⟨Nat.le_refl _, Nat.le_refl _, fun _ h => h, fun h => h⟩

theorem Ext.newBlock (m x) : Ext m x m.newBlock x :=
  ⟨Nat.le_succ _, Nat.le_refl _, fun _ h => h, fun h => h⟩

theorem Ext.newSearch (m x) : Ext m x m.newSearch x := by
  refine ⟨Nat.le_refl _, by simp [Mem.newSearch], fun s hs => ?_, fun h => h⟩
  have hl : s < m.doneLast.length := by
    by_contra hc
    simp [List.getD_eq_getElem?_getD, List.getElem?_eq_none (Nat.le_of_not_lt hc)] at hs
  show (m.doneLast ++ [false]).getD s false = true
  rwa [getD_append _ _ _ _ hl]

theorem Ext.setDone (m x sid b) : Ext m x (m.setDone sid) (x.note b) := by
  refine ⟨Nat.le_refl _, by simp [Mem.setDone], fun s hs => getD_set_true _ _ _ hs, fun h => ?_⟩
  simp only [Notes.note, Bool.or_eq_false_iff] at h
  exact h.1

theorem Ext.newNext (m x sid hs c l) : Ext m x (m.newNext sid hs c) (x.newNext l) :=
  ⟨Nat.le_refl _, Nat.le_refl _, fun _ h => h, fun h => h⟩

theorem Inv.ext {m x m' x'} (h : Inv m x) (e : Ext m x m' x') (hn : m'.nexts = m.nexts)
    (hi : x'.inLast = x.inLast) : Inv m' x' := by
  refine ⟨by rw [hn, hi]; exact h.len, fun t sid hs c ht => ?_⟩
  rw [hn] at ht
  rw [hi]
  have := h.sid t sid hs c ht
  exact ⟨Nat.lt_of_lt_of_le this.1 e.len, fun hl => e.done _ (this.2 hl)⟩

theorem Inv.newNext {m x sid hs c l} (h : Inv m x) (hs' : sid < m.doneLast.length)
    (hl : l = true → m.doneLast.getD sid false = true) :
    Inv (m.newNext sid hs c) (x.newNext l) := by
  refine ⟨by simp [Mem.newNext, Notes.newNext, h.len], fun t sid' hs'' c' ht => ?_⟩
  by_cases htl : t < m.nexts.length
  · have h1 : m.nexts[t]? = some (sid', hs'', c') := by
      simpa [Mem.newNext, List.getElem?_append_left htl] using ht
    have h2 := h.sid t sid' hs'' c' h1
    refine ⟨h2.1, fun hi => h2.2 ?_⟩
    have h3 : (x.inLast ++ [l]).getD t false = true := hi
    rwa [getD_append _ _ _ _ (by rw [h.len]; exact htl)] at h3
  · have hle : m.nexts.length ≤ t := Nat.le_of_not_lt htl
    simp only [Mem.newNext, List.getElem?_append_right hle] at ht
    have ht0 : t - m.nexts.length = 0 := by
      by_contra hc
      rw [List.getElem?_eq_none (by simp; omega)] at ht
      exact absurd ht (by simp)
    rw [ht0] at ht
    simp only [List.getElem?_cons_zero, Option.some.injEq, Prod.mk.injEq] at ht
    obtain ⟨rfl, rfl, rfl⟩ := ht
    refine ⟨hs', fun hi => hl ?_⟩
    have htx : x.inLast.length = t := by rw [h.len]; omega
    simpa [Notes.newNext, List.getD_eq_getElem?_getD, ← htx] using hi

theorem meaning_good (w : World) (n : Nat) : ∀ (live clauses : List Exit) (env : List Handler)
    (p : Piece) (m : Mem) (x : Notes) r, meaning w n live clauses env p m x = some r → Inv m x →
    POk m p → Good live clauses m x r := by
  induction n with
  | zero => intro live clauses env p m x r h; simp [meaning] at h
  | succ n ih =>
    intro live clauses env p m x r h hi hp
    have two : ∀ {live clauses env} (p) {q} (g : Vals → Piece) {m x r}, Inv m x → POk m p →
        (∀ vs m1, (∃ x1, Ext m x m1 x1) → POk m1 (g vs)) →
        q = (fun vs m' x' => meaning w n live clauses env (g vs) m' x') →
        Meaning.andThen (meaning w n live clauses env p m x) q = some r →
        Good live clauses m x r := by
      intro live clauses env p q g m x r hi hp hg hq h
      refine good_andThen h (fun r1 h1 => ih _ _ _ _ _ _ _ h1 hi hp) ?_
      intro vs m1 x1 r e1 i1 h1
      rw [hq] at h1
      exact ih _ _ _ _ _ _ _ h1 i1 (hg vs m1 ⟨x1, e1⟩)
    have pure : ∀ {m x r vs}, Inv m x → some ((Res.val vs), m, x) = some r →
        Good live clauses m x r := by
      intro m x r vs hi h
      simp only [Option.some.injEq] at h
      subst h
      exact ⟨Ext.refl _ _, hi, trivial⟩
    have dead : ∀ {m x r}, Inv m x → some (Res.dead, m, x) = some r →
        Good live clauses m x r := by
      intro m x r hi h
      simp only [Option.some.injEq] at h
      subst h
      exact ⟨Ext.refl _ _, hi, trivial⟩
    have thenVal : ∀ {live clauses env} (p) {m x r}, Inv m x → POk m p →
        Meaning.andThen (meaning w n live clauses env p m x)
          (fun _ m' x' => some (.val [0], m', x')) = some r → Good live clauses m x r := by
      intro live clauses env p m x r hi hp h
      refine good_andThen h (fun r1 h1 => ih _ _ _ _ _ _ _ h1 hi hp) ?_
      intro vs m1 x1 r e1 i1 h1
      simp only [Option.some.injEq] at h1
      subst h1
      exact ⟨Ext.refl _ _, i1, trivial⟩
    rw [meaning.eq_def] at h
    cases p with
    | prog p =>
      cases p with
      | done vs => exact pure hi h
      | act e => exact Good.trans (Ext.log m x e) (pure (hi.ext (Ext.log m x e) rfl rfl) h)
      | bind p k => exact two (.prog p) (fun vs => .prog (k vs)) hi trivial (fun _ _ _ => trivial) rfl h
      | bindExit body =>
        dsimp only at h
        cases hM : meaning w n (m.blocks :: live) clauses env (.prog (body m.blocks)) m.newBlock x with
        | none => rw [hM] at h; simp [Meaning.land] at h
        | some r1 =>
          rw [hM] at h
          have g := ih _ _ _ _ _ _ _ hM (hi.ext (Ext.newBlock m x) rfl rfl) trivial
          obtain ⟨o, m1, x1⟩ := r1
          have e := (Ext.newBlock m x).trans g.ext
          cases o with
          | val vs => simp only [Meaning.land, Option.some.injEq] at h; subst h; exact ⟨e, g.inv, trivial⟩
          | dead => simp only [Meaning.land, Option.some.injEq] at h; subst h; exact ⟨e, g.inv, trivial⟩
          | exit i vs =>
            simp only [Meaning.land] at h
            by_cases hc : i = m.blocks
            · rw [if_pos hc] at h; simp only [Option.some.injEq] at h; subst h; exact ⟨e, g.inv, trivial⟩
            · rw [if_neg hc] at h; simp only [Option.some.injEq] at h; subst h
              exact ⟨e, g.inv, (List.mem_cons.1 g.res).resolve_left hc⟩
          | clause b env' handling c =>
            simp only [Meaning.land, Option.some.injEq] at h; subst h
            exact ⟨e, g.inv, g.res⟩
      | exit i vs =>
        dsimp only at h
        split at h <;> simp only [Option.some.injEq] at h <;> subst h
        · exact ⟨Ext.refl _ _, hi, by assumption⟩
        · exact ⟨Ext.refl _ _, hi, trivial⟩
      | protect body cl =>
        dsimp only at h
        cases hM : meaning w n live clauses env (.prog body) m x with
        | none => rw [hM] at h; simp [Meaning.cleanup] at h
        | some r1 =>
          rw [hM] at h
          have g := ih _ _ _ _ _ _ _ hM hi trivial
          obtain ⟨o, m1, x1⟩ := r1
          have key : ∀ x2 (o : Res) f, Ext m1 x1 m1 x2 → Inv m1 x2 → ResOk live clauses o →
              f = (fun (_ : Vals) (m' : Mem) (x' : Notes) => some (o, m', x')) →
              Meaning.andThen (meaning w n live clauses env (.prog cl) m1 x2) f = some r →
              Good live clauses m x r := by
            intro x2 o f e2 i2 ho hf h
            refine Good.trans (g.ext.trans e2) (good_andThen h
              (fun r1 h1 => ih _ _ _ _ _ _ _ h1 i2 trivial) ?_)
            intro vs m1 x1 r e1 i1 h1
            rw [hf] at h1
            simp only [Option.some.injEq] at h1
            subst h1
            exact ⟨Ext.refl _ _, i1, ho⟩
          cases o with
          | val vs => exact key x1 (.val vs) _ (Ext.refl _ _) g.inv trivial rfl h
          | dead => simp only [Meaning.cleanup, Option.some.injEq] at h; subst h; exact g
          | exit i vs => exact key x1 (.exit i vs) _ (Ext.refl _ _) g.inv g.res rfl h
          | clause b env' handling c =>
            have e2 : Ext m1 x1 m1 (x1.note true) :=
              ⟨Nat.le_refl _, Nat.le_refl _, fun _ h => h, fun h => by simp [Notes.note] at h⟩
            exact key (x1.note true) (.clause b env' handling c) _ e2 (g.inv.ext e2 rfl rfl) g.res rfl h
      | letHandler tag type test fn body => exact ih _ _ _ _ _ _ _ h hi trivial
      | exception tag type test handling body =>
        dsimp only at h
        cases hM : meaning w n live (m.blocks :: clauses)
            (.clause tag type test handling env m.blocks :: env) (.prog body) m.newBlock x with
        | none => rw [hM] at h; simp [Meaning.handle] at h
        | some r1 =>
          rw [hM] at h
          have g := ih _ _ _ _ _ _ _ hM (hi.ext (Ext.newBlock m x) rfl rfl) trivial
          obtain ⟨o, m1, x1⟩ := r1
          have e := (Ext.newBlock m x).trans g.ext
          cases o with
          | val vs => simp only [Meaning.handle, Option.some.injEq] at h; subst h; exact ⟨e, g.inv, trivial⟩
          | dead => simp only [Meaning.handle, Option.some.injEq] at h; subst h; exact ⟨e, g.inv, trivial⟩
          | exit i vs =>
            simp only [Meaning.handle, Option.some.injEq] at h; subst h
            exact ⟨e, g.inv, g.res⟩
          | clause b env' handling c =>
            simp only [Meaning.handle] at h
            by_cases hc : b = m.blocks
            · rw [if_pos hc] at h
              exact Good.trans e (ih _ _ _ _ _ _ _ h g.inv trivial)
            · rw [if_neg hc] at h; simp only [Option.some.injEq] at h; subst h
              exact ⟨e, g.inv, (List.mem_cons.1 g.res).resolve_left hc⟩
      | signal c =>
        refine Good.trans (Ext.newSearch m x) (ih _ _ _ _ _ _ _ h (hi.ext (Ext.newSearch m x) rfl rfl) ?_)
        exact ⟨by simp [Mem.newSearch], fun h => by simp at h⟩
      | error c => exact ih _ _ _ _ _ _ _ h hi trivial
      | next t =>
        dsimp only at h
        cases hq : m.nexts[t]? with
        | none => rw [hq] at h; exact dead hi h
        | some q =>
          rw [hq] at h
          obtain ⟨sid, hs, c⟩ := q
          exact ih _ _ _ _ _ _ _ h hi (hi.sid t sid hs c hq)
      | addLast tag type test fn =>
        have e : Ext m x (m.addLast (.user tag type test fn)) x :=
          ⟨Nat.le_refl _, Nat.le_refl _, fun _ h => h, fun h => h⟩
        exact Good.trans e (pure (hi.ext e rfl rfl) h)
      | removeLast =>
        have e : Ext m x m.removeLast x := ⟨Nat.le_refl _, Nat.le_refl _, fun _ h => h, fun h => h⟩
        exact Good.trans e (pure (hi.ext e rfl rfl) h)
      | doHandlers f =>
        dsimp only at h
        refine good_andThen h (fun r1 h1 => ih _ _ _ _ _ _ _ h1 hi trivial) ?_
        intro vs m1 x1 r e1 i1 h1
        exact ih _ _ _ _ _ _ _ h1 i1 trivial
    | search l sid hs c =>
      cases hs with
      | nil =>
        cases l with
        | true => exact ih _ _ _ _ _ _ _ h hi trivial
        | false =>
          dsimp only at h
          refine Good.trans (Ext.setDone m x sid _) (ih _ _ _ _ _ _ _ h
            (hi.ext (Ext.setDone m x sid _) rfl rfl) ⟨?_, fun _ => ?_⟩)
          · simpa [Mem.setDone] using hp.1
          · exact getD_set_self _ _ hp.1
      | cons hd hs =>
        have h' : Meaning.andThen (meaning w n live clauses env (.matches hd c) m x) (fun vs m' x' =>
            if isFalse vs then meaning w n live clauses env (.search l sid hs c) m' x'
            else meaning w n live clauses env (.invoke l sid hd hs c) m' x') = some r := by
          cases l <;> exact h
        refine two (.matches hd c)
          (fun vs => if isFalse vs then .search l sid hs c else .invoke l sid hd hs c)
          hi trivial ?_ ?_ h'
        · intro vs m1 ⟨x1, e⟩
          cases hv : isFalse vs
          · exact POk.ext e (p := .invoke l sid hd hs c) hp
          · exact POk.ext e (p := .search l sid hs c) hp
        · funext vs m' x'
          cases hv : isFalse vs <;> simp
    | «matches» hd c =>
      dsimp only at h
      by_cases ht : hd.type c = false
      · rw [if_pos ht] at h; exact pure hi h
      · rw [if_neg ht] at h
        cases hq : hd.test with
        | none => rw [hq] at h; exact pure hi h
        | some q => rw [hq] at h; exact ih _ _ _ _ _ _ _ h hi trivial
    | invoke l sid hd hs c =>
      cases hd with
      | user tag type test fn =>
        exact Good.trans (Ext.newNext m x sid hs c l)
          (ih _ _ _ _ _ _ _ h (hi.newNext hp.1 hp.2) trivial)
      | clause tag type test handling original unwind =>
        dsimp only at h
        split at h
        · simp only [Option.some.injEq] at h; subst h
          exact ⟨Ext.newNext m x sid hs c l, hi.newNext hp.1 hp.2, by assumption⟩
        · exact dead hi h
    | default c =>
      dsimp only at h
      cases hq : w.default c with
      | plain => rw [hq] at h; exact pure hi h
      | serious => rw [hq] at h; exact thenVal _ hi (by trivial) h
      | restart => rw [hq] at h; exact thenVal _ hi (by trivial) h
      | user p => rw [hq] at h; exact ih _ _ _ _ _ _ _ h hi trivial
    | error c =>
      exact two (.prog (.signal c)) (fun _ => .error w.mayNotReturn) hi trivial (fun _ _ _ => trivial) rfl h
    | each f hs =>
      cases hs with
      | nil => exact pure hi h
      | cons hd hs =>
        exact two (.prog (f hd.tag)) (fun _ => .each f hs) hi trivial (fun _ _ _ => trivial) rfl h

end Verif.Signal
