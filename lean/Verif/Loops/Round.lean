/-
One round of the converted loop does what one round of the `for` statement does.
-/
import Verif.Loops.Lemmas

namespace Verif.Loops

set_option linter.unusedSectionVars false

variable {V S E N : Type} {W : World V S E N} [DecidableEq N]

/-- A part of a round: it ends and the loop is left, or the loop goes on with the values `qs`. -/
def SimR (bs : List (BV V S E N)) (r : Res S E (Option (List (Live V S E N × V)))) (o : Out V S E)
    (P : (Temp → V) → Prop) : Prop :=
  match r with
  | .ok s none => ∃ T, o = .next T s ∧ P T
  | .ok s (some qs) =>
    ∃ T, o = .again T s ∧ All W T 0 bs qs ∧ At (fun j => T (.shadow j)) 0 qs
  | .exit s e => o = .exit s e
  | .hang => o = .hang

theorem Sim.seqR {A : Type} {bs : List (BV V S E N)} {r : Res S E A}
    {f : A → S → Res S E (Option (List (Live V S E N × V)))} {T : Temp → V} {s : S}
    {c1 c2 : List (Ins V S E N)} {P : (Temp → V) → A → Prop} {Q : (Temp → V) → Prop}
    (h1 : Sim r (execs W T s c1) P)
    (h2 : ∀ T' s' a, P T' a → SimR (W := W) bs (f a s') (execs W T' s' c2) Q) :
    SimR (W := W) bs (r.bind f) (execs W T s (c1 ++ c2)) Q := by
  rw [execs_append]
  cases r with
  | ok s a => obtain ⟨T', e, hp⟩ := h1; rw [e]; exact h2 T' s a hp
  | exit s e => simp only [Sim] at h1; rw [h1]; rfl
  | hang => simp only [Sim] at h1; rw [h1]; rfl

/-- A conditional whose one side leaves the loop. -/
theorem SimR.cond {bs : List (BV V S E N)} {b : Bool} {r : Res S E (Option (List (Live V S E N × V)))}
    {T : Temp → V} {s : S} {t : Temp} {test v ref : Ref V} {c : List (Ins V S E N)} {Q : (Temp → V) → Prop}
    (hb : W.isNo (test.get T) = !b) (hQ : ∀ T v, Q T → Q (setT T t v)) (h0 : Q T)
    (h : b = false → SimR (W := W) bs r (execs W T s c) Q) :
    SimR (W := W) bs (if b then .ok s none else r) (execs W T s [.cond t test [] v c ref]) Q := by
  rw [execs_one]
  simp only [exec, hb]
  cases b with
  | true =>
    simp only [Bool.not_true, Bool.false_eq_true, if_false, execs]
    simp only [if_true]
    exact ⟨_, rfl, hQ _ _ h0⟩
  | false =>
    have h := h rfl
    simp only [Bool.not_false, if_true]
    simp only [Bool.false_eq_true, if_false]
    cases r with
    | ok s' a => cases a with
      | none => obtain ⟨T', e, hq⟩ := h; rw [e]; exact ⟨_, rfl, hQ _ _ hq⟩
      | some qs => obtain ⟨T', e, hq⟩ := h; rw [e]; exact ⟨_, rfl, hq⟩
    | exit s' e => simp only [SimR] at h; rw [h]; rfl
    | hang => simp only [SimR] at h; rw [h]; rfl

theorem SimR.condNot {bs : List (BV V S E N)} {b : Bool} {r : Res S E (Option (List (Live V S E N × V)))}
    {T : Temp → V} {s : S} {t : Temp} {test v ref : Ref V} {c : List (Ins V S E N)} {Q : (Temp → V) → Prop}
    (hb : W.isNo (test.get T) = b) (hQ : ∀ T v, Q T → Q (setT T t v)) (h0 : Q T)
    (h : b = false → SimR (W := W) bs r (execs W T s c) Q) :
    SimR (W := W) bs (if b then .ok s none else r) (execs W T s [.cond t test c ref [] v]) Q := by
  rw [execs_one]
  simp only [exec, hb]
  cases b with
  | true =>
    simp only [execs, if_true]
    exact ⟨_, rfl, hQ _ _ h0⟩
  | false =>
    have h := h rfl
    simp only [Bool.false_eq_true, if_false]
    cases r with
    | ok s' a => cases a with
      | none => obtain ⟨T', e, hq⟩ := h; rw [e]; exact ⟨_, rfl, hQ _ _ hq⟩
      | some qs => obtain ⟨T', e, hq⟩ := h; rw [e]; exact ⟨_, rfl, hq⟩
    | exit s' e => simp only [SimR] at h; rw [h]; rfl
    | hang => simp only [SimR] at h; rw [h]; rfl

/-- A round of the `for` statement. -/
def round (W : World V S E N) (early : Bool) (F : For V S E N) (ps : List (Live V S E N × V)) (s : S) :
    Res S E (Option (List (Live V S E N × V))) :=
  (exhausted W ps s).bind fun b s =>
  if b then .ok s none
  else
    (elements W ps (bindings ps []) s).bind fun ρ s =>
    (ends W ρ F.endTest s).bind fun b s =>
    if b then .ok s none
    else
      (value W ρ F.body s).bind fun _ s =>
      (nextValues W early ρ ps s).bind fun qs s =>
      (if early then .ok s () else checks W qs s).bind fun _ s => .ok s (some qs)

theorem iterate_succ (early : Bool) (F : For V S E N) (n : Nat) (ps : List (Live V S E N × V)) (s : S) :
    iterate W early F (n + 1) ps s =
      match round W early F ps s with
      | .ok s none => some (value W (bindings ps []) F.finally' s)
      | .ok s (some qs) => iterate W early F n qs s
      | .exit s e => some (.exit s e)
      | .hang => some .hang := rfl

theorem var_ne {t : Temp} {j : Nat} (h : t = .var j) {t' : Temp} (h' : t'.lasting = false) : t ≠ t' := by
  rintro rfl; subst h; cases h'

/-- Steps 6 to 8. -/
theorem s678_sim (hW : W.Lawful) (F : For V S E N) {T : Temp → V} {bs : List (BV V S E N)}
    {ps : List (Live V S E N × V)} {env : List (N × Temp)} {ρ : List (N × V)} {k : Nat}
    (ha : All W T 0 bs ps) (hat : At (fun j => T (.var j)) 0 ps) (he : EnvOk T env ρ)
    (hb : ∀ q ∈ env, q.2.bound4 k = true) (s : S) (Q : (Temp → V) → Prop) :
    SimR (W := W) bs
      ((value W ρ F.body s).bind fun _ s => (nextValues W true ρ ps s).bind fun qs s =>
        (if true then (.ok s () : Res S E Unit) else checks W qs s).bind fun _ s => .ok s (some qs))
      (execs W T s ((conv W .body env F.body).1 ++ steps7 W env 0 bs ++
        (toShadows 0 (nexts 0 bs.length) ++ [Ins.again]))) Q := by
  rw [List.append_assoc]
  refine Sim.seqR (sim_conv he .body F.body s) ?_
  rintro T1 s1 _ ⟨_, h1⟩
  have hl : Lasts T T1 := by
    intro t ht; apply h1; rintro rfl; cases ht
  have he1 : EnvOk T1 env ρ := he.congr (fun q hq => h1 _
    (by intro e; have := hb q hq; rw [e] at this; cases this))
  refine Sim.seqR (steps7_sim hW env ρ k hb bs 0 ps T1 s1 (hl.all ha) (hl.at hat) he1) ?_
  rintro T2 s2 qs ⟨ha2, hat2, _⟩
  have hlen : bs.length = qs.length := ha2.length
  rw [hlen, execs_append]
  obtain ⟨T3, e3, h3, h4, _⟩ := toShadows_run (W := W) (nexts 0 qs.length) 0 qs T2 s2
    (nexts_noShadow _ 0) (nexts_ok T2 qs 0 hat2)
  rw [e3]
  simp only [execs, exec]
  simp only [if_true, Res.bind]
  refine ⟨T3, rfl, ha2.congr ?_, h3⟩
  intro t ht
  apply h4
  cases t <;> simp_all [Temp.fixed, Temp.isShadow]

theorem lasts_setQ {T0 : Temp → V} {t : Temp} (h : t.lasting = false) :
    ∀ (T : Temp → V) (v : V), Lasts T0 T → Lasts T0 (setT T t v) :=
  fun _ _ hl => hl.trans (lasts_set _ _ h)

/-- Steps 5 to 8. -/
theorem s5_sim (hW : W.Lawful) (F : For V S E N) {T0 T : Temp → V} {bs : List (BV V S E N)}
    {ps : List (Live V S E N × V)} {env : List (N × Temp)} {ρ : List (N × V)} {k : Nat}
    (hT : Lasts T0 T)
    (ha : All W T 0 bs ps) (hat : At (fun j => T (.var j)) 0 ps) (he : EnvOk T env ρ)
    (hb : ∀ q ∈ env, q.2.bound4 k = true) (s : S) :
    SimR (W := W) bs
      ((ends W ρ F.endTest s).bind fun b s => if b then .ok s none else
        (value W ρ F.body s).bind fun _ s => (nextValues W true ρ ps s).bind fun qs s =>
        (if true then (.ok s () : Res S E Unit) else checks W qs s).bind fun _ s => .ok s (some qs))
      (execs W T s (step5 W env F.endTest ((conv W .body env F.body).1 ++ steps7 W env 0 bs ++
        (toShadows 0 (nexts 0 bs.length) ++ [Ins.again]))).1) (Lasts T0) := by
  cases hF : F.endTest with
  | none =>
    simp only [ends, step5]
    exact s678_sim hW F ha hat he hb s _
  | some q =>
    obtain ⟨u, e⟩ := q
    have go : ∀ T1 : Temp → V, (∀ t, t ≠ .endTest → T1 t = T t) →
        Lasts T0 T1 ∧ All W T1 0 bs ps ∧ At (fun j => T1 (.var j)) 0 ps ∧ EnvOk T1 env ρ := by
      intro T1 h1
      have hl : Lasts T T1 := by
        intro t ht; apply h1; rintro rfl; cases ht
      exact ⟨hT.trans hl, hl.all ha, hl.at hat, he.congr (fun q hq => h1 _
        (by intro e; have := hb q hq; rw [e] at this; cases this))⟩
    simp only [ends, bind_assoc]
    cases u with
    | true =>
      simp only [step5, if_true]
      refine Sim.seqR (sim_conv he .endTest e s) ?_
      rintro T1 s1 v ⟨hv, h1⟩
      obtain ⟨g1, g2, g3, g4⟩ := go T1 h1
      simp only [Res.bind]
      refine SimR.cond (b := !W.isNo v) ?_ (lasts_setQ rfl) g1 ?_
      · rw [hv, Bool.not_not]
      · intro _; exact s678_sim hW F g2 g3 g4 hb s1 _
    | false =>
      simp only [step5, Bool.false_eq_true, if_false]
      refine Sim.seqR (sim_conv he .endTest e s) ?_
      rintro T1 s1 v ⟨hv, h1⟩
      obtain ⟨g1, g2, g3, g4⟩ := go T1 h1
      simp only [Res.bind]
      refine SimR.condNot (b := W.isNo v) (by rw [hv]) (lasts_setQ rfl) g1 ?_
      intro _; exact s678_sim hW F g2 g3 g4 hb s1 _

/-- The loops run alike. -/
theorem rounds_sim (hW : W.Lawful) (F : For V S E N) (bs : List (BV V S E N))
    (hbs : bs = (steps1 W 0 F.clauses).2) (n : Nat) :
    ∀ (ps : List (Live V S E N × V)) (T : Temp → V) (s : S), All W T 0 bs ps →
    At (fun j => T (.shadow j)) 0 ps →
    rounds W (convertFor W F) n T s = iterate W true F n ps s := by
  induction n with
  | zero => intro ps T s _ _; rfl
  | succ n ih =>
    intro ps T s ha hat
    rw [iterate_succ]
    -- the variables are taken from their shadows
    obtain ⟨T1, e1, h1, h2, _⟩ := fromShadows_run (W := W) bs.length 0 T s
    have ha1 : All W T1 0 bs ps := ha.congr (fun t ht => h2 t (by rintro j rfl; cases ht))
    have hat1 : At (fun j => T1 (.var j)) 0 ps := by
      have hlen := ha.length
      have : ∀ (qs : List (Live V S E N × V)) (i : Nat), i + qs.length ≤ bs.length →
          At (fun j => T (.shadow j)) i qs → At (fun j => T1 (.var j)) i qs := by
        intro qs
        induction qs with
        | nil => intro i _ _; trivial
        | cons q qs ih =>
          intro i hi h
          simp only [List.length_cons] at hi
          exact ⟨(h1 i (by omega) (by omega)).trans h.1, ih (i + 1) (by omega) h.2⟩
      exact this ps 0 (by omega) hat
    obtain ⟨henv, hvars⟩ := env2_ok T1 bs 0 ps [] [] ha1 hat1 (envOk_nil T1) (by simp)
    -- the round
    have hround : SimR (W := W) bs (round W true F ps s)
        (execs W T1 s ((steps3 W 0 bs).1 ++ [.cond .loop (steps3 W 0 bs).2 [] (.const W.no)
          ((steps4 W 0 bs (env2 0 bs [])).1 ++ (step5 W (steps4 W 0 bs (env2 0 bs [])).2 F.endTest
            ((conv W .body (steps4 W 0 bs (env2 0 bs [])).2 F.body).1 ++
              steps7 W (steps4 W 0 bs (env2 0 bs [])).2 0 bs ++
              (toShadows 0 (nexts 0 bs.length) ++ [Ins.again]))).1)
          (step5 W (steps4 W 0 bs (env2 0 bs [])).2 F.endTest
            ((conv W .body (steps4 W 0 bs (env2 0 bs [])).2 F.body).1 ++
              steps7 W (steps4 W 0 bs (env2 0 bs [])).2 0 bs ++
              (toShadows 0 (nexts 0 bs.length) ++ [Ins.again]))).2])) (Lasts T1) := by
      unfold round
      refine Sim.seqR (steps3_sim hW bs 0 ps T1 s ha1 hat1) ?_
      rintro T2 s2 b ⟨hb, hl2⟩
      refine SimR.cond hb (lasts_setQ rfl) hl2 ?_
      intro _
      have henv2 : EnvOk T2 (env2 0 bs []) (bindings ps []) := henv.congr (by
        intro p hp; obtain ⟨j, hj⟩ := hvars p hp; rw [hj]; exact hl2 _ rfl)
      refine Sim.seqR (steps4_sim bs 0 ps _ _ T2 s2 (hl2.all ha1) (hl2.at hat1) henv2 (by
        intro p hp; obtain ⟨j, hj⟩ := hvars p hp; rw [hj]; rfl)) ?_
      rintro T3 s3 ρ ⟨h3, h4, h5⟩
      have hl3 : Lasts T2 T3 := fun t ht => h5 t (lasting_made4 ht)
      exact s5_sim hW F (hl2.trans hl3) (hl3.all (hl2.all ha1)) (hl3.at (hl2.at hat1)) h3 h4 s3
    have hbody : (convertFor W F).body = fromShadows 0 bs.length ++
        (((steps3 W 0 bs).1 ++ [.cond .loop (steps3 W 0 bs).2 [] (.const W.no)
          ((steps4 W 0 bs (env2 0 bs [])).1 ++ (step5 W (steps4 W 0 bs (env2 0 bs [])).2 F.endTest
            ((conv W .body (steps4 W 0 bs (env2 0 bs [])).2 F.body).1 ++
              steps7 W (steps4 W 0 bs (env2 0 bs [])).2 0 bs ++
              (toShadows 0 (nexts 0 bs.length) ++ [Ins.again]))).1)
          (step5 W (steps4 W 0 bs (env2 0 bs [])).2 F.endTest
            ((conv W .body (steps4 W 0 bs (env2 0 bs [])).2 F.body).1 ++
              steps7 W (steps4 W 0 bs (env2 0 bs [])).2 0 bs ++
              (toShadows 0 (nexts 0 bs.length) ++ [Ins.again]))).2]) ++
          (conv W .last (env2 0 bs []) F.finally').1) := by
      subst hbs
      simp only [convertFor, List.append_assoc]
    have hval : (convertFor W F).value = (conv W .last (env2 0 bs []) F.finally').2 := by
      subst hbs; rfl
    simp only [rounds]
    rw [hbody, execs_append, e1]
    simp only []
    rw [execs_append]
    cases hr : round W true F ps s with
    | ok s' o =>
      rw [hr] at hround
      cases o with
      | none =>
        obtain ⟨T2, e2, hl2⟩ := hround
        rw [e2]
        simp only []
        have henv2 : EnvOk T2 (env2 0 bs []) (bindings ps []) := henv.congr (by
          intro p hp; obtain ⟨j, hj⟩ := hvars p hp; rw [hj]; exact hl2 _ rfl)
        have hfin := sim_conv (W := W) henv2 .last F.finally' s'
        cases hv : value W (bindings ps []) F.finally' s' with
        | ok s3 v =>
          rw [hv] at hfin
          obtain ⟨T3, e3, h3, _⟩ := hfin
          rw [e3]
          simp only []
          rw [hval, h3]
        | exit s3 e => rw [hv] at hfin; simp only [Sim] at hfin; rw [hfin]
        | hang => rw [hv] at hfin; simp only [Sim] at hfin; rw [hfin]
      | some qs =>
        obtain ⟨T2, e2, ha2, hat2⟩ := hround
        rw [e2]
        exact ih qs T2 s' ha2 hat2
    | exit s' e => rw [hr] at hround; simp only [SimR] at hround; rw [hround]
    | hang => rw [hr] at hround; simp only [SimR] at hround; rw [hround]

/-- The converted loop does what the `for` statement does. -/
theorem runConverted_eq (hW : W.Lawful) (F : For V S E N) (hF : ∀ c ∈ F.clauses, NoLostType W c) (n : Nat)
    (T : Temp → V) (s : S) : runConverted W (convertFor W F) n T s = meaning W true F n s := by
  unfold runConverted meaning
  have hpre : (convertFor W F).pre = (steps1 W 0 F.clauses).1 ++
      ((steps2 0 (steps1 W 0 F.clauses).2).1 ++ toShadows 0 (steps2 (S := S) (E := E) (N := N) 0
        (steps1 W 0 F.clauses).2).2) := by
    simp only [convertFor, List.append_assoc]
  have h1 := steps1_sim hW F.clauses hF 0 T s
  rw [hpre, execs_append]
  cases ho : onces W F.clauses s with
  | exit s' e => rw [ho] at h1; simp only [Sim] at h1; rw [h1]; rfl
  | hang => rw [ho] at h1; simp only [Sim] at h1; rw [h1]; rfl
  | ok s1 ps =>
    rw [ho] at h1
    obtain ⟨T1, e1, ha, hc, _⟩ := h1
    rw [e1]
    simp only [Res.bind]
    have h2 := steps2_sim hW (steps1 W 0 F.clauses).2 0 ps T1 s1 ha hc
    rw [execs_append]
    cases hk : checks W ps s1 with
    | exit s' e => rw [hk] at h2; simp only [Sim] at h2; rw [h2]
    | hang => rw [hk] at h2; simp only [Sim] at h2; rw [h2]
    | ok s2 _ =>
      rw [hk] at h2
      obtain ⟨T2, e2, hrefs, hsame⟩ := h2
      rw [e2]
      simp only []
      obtain ⟨T3, e3, h3, h4, _⟩ := toShadows_run (W := W) _ 0 ps T2 s2
        (first_noShadow (steps2_first (W := W) (steps1 W 0 F.clauses).2 0 ps T1 ha)) hrefs
      rw [e3]
      simp only []
      refine rounds_sim hW F _ rfl n ps T3 s2 (ha.congr ?_) h3
      intro t ht
      rw [h4 t (by cases t <;> simp_all [Temp.fixed, Temp.isShadow]),
        hsame t (by cases t <;> simp_all [Temp.fixed, Temp.checkedFrom])]

end Verif.Loops
