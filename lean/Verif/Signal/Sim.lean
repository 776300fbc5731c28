import Verif.Signal.Ext

/-! # Running a program agrees with its meaning, where the mark is not set -/

namespace Verif.Signal

/-- Code runs to an end, with some number of steps. -/
def Runs (w : World) (live : List Exit) (code : Code) (s : St) (z : Out × St) : Prop :=
  ∃ n, run w n live code s = some z

def Out.isVal : Out → Bool
  | .val _ => true
  | _ => false

/-- What a handler function of an exception clause makes of the end of the
clause. -/
def arrive (b : Exit) : Out → Out
  | .val vs => .exit b vs
  | o => o

theorem arrive_isVal (b o) : (arrive b o).isVal = false := by cases o <;> rfl

/-- Runs, related to a meaning.  The handlers in force are `env` before, and
after it unless a handler of an exception clause has been run. -/
def SimR (live : List Exit) (w : World) (R : St → Out × St → Prop) (env : List Handler) (m : Mem) :
    Res × Mem × Notes → Prop
  | (.val vs, m', _) => R ⟨m, env⟩ (.val vs, ⟨m', env⟩)
  | (.exit h vs, m', _) => R ⟨m, env⟩ (.exit h vs, ⟨m', env⟩)
  | (.clause b original handling c, m', _) =>
    ∀ o m'', (∀ h vs, o = .exit h vs → h < b) → o ≠ .dead →
      (∀ L, live ⊆ L → ∃ cur, Runs w L (.prog (handling c)) ⟨m', original⟩ (o, ⟨m'', cur⟩)) →
      ∃ cur, R ⟨m, env⟩ (arrive b o, ⟨m'', cur⟩)
  | (.dead, _, _) => True

theorem simR_mono {live w R R' env m m0 r} (h : SimR live w R env m r)
    (hR : ∀ z, R ⟨m, env⟩ z → R' ⟨m0, env⟩ z) : SimR live w R' env m0 r := by
  obtain ⟨o, m', x⟩ := r
  cases o with
  | val vs => exact hR _ h
  | exit i vs => exact hR _ h
  | dead => trivial
  | clause b original handling c =>
    intro o m'' ho hd hh
    obtain ⟨cur, h1⟩ := h o m'' ho hd hh
    exact ⟨cur, hR _ h1⟩

theorem simR_andThen {live w env m} {M : Meaning} {f r} {R1 R : St → Out × St → Prop}
    {F : Vals → St → Out × St → Prop}
    (h : Meaning.andThen M f = some r)
    (hne : ∀ o s', o.isVal = false → R1 ⟨m, env⟩ (o, s') → R ⟨m, env⟩ (o, s'))
    (hval : ∀ vs s1 z, R1 ⟨m, env⟩ (.val vs, s1) → F vs s1 z → R ⟨m, env⟩ z)
    (h1 : ∀ r1, M = some r1 → (r1.1.isVal = false → r = r1) → SimR live w R1 env m r1)
    (h2 : ∀ vs m1 x1, M = some (.val vs, m1, x1) → f vs m1 x1 = some r →
      SimR live w (F vs) env m1 r) :
    SimR live w R env m r := by
  obtain ⟨r1, hM, hc⟩ := andThen_some h
  rcases hc with ⟨vs, m1, x1, rfl, hf⟩ | ⟨hv, rfl⟩
  · have a := h1 _ hM (fun h => by simp [Res.isVal] at h)
    have b := h2 vs m1 x1 hM hf
    obtain ⟨o, m', x⟩ := r
    cases o with
    | val vs => exact hval _ _ _ a b
    | exit i vs => exact hval _ _ _ a b
    | dead => trivial
    | clause b' original handling c =>
      intro o m'' ho hd hh
      obtain ⟨cur, hb⟩ := b o m'' ho hd hh
      exact ⟨cur, hval _ _ _ a hb⟩
  · have a := h1 _ hM (fun _ => rfl)
    obtain ⟨o, m', x⟩ := r
    cases o with
    | val vs => simp [Res.isVal] at hv
    | exit i vs => exact hne _ _ rfl a
    | dead => trivial
    | clause b' original handling c =>
      intro o m'' ho hd hh
      obtain ⟨cur, hb⟩ := a o m'' ho hd hh
      exact ⟨cur, hne _ _ (arrive_isVal _ _) hb⟩

/-! ## Rules for running -/

theorem runs_step {w live code code' s s' z} (h : Runs w live code' s' z)
    (he : ∀ n, run w (n + 1) live code s = run w n live code' s') : Runs w live code s z := by
  obtain ⟨n, h⟩ := h
  exact ⟨n + 1, by rw [he]; exact h⟩

theorem runs_andThen_ne {w live code c1 s} {F : Nat → Vals → St → Run}
    (he : ∀ n, run w (n + 1) live code s = Run.andThen (run w n live c1 s) (F n))
    {o s'} (ho : o.isVal = false) (h : Runs w live c1 s (o, s')) : Runs w live code s (o, s') := by
  obtain ⟨n, h⟩ := h
  refine ⟨n + 1, ?_⟩
  rw [he, h]
  cases o <;> first | rfl | simp [Out.isVal] at ho

theorem runs_andThen_val {w live code c1 s} {F : Nat → Vals → St → Run}
    (he : ∀ n, run w (n + 1) live code s = Run.andThen (run w n live c1 s) (F n))
    (hm : ∀ n k vs s z, n ≤ k → F n vs s = some z → F k vs s = some z)
    {vs s1 z} (h : Runs w live c1 s (.val vs, s1)) (h2 : ∃ n, F n vs s1 = some z) :
    Runs w live code s z := by
  obtain ⟨n, h⟩ := h
  obtain ⟨k, h2⟩ := h2
  refine ⟨max n k + 1, ?_⟩
  rw [he, run_le w (Nat.le_max_left n k) h]
  exact hm _ _ _ _ _ (Nat.le_max_right n k) h2

/-- An exit that ends at block `b`. -/
def landOut (b : Exit) : Out → Out
  | .exit h vs => if h = b then .val vs else .exit h vs
  | o => o

theorem runs_bindExit {w L s body o s'}
    (h : Runs w (s.mem.blocks :: L) (.prog (body s.mem.blocks)) (s.upd Mem.newBlock) (o, s')) :
    Runs w L (.prog (.bindExit body)) s (landOut s.mem.blocks o, s') := by
  obtain ⟨n, h⟩ := h
  refine ⟨n + 1, ?_⟩
  simp only [run, h]
  cases o with
  | exit i vs =>
    simp only [Run.land, landOut]
    by_cases hc : i = s.mem.blocks
    · rw [if_pos hc, if_pos hc]
    · rw [if_neg hc, if_neg hc]
  | _ => rfl

theorem runs_letHandler {w L s tag type test fn body o s'} (ho : o ≠ .dead)
    (h : Runs w L (.prog body) (s.handlers (.user tag type test fn :: s.cur)) (o, s')) :
    Runs w L (.prog (.letHandler tag type test fn body)) s (o, s'.handlers s.cur) := by
  obtain ⟨n, h⟩ := h
  refine ⟨n + 1, ?_⟩
  simp only [run, h]
  cases o with
  | dead => exact absurd rfl ho
  | _ => rfl

theorem runs_exception {w L s tag type test handling body o s'} (ho : o ≠ .dead)
    (h : Runs w (s.mem.blocks :: L) (.prog body) ((s.upd Mem.newBlock).handlers
      (.clause tag type test handling s.cur s.mem.blocks :: s.cur)) (o, s')) :
    Runs w L (.prog (.exception tag type test handling body)) s
      (landOut s.mem.blocks o, s'.handlers s.cur) := by
  obtain ⟨n, h⟩ := h
  refine ⟨n + 1, ?_⟩
  simp only [run, h]
  cases o with
  | dead => exact absurd rfl ho
  | val vs => rfl
  | exit i vs =>
    simp only [Run.land, Run.restore, Run.cleanup, Run.andThen, landOut]
    by_cases hc : i = s.mem.blocks
    · rw [if_pos hc, if_pos hc]
    · rw [if_neg hc, if_neg hc]

theorem runs_protect {w L s body cl o s1 o2 s2} (ho : o ≠ .dead) (h : Runs w L (.prog body) s (o, s1))
    (h2 : Runs w L (.prog cl) s1 (o2, s2)) :
    Runs w L (.prog (.protect body cl)) s (if o2.isVal then o else o2, s2) := by
  obtain ⟨n, h⟩ := h
  obtain ⟨k, h2⟩ := h2
  refine ⟨max n k + 1, ?_⟩
  simp only [run, run_le w (Nat.le_max_left n k) h]
  cases o with
  | dead => exact absurd rfl ho
  | _ =>
    simp only [Run.cleanup, run_le w (Nat.le_max_right n k) h2]
    cases o2 <;> rfl

theorem landOut_ne {b h : Exit} {vs} (hb : h ≠ b) : landOut b (.exit h vs) = .exit h vs := by
  simp [landOut, hb]

/-- Past a block that is not the one of the exception clause. -/
theorem landOut_arrive {b b' : Exit} {o : Out} (hb : b' < b) (ho : ∀ h vs, o = .exit h vs → h < b') :
    landOut b (arrive b' o) = arrive b' o := by
  cases o with
  | val vs => exact landOut_ne (Nat.ne_of_lt hb)
  | exit h vs => exact landOut_ne (Nat.ne_of_lt (Nat.lt_trans (ho h vs rfl) hb))
  | dead => rfl

theorem arrive_ne_dead {b o} (h : o ≠ Out.dead) : arrive b o ≠ .dead := by
  cases o with
  | dead => exact absurd rfl h
  | _ => intro h; cases h

/-- The code of a piece of program. -/
def Piece.code : Piece → Code
  | .prog p => .prog p
  | .search _ sid hs c => .search sid hs c
  | .matches h c => .matches h c
  | .invoke _ sid h hs c => .invoke sid h hs c
  | .default c => .default c
  | .error c => .error c
  | .each f hs => .each f hs

theorem set_true_self (l : List Bool) (i : Nat) (h : l.getD i false = true) : l.set i true = l := by
  apply List.ext_getElem?
  intro j
  rw [List.getElem?_set]
  by_cases hij : i = j
  · subst hij
    rw [if_pos rfl]
    cases hl : l[i]? with
    | none => rw [List.getElem?_eq_none_iff] at hl; rw [if_neg (by omega)]
    | some v =>
      have hb : i < l.length := by
        by_contra hc
        rw [List.getElem?_eq_none (by omega)] at hl
        exact absurd hl (by simp)
      rw [if_pos hb]
      simp only [List.getD_eq_getElem?_getD, hl, Option.getD_some] at h
      rw [h]
  · rw [if_neg hij]

theorem sim (w : World) (n : Nat) : ∀ (live clauses : List Exit) (env : List Handler) (p : Piece)
    (m : Mem) (x : Notes) r, meaning w n live clauses env p m x = some r → r.2.2.mark = false →
    Inv m x → POk m p → Live live m → Live clauses m → ∀ L, live ⊆ L → clauses ⊆ L →
    SimR L w (Runs w L p.code) env m r := by
  induction n with
  | zero => intro live clauses env p m x r h; simp [meaning] at h
  | succ n ih =>
    intro live clauses env p m x r h hk hi hp hl hcl L hL hC
    have good : ∀ {live clauses env p m x r}, meaning w n live clauses env p m x = some r → Inv m x →
        POk m p → Good live clauses m x r := fun h => meaning_good w n _ _ _ _ _ _ _ h
    -- a piece, then a piece
    have two : ∀ (p q : Piece) (g : Vals → Piece) f {m x r}, Inv m x → POk m p → Live live m →
        Live clauses m → r.2.2.mark = false →
        (∀ vs m1, (∃ x1, Ext m x m1 x1) → POk m1 (g vs)) →
        f = (fun vs m' x' => meaning w n live clauses env (g vs) m' x') →
        (∀ s, ∀ n, run w (n + 1) L q.code s = Run.andThen (run w n L p.code s)
          fun vs s' => run w n L (g vs).code s') →
        Meaning.andThen (meaning w n live clauses env p m x) f = some r →
        SimR L w (Runs w L q.code) env m r := by
      intro p q g f m x r hi hp hl hcl hk hg hf hrun h
      refine simR_andThen (R1 := Runs w L p.code) (F := fun vs => Runs w L (g vs).code) h
        (fun o s' ho h => runs_andThen_ne (hrun _) ho h)
        (fun vs s1 z h h2 => runs_andThen_val (hrun _)
          (fun n k vs s z hnk h => run_le w hnk h) h h2) ?_ ?_
      · intro r1 h1 hr
        refine ih _ _ _ _ _ _ _ h1 ?_ hi hp hl hcl L hL hC
        obtain ⟨r1', hM, hc⟩ := andThen_some h
        rw [hM] at h1
        simp only [Option.some.injEq] at h1
        subst h1
        rcases hc with ⟨vs, m1, x1, rfl, h2⟩ | ⟨_, rfl⟩
        · have g1 := good hM hi hp
          rw [hf] at h2
          exact (good h2 g1.inv (hg vs m1 ⟨x1, g1.ext⟩)).ext.mark hk
        · exact hk
      · intro vs m1 x1 hM h2
        have g1 := good hM hi hp
        rw [hf] at h2
        exact ih _ _ _ _ _ _ _ h2 hk g1.inv (hg vs m1 ⟨x1, g1.ext⟩) (hl.ext g1.ext)
          (hcl.ext g1.ext) L hL hC
    have one : ∀ {q : Piece} (p) {env' : List Handler} {m' x'}, meaning w n live clauses env p m' x' = some r →
        Inv m' x' → POk m' p → Live live m' → Live clauses m' →
        (∀ n, run w (n + 1) L q.code ⟨m, env⟩ = run w n L p.code ⟨m', env⟩) →
        SimR L w (Runs w L q.code) env m r := by
      intro q p env' m' x' h hi hp hl hcl hrun
      exact simR_mono (ih _ _ _ _ _ _ _ h hk hi hp hl hcl L hL hC) (fun z hz => runs_step hz hrun)
    have pure : ∀ {q : Piece} {vs m' x'}, some ((Res.val vs), m', x') = some r →
        (∀ n, run w (n + 1) L q.code ⟨m, env⟩ = some (.val vs, ⟨m', env⟩)) →
        SimR L w (Runs w L q.code) env m r := by
      intro q vs m' x' h hrun
      simp only [Option.some.injEq] at h
      subst h
      exact ⟨1, hrun 0⟩
    have dead : ∀ {q : Piece} {m' x'}, some (Res.dead, m', x') = some r →
        SimR L w (Runs w L q.code) env m r := by
      intro q m' x' h
      simp only [Option.some.injEq] at h
      subst h
      trivial
    have thenVal : ∀ (p q : Piece) {m x r}, Inv m x → POk m p → Live live m →
        Live clauses m → r.2.2.mark = false →
        (∀ s, ∀ n, run w (n + 1) L q.code s = Run.andThen (run w n L p.code s)
          fun _ s' => some (.val [0], s')) →
        Meaning.andThen (meaning w n live clauses env p m x)
          (fun _ m' x' => some (.val [0], m', x')) = some r →
        SimR L w (Runs w L q.code) env m r := by
      intro p q m x r hi hp hl hcl hk hrun h
      refine simR_andThen (R1 := Runs w L p.code) (F := fun _ s z => z = (.val [0], s)) h
        (fun o s' ho h => runs_andThen_ne (hrun _) ho h)
        (fun vs s1 z h h2 => runs_andThen_val (hrun _)
          (fun n k vs s z hnk h => h) h ⟨0, by rw [h2]⟩) ?_ ?_
      · intro r1 h1 hr
        refine ih _ _ _ _ _ _ _ h1 ?_ hi hp hl hcl L hL hC
        obtain ⟨r1', hM, hc⟩ := andThen_some h
        rw [hM] at h1
        simp only [Option.some.injEq] at h1
        subst h1
        rcases hc with ⟨vs, m1, x1, rfl, h2⟩ | ⟨_, rfl⟩
        · simp only [Option.some.injEq] at h2
          subst h2
          exact hk
        · exact hk
      · intro vs m1 x1 hM h2
        simp only [Option.some.injEq] at h2
        subst h2
        rfl
    rw [meaning.eq_def] at h
    cases p with
    | prog p =>
      cases p with
      | done vs => exact pure h (fun _ => rfl)
      | act e => exact pure h (fun _ => rfl)
      | bind p k =>
        exact two (.prog p) (.prog (.bind p k)) (fun vs => .prog (k vs)) _ hi trivial hl hcl hk
          (fun _ _ _ => trivial) rfl (fun _ _ => rfl) h
      | bindExit body =>
        dsimp only at h
        cases hM : meaning w n (m.blocks :: live) clauses env (.prog (body m.blocks)) m.newBlock x with
        | none => rw [hM] at h; simp [Meaning.land] at h
        | some r1 =>
          rw [hM] at h
          have i' := hi.ext (Ext.newBlock m x) rfl rfl
          have g := good hM i' trivial
          have hmk : r1.2.2.mark = false := by
            obtain ⟨o, m1, x1⟩ := r1
            cases o with
            | exit i vs =>
              simp only [Meaning.land] at h
              split at h <;> simp only [Option.some.injEq] at h <;> subst h <;> exact hk
            | _ => simp only [Meaning.land, Option.some.injEq] at h; subst h; exact hk
          have a := ih _ _ _ _ _ _ _ hM hmk i' trivial hl.new (hcl.ext (Ext.newBlock m x))
            (m.blocks :: L) (List.cons_subset_cons _ hL) (List.subset_cons_of_subset _ hC)
          obtain ⟨o, m1, x1⟩ := r1
          cases o with
          | val vs =>
            simp only [Meaning.land, Option.some.injEq] at h; subst h
            exact runs_bindExit (s := ⟨m, env⟩) a
          | dead => simp only [Meaning.land, Option.some.injEq] at h; subst h; trivial
          | exit i vs =>
            simp only [Meaning.land] at h
            have a' := runs_bindExit (s := ⟨m, env⟩) a
            by_cases hc : i = m.blocks
            · rw [if_pos hc] at h; simp only [Option.some.injEq] at h; subst h
              have e1 : landOut m.blocks (.exit i vs) = if i = m.blocks then .val vs else .exit i vs := rfl
              rw [show (⟨m, env⟩ : St).mem.blocks = m.blocks from rfl, e1] at a'
              simp only [hc, if_true, if_false] at a'
              exact a'
            · rw [if_neg hc] at h; simp only [Option.some.injEq] at h; subst h
              have e1 : landOut m.blocks (.exit i vs) = if i = m.blocks then .val vs else .exit i vs := rfl
              rw [show (⟨m, env⟩ : St).mem.blocks = m.blocks from rfl, e1] at a'
              simp only [hc, if_true, if_false] at a'
              exact a'
          | clause b original handling c =>
            simp only [Meaning.land, Option.some.injEq] at h; subst h
            intro o m'' ho hd hh
            obtain ⟨cur, a'⟩ := a o m'' ho hd
              (fun L' hL' => hh L' (fun i hi => hL' (List.mem_cons_of_mem _ hi)))
            have a2 := runs_bindExit (s := ⟨m, env⟩) a'
            have hb : b < m.blocks := hcl b g.res
            have a3 := landOut_arrive (o := o) hb ho
            refine ⟨cur, ?_⟩
            rw [← a3]
            exact a2
      | exit i vs =>
        dsimp only at h
        split at h
        · rename_i hm
          simp only [Option.some.injEq] at h; subst h
          exact ⟨1, by simp [run, Piece.code, hL hm]⟩
        · exact dead h
      | protect body cl =>
        dsimp only at h
        cases hM : meaning w n live clauses env (.prog body) m x with
        | none => rw [hM] at h; simp [Meaning.cleanup] at h
        | some r1 =>
          rw [hM] at h
          have g := good hM hi trivial
          obtain ⟨o, m1, x1⟩ := r1
          -- the cleanup clause after an end that is not on the way to an exception clause
          have key : ∀ (o : Res) (o' : Out) f, o' ≠ .dead →
              f = (fun (_ : Vals) (m' : Mem) (x' : Notes) => some (o, m', x')) →
              (x1.mark = false → Runs w L (.prog body) ⟨m, env⟩ (o', ⟨m1, env⟩)) →
              (∀ m2 x2, SimR L w (fun _ z => z = (o', ⟨m2, env⟩)) env m2 (o, m2, x2)) →
              Meaning.andThen (meaning w n live clauses env (.prog cl) m1 x1) f = some r →
              SimR L w (Runs w L (Piece.prog (.protect body cl)).code) env m r := by
            intro o o' f hd hf hb ho h
            obtain ⟨r1, hM2, hc⟩ := andThen_some h
            have hm2 : r1.2.2.mark = false := by
              rcases hc with ⟨vs, m2, x2, rfl, h2⟩ | ⟨_, rfl⟩
              · rw [hf] at h2
                simp only [Option.some.injEq] at h2
                subst h2
                exact hk
              · exact hk
            have g2 := good hM2 g.inv trivial
            have b := hb (g2.ext.mark hm2)
            have a := ih _ _ _ _ _ _ _ hM2 hm2 g.inv trivial (hl.ext g.ext) (hcl.ext g.ext) L hL hC
            rcases hc with ⟨vs, m2, x2, rfl, h2⟩ | ⟨hv, rfl⟩
            · have c := runs_protect hd b a
              rw [hf] at h2
              simp only [Option.some.injEq] at h2
              subst h2
              refine simR_mono (ho m2 x2) (fun z hz => ?_)
              rw [hz]
              exact c
            · obtain ⟨o2, m2, x2⟩ := r
              cases o2 with
              | val vs => simp [Res.isVal] at hv
              | dead => trivial
              | exit i vs => exact runs_protect hd b a
              | clause b' original handling c =>
                intro o3 m'' ho3 hd3 hh
                obtain ⟨cur, a'⟩ := a o3 m'' ho3 hd3 hh
                have c := runs_protect hd b a'
                rw [arrive_isVal] at c
                exact ⟨cur, c⟩
          cases o with
          | val vs =>
            exact key (.val vs) (.val vs) _ (by simp) rfl
              (fun hx => ih _ _ _ _ _ _ _ hM hx hi trivial hl hcl L hL hC) (fun _ _ => rfl) h
          | exit i vs =>
            exact key (.exit i vs) (.exit i vs) _ (by simp) rfl
              (fun hx => ih _ _ _ _ _ _ _ hM hx hi trivial hl hcl L hL hC) (fun _ _ => rfl) h
          | dead => simp only [Meaning.cleanup, Option.some.injEq] at h; subst h; trivial
          | clause b env' handling c =>
            exfalso
            simp only [Meaning.cleanup] at h
            have e2 : Ext m1 x1 m1 (x1.note true) :=
              ⟨Nat.le_refl _, Nat.le_refl _, fun _ h => h, fun h => by simp [Notes.note] at h⟩
            obtain ⟨r1, hM2, hc⟩ := andThen_some h
            have g2 := good hM2 (g.inv.ext e2 rfl rfl) trivial
            have hm2 : r1.2.2.mark = false := by
              rcases hc with ⟨vs, m2, x2, rfl, h2⟩ | ⟨_, rfl⟩
              · simp only [Option.some.injEq] at h2
                subst h2
                exact hk
              · exact hk
            have := g2.ext.mark hm2
            simp [Notes.note] at this
      | letHandler tag type test fn body =>
        have a := ih _ _ _ _ _ _ _ h hk hi trivial hl hcl L hL hC
        obtain ⟨o, m1, x1⟩ := r
        cases o with
        | val vs => exact runs_letHandler (s := ⟨m, env⟩) (by simp) a
        | exit i vs => exact runs_letHandler (s := ⟨m, env⟩) (by simp) a
        | dead => trivial
        | clause b original handling c =>
          intro o m'' ho hd hh
          obtain ⟨cur, a'⟩ := a o m'' ho hd hh
          exact ⟨env, runs_letHandler (s := ⟨m, env⟩) (arrive_ne_dead hd) a'⟩
      | exception tag type test handling body =>
        dsimp only at h
        cases hM : meaning w n live (m.blocks :: clauses)
            (.clause tag type test handling env m.blocks :: env) (.prog body) m.newBlock x with
        | none => rw [hM] at h; simp [Meaning.handle] at h
        | some r1 =>
          rw [hM] at h
          have i' := hi.ext (Ext.newBlock m x) rfl rfl
          have g := good hM i' trivial
          have hmk : r1.2.2.mark = false := by
            obtain ⟨o, m1, x1⟩ := r1
            cases o with
            | clause b env' handling' c =>
              simp only [Meaning.handle] at h
              split at h
              · exact (good h g.inv trivial).ext.mark hk
              · simp only [Option.some.injEq] at h; subst h; exact hk
            | _ => simp only [Meaning.handle, Option.some.injEq] at h; subst h; exact hk
          have a := ih _ _ _ _ _ _ _ hM hmk i' trivial (hl.ext (Ext.newBlock m x)) hcl.new
            (m.blocks :: L) (List.subset_cons_of_subset _ hL) (List.cons_subset_cons _ hC)
          obtain ⟨o, m1, x1⟩ := r1
          have e := (Ext.newBlock m x).trans g.ext
          cases o with
          | val vs =>
            simp only [Meaning.handle, Option.some.injEq] at h; subst h
            exact runs_exception (s := ⟨m, env⟩) (by simp) a
          | dead => simp only [Meaning.handle, Option.some.injEq] at h; subst h; trivial
          | exit i vs =>
            simp only [Meaning.handle, Option.some.injEq] at h; subst h
            have a' := runs_exception (s := ⟨m, env⟩) (by simp) a
            have hne : i ≠ m.blocks := Nat.ne_of_lt (hl i g.res)
            rw [landOut_ne hne] at a'
            exact a'
          | clause b env' handling' c =>
            simp only [Meaning.handle] at h
            by_cases hc : b = m.blocks
            · rw [if_pos hc] at h
              have g2 := good h g.inv trivial
              have hl1 : Live live m1 := hl.ext e
              have hc1 : Live clauses m1 := hcl.ext e
              have b' : ∀ L', live ⊆ L' → clauses ⊆ L' →
                  SimR L' w (Runs w L' (.prog (handling' c))) env' m1 r :=
                fun L' h1 h2 => ih _ _ _ _ _ _ _ h hk g.inv trivial hl1 hc1 L' h1 h2
              have lift : ∀ {o m''}, (∀ h vs, o = Out.exit h vs → h < b) → o ≠ .dead →
                  (∀ L', L ⊆ L' → ∃ cur, Runs w L' (.prog (handling' c)) ⟨m1, env'⟩ (o, ⟨m'', cur⟩)) →
                  Runs w L (.prog (.exception tag type test handling body)) ⟨m, env⟩
                    (landOut m.blocks (arrive b o), ⟨m'', env⟩) := by
                intro o m'' ho hd hh
                obtain ⟨cur, a'⟩ := a o m'' ho hd
                  (fun L' hL' => hh L' (fun i hi => hL' (List.mem_cons_of_mem _ hi)))
                exact runs_exception (s := ⟨m, env⟩) (arrive_ne_dead hd) a'
              obtain ⟨o2, m2, x2⟩ := r
              cases o2 with
              | val vs =>
                have := lift (o := .val vs) (m'' := m2) (fun _ _ h => by cases h) (by simp)
                  (fun L' hL' => ⟨env', b' L' (fun i hi => hL' (hL hi)) (fun i hi => hL' (hC hi))⟩)
                have e1 : landOut m.blocks (arrive b (.val vs)) = .val vs := by simp [arrive, landOut, hc]
                rw [e1] at this
                exact this
              | dead => trivial
              | exit i vs =>
                have hlt : i < m.blocks := hl i g2.res
                have := lift (o := .exit i vs) (m'' := m2)
                  (fun h vs hh => by cases hh; rw [hc]; exact hlt) (by simp)
                  (fun L' hL' => ⟨env', b' L' (fun i hi => hL' (hL hi)) (fun i hi => hL' (hC hi))⟩)
                have hne : i ≠ m.blocks := Nat.ne_of_lt hlt
                simp only [arrive, landOut_ne hne] at this
                exact this
              | clause b2 original2 handling2 c2 =>
                intro o m'' ho hd hh
                have hb2 : b2 < m.blocks := hcl b2 g2.res
                have := lift (o := arrive b2 o) (m'' := m'')
                  (fun h vs he => by
                    cases o with
                    | val vs' => simp only [arrive, Out.exit.injEq] at he; rw [← he.1, hc]; exact hb2
                    | exit h' vs' =>
                      have := ho h' vs' rfl
                      simp only [arrive, Out.exit.injEq] at he; rw [← he.1, hc]; exact Nat.lt_trans this hb2
                    | dead => exact absurd rfl hd)
                  (arrive_ne_dead hd)
                  (fun L' hL' => b' L' (fun i hi => hL' (hL hi)) (fun i hi => hL' (hC hi)) o m'' ho hd
                    (fun L'' hL'' => hh L'' (fun i hi => hL'' (hL' hi))))
                refine ⟨env, ?_⟩
                have e1 : arrive b (arrive b2 o) = arrive b2 o := by cases o <;> rfl
                rw [e1, landOut_arrive hb2 ho] at this
                exact this
            · rw [if_neg hc] at h; simp only [Option.some.injEq] at h; subst h
              intro o m'' ho hd hh
              obtain ⟨cur, a'⟩ := a o m'' ho hd
                (fun L' hL' => hh L' (fun i hi => hL' (List.mem_cons_of_mem _ hi)))
              have hb : b < m.blocks := hcl b ((List.mem_cons.1 g.res).resolve_left hc)
              have a2 := runs_exception (s := ⟨m, env⟩) (arrive_ne_dead hd) a'
              refine ⟨env, ?_⟩
              have a3 := landOut_arrive (o := o) hb ho
              rw [← a3]
              exact a2
      | signal c =>
        refine one (env' := env) _ h (hi.ext (Ext.newSearch m x) rfl rfl) ?_ (hl.ext (Ext.newSearch m x))
          (hcl.ext (Ext.newSearch m x)) (fun _ => rfl)
        exact ⟨by simp [Mem.newSearch], fun h => by simp at h⟩
      | error c => exact one (env' := env) _ h hi trivial hl hcl (fun _ => rfl)
      | next t =>
        dsimp only at h
        cases hq : m.nexts[t]? with
        | none => rw [hq] at h; exact dead h
        | some q =>
          rw [hq] at h
          obtain ⟨sid, hs, c⟩ := q
          refine one (env' := env) _ h hi (hi.sid t sid hs c hq) hl hcl (fun n => ?_)
          simp only [run, Piece.code, hq]
      | addLast tag type test fn => exact pure h (fun _ => rfl)
      | removeLast => exact pure h (fun _ => rfl)
      | doHandlers f =>
        dsimp only at h
        have hrun : ∀ n, run w (n + 1) L (.prog (.doHandlers f)) ⟨m, env⟩ =
          Run.andThen (run w n L (.each f env) ⟨m, env⟩) fun _ s' =>
            run w n L (.each f s'.mem.last) s' := fun _ => rfl
        refine simR_andThen (R1 := Runs w L (.each f env))
          (F := fun _ s z => Runs w L (.each f s.mem.last) s z) h
          (fun o s' ho h => runs_andThen_ne hrun ho h)
          (fun vs s1 z h h2 => runs_andThen_val hrun
            (fun n k vs s z hnk h => run_le w hnk h) h h2) ?_ ?_
        · intro r1 h1 hr
          refine ih _ _ _ _ _ _ _ h1 ?_ hi trivial hl hcl L hL hC
          obtain ⟨r1', hM, hc⟩ := andThen_some h
          rw [hM] at h1
          simp only [Option.some.injEq] at h1
          subst h1
          rcases hc with ⟨vs, m1, x1, rfl, h2⟩ | ⟨_, rfl⟩
          · have g1 := good hM hi trivial
            exact (good h2 g1.inv trivial).ext.mark hk
          · exact hk
        · intro vs m1 x1 hM h2
          have g1 := good hM hi trivial
          have a := ih _ _ _ _ _ _ _ h2 hk g1.inv trivial (hl.ext g1.ext) (hcl.ext g1.ext) L hL hC
          exact simR_mono a (fun z hz => hz)
    | search l sid hs c =>
      cases hs with
      | nil =>
        cases l with
        | true =>
          refine one (env' := env) _ h hi trivial hl hcl (fun n => ?_)
          have := hp.2 rfl
          simp only [run, Piece.code, this, if_true]
        | false =>
          dsimp only at h
          have e := Ext.setDone m x sid (m.doneLast.getD sid false && !m.last.isEmpty)
          have i' := hi.ext e rfl rfl
          have p' : POk (m.setDone sid) (.search true sid m.last c) :=
            ⟨by simpa [Mem.setDone] using hp.1, fun _ => getD_set_self _ _ hp.1⟩
          by_cases hd : m.doneLast.getD sid false = true
          · have g := good h i' p'
            have hmk := g.ext.mark hk
            have hlast : m.last = [] := by
              simp only [Notes.note, hd, Bool.true_and, Bool.or_eq_false_iff, Bool.not_eq_false'] at hmk
              simpa using hmk.2
            have hm : m.setDone sid = m := by
              simp only [Mem.setDone, set_true_self _ _ hd]
            have a := ih _ _ _ _ _ _ _ h hk i' p' (hl.ext e) (hcl.ext e) L hL hC
            rw [hm, hlast] at a
            exact a
          · refine one (env' := env) _ h i' p' (hl.ext e) (hcl.ext e) (fun n => ?_)
            simp only [run, Piece.code, hd]
            rfl
      | cons hd hs =>
        have h' : Meaning.andThen (meaning w n live clauses env (.matches hd c) m x) (fun vs m' x' =>
            if isFalse vs then meaning w n live clauses env (.search l sid hs c) m' x'
            else meaning w n live clauses env (.invoke l sid hd hs c) m' x') = some r := by
          cases l <;> exact h
        refine two (.matches hd c) (.search l sid (hd :: hs) c)
          (fun vs => if isFalse vs then .search l sid hs c else .invoke l sid hd hs c) _
          hi trivial hl hcl hk ?_ ?_ ?_ h'
        · intro vs m1 ⟨x1, e⟩
          cases hv : isFalse vs
          · exact POk.ext e (p := .invoke l sid hd hs c) hp
          · exact POk.ext e (p := .search l sid hs c) hp
        · funext vs m' x'
          cases hv : isFalse vs <;> simp
        · intro s n
          simp only [run, Piece.code]
          congr 1
          funext vs s'
          cases hv : isFalse vs <;> simp
    | «matches» hd c =>
      dsimp only at h
      by_cases ht : hd.type c = false
      · rw [if_pos ht] at h; exact pure h (fun n => by simp only [run, Piece.code, ht, if_true])
      · rw [if_neg ht] at h
        cases hq : hd.test with
        | none => rw [hq] at h; exact pure h (fun n => by simp only [run, Piece.code, ht, hq]; rfl)
        | some q =>
          rw [hq] at h
          exact one (env' := env) _ h hi trivial hl hcl
            (fun n => by simp only [run, Piece.code, ht, hq]; rfl)
    | invoke l sid hd hs c =>
      cases hd with
      | user tag type test fn =>
        have e := Ext.newNext m x sid hs c l
        exact one (env' := env) _ h (hi.newNext hp.1 hp.2) trivial (hl.ext e) (hcl.ext e) (fun _ => rfl)
      | clause tag type test handling original unwind =>
        dsimp only at h
        split at h
        · rename_i hu
          simp only [Option.some.injEq] at h; subst h
          intro o m'' ho hd hh
          obtain ⟨cur, k, a⟩ := hh L (fun _ h => h)
          refine ⟨cur, k + 1, ?_⟩
          have a' : run w k L (.prog (handling c))
            (((⟨m, env⟩ : St).upd (·.newNext sid hs c)).handlers original) = some (o, ⟨m'', cur⟩) := a
          simp only [run, Piece.code, a']
          cases o with
          | val vs => simp [Run.andThen, arrive, hC hu]
          | exit i vs => rfl
          | dead => exact absurd rfl hd
        · exact dead h
    | default c =>
      dsimp only at h
      cases hq : w.default c with
      | plain => rw [hq] at h; exact pure h (fun n => by simp only [run, Piece.code, hq])
      | serious =>
        rw [hq] at h
        exact thenVal (.prog (w.debugger c)) (.default c) hi (by trivial) hl hcl hk
          (fun s n => by simp only [run, Piece.code, hq]) h
      | restart =>
        rw [hq] at h
        exact thenVal (.error (w.noRestart c)) (.default c) hi (by trivial) hl hcl hk
          (fun s n => by simp only [run, Piece.code, hq]) h
      | user p =>
        rw [hq] at h
        exact one (env' := env) _ h hi trivial hl hcl (fun n => by simp only [run, Piece.code, hq])
    | error c =>
      exact two (.prog (.signal c)) (.error c) (fun _ => .error w.mayNotReturn) _ hi trivial hl hcl hk
        (fun _ _ _ => trivial) rfl (fun _ _ => rfl) h
    | each f hs =>
      cases hs with
      | nil => exact pure h (fun _ => rfl)
      | cons hd hs =>
        exact two (.prog (f hd.tag)) (.each f (hd :: hs)) (fun _ => .each f hs) _ hi trivial hl hcl hk
          (fun _ _ _ => trivial) rfl (fun _ _ => rfl) h

end Verif.Signal
