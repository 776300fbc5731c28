/-
Lemmas for the conversion of `for`: each group of computations does what its step says.
-/
import Verif.Loops.Spec
import Mathlib.Tactic.Common

namespace Verif.Loops

set_option linter.unusedSectionVars false

variable {V S E N : Type} {W : World V S E N} [DecidableEq N]

/-- The computations end as the step does; what they leave in the temporaries is as `P` says. -/
def Sim {A : Type} (r : Res S E A) (o : Out V S E) (P : (Temp → V) → A → Prop) : Prop :=
  match r with
  | .ok s a => ∃ T, o = .next T s ∧ P T a
  | .exit s e => o = .exit s e
  | .hang => o = .hang

theorem execs_append (T : Temp → V) (s : S) (a b : List (Ins V S E N)) :
    execs W T s (a ++ b) =
      match execs W T s a with
      | .next T s => execs W T s b
      | o => o := by
  induction a generalizing T s with
  | nil => simp [execs]
  | cons c cs ih =>
    simp only [List.cons_append, execs]
    cases exec W T s c <;> simp [ih]

theorem Sim.seq {A B : Type} {r : Res S E A} {f : A → S → Res S E B} {T : Temp → V} {s : S}
    {c1 c2 : List (Ins V S E N)} {P : (Temp → V) → A → Prop} {Q : (Temp → V) → B → Prop}
    (h1 : Sim r (execs W T s c1) P)
    (h2 : ∀ T' s' a, P T' a → Sim (f a s') (execs W T' s' c2) Q) :
    Sim (r.bind f) (execs W T s (c1 ++ c2)) Q := by
  rw [execs_append]
  cases r with
  | ok s a => obtain ⟨T', e, hp⟩ := h1; rw [e]; exact h2 T' s a hp
  | exit s e => simp only [Sim] at h1; rw [h1]; rfl
  | hang => simp only [Sim] at h1; rw [h1]; rfl

theorem Sim.mono {A : Type} {r : Res S E A} {o : Out V S E} {P Q : (Temp → V) → A → Prop}
    (h : Sim r o P) (hpq : ∀ T a, P T a → Q T a) : Sim r o Q := by
  cases r with
  | ok s a => obtain ⟨T', e, hp⟩ := h; exact ⟨T', e, hpq _ _ hp⟩
  | exit s e => exact h
  | hang => exact h

theorem Sim.map {A B : Type} {r : Res S E A} {o : Out V S E} {P : (Temp → V) → A → Prop}
    {Q : (Temp → V) → B → Prop} {f : A → B} (h : Sim r o P) (hpq : ∀ T a, P T a → Q T (f a)) :
    Sim (r.bind fun a s => .ok s (f a)) o Q := by
  cases r with
  | ok s a => obtain ⟨T', e, hp⟩ := h; exact ⟨T', e, hpq _ _ hp⟩
  | exit s e => exact h
  | hang => exact h

theorem Sim.mapP {A B : Type} {r : Res S E A} {o : Out V S E} {P : (Temp → V) → A → Prop}
    {Q : (Temp → V) → B → Prop} {f : A → S → Res S E B} (h : Sim r o P)
    (hpq : ∀ T a s, P T a → ∃ b, f a s = .ok s b ∧ Q T b) : Sim (r.bind f) o Q := by
  cases r with
  | ok s a =>
    obtain ⟨T', e, hp⟩ := h
    obtain ⟨b, hb, hq⟩ := hpq T' a s hp
    simp only [Res.bind, hb]
    exact ⟨T', e, hq⟩
  | exit s e => exact h
  | hang => exact h

theorem Sim.done {A : Type} {T : Temp → V} {s : S} {a : A} {P : (Temp → V) → A → Prop} (h : P T a) :
    Sim (.ok s a) (execs W T s []) P := ⟨T, by simp [execs], h⟩

theorem bind_assoc {A B C : Type} (r : Res S E A) (f : A → S → Res S E B) (g : B → S → Res S E C) :
    (r.bind f).bind g = r.bind fun a s => (f a s).bind g := by
  cases r <;> rfl

theorem setT_same (T : Temp → V) (t : Temp) (v : V) : setT T t v t = v := by simp [setT]

theorem setT_ne (T : Temp → V) {t t' : Temp} (v : V) (h : t' ≠ t) : setT T t v t' = T t' := by
  simp [setT, h]

/-! ### single computations -/

theorem get_const (T : Temp → V) (v : V) : (Ref.const v).get T = v := rfl
theorem get_temp (T : Temp → V) (t : Temp) : (Ref.temp t).get T = T t := rfl

theorem execs_one (T : Temp → V) (s : S) (c : Ins V S E N) : execs W T s [c] = exec W T s c := by
  simp only [execs]
  cases exec W T s c <;> rfl


/-- A call puts its first value into a temporary. -/
theorem sim_call (T : Temp → V) (s : S) (t : Temp) (f : Ref V) (args : List (Ref V)) :
    Sim (call1 W (f.get T) (args.map (·.get T)) s) (execs W T s [.call t f args])
      (fun T' v => T' = setT T t v) := by
  simp only [execs, exec, call1]
  cases W.call (f.get T) (args.map (·.get T)) s with
  | ok s vs => exact ⟨_, rfl, rfl⟩
  | exit s e => rfl
  | hang => rfl

theorem sim_check (T : Temp → V) (s : S) (t : Temp) (r : Ref V) (ty : Option (Ref V)) :
    Sim (typed W (ty.map (·.get T)) (r.get T) s) (execs W T s [.check t r ty])
      (fun T' _ => T' = setT T t (r.get T)) := by
  cases ty with
  | none => exact ⟨_, by simp [execs, exec], rfl⟩
  | some ty =>
    simp only [typed, Option.map_some, execs, exec]
    by_cases h : W.inst (r.get T) (ty.get T) = true
    · simp only [h, if_true]; exact ⟨_, rfl, rfl⟩
    · simp only [h]; rfl

/-- The variables in scope have the values of the bindings. -/
def EnvOk (T : Temp → V) (env : List (N × Temp)) (ρ : List (N × V)) : Prop :=
  ∀ x, (lookup env x).map T = lookup ρ x

theorem envOk_nil (T : Temp → V) : EnvOk (N := N) T [] [] := fun _ => rfl

theorem EnvOk.cons {T : Temp → V} {env : List (N × Temp)} {ρ : List (N × V)} (h : EnvOk T env ρ)
    (x : N) (t : Temp) : EnvOk T ((x, t) :: env) ((x, T t) :: ρ) := by
  intro y
  simp only [lookup]
  split
  · rfl
  · exact h y

theorem lookup_mem {A : Type} {env : List (N × A)} {x : N} {a : A} (h : lookup env x = some a) :
    (x, a) ∈ env := by
  induction env with
  | nil => cases h
  | cons p env ih =>
    obtain ⟨y, b⟩ := p
    simp only [lookup] at h
    split at h
    · rename_i e; simp [e, Option.some.inj h]
    · exact List.mem_cons_of_mem _ (ih h)

theorem EnvOk.congr {T T' : Temp → V} {env : List (N × Temp)} {ρ : List (N × V)} (h : EnvOk T env ρ)
    (hT : ∀ p ∈ env, T' p.2 = T p.2) : EnvOk T' env ρ := by
  intro x
  rw [← h x]
  cases hl : lookup env x with
  | none => rfl
  | some t => simp only [Option.map_some]; rw [hT _ (lookup_mem hl)]

theorem sim_conv {T : Temp → V} {env : List (N × Temp)} {ρ : List (N × V)} (h : EnvOk T env ρ)
    (t : Temp) (e : Exp V S E N) (s : S) :
    Sim (value W ρ e s) (execs W T s (conv W t env e).1)
      (fun T' v => (conv W t env e).2.get T' = v ∧ ∀ t', t' ≠ t → T' t' = T t') := by
  cases e with
  | const v => exact Sim.done ⟨rfl, fun _ _ => rfl⟩
  | var x =>
    simp only [conv, value]
    have hx := h x
    cases hl : lookup env x with
    | none =>
      rw [hl] at hx
      rw [← hx]
      exact Sim.done ⟨rfl, fun _ _ => rfl⟩
    | some t' =>
      rw [hl] at hx
      rw [← hx]
      exact Sim.done ⟨rfl, fun _ _ => rfl⟩
  | code f =>
    simp only [conv, value, execs, exec]
    have : (fun x => (lookup env x).map T) = lookup ρ := funext h
    rw [this]
    cases f (lookup ρ) s with
    | ok s v => exact ⟨_, rfl, by simp [Ref.get, setT_same], fun t' ht => setT_ne _ _ ht⟩
    | exit s e => rfl
    | hang => rfl

/-! ### temporaries of the steps -/

/-- The temporaries made in step 1 for clause `i`. -/
def Temp.own (i : Nat) : Temp → Bool
  | .ty j => i == j | .init j => i == j | .bound j => i == j | .inc j => i == j | .down j => i == j
  | .coll j => i == j | .using' j => i == j | .part j _ => i == j
  | _ => false

/-- The temporaries made in step 1. -/
def Temp.fixed : Temp → Bool
  | .ty _ => true | .init _ => true | .bound _ => true | .inc _ => true | .down _ => true
  | .coll _ => true | .using' _ => true | .part _ _ => true
  | _ => false

theorem own_fixed {i : Nat} {t : Temp} (h : t.own i = true) : t.fixed = true := by
  cases t <;> simp [Temp.own, Temp.fixed] at *

theorem own_unique {i j : Nat} {t : Temp} (h : t.own i = true) (h' : t.own j = true) : i = j := by
  cases t <;> simp [Temp.own] at * <;> omega

/-- The reference does not change after step 1. -/
def Ref.own (i : Nat) : Ref V → Prop
  | .temp t => t.own i = true
  | _ => True

theorem Ref.own_get {i : Nat} {r : Ref V} (h : r.own i) {T T' : Temp → V}
    (hT : ∀ t, t.own i = true → T' t = T t) : r.get T' = r.get T := by
  cases r with
  | temp t => exact hT t h
  | _ => rfl

theorem conv_own {i : Nat} {t : Temp} (ht : t.own i = true) (e : Exp V S E N) :
    (conv W t [] e).2.own i := by
  cases e with
  | const => trivial
  | var => trivial
  | code => exact ht

theorem convBound_own (i : Nat) (b : Option (Dir × Exp V S E N)) : (convBound W i b).2.own i := by
  cases b with
  | none => trivial
  | some p => exact conv_own (by simp [Temp.own]) _

theorem convTy_own (i : Nat) (ty : Option (Exp V S E N)) :
    ∀ r, (convTy W (.ty i) [] ty).2 = some r → r.own i := by
  intro r h
  cases ty with
  | none => cases h
  | some e =>
    simp only [convTy, Option.some.injEq] at h
    rw [← h]; exact conv_own (by simp [Temp.own]) e

/-- The references of a clause do not change after step 1. -/
structure Own (i : Nat) (b : BV V S E N) : Prop where
  ty : ∀ r, b.ty = some r → r.own i
  bound : b.bound.own i
  inc : b.inc.own i
  down : b.down.own i
  coll : b.coll.own i
  cur : b.cur.own i

/-- The temporaries of a clause have what step 1 found. -/
def Fits (W : World V S E N) (T : Temp → V) (i : Nat) (b : BV V S E N) (p : Live V S E N × V) : Prop :=
  match b.clause, p with
  | .explicit x _ _ next, (.explicit x' ty next', _) =>
    x = x' ∧ next = next' ∧ b.ty.map (·.get T) = ty
  | .numeric x _ _ bound _, (.numeric x' ty bound' inc down, v) =>
    x = x' ∧ b.inc.get T = inc ∧ W.isNo (b.down.get T) = !down ∧
    (match bound, bound' with
      | none, none => True
      | some (d, _), some (d', u) => d = d' ∧ b.bound.get T = u
      | _, _ => False) ∧
    (b.ty.map (·.get T) = ty ∨
      (ty = none ∧ b.ty = some (.const W.integer) ∧ (∃ k, W.asInt inc = some k) ∧
        ∃ k, W.asInt v = some k))
  | .collection x _ key set _ _, (.collection x' ty key' set' c limit next finished ck ce cs, _) =>
    x = x' ∧ key = key' ∧ set = set' ∧ b.ty.map (·.get T) = ty ∧ b.coll.get T = c ∧
    T (.part i 1) = limit ∧ T (.part i 2) = next ∧ T (.part i 3) = finished ∧
    T (.part i 4) = ck ∧ T (.part i 5) = ce ∧ T (.part i 6) = cs
  | _, _ => False

theorem map_own {i : Nat} {o : Option (Ref V)} (h : ∀ r, o = some r → r.own i) {T T' : Temp → V}
    (hT : ∀ t, t.own i = true → T' t = T t) : o.map (·.get T') = o.map (·.get T) := by
  cases o with
  | none => rfl
  | some r => simp only [Option.map_some]; rw [Ref.own_get (h r rfl) hT]

theorem Fits.congr {T T' : Temp → V} {i : Nat} {b : BV V S E N} {p : Live V S E N × V}
    (ho : Own i b) (h : Fits W T i b p) (hT : ∀ t, t.own i = true → T' t = T t) : Fits W T' i b p := by
  unfold Fits at h ⊢
  have hp : ∀ k, T' (.part i k) = T (.part i k) := fun k => hT _ (by simp [Temp.own])
  rw [map_own ho.ty hT, Ref.own_get ho.inc hT, Ref.own_get ho.down hT, Ref.own_get ho.bound hT,
    Ref.own_get ho.coll hT, hp, hp, hp, hp, hp, hp]
  exact h

/-- The clauses one by one. -/
def All (W : World V S E N) (T : Temp → V) : Nat → List (BV V S E N) → List (Live V S E N × V) → Prop
  | _, [], [] => True
  | i, b :: bs, p :: ps => Own i b ∧ Fits W T i b p ∧ All W T (i + 1) bs ps
  | _, _, _ => False

theorem All.congr {T T' : Temp → V} {i : Nat} {bs : List (BV V S E N)} {ps : List (Live V S E N × V)}
    (h : All W T i bs ps) (hT : ∀ t, t.fixed = true → T' t = T t) : All W T' i bs ps := by
  induction bs generalizing i ps with
  | nil => cases ps with
    | nil => trivial
    | cons => exact h
  | cons b bs ih => cases ps with
    | nil => exact h
    | cons p ps =>
      obtain ⟨ho, hf, ha⟩ := h
      exact ⟨ho, hf.congr ho (fun t ht => hT t (own_fixed ht)), ih ha⟩

theorem All.length {T : Temp → V} {i : Nat} {bs : List (BV V S E N)} {ps : List (Live V S E N × V)}
    (h : All W T i bs ps) : bs.length = ps.length := by
  induction bs generalizing i ps with
  | nil => cases ps with
    | nil => rfl
    | cons => exact h.elim
  | cons b bs ih => cases ps with
    | nil => exact h.elim
    | cons p ps => simp [ih h.2.2]

/-- The values of the clauses are what `g` says. -/
def At (g : Nat → V) : Nat → List (Live V S E N × V) → Prop
  | _, [] => True
  | i, p :: ps => g i = p.2 ∧ At g (i + 1) ps

theorem At.congr {g g' : Nat → V} {i : Nat} {ps : List (Live V S E N × V)} (h : At g i ps)
    (hg : ∀ j, i ≤ j → g' j = g j) : At g' i ps := by
  induction ps generalizing i with
  | nil => trivial
  | cons p ps ih =>
    exact ⟨(hg i (Nat.le_refl i)).trans h.1, ih h.2 (fun j hj => hg j (by omega))⟩

/-! ### step 1 -/

/-- Nothing but temporaries of the clauses from `i` on has changed. -/
def SameBut (T T' : Temp → V) (i : Nat) : Prop := ∀ t, t.own i = false → T' t = T t

theorem sim_convTy (i : Nat) (T : Temp → V) (ty : Option (Exp V S E N)) (s : S) :
    Sim (valueTy W [] ty s) (execs W T s (convTy W (.ty i) [] ty).1)
      (fun T' v => (convTy W (.ty i) [] ty).2.map (·.get T') = v ∧ ∀ t', t' ≠ .ty i → T' t' = T t') := by
  cases ty with
  | none => exact Sim.done ⟨rfl, fun _ _ => rfl⟩
  | some e =>
    refine Sim.map (sim_conv (envOk_nil T) (.ty i) e s) ?_
    rintro T' v ⟨h, h'⟩
    exact ⟨by simp [convTy, h], h'⟩

theorem sim_convBound (i : Nat) (T : Temp → V) (b : Option (Dir × Exp V S E N)) (s : S) :
    Sim (valueBound W b s) (execs W T s (convBound W i b).1)
      (fun T' v => (match b, v with
          | none, none => True
          | some (d, _), some (d', u) => d = d' ∧ (convBound W i b).2.get T' = u
          | _, _ => False) ∧ ∀ t', t' ≠ .bound i → T' t' = T t') := by
  cases b with
  | none => exact Sim.done ⟨trivial, fun _ _ => rfl⟩
  | some p =>
    obtain ⟨d, e⟩ := p
    refine Sim.map (sim_conv (envOk_nil T) (.bound i) e s) ?_
    rintro T' v ⟨h, h'⟩
    exact ⟨⟨rfl, h⟩, h'⟩

/-- A reference made for one temporary stays when others change. -/
theorem conv_stays {t : Temp} {e : Exp V S E N} {T T' : Temp → V} (h : T' t = T t) :
    (conv W t [] e).2.get T' = (conv W t [] e).2.get T := by
  cases e with
  | const => rfl
  | var => rfl
  | code => exact h

theorem convBound_stays {i : Nat} {b : Option (Dir × Exp V S E N)} {T T' : Temp → V}
    (h : T' (.bound i) = T (.bound i)) :
    (convBound W i b).2.get T' = (convBound W i b).2.get T := by
  cases b with
  | none => rfl
  | some p => exact conv_stays h

theorem convTy_stays {i : Nat} {ty : Option (Exp V S E N)} {T T' : Temp → V}
    (h : T' (.ty i) = T (.ty i)) :
    (convTy W (.ty i) [] ty).2.map (·.get T') = (convTy W (.ty i) [] ty).2.map (·.get T) := by
  cases ty with
  | none => rfl
  | some e => simp only [convTy, Option.map_some]; rw [conv_stays h]

/-- Steps 1 for start, bound and increment. -/
theorem sim_start (i : Nat) (T : Temp → V) (start : Exp V S E N) (bound : Option (Dir × Exp V S E N))
    (by' : Exp V S E N) (s : S) :
    Sim ((value W [] start s).bind fun v s => (valueBound W bound s).bind fun b s =>
        (value W [] by' s).bind fun k s => .ok s (v, b, k))
      (execs W T s ((conv W (.init i) [] start).1 ++ (convBound W i bound).1 ++ (conv W (.inc i) [] by').1))
      (fun T' p => (conv W (.init i) [] start).2.get T' = p.1 ∧
        (match bound, p.2.1 with
          | none, none => True
          | some (d, _), some (d', u) => d = d' ∧ (convBound W i bound).2.get T' = u
          | _, _ => False) ∧
        (conv W (.inc i) [] by').2.get T' = p.2.2 ∧
        ∀ t', t' ≠ .init i → t' ≠ .bound i → t' ≠ .inc i → T' t' = T t') := by
  rw [List.append_assoc]
  refine Sim.seq (sim_conv (envOk_nil T) _ start s) ?_
  rintro T1 s1 v ⟨hv, h1⟩
  refine Sim.seq (sim_convBound i T1 bound s1) ?_
  rintro T2 s2 b ⟨hb, h2⟩
  refine Sim.map (sim_conv (envOk_nil T2) (.inc i) by' s2) ?_
  rintro T3 k ⟨hk, h3⟩
  refine ⟨?_, ?_, hk, ?_⟩
  · rw [← hv]; apply conv_stays
    rw [h3 _ (by simp), h2 _ (by simp)]
  · cases bound with
    | none => exact hb
    | some p => cases b with
      | none => exact hb
      | some q =>
        refine ⟨hb.1, ?_⟩
        rw [← hb.2]
        apply convBound_stays
        exact h3 _ (by simp)
  · intro t' a1 a2 a3
    rw [h3 _ a3, h2 _ a2, h1 _ a1]

theorem setAll_other (T : Temp → V) (ts : List Temp) (vs : List V) {t : Temp} (h : t ∉ ts) :
    setAll W T ts vs t = T t := by
  induction ts generalizing T vs with
  | nil => rfl
  | cons t' ts ih =>
    have h1 : t ≠ t' := fun e => h (by simp [e])
    have h2 : t ∉ ts := fun e => h (by simp [e])
    cases vs with
    | nil => simp only [setAll]; rw [ih _ _ h2, setT_ne _ _ h1]
    | cons v vs => simp only [setAll]; rw [ih _ _ h2, setT_ne _ _ h1]

theorem setAll_get (T : Temp → V) (ts : List Temp) (vs : List V) (hd : ts.Nodup) (k : Nat)
    (hk : k < ts.length) : setAll W T ts vs ts[k] = vs.getD k W.no := by
  induction ts generalizing T vs k with
  | nil => simp at hk
  | cons t ts ih =>
    obtain ⟨h1, h2⟩ := List.nodup_cons.1 hd
    cases vs with
    | nil =>
      cases k with
      | zero => simp only [setAll, List.getElem_cons_zero]; rw [setAll_other _ _ _ h1, setT_same]; rfl
      | succ k =>
        simp only [setAll, List.getElem_cons_succ]
        rw [ih _ _ h2 k (by simpa using hk)]; simp
    | cons v vs =>
      cases k with
      | zero => simp only [setAll, List.getElem_cons_zero]; rw [setAll_other _ _ _ h1, setT_same]; rfl
      | succ k =>
        simp only [setAll, List.getElem_cons_succ]
        rw [ih _ _ h2 k (by simpa using hk)]; simp

theorem sim_calls (T : Temp → V) (s : S) (ts : List Temp) (f : Ref V) (args : List (Ref V)) :
    Sim (W.call (f.get T) (args.map (·.get T)) s) (execs W T s [.calls ts f args])
      (fun T' vs => T' = setAll W T ts vs) := by
  simp only [execs, exec]
  cases W.call (f.get T) (args.map (·.get T)) s with
  | ok s vs => exact ⟨_, rfl, rfl⟩
  | exit s e => rfl
  | hang => rfl

theorem constInt_const {r : Ref V} {n : Int} (h : constInt W r = some n) :
    ∃ v, r = .const v ∧ W.asInt v = some n := by
  cases r with
  | const v => exact ⟨v, rfl, h⟩
  | _ => cases h

theorem conv_const {t : Temp} {e : Exp V S E N} {v : V} (h : (conv W t [] e).2 = .const v) :
    e = .const v := by
  cases e with
  | const u => cases h; rfl
  | var x => cases h
  | code f => cases h

theorem constInt_init {t : Temp} {e : Exp V S E N} {n : Int}
    (h : constInt W (conv W t [] e).2 = some n) :
    ∃ v, e = .const v ∧ W.asInt v = some n := by
  obtain ⟨v, h1, h2⟩ := constInt_const h
  exact ⟨v, conv_const h1, h2⟩

theorem isNo_ofBool (hW : W.Lawful) (b : Bool) (T : Temp → V) : W.isNo ((ofBool W b).get T) = !b := by
  cases b
  · exact hW.no
  · exact hW.yes

theorem step1_sim (hW : W.Lawful) (i : Nat) (c : Clause V S E N) (hc : NoLostType W c) (T : Temp → V)
    (s : S) :
    Sim (once W c s) (execs W T s (step1 W i c).1)
      (fun T' p => Own i (step1 W i c).2 ∧ Fits W T' i (step1 W i c).2 p ∧
        (step1 W i c).2.cur.get T' = p.2 ∧ SameBut T T' i) := by
  cases c with
  | explicit x ty init next =>
    simp only [step1, once]
    refine Sim.seq (sim_convTy i T ty s) ?_
    rintro T1 s1 v ⟨hv, h1⟩
    refine Sim.map (sim_conv (envOk_nil T1) (.init i) init s1) ?_
    rintro T2 u ⟨hu, h2⟩
    refine ⟨⟨convTy_own i ty, trivial, trivial, trivial, trivial, conv_own (by simp [Temp.own]) _⟩,
      ⟨rfl, rfl, ?_⟩, hu, ?_⟩
    · rw [← hv]; exact convTy_stays (h2 _ (by simp))
    · intro t ht
      rw [h2 t (by rintro rfl; simp [Temp.own] at ht), h1 t (by rintro rfl; simp [Temp.own] at ht)]
  | numeric x ty start bound by' =>
    -- the spec in the order of `sim_start`
    have reorder : once W (.numeric x ty start bound by') s =
        (valueTy W [] ty s).bind fun ty s =>
          ((value W [] start s).bind fun v s => (valueBound W bound s).bind fun b s =>
            (value W [] by' s).bind fun k s => .ok s (v, b, k)).bind fun p s =>
              (call1 W W.lt [p.2.2, W.zero] s).bind fun d s =>
                .ok s (.numeric x ty p.2.1 p.2.2 (!W.isNo d), p.1) := by
      simp only [once, bind_assoc]; rfl
    rw [reorder]
    cases hk : constInt W (conv W (.inc i) [] by').2 with
    | some n =>
      obtain ⟨kv, hke, hkn⟩ := constInt_init hk
      -- asking whether the increment is negative has no effect
      have noask : ∀ (ty : Option V) (p : V × Option (Dir × V) × V) (s : S), p.2.2 = kv →
          ((call1 W W.lt [p.2.2, W.zero] s).bind fun d s =>
            (.ok s (.numeric x ty p.2.1 p.2.2 (!W.isNo d), p.1) : Res S E (Live V S E N × V))) =
          .ok s (.numeric x ty p.2.1 p.2.2 (decide (n < 0)), p.1) := by
        intro ty p s hp
        rw [hp]
        obtain ⟨b, h1, h2⟩ := hW.lt kv n s hkn
        rw [h1]; simp only [Res.bind]; rw [h2, Bool.not_not]
      have incv : ∀ T', (conv W (.inc i) [] by').2.get T' = kv := by
        intro T'; rw [hke]; rfl
      cases he : constInt W (conv W (.init i) [] start).2 with
      | some m =>
        obtain ⟨ev, hee, hem⟩ := constInt_init he
        have hty : ty = none := by
          cases ty with
          | none => rfl
          | some t =>
            rw [hee, hke] at hc
            simp only [NoLostType] at hc
            rcases hc with hc | hc
            · rw [hem] at hc; cases hc
            · rw [hkn] at hc; cases hc
        simp only [step1, hk, he, hty]
        have : valueTy W [] (none : Option (Exp V S E N)) s = .ok s none := rfl
        rw [this]
        refine Sim.mapP (r := (value W [] start s).bind fun v s => (valueBound W bound s).bind fun b s =>
            (value W [] by' s).bind fun k s => .ok s (v, b, k)) (sim_start (W := W) i T start bound by' s) ?_
        rintro T' p s' ⟨h1, h2, h3, h4⟩
        have hp : p.2.2 = kv := by rw [← h3]; exact incv T'
        have hpv : p.1 = ev := by rw [← h1, hee]; rfl
        refine ⟨_, noask none p s' hp, ⟨?_, convBound_own i bound, conv_own (by simp [Temp.own]) _, ?_,
          trivial, conv_own (by simp [Temp.own]) _⟩,
          ⟨rfl, h3, ?_, h2, .inr ⟨rfl, rfl, ⟨n, ?_⟩, ⟨m, ?_⟩⟩⟩, h1, ?_⟩
        · intro r hr; cases hr; trivial
        · unfold ofBool; trivial
        · rw [isNo_ofBool hW]
        · rw [hp]; exact hkn
        · rw [hpv]; exact hem
        · intro t ht
          exact h4 t (by rintro rfl; simp [Temp.own] at ht) (by rintro rfl; simp [Temp.own] at ht)
            (by rintro rfl; simp [Temp.own] at ht)
      | none =>
        simp only [step1, hk, he]
        refine Sim.seq (sim_convTy i T ty s) ?_
        rintro T1 s1 tv ⟨ht, h0⟩
        refine Sim.mapP (sim_start (W := W) i T1 start bound by' s1) ?_
        rintro T' p s' ⟨h1, h2, h3, h4⟩
        have hp : p.2.2 = kv := by rw [← h3]; exact incv T'
        refine ⟨_, noask tv p s' hp, ⟨convTy_own i ty, convBound_own i bound,
          conv_own (by simp [Temp.own]) _, ?_,
          trivial, conv_own (by simp [Temp.own]) _⟩, ⟨rfl, h3, ?_, h2, .inl ?_⟩, h1, ?_⟩
        · unfold ofBool; trivial
        · rw [isNo_ofBool hW]
        · rw [← ht]; exact convTy_stays (h4 _ (by simp) (by simp) (by simp))
        · intro t ht
          rw [h4 t (by rintro rfl; simp [Temp.own] at ht) (by rintro rfl; simp [Temp.own] at ht)
            (by rintro rfl; simp [Temp.own] at ht), h0 t (by rintro rfl; simp [Temp.own] at ht)]
    | none =>
      simp only [step1, hk]
      refine Sim.seq (sim_convTy i T ty s) ?_
      rintro T1 s1 tv ⟨ht, h0⟩
      refine Sim.seq (sim_start (W := W) i T1 start bound by' s1) ?_
      rintro T2 s2 p ⟨h1, h2, h3, h4⟩
      have hcall := sim_call (W := W) T2 s2 (.down i) (.const W.lt)
        [(conv W (.inc i) [] by').2, .const W.zero]
      simp only [List.map_cons, List.map_nil, h3] at hcall
      refine Sim.map hcall ?_
      rintro T3 d rfl
      have st : ∀ t, t ≠ .down i → setT T2 (.down i) d t = T2 t := fun t ht => setT_ne _ _ ht
      refine ⟨⟨convTy_own i ty, convBound_own i bound, conv_own (by simp [Temp.own]) _, ?_,
        trivial, conv_own (by simp [Temp.own]) _⟩, ⟨rfl, ?_, ?_, ?_, .inl ?_⟩, ?_, ?_⟩
      · show (Temp.down i).own i = true
        simp [Temp.own]
      · rw [← h3]; exact conv_stays (st _ (by simp))
      · simp [Ref.get, setT_same]
      · cases bound with
        | none => exact h2
        | some q =>
          cases hq : p.2.1 with
          | none => rw [hq] at h2; exact h2.elim
          | some w =>
            rw [hq] at h2
            refine ⟨h2.1, ?_⟩
            rw [← h2.2]; exact convBound_stays (st _ (by simp))
      · rw [← ht, convTy_stays (st _ (by simp))]
        exact convTy_stays (h4 _ (by simp) (by simp) (by simp))
      · rw [← h1]; exact conv_stays (st _ (by simp))
      · intro t ht
        rw [st t (by rintro rfl; simp [Temp.own] at ht),
          h4 t (by rintro rfl; simp [Temp.own] at ht) (by rintro rfl; simp [Temp.own] at ht)
          (by rintro rfl; simp [Temp.own] at ht), h0 t (by rintro rfl; simp [Temp.own] at ht)]
  | collection x ty key set coll using' =>
    simp only [step1, once]
    refine Sim.seq (sim_convTy i T ty s) ?_
    rintro T1 s1 tv ⟨ht, h0⟩
    rw [List.append_assoc]
    refine Sim.seq (sim_conv (envOk_nil T1) (.coll i) coll s1) ?_
    rintro T2 s2 c ⟨hc2, h1⟩
    refine Sim.seq (sim_conv (envOk_nil T2) (.using' i) using' s2) ?_
    rintro T3 s3 u ⟨hu, h2⟩
    have hcc : (conv W (.coll i) [] coll).2.get T3 = c := by
      rw [← hc2]; exact conv_stays (h2 _ (by simp))
    have hcall := sim_calls (W := W) T3 s3 ((List.range 7).map (.part i)) (conv W (.using' i) [] using').2
      [(conv W (.coll i) [] coll).2]
    simp only [List.map_cons, List.map_nil, hcc, hu] at hcall
    refine Sim.map hcall ?_
    rintro T4 vs rfl
    have hn : ((List.range 7).map (Temp.part i)).Nodup := by
      refine List.Pairwise.map _ ?_ List.nodup_range
      intro a b hab e; cases e; exact hab rfl
    have hg : ∀ k, k < 7 → setAll W T3 ((List.range 7).map (Temp.part i)) vs (.part i k) =
        vs.getD k W.no := by
      intro k hk
      have := setAll_get (W := W) T3 ((List.range 7).map (Temp.part i)) vs hn k (by simpa using hk)
      simpa using this
    have hoth : ∀ t, (∀ k, t ≠ .part i k) →
        setAll W T3 ((List.range 7).map (Temp.part i)) vs t = T3 t := by
      intro t ht
      apply setAll_other
      intro hm
      obtain ⟨k, _, e⟩ := List.mem_map.1 hm
      exact ht k e.symm
    refine ⟨⟨convTy_own i ty, trivial, trivial, trivial, conv_own (by simp [Temp.own]) _, ?_⟩,
      ⟨rfl, rfl, rfl, ?_, ?_, hg 1 (by omega), hg 2 (by omega), hg 3 (by omega), hg 4 (by omega),
        hg 5 (by omega), hg 6 (by omega)⟩, hg 0 (by omega), ?_⟩
    · show (Temp.part i 0).own i = true
      simp [Temp.own]
    · rw [← ht]
      refine (convTy_stays (hoth _ (by simp))).trans ?_
      refine (convTy_stays (h2 _ (by simp))).trans (convTy_stays (h1 _ (by simp)))
    · rw [← hcc]; exact conv_stays (hoth _ (by simp))
    · intro t ht
      rw [hoth t (by rintro k rfl; simp [Temp.own] at ht), h2 t (by rintro rfl; simp [Temp.own] at ht),
        h1 t (by rintro rfl; simp [Temp.own] at ht), h0 t (by rintro rfl; simp [Temp.own] at ht)]

/-- The current references have the first values. -/
def CurOk (T : Temp → V) : List (BV V S E N) → List (Live V S E N × V) → Prop
  | [], [] => True
  | b :: bs, p :: ps => b.cur.get T = p.2 ∧ CurOk T bs ps
  | _, _ => False

theorem steps1_sim (hW : W.Lawful) (cs : List (Clause V S E N)) (hcs : ∀ c ∈ cs, NoLostType W c) :
    ∀ (i : Nat) (T : Temp → V) (s : S),
    Sim (onces W cs s) (execs W T s (steps1 W i cs).1)
      (fun T' ps => All W T' i (steps1 W i cs).2 ps ∧ CurOk T' (steps1 W i cs).2 ps ∧
        ∀ t, (∀ j, i ≤ j → t.own j = false) → T' t = T t) := by
  induction cs with
  | nil => intro i T s; exact Sim.done ⟨trivial, trivial, fun _ _ => rfl⟩
  | cons c cs ih =>
    intro i T s
    simp only [onces, steps1]
    refine Sim.seq (step1_sim hW i c (hcs c (by simp)) T s) ?_
    rintro T1 s1 p ⟨ho, hf, hcur, hs1⟩
    refine Sim.map (ih (fun c hc => hcs c (by simp [hc])) (i + 1) T1 s1) ?_
    rintro T2 ps ⟨ha, hcs2, hs2⟩
    have stays : ∀ t, t.own i = true → T2 t = T1 t := by
      intro t ht
      apply hs2
      intro j hj
      cases h : t.own j with
      | false => rfl
      | true => have := own_unique ht h; omega
    refine ⟨⟨ho, hf.congr ho stays, ha⟩, ⟨?_, hcs2⟩, ?_⟩
    · rw [← hcur]; exact Ref.own_get ho.cur stays
    · intro t ht
      rw [hs2 t (fun j hj => ht j (by omega)), hs1 t (ht i (Nat.le_refl i))]

/-! ### step 2 -/

/-- The references have the values. -/
def RefsOk (T : Temp → V) : List (Ref V) → List (Live V S E N × V) → Prop
  | [], [] => True
  | r :: rs, p :: ps => r.get T = p.2 ∧ RefsOk T rs ps
  | _, _ => False

/-- Is the temporary one with a checked first value of clause `i` or a later one? -/
def Temp.checkedFrom (i : Nat) : Temp → Bool
  | .checked j => decide (i ≤ j)
  | _ => false

/-- References of step 2. -/
def Ref.first (i : Nat) : Ref V → Prop
  | .temp t => t.fixed = true ∨ t = .checked i
  | _ => True

def FirstRefs : Nat → List (Ref V) → Prop
  | _, [] => True
  | i, r :: rs => r.first i ∧ FirstRefs (i + 1) rs

theorem Ref.own_first {i : Nat} {r : Ref V} (h : r.own i) : r.first i := by
  cases r with
  | temp t => exact .inl (own_fixed h)
  | _ => trivial

theorem fits_typed (hW : W.Lawful) {T : Temp → V} {i : Nat} {b : BV V S E N}
    {p : Live V S E N × V} (hf : Fits W T i b p) (hcur : b.cur.get T = p.2) (s : S) :
    Sim (check W p s) (execs W T s (step2 i b).1)
      (fun T' _ => (step2 i b).2.get T' = p.2 ∧ ∀ t, t ≠ .checked i → T' t = T t) := by
  obtain ⟨l, v⟩ := p
  unfold Fits at hf
  split at hf
  · rename_i x _ _ next x' ty next' u hc he
    cases he
    simp only [step2, hc, check]
    have := sim_check (W := W) T s (.checked i) b.cur b.ty
    simp only [hf.2.2, hcur] at this
    refine this.mono ?_
    rintro T' _ rfl
    exact ⟨by simp [Ref.get, setT_same], fun t ht => setT_ne _ _ ht⟩
  · rename_i x _ _ bound _ x' ty bound' inc down u hc he
    cases he
    simp only [step2, hc, check]
    have := sim_check (W := W) T s (.checked i) b.cur b.ty
    rw [show b.cur.get T = v from hcur] at this
    have hty : typed W (b.ty.map (·.get T)) v s = typed W ty v s := by
      rcases hf.2.2.2.2 with h | ⟨h1, h2, _, ⟨k, h3⟩⟩
      · rw [h]
      · rw [h1, h2]
        simp only [Option.map_some, typed, Ref.get, hW.int _ _ h3, if_true]
    rw [hty] at this
    refine this.mono ?_
    rintro T' _ rfl
    exact ⟨by simp [Ref.get, setT_same], fun t ht => setT_ne _ _ ht⟩
  · rename_i hc he
    cases he
    simp only [step2, hc, check]
    exact Sim.done ⟨hcur, fun _ _ => rfl⟩
  · exact hf.elim

theorem steps2_sim (hW : W.Lawful) (bs : List (BV V S E N)) :
    ∀ (i : Nat) (ps : List (Live V S E N × V)) (T : Temp → V) (s : S), All W T i bs ps → CurOk T bs ps →
    Sim (checks W ps s) (execs W T s (steps2 i bs).1)
      (fun T' _ => RefsOk T' (steps2 (S := S) (E := E) (N := N) i bs).2 ps ∧
        ∀ t, t.checkedFrom i = false → T' t = T t) := by
  induction bs with
  | nil =>
    intro i ps T s ha _
    cases ps with
    | nil => exact Sim.done ⟨trivial, fun _ _ => rfl⟩
    | cons => exact ha.elim
  | cons b bs ih =>
    intro i ps T s ha hc
    cases ps with
    | nil => exact ha.elim
    | cons p ps =>
      obtain ⟨ho, hf, ha⟩ := ha
      obtain ⟨hcur, hc⟩ := hc
      simp only [checks, steps2]
      refine Sim.seq (fits_typed hW hf hcur s) ?_
      rintro T1 s1 _ ⟨h1, h2⟩
      have hfix : ∀ t, t.fixed = true → T1 t = T t := by
        intro t ht; apply h2; rintro rfl; cases ht
      have hcur' : ∀ (bs : List (BV V S E N)) (ps : List (Live V S E N × V)) (j : Nat),
          All W T j bs ps → CurOk T bs ps → CurOk T1 bs ps := by
        intro bs
        induction bs with
        | nil => intro ps j _ h; cases ps with
          | nil => trivial
          | cons => exact h
        | cons b bs ih => intro ps j ha h; cases ps with
          | nil => exact h
          | cons p ps =>
            refine ⟨?_, ih ps (j + 1) ha.2.2 h.2⟩
            rw [← h.1]; exact Ref.own_get ha.1.cur (fun t ht => hfix t (own_fixed ht))
      refine (ih (i + 1) ps T1 s1 (ha.congr hfix) (hcur' bs ps _ ha hc)).mono ?_
      rintro T2 _ ⟨h3, h4⟩
      refine ⟨⟨?_, h3⟩, ?_⟩
      · rw [← h1]
        have : (step2 (S := S) (E := E) (N := N) i b).2.first i := by
          unfold step2
          split
          · exact Ref.own_first ho.cur
          · exact .inr rfl
        cases hr : (step2 (S := S) (E := E) (N := N) i b).2 with
        | temp t =>
          rw [hr] at this
          simp only [Ref.get]
          apply h4
          rcases this with h | h
          · cases t <;> simp_all [Temp.fixed, Temp.checkedFrom]
          · rw [h]; simp [Temp.checkedFrom]
        | const => rfl
        | outside => rfl
      · intro t ht
        rw [h4, h2]
        · rintro rfl; simp [Temp.checkedFrom] at ht
        · cases t <;> simp_all [Temp.checkedFrom]; omega

theorem steps2_first (bs : List (BV V S E N)) : ∀ (i : Nat) (ps : List (Live V S E N × V)) (T : Temp → V),
    All W T i bs ps → FirstRefs i (steps2 (S := S) (E := E) (N := N) i bs).2 := by
  induction bs with
  | nil => intro i ps T _; trivial
  | cons b bs ih =>
    intro i ps T ha
    cases ps with
    | nil => exact ha.elim
    | cons p ps =>
      refine ⟨?_, ih (i + 1) ps T ha.2.2⟩
      unfold step2
      split
      · exact Ref.own_first ha.1.cur
      · exact .inr rfl

/-! ### shadows -/

def Temp.isShadow : Temp → Bool
  | .shadow _ => true
  | _ => false

def Ref.noShadow : Ref V → Prop
  | .temp t => t.isShadow = false
  | _ => True

theorem toShadows_run (rs : List (Ref V)) : ∀ (i : Nat) (ps : List (Live V S E N × V)) (T : Temp → V) (s : S),
    (∀ r ∈ rs, r.noShadow) → RefsOk T rs ps →
    ∃ T', execs W T s (toShadows i rs) = .next T' s ∧ At (fun j => T' (.shadow j)) i ps ∧
      (∀ t, t.isShadow = false → T' t = T t) ∧ ∀ j, j < i → T' (.shadow j) = T (.shadow j) := by
  induction rs with
  | nil =>
    intro i ps T s _ h
    cases ps with
    | nil => exact ⟨T, by simp [execs, toShadows], trivial, fun _ _ => rfl, fun _ _ => rfl⟩
    | cons => exact h.elim
  | cons r rs ih =>
    intro i ps T s hn h
    cases ps with
    | nil => exact h.elim
    | cons p ps =>
      have hr : RefsOk (setT T (.shadow i) (r.get T)) rs ps := by
        have : ∀ (rs : List (Ref V)) (ps : List (Live V S E N × V)), (∀ r ∈ rs, r.noShadow) →
            RefsOk T rs ps → RefsOk (setT T (.shadow i) (r.get T)) rs ps := by
          intro rs
          induction rs with
          | nil => intro ps _ h; cases ps with
            | nil => trivial
            | cons => exact h.elim
          | cons q rs ih => intro ps hn h; cases ps with
            | nil => exact h
            | cons p ps =>
              refine ⟨?_, ih ps (fun r hr => hn r (by simp [hr])) h.2⟩
              rw [← h.1]
              have hq := hn q (by simp)
              cases q with
              | temp t =>
                apply setT_ne
                rintro rfl
                exact absurd hq (by simp [Ref.noShadow, Temp.isShadow])
              | const => rfl
              | outside => rfl
        exact this rs ps (fun r hr => hn r (by simp [hr])) h.2
      obtain ⟨T', h1, h2, h3, h4⟩ := ih (i + 1) ps (setT T (.shadow i) (r.get T)) s
        (fun r hr => hn r (by simp [hr])) hr
      refine ⟨T', by simp only [toShadows, execs, exec]; exact h1, ⟨?_, h2⟩, ?_, ?_⟩
      · simp only; rw [h4 i (by omega), setT_same]; exact h.1
      · intro t ht
        rw [h3 t ht]; apply setT_ne; rintro rfl; cases ht
      · intro j hj
        rw [h4 j (by omega)]; apply setT_ne; intro e; cases e; omega

theorem fromShadows_run (n : Nat) : ∀ (i : Nat) (T : Temp → V) (s : S),
    ∃ T', execs W T s (fromShadows i n) = .next T' s ∧
      (∀ j, i ≤ j → j < i + n → T' (.var j) = T (.shadow j)) ∧
      (∀ t, (∀ j, t ≠ .var j) → T' t = T t) ∧ ∀ j, j < i → T' (.var j) = T (.var j) := by
  induction n with
  | zero => intro i T s; exact ⟨T, by simp [execs, fromShadows], fun j h1 h2 => by omega, fun _ _ => rfl, fun _ _ => rfl⟩
  | succ n ih =>
    intro i T s
    obtain ⟨T', h1, h2, h3, h4⟩ := ih (i + 1) (setT T (.var i) (T (.shadow i))) s
    refine ⟨T', by simp only [fromShadows, execs, exec, Ref.get]; exact h1, ?_, ?_, ?_⟩
    · intro j hj1 hj2
      by_cases e : j = i
      · subst e; rw [h4 j (by omega), setT_same]
      · rw [h2 j (by omega) (by omega)]; exact setT_ne _ _ (by simp)
    · intro t ht
      rw [h3 t ht, setT_ne _ _ (ht i)]
    · intro j hj
      rw [h4 j (by omega)]; apply setT_ne; intro e; cases e; omega

/-! ### step 3 -/

/-- The temporaries that last during a round. -/
def Temp.lasting : Temp → Bool
  | .var _ => true
  | t => t.fixed

theorem fixed_lasting {t : Temp} (h : t.fixed = true) : t.lasting = true := by
  cases t <;> simp_all [Temp.lasting, Temp.fixed]

/-- Are the temporaries that last the same? -/
def Lasts (T T' : Temp → V) : Prop := ∀ t, t.lasting = true → T' t = T t

theorem Lasts.all {T T' : Temp → V} (h : Lasts T T') {i : Nat} {bs : List (BV V S E N)}
    {ps : List (Live V S E N × V)} (ha : All W T i bs ps) : All W T' i bs ps :=
  ha.congr (fun t ht => h t (fixed_lasting ht))

theorem Lasts.at {T T' : Temp → V} (h : Lasts T T') {i : Nat}
    {ps : List (Live V S E N × V)} (ha : At (fun j => T (.var j)) i ps) : At (fun j => T' (.var j)) i ps :=
  ha.congr (fun j _ => h _ rfl)

theorem Lasts.trans {T T' T'' : Temp → V} (h : Lasts T T') (h' : Lasts T' T'') : Lasts T T'' :=
  fun t ht => (h' t ht).trans (h t ht)

theorem lasts_set (T : Temp → V) {t : Temp} (v : V) (h : t.lasting = false) : Lasts T (setT T t v) := by
  intro t' ht'; apply setT_ne; rintro rfl; rw [h] at ht'; cases ht'

theorem sim_not (T : Temp → V) (s : S) (t : Temp) (r : Ref V) :
    execs W T s [.isNo t r] = .next (setT T t (if W.isNo (r.get T) then W.yes else W.no)) s := by
  simp [execs, exec]

theorem step3_sim (hW : W.Lawful) {T : Temp → V} {i : Nat} {b : BV V S E N} {p : Live V S E N × V}
    (hf : Fits W T i b p) (hv : T (.var i) = p.2) (s : S) :
    Sim (exhausted1 W p s) (execs W T s (step3 W i b).1)
      (fun T' r => W.isNo ((step3 W i b).2.get T') = !r ∧ Lasts T T') := by
  obtain ⟨l, v⟩ := p
  simp only at hv
  unfold Fits at hf
  split at hf
  · rename_i hc he
    cases he
    simp only [step3, hc, exhausted1]
    exact Sim.done ⟨hW.no, fun _ _ => rfl⟩
  · rename_i x _ _ bound _ x' ty bound' inc down u hc he
    cases he
    obtain ⟨_, _, hd, hb, _⟩ := hf
    cases bound with
    | none =>
      cases bound' with
      | some => exact hb.elim
      | none =>
        simp only [step3, hc, exhausted1]
        exact Sim.done ⟨hW.no, fun _ _ => rfl⟩
    | some bd =>
      obtain ⟨d, be⟩ := bd
      cases bound' with
      | none => exact hb.elim
      | some q =>
        obtain ⟨d', u⟩ := q
        obtain ⟨rfl, hb⟩ := hb
        cases d with
        | below =>
          simp only [step3, hc, exhausted1]
          have h1 := sim_call (W := W) T s (.cmp i) (.const W.lt) [.temp (.var i), b.bound]
          simp only [List.map_cons, List.map_nil, hb, get_const, get_temp, hv] at h1
          refine Sim.seq (c1 := [_]) h1 ?_
          rintro T' s' r rfl
          refine ⟨_, sim_not _ _ _ _, ?_, ?_⟩
          · simp only [Ref.get, setT_same]
            cases W.isNo r <;> simp [hW.no, hW.yes]
          · exact (lasts_set _ _ rfl).trans (lasts_set _ _ rfl)
        | above =>
          simp only [step3, hc, exhausted1]
          have h1 := sim_call (W := W) T s (.cmp i) (.const W.lt) [b.bound, .temp (.var i)]
          simp only [List.map_cons, List.map_nil, hb, get_const, get_temp, hv] at h1
          refine Sim.seq (c1 := [_]) h1 ?_
          rintro T' s' r rfl
          refine ⟨_, sim_not _ _ _ _, ?_, ?_⟩
          · simp only [Ref.get, setT_same]
            cases W.isNo r <;> simp [hW.no, hW.yes]
          · exact (lasts_set _ _ rfl).trans (lasts_set _ _ rfl)
        | «to» =>
          simp only [step3, hc, exhausted1]
          have h1 := sim_call (W := W) T s (.cmp i) (.const W.lt) [.temp (.var i), b.bound]
          have h2 := sim_call (W := W) T s (.cmpElse i) (.const W.lt) [b.bound, .temp (.var i)]
          simp only [List.map_cons, List.map_nil, hb, get_const, get_temp, hv] at h1 h2
          rw [execs_one]
          simp only [exec]
          cases down with
          | true =>
            simp only [hd, Bool.not_true, Bool.false_eq_true, if_false]
            simp only [if_true]
            cases hr : call1 W W.lt [v, u] s with
            | ok s' r =>
              rw [hr] at h1
              obtain ⟨T', e, rfl⟩ := h1
              rw [e]
              refine ⟨_, rfl, ?_, ?_⟩
              · simp [Ref.get, setT_same]
              · exact (lasts_set _ _ rfl).trans (lasts_set _ _ rfl)
            | exit s' e => rw [hr] at h1; simp only [Sim] at h1; rw [h1]; rfl
            | hang => rw [hr] at h1; simp only [Sim] at h1; rw [h1]; rfl
          | false =>
            simp only [hd, Bool.not_false, if_true]
            simp only [Bool.false_eq_true, if_false]
            cases hr : call1 W W.lt [u, v] s with
            | ok s' r =>
              rw [hr] at h2
              obtain ⟨T', e, rfl⟩ := h2
              rw [e]
              refine ⟨_, rfl, ?_, ?_⟩
              · simp [Ref.get, setT_same]
              · exact (lasts_set _ _ rfl).trans (lasts_set _ _ rfl)
            | exit s' e => rw [hr] at h2; simp only [Sim] at h2; rw [h2]; rfl
            | hang => rw [hr] at h2; simp only [Sim] at h2; rw [h2]; rfl
  · rename_i hc he
    cases he
    obtain ⟨_, _, _, _, hcoll, hl, _, hfin, _⟩ := hf
    simp only [step3, hc, exhausted1]
    have h1 := sim_call (W := W) T s (.test i) (.temp (.part i 3))
      [b.coll, .temp (.var i), .temp (.part i 1)]
    simp only [List.map_cons, List.map_nil, hcoll, get_const, get_temp, hv, hl, hfin] at h1
    refine Sim.map h1 ?_
    rintro T' r rfl
    exact ⟨by simp [Ref.get, setT_same], lasts_set _ _ rfl⟩
  · exact hf.elim

theorem step3_const {i : Nat} {b : BV V S E N} (h : isConstNo W (step3 W i b).2 = true) :
    (step3 W i b).1 = [] := by
  unfold step3 at h ⊢
  split <;> simp_all [isConstNo]

theorem steps3_const {bs : List (BV V S E N)} : ∀ {i : Nat}, isConstNo W (steps3 W i bs).2 = true →
    (steps3 W i bs).1 = [] := by
  intro i h
  cases bs with
  | nil => rfl
  | cons b bs =>
    cases bs with
    | nil => exact step3_const h
    | cons b' bs =>
      simp only [steps3] at h ⊢
      split at h
      · rename_i h'; rw [if_pos h']; exact step3_const h
      · cases h

theorem steps3_sim (hW : W.Lawful) (bs : List (BV V S E N)) :
    ∀ (i : Nat) (ps : List (Live V S E N × V)) (T : Temp → V) (s : S), All W T i bs ps →
    At (fun j => T (.var j)) i ps →
    Sim (exhausted W ps s) (execs W T s (steps3 W i bs).1)
      (fun T' r => W.isNo ((steps3 W i bs).2.get T') = !r ∧ Lasts T T') := by
  induction bs with
  | nil =>
    intro i ps T s ha _
    cases ps with
    | nil => exact Sim.done ⟨hW.no, fun _ _ => rfl⟩
    | cons => exact ha.elim
  | cons b bs ih =>
    intro i ps T s ha hv
    cases ps with
    | nil => exact ha.elim
    | cons p ps =>
      obtain ⟨_, hf, ha⟩ := ha
      have h3 := step3_sim hW hf hv.1 s
      have simple : (∀ T' s', Lasts T T' → exhausted W ps s' = .ok s' false) →
          Sim (exhausted W (p :: ps) s) (execs W T s (step3 W i b).1)
            (fun T' r => W.isNo ((step3 W i b).2.get T') = !r ∧ Lasts T T') := by
        intro hrest
        simp only [exhausted]
        refine Sim.mapP h3 ?_
        rintro T' r s' ⟨h1, h2⟩
        refine ⟨r, ?_, h1, h2⟩
        rw [hrest T' s' h2]
        cases r <;> rfl
      cases bs with
      | nil =>
        cases ps with
        | cons => exact ha.elim
        | nil => exact simple (fun _ _ _ => rfl)
      | cons b' bs =>
        simp only [steps3]
        split
        · rename_i hno
          apply simple
          intro T' s' hl
          have := ih (i + 1) ps T' s' (hl.all ha) (hl.at hv.2)
          rw [steps3_const hno] at this
          simp only [execs] at this
          cases he : exhausted W ps s' with
          | ok s2 r =>
            rw [he] at this
            obtain ⟨T2, e, h1, _⟩ := this
            cases e
            have : W.isNo ((steps3 W (i + 1) (b' :: bs)).2.get T') = true := by
              cases hr : (steps3 W (i + 1) (b' :: bs)).2 with
              | const v => rw [hr] at hno; exact hno
              | outside => rw [hr] at hno; cases hno
              | temp => rw [hr] at hno; cases hno
            rw [this] at h1
            cases r
            · rfl
            · cases h1
          | exit s2 e => rw [he] at this; cases this
          | hang => rw [he] at this; cases this
        · simp only [exhausted]
          refine Sim.seq h3 ?_
          rintro T1 s1 r ⟨h1, h2⟩
          rw [execs_one]
          simp only [exec, h1]
          cases r with
          | true =>
            simp only [Bool.not_true, Bool.false_eq_true, if_false, execs]
            simp only [if_true]
            refine ⟨_, rfl, ?_, ?_⟩
            · simp [Ref.get, setT_same, hW.yes]
            · exact h2.trans (lasts_set _ _ rfl)
          | false =>
            simp only [Bool.not_false, if_true]
            simp only [Bool.false_eq_true, if_false]
            have := ih (i + 1) ps T1 s1 (h2.all ha) (h2.at hv.2)
            cases he : exhausted W ps s1 with
            | ok s2 r =>
              rw [he] at this
              obtain ⟨T2, e, h4, h5⟩ := this
              rw [e]
              refine ⟨_, rfl, ?_, ?_⟩
              · simp only [Ref.get, setT_same]; exact h4
              · exact (h2.trans h5).trans (lasts_set _ _ rfl)
            | exit s2 e => rw [he] at this; simp only [Sim] at this; rw [this]; rfl
            | hang => rw [he] at this; simp only [Sim] at this; rw [this]; rfl

/-! ### the variables in scope -/

/-- Temporaries of variables that are bound before clause `i` in step 4. -/
def Temp.bound4 (i : Nat) : Temp → Bool
  | .var _ => true
  | .elem j => decide (j < i)
  | .key j => decide (j < i)
  | .setter j => decide (j < i)
  | _ => false

theorem bound4_mono {i j : Nat} (h : i ≤ j) {t : Temp} (ht : t.bound4 i = true) : t.bound4 j = true := by
  cases t <;> simp_all [Temp.bound4] <;> omega

theorem env2_ok (T : Temp → V) (bs : List (BV V S E N)) : ∀ (i : Nat) (ps : List (Live V S E N × V))
    (env : List (N × Temp)) (ρ : List (N × V)), All W T i bs ps → At (fun j => T (.var j)) i ps →
    EnvOk T env ρ → (∀ p ∈ env, ∃ j, p.2 = .var j) →
    EnvOk T (env2 i bs env) (bindings ps ρ) ∧ ∀ p ∈ env2 i bs env, ∃ j, p.2 = .var j := by
  induction bs with
  | nil =>
    intro i ps env ρ ha _ he hv
    cases ps with
    | nil => exact ⟨he, hv⟩
    | cons => exact ha.elim
  | cons b bs ih =>
    intro i ps env ρ ha hat he hv
    cases ps with
    | nil => exact ha.elim
    | cons p ps =>
      obtain ⟨_, hf, ha⟩ := ha
      obtain ⟨l, v⟩ := p
      obtain ⟨hi, hat⟩ := hat
      simp only at hi
      have hv' : ∀ x, ∀ p ∈ (x, Temp.var i) :: env, ∃ j, p.2 = .var j := by
        intro x p hp
        rcases List.mem_cons.1 hp with rfl | hp
        · exact ⟨i, rfl⟩
        · exact hv p hp
      unfold Fits at hf
      split at hf
      · rename_i hc e
        cases e
        simp only [env2, hc, bindings]
        rw [hf.1, ← hi]
        exact ih (i + 1) ps _ _ ha hat (he.cons _ _) (hv' _)
      · rename_i hc e
        cases e
        simp only [env2, hc, bindings]
        rw [hf.1, ← hi]
        exact ih (i + 1) ps _ _ ha hat (he.cons _ _) (hv' _)
      · rename_i hc e
        cases e
        simp only [env2, hc, bindings]
        exact ih (i + 1) ps _ _ ha hat he hv
      · exact hf.elim

/-! ### step 4 -/

/-- Temporaries made in step 4 for clause `i` or a later one. -/
def Temp.made4 (i : Nat) : Temp → Bool
  | .elem0 j => decide (i ≤ j)
  | .elem j => decide (i ≤ j)
  | .key j => decide (i ≤ j)
  | .setter j => decide (i ≤ j)
  | _ => false

theorem lasting_made4 {i : Nat} {t : Temp} (h : t.lasting = true) : t.made4 i = false := by
  cases t <;> simp_all [Temp.lasting, Temp.fixed, Temp.made4]

theorem bound4_made4 {i : Nat} {t : Temp} (h : t.bound4 i = true) : t.made4 i = false := by
  cases t <;> simp_all [Temp.bound4, Temp.made4]

theorem EnvOk.set {T : Temp → V} {env : List (N × Temp)} {ρ : List (N × V)} (h : EnvOk T env ρ)
    {t : Temp} (v : V) (ht : ∀ p ∈ env, p.2 ≠ t) : EnvOk (setT T t v) env ρ :=
  h.congr (fun p hp => setT_ne _ _ (ht p hp))

theorem steps4_sim (bs : List (BV V S E N)) :
    ∀ (i : Nat) (ps : List (Live V S E N × V)) (env : List (N × Temp)) (ρ : List (N × V))
    (T : Temp → V) (s : S), All W T i bs ps → At (fun j => T (.var j)) i ps → EnvOk T env ρ →
    (∀ p ∈ env, p.2.bound4 i = true) →
    Sim (elements W ps ρ s) (execs W T s (steps4 W i bs env).1)
      (fun T' ρ' => EnvOk T' (steps4 W i bs env).2 ρ' ∧
        (∀ p ∈ (steps4 W i bs env).2, p.2.bound4 (i + bs.length) = true) ∧
        ∀ t, t.made4 i = false → T' t = T t) := by
  induction bs with
  | nil =>
    intro i ps env ρ T s ha _ he hv
    cases ps with
    | nil => exact Sim.done ⟨he, hv, fun _ _ => rfl⟩
    | cons => exact ha.elim
  | cons b bs ih =>
    intro i ps env ρ T s ha hat he hv
    cases ps with
    | nil => exact ha.elim
    | cons p ps =>
      obtain ⟨ho, hf, ha⟩ := ha
      obtain ⟨l, v⟩ := p
      obtain ⟨hi, hat⟩ := hat
      simp only at hi
      have hlen : i + (b :: bs).length = i + 1 + bs.length := by simp; omega
      have hv1 : ∀ p ∈ env, p.2.bound4 (i + 1) = true := fun p hp => bound4_mono (by omega) (hv p hp)
      have hmade : ∀ t : Temp, t.made4 i = false → t.made4 (i + 1) = false := by
        intro t ht; cases t <;> simp_all [Temp.made4] <;> omega
      -- the rest, after the bindings of this clause
      have rest : ∀ env' ρ' T' s', EnvOk T' env' ρ' → (∀ p ∈ env', p.2.bound4 (i + 1) = true) →
          (∀ t, t.made4 i = false → T' t = T t) →
          Sim (elements W ps ρ' s') (execs W T' s' (steps4 W (i + 1) bs env').1)
            (fun T'' ρ'' => EnvOk T'' (steps4 W (i + 1) bs env').2 ρ'' ∧
              (∀ p ∈ (steps4 W (i + 1) bs env').2, p.2.bound4 (i + (b :: bs).length) = true) ∧
              ∀ t, t.made4 i = false → T'' t = T t) := by
        intro env' ρ' T' s' h1 h2 h3
        have hl : Lasts T T' := fun t ht => h3 t (lasting_made4 ht)
        refine (ih (i + 1) ps env' ρ' T' s' (hl.all ha) (hl.at hat) h1 h2).mono ?_
        rintro T'' ρ'' ⟨h4, h5, h6⟩
        rw [hlen]
        exact ⟨h4, h5, fun t ht => (h6 t (hmade t ht)).trans (h3 t ht)⟩
      unfold Fits at hf
      split at hf
      · rename_i hc e
        cases e
        simp only [steps4, hc, elements]
        exact rest env ρ T s he hv1 (fun _ _ => rfl)
      · rename_i hc e
        cases e
        simp only [steps4, hc, elements]
        exact rest env ρ T s he hv1 (fun _ _ => rfl)
      · rename_i x _ key set _ _ x' ty key' set' c limit next finished ck ce cs u hc e
        cases e
        obtain ⟨rfl, rfl, rfl, hty, hcoll, _, _, _, hck, hce, hcs⟩ := hf
        simp only [steps4, hc, elements]
        -- the element
        have h1 := sim_call (W := W) T s (.elem0 i) (.temp (.part i 5)) [b.coll, .temp (.var i)]
        simp only [List.map_cons, List.map_nil, hcoll, get_const, get_temp, hi, hce] at h1
        simp only [List.append_assoc]
        refine Sim.seq (c1 := [_]) h1 ?_
        rintro T1 s1 el rfl
        have own1 : ∀ (t : Temp) (w : V), t.fixed = false → ∀ T : Temp → V, ∀ t', t'.own i = true → setT T t w t' = T t' := by
          intro t w ht T t' ht'
          apply setT_ne; rintro rfl; rw [own_fixed ht'] at ht; cases ht
        have h2 := sim_check (W := W) (setT T (.elem0 i) el) s1 (.elem i) (.temp (.elem0 i)) b.ty
        rw [map_own ho.ty (own1 _ _ rfl T), hty] at h2
        simp only [get_temp, setT_same] at h2
        refine Sim.seq (c1 := [_]) h2 ?_
        rintro T2 s2 _ rfl
        -- what holds of the temporaries from now on
        have hcoll2 : b.coll.get (setT (setT T (.elem0 i) el) (.elem i) el) = c := by
          rw [Ref.own_get ho.coll (own1 _ _ rfl _), Ref.own_get ho.coll (own1 _ _ rfl _)]; exact hcoll
        have hE : EnvOk (setT (setT T (.elem0 i) el) (.elem i) el) ((x, .elem i) :: env) ((x, el) :: ρ) := by
          have := ((he.set (t := .elem0 i) el ?_).set (t := .elem i) el ?_).cons x (.elem i)
          · rw [setT_same] at this; exact this
          · intro p hp e; have := hv p hp; rw [e] at this; simp [Temp.bound4] at this
          · intro p hp e; have := hv p hp; rw [e] at this; simp [Temp.bound4] at this
        have hB : ∀ p ∈ (x, Temp.elem i) :: env, p.2.bound4 (i + 1) = true ∧ p.2 ≠ .key i ∧ p.2 ≠ .setter i := by
          intro p hp
          rcases List.mem_cons.1 hp with rfl | hp
          · simp [Temp.bound4]
          · refine ⟨hv1 p hp, ?_, ?_⟩ <;>
            · intro e; have := hv p hp; rw [e] at this; simp [Temp.bound4] at this
        have hS : ∀ t, t.made4 i = false → setT (setT T (.elem0 i) el) (.elem i) el t = T t := by
          intro t ht
          rw [setT_ne, setT_ne] <;> (rintro rfl; simp [Temp.made4] at ht)
        generalize hT2 : setT (setT T (.elem0 i) el) (.elem i) el = T2 at hcoll2 hE hS
        have hvi : T2 (.var i) = v := by rw [hS _ rfl]; exact hi
        -- the key
        have hkey : Sim (keyed W ck c v ((x, el) :: ρ) key s2)
            (execs W T2 s2 (key4 i b ((x, .elem i) :: env) key).1)
            (fun T' ρ' => EnvOk T' (key4 (S := S) (E := E) i b ((x, .elem i) :: env) key).2 ρ' ∧
              (∀ p ∈ (key4 (S := S) (E := E) i b ((x, .elem i) :: env) key).2,
                p.2.bound4 (i + 1) = true ∧ p.2 ≠ .setter i) ∧
              (∀ t, t.made4 i = false → T' t = T t)) := by
          cases key with
          | none => exact Sim.done ⟨hE, fun p hp => ⟨(hB p hp).1, (hB p hp).2.2⟩, hS⟩
          | some y =>
            have h3 := sim_call (W := W) T2 s2 (.key i) (.temp (.part i 4)) [b.coll, .temp (.var i)]
            simp only [List.map_cons, List.map_nil, hcoll2, get_const, get_temp, hvi, hS (.part i 4) rfl, hck] at h3
            refine Sim.map h3 ?_
            rintro T3 k rfl
            refine ⟨?_, ?_, ?_⟩
            · have := (hE.set (t := .key i) k (fun p hp => (hB p hp).2.1)).cons y (.key i)
              rw [setT_same] at this; exact this
            · intro p hp
              rcases List.mem_cons.1 hp with rfl | hp
              · simp [Temp.bound4]
              · exact ⟨(hB p hp).1, (hB p hp).2.2⟩
            · intro t ht
              rw [setT_ne, hS t ht]; rintro rfl; simp [Temp.made4] at ht
        refine Sim.seq hkey ?_
        generalize key4 (S := S) (E := E) i b ((x, Temp.elem i) :: env) key = K
        rintro T3 s3 ρ3 ⟨hE3, hB3, hS3⟩
        have hcoll3 : b.coll.get T3 = c := by
          rw [← hcoll]; apply Ref.own_get ho.coll
          intro t ht; exact hS3 t (lasting_made4 (fixed_lasting (own_fixed ht)))
        have hvi3 : T3 (.var i) = v := by rw [hS3 _ rfl]; exact hi
        -- the setter
        cases set with
        | none =>
          exact rest K.2 ρ3 T3 s3 hE3 (fun p hp => (hB3 p hp).1) hS3
        | some y =>
          have h4 := sim_call (W := W) T3 s3 (.setter i) (.const W.curry)
            [b.coll, .temp (.var i), .temp (.part i 6)]
          simp only [List.map_cons, List.map_nil, hcoll3, get_const, get_temp, hvi3, hS3 (.part i 6) rfl, hcs] at h4
          simp only [settable]
          rw [bind_assoc]
          refine Sim.seq h4 ?_
          rintro T4 s4 f rfl
          simp only [Res.bind]
          refine rest _ _ _ s4 ?_ ?_ ?_
          · have := (hE3.set (t := .setter i) f (fun p hp => (hB3 p hp).2)).cons y (.setter i)
            rw [setT_same] at this; exact this
          · intro p hp
            rcases List.mem_cons.1 hp with rfl | hp
            · simp [Temp.bound4]
            · exact (hB3 p hp).1
          · intro t ht
            rw [setT_ne, hS3 t ht]; rintro rfl; simp [Temp.made4] at ht
      · exact hf.elim

/-! ### steps 7 and 8 -/

/-- Temporaries made in step 7 for clause `i` or a later one. -/
def Temp.made7 (i : Nat) : Temp → Bool
  | .next0 j => decide (i ≤ j)
  | .next j => decide (i ≤ j)
  | _ => false

theorem lasting_made7 {i : Nat} {t : Temp} (h : t.lasting = true) : t.made7 i = false := by
  cases t <;> simp_all [Temp.lasting, Temp.fixed, Temp.made7]

theorem bound4_made7 {i j : Nat} {t : Temp} (h : t.bound4 i = true) : t.made7 j = false := by
  cases t <;> simp_all [Temp.bound4, Temp.made7]

theorem step7_sim (hW : W.Lawful) {T : Temp → V} {i k : Nat} {b : BV V S E N} {p : Live V S E N × V}
    {env : List (N × Temp)} {ρ : List (N × V)} (ho : Own i b) (hf : Fits W T i b p)
    (hv : T (.var i) = p.2) (he : EnvOk T env ρ) (hb : ∀ q ∈ env, q.2.bound4 k = true) (s : S) :
    Sim ((next1 W ρ p s).bind fun v s => (check W (p.1, v) s).bind fun _ s => .ok s v)
      (execs W T s (step7 W i env b))
      (fun T' v => T' (.next i) = v ∧ Fits W T' i b (p.1, v) ∧
        ∀ t, t ≠ .next0 i → t ≠ .next i → T' t = T t) := by
  obtain ⟨l, v⟩ := p
  simp only at hv
  have hfit : ∀ {T' : Temp → V} {p}, (∀ t, t ≠ .next0 i → t ≠ .next i → T' t = T t) →
      Fits W T i b p → Fits W T' i b p := by
    intro T' p h hf
    refine hf.congr ho (fun t ht => h t ?_ ?_) <;> (rintro rfl; simp [Temp.own] at ht)
  have hf0 := hf
  unfold Fits at hf
  split at hf
  · rename_i x _ _ next x' ty next' u hc e
    cases e
    obtain ⟨hx, rfl, hty⟩ := hf
    simp only [step7, hc, next1, check]
    refine Sim.seq (sim_conv he (.next0 i) next s) ?_
    rintro T1 s1 w ⟨h1, h2⟩
    have h3 := sim_check (W := W) T1 s1 (.next i) (conv W (.next0 i) env next).2 b.ty
    rw [map_own ho.ty (fun t ht => h2 t (by rintro rfl; simp [Temp.own] at ht)), hty, h1] at h3
    refine Sim.map h3 ?_
    rintro T2 _ rfl
    have hsame : ∀ t, t ≠ .next0 i → t ≠ .next i → setT T1 (.next i) w t = T t := by
      intro t ht1 ht2; rw [setT_ne _ _ ht2, h2 t ht1]
    refine ⟨setT_same _ _ _, hfit hsame ?_, hsame⟩
    unfold Fits; rw [hc]; exact ⟨hx, rfl, hty⟩
  · rename_i x _ _ bound _ x' ty bound' inc down u hc e
    cases e
    obtain ⟨hx, hinc, hd, hbd, hty⟩ := hf
    simp only [step7, hc, next1, check]
    have h1 := sim_call (W := W) T s (.next0 i) (.const W.add) [.temp (.var i), b.inc]
    simp only [List.map_cons, List.map_nil, hinc, get_const, get_temp, hv] at h1
    -- the sum of integers is an integer
    have hsum : ∀ s' w, call1 W W.add [v, inc] s = .ok s' w → (∃ k, W.asInt inc = some k) →
        (∃ k, W.asInt v = some k) → ∃ k, W.asInt w = some k := by
      intro s' w hw ⟨k, hk⟩ ⟨m, hm⟩
      unfold call1 at hw
      cases hcl : W.call W.add [v, inc] s with
      | ok s2 vs =>
        rw [hcl] at hw
        simp only [Res.bind, Res.ok.injEq] at hw
        rw [← hw.2]
        exact hW.add v inc m k s s2 vs hm hk hcl
      | exit => rw [hcl] at hw; cases hw
      | hang => rw [hcl] at hw; cases hw
    cases hr : call1 W W.add [v, inc] s with
    | exit s' e =>
      rw [hr] at h1
      rw [show ∀ c c', execs W T s [c, c'] = execs W T s ([c] ++ [c']) from fun _ _ => rfl, execs_append]
      simp only [Sim] at h1; rw [h1]; rfl
    | hang =>
      rw [hr] at h1
      rw [show ∀ c c', execs W T s [c, c'] = execs W T s ([c] ++ [c']) from fun _ _ => rfl, execs_append]
      simp only [Sim] at h1; rw [h1]; rfl
    | ok s' w =>
      rw [hr] at h1
      obtain ⟨T1, e1, rfl⟩ := h1
      rw [show ∀ c c', execs W T s [c, c'] = execs W T s ([c] ++ [c']) from fun _ _ => rfl, execs_append, e1]
      simp only [Res.bind]
      have h3 := sim_check (W := W) (setT T (.next0 i) w) s' (.next i) (.temp (.next0 i)) b.ty
      simp only [get_temp, setT_same] at h3
      have hmap : b.ty.map (·.get (setT T (.next0 i) w)) = b.ty.map (·.get T) := by
        apply map_own ho.ty
        intro t ht; apply setT_ne; rintro rfl; simp [Temp.own] at ht
      rw [hmap] at h3
      have hty' : typed W (b.ty.map (·.get T)) w s' = typed W ty w s' := by
        rcases hty with h | ⟨h1, h2, h4, h5⟩
        · rw [h]
        · obtain ⟨k, hk⟩ := hsum s' w hr h4 h5
          rw [h1, h2]
          simp only [Option.map_some, typed, Ref.get, hW.int _ _ hk, if_true]
      rw [hty'] at h3
      refine Sim.map h3 ?_
      rintro T2 _ rfl
      have hsame : ∀ t, t ≠ .next0 i → t ≠ .next i → setT (setT T (.next0 i) w) (.next i) w t = T t := by
        intro t ht1 ht2; rw [setT_ne _ _ ht2, setT_ne _ _ ht1]
      refine ⟨setT_same _ _ _, hfit hsame ?_, hsame⟩
      unfold Fits; rw [hc]
      refine ⟨hx, hinc, hd, hbd, ?_⟩
      rcases hty with h | ⟨h1, h2, h4, h5⟩
      · exact .inl h
      · exact .inr ⟨h1, h2, h4, hsum s' w hr h4 h5⟩
  · rename_i hc e
    cases e
    have hf' := hf
    obtain ⟨_, _, _, _, hcoll, _, hnext, _⟩ := hf
    simp only [step7, hc, next1, check]
    have h1 := sim_call (W := W) T s (.next i) (.temp (.part i 2)) [b.coll, .temp (.var i)]
    simp only [List.map_cons, List.map_nil, hcoll, get_const, get_temp, hv, hnext] at h1
    simp only [Res.bind]
    refine Sim.map h1 ?_
    rintro T1 w rfl
    have hsame : ∀ t, t ≠ .next0 i → t ≠ .next i → setT T (.next i) w t = T t := by
      intro t _ ht2; rw [setT_ne _ _ ht2]
    refine ⟨setT_same _ _ _, hfit hsame ?_, hsame⟩
    unfold Fits; rw [hc]; exact hf'
  · exact hf.elim

theorem steps7_sim (hW : W.Lawful) (env : List (N × Temp)) (ρ : List (N × V)) (k : Nat)
    (hb : ∀ q ∈ env, q.2.bound4 k = true) (bs : List (BV V S E N)) :
    ∀ (i : Nat) (ps : List (Live V S E N × V)) (T : Temp → V) (s : S), All W T i bs ps →
    At (fun j => T (.var j)) i ps → EnvOk T env ρ →
    Sim (nextValues W true ρ ps s) (execs W T s (steps7 W env i bs))
      (fun T' qs => All W T' i bs qs ∧ At (fun j => T' (.next j)) i qs ∧
        ∀ t, t.made7 i = false → T' t = T t) := by
  induction bs with
  | nil =>
    intro i ps T s ha _ _
    cases ps with
    | nil => exact Sim.done ⟨trivial, trivial, fun _ _ => rfl⟩
    | cons => exact ha.elim
  | cons b bs ih =>
    intro i ps T s ha hat he
    cases ps with
    | nil => exact ha.elim
    | cons p ps =>
      obtain ⟨ho, hf, ha⟩ := ha
      obtain ⟨hi, hat⟩ := hat
      have hspec : nextValues W true ρ (p :: ps) s =
          ((next1 W ρ p s).bind fun v s => (check W (p.1, v) s).bind fun _ s => .ok s v).bind fun v s =>
            (nextValues W true ρ ps s).bind fun qs s => .ok s ((p.1, v) :: qs) := by
        simp only [nextValues, bind_assoc, if_true]; rfl
      rw [hspec]
      simp only [steps7]
      refine Sim.seq (step7_sim hW ho hf hi he hb s) ?_
      rintro T1 s1 v ⟨h1, h2, h3⟩
      have hl : Lasts T T1 := by
        intro t ht; apply h3 <;> (rintro rfl; cases ht)
      have he1 : EnvOk T1 env ρ := he.congr (fun q hq => h3 _
        (by intro e; have := hb q hq; rw [e] at this; cases this)
        (by intro e; have := hb q hq; rw [e] at this; cases this))
      refine Sim.map (ih (i + 1) ps T1 s1 (hl.all ha) (hl.at hat) he1) ?_
      rintro T2 qs ⟨h4, h5, h6⟩
      refine ⟨⟨ho, h2.congr ho ?_, h4⟩, ⟨?_, h5⟩, ?_⟩
      · intro t ht; exact h6 t (lasting_made7 (fixed_lasting (own_fixed ht)))
      · simp only; rw [h6 _ (by simp [Temp.made7])]; exact h1
      · intro t ht
        rw [h6, h3]
        · rintro rfl; simp [Temp.made7] at ht
        · rintro rfl; simp [Temp.made7] at ht
        · cases t <;> simp_all [Temp.made7] <;> omega

theorem nexts_ok (T : Temp → V) (qs : List (Live V S E N × V)) : ∀ (i : Nat),
    At (fun j => T (.next j)) i qs → RefsOk T (nexts i qs.length) qs := by
  induction qs with
  | nil => intro i _; trivial
  | cons q qs ih => intro i h; exact ⟨h.1, ih (i + 1) h.2⟩

theorem nexts_noShadow (n : Nat) : ∀ i, ∀ r ∈ (nexts i n : List (Ref V)), r.noShadow := by
  induction n with
  | zero => intro i r hr; cases hr
  | succ n ih =>
    intro i r hr
    rcases List.mem_cons.1 hr with rfl | hr
    · rfl
    · exact ih (i + 1) r hr

theorem first_noShadow {rs : List (Ref V)} : ∀ {i : Nat}, FirstRefs i rs → ∀ r ∈ rs, r.noShadow := by
  induction rs with
  | nil => intro i _ r hr; cases hr
  | cons q rs ih =>
    intro i h r hr
    rcases List.mem_cons.1 hr with rfl | hr
    · have := h.1
      cases r with
      | temp t =>
        rcases this with h | h
        · cases t <;> simp_all [Temp.fixed, Temp.isShadow, Ref.noShadow]
        · rw [h]; rfl
      | const => trivial
      | outside => trivial
    · exact ih h.2 r hr

end Verif.Loops
