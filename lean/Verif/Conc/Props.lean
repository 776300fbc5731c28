import Verif.Conc.Lemmas
import Verif.Table.Props

/-! # C69, C70: tables and symbols used by several threads at once

Every theorem ranges over all runs of the model: any number of threads, any sequence of calls in each
thread, every interleaving of their steps, and a collector that moves objects at any time. -/

namespace Verif.Conc

open Verif.Table (World mapPut defaultGrow computeEntryCount demo demo_lawful demoMod demoMod_lawful still still_lawful)
open Verif.Threads (Run)

variable {K V : Type}

/-! ### schedules for the examples -/

/-- Follow a schedule and collect the events, most recent first. -/
def play (cfg : Cfg K V) : State K V → List (Event K V) → List (Act K V) → Option (State K V × List (Event K V))
  | s, H, [] => some (s, H)
  | s, H, a :: r =>
    match exec cfg s a with
    | none => none
    | some (s', none) => play cfg s' H r
    | some (s', some e) => play cfg s' (e :: H) r

theorem play_run {cfg : Cfg K V} : ∀ {acts : List (Act K V)} {s : State K V} {H : List (Event K V)} {s' : State K V}
    {H' : List (Event K V)}, Run (Init cfg) (Step cfg) H s → play cfg s H acts = some (s', H') →
    Run (Init cfg) (Step cfg) H' s'
  | [], s, H, s', H', h, hp => by
    simp only [play, Option.some.injEq, Prod.mk.injEq] at hp
    obtain ⟨rfl, rfl⟩ := hp
    exact h
  | a :: r, s, H, s', H', h, hp => by
    rw [play] at hp
    split at hp
    · cases hp
    · rename_i s1 he; exact play_run (.tau h ⟨a, he⟩) hp
    · rename_i s1 e he; exact play_run (.emit h ⟨a, he⟩) hp

/-- An empty table with 37 entries, as `make(<table>)` returns it. -/
def fresh : State Nat Nat where
  mem := { vecs := fun _ => mkVec 37 0, nv := 1, cur := 0, marked := fun _ => false, ntok := 1, lock := none, now := 0 }
  pc := fun _ => .idle
  next := 0

/-- `make(<table>)` with a key test, hash codes and a way of rehashing. -/
def setup (W : World Nat) (inPlace : Bool) : Cfg Nat Nat where
  W := W
  inPlace := inPlace
  initial := 0
  grow := defaultGrow

theorem fresh_run (W : World Nat) (b : Bool) : Run (Init (setup W b)) (Step (setup W b)) [] fresh :=
  .start ⟨37, by show computeEntryCount 0 = some 37; decide +kernel, rfl⟩

/-- The history of a schedule. -/
def history (W : World Nat) (inPlace : Bool) (acts : List (Act Nat Nat)) : Option (List (Event Nat Nat)) :=
  (play (setup W inPlace) fresh [] acts).map Prod.snd

theorem history_run {W : World Nat} {b : Bool} {acts : List (Act Nat Nat)} {H : List (Event Nat Nat)}
    (h : history W b acts = some H) : ∃ s, Run (Init (setup W b)) (Step (setup W b)) H s := by
  simp only [history, Option.map_eq_some_iff] at h
  obtain ⟨⟨s, H'⟩, h, rfl⟩ := h
  exact ⟨s, play_run (fresh_run W b) h⟩

/-- Thread `p` takes `n` steps. -/
def steps (p n : Nat) (b : Bool := true) : List (Act Nat Nat) := List.replicate n (.go p b)

/-! ### C69: calls on a table take effect at one moment -/

/-- Several threads use a table with `element`, `element-setter`, `remove-key!`, `gethash-or-set` and
    `make-symbol`.  If hash codes do not change, or if tables are not rehashed in place and nobody
    interns, then in every run the calls look as if each had taken effect at one moment between its
    start and its return, on a map from keys to values.  A call that signals the error for tables
    that are too large has no effect.

    Missing from C69: `remove-all-keys!`, iterations, and in-place rehashing while hash codes change;
    for the first and the last the claim is false, see the theorems below. -/
theorem table_linearizable_partial {cfg : Cfg K V} (hW : cfg.W.Lawful) {H : List (Event K V)} {s : State K V}
    (hrun : Run (Init cfg) (Step cfg) H s)
    (hall : ∀ id, .call id .removeAll ∉ H)
    (hhash : Static cfg.W ∨ cfg.inPlace = false ∧ ∀ id op, .call id op ∈ H → ¬ op.interns) :
    Linearizable cfg.W.eq H := by
  obtain ⟨S, rid, h⟩ := sim_run hW hrun ⟨hall, hhash⟩
  exact h.ex.linearizable

theorem static_still : Static still := fun _ _ _ => rfl

/-- While thread 0 removes a key, thread 1 fetches its value and thread 2 changes it.  Thread 2 stores
    after the key has been marked as deleted; thread 1 meets the deletion mark and starts again. -/
def racing : List (Act Nat Nat) :=
  .call 0 (.on (.put 7) 3) :: steps 0 7 ++ .ret 0 ::
    .call 0 (.on .remove 3) :: .call 1 (.on .get 3) :: .call 2 (.on (.put 8) 3) ::
    steps 0 4 ++ steps 1 4 ++ steps 2 4 ++ steps 0 2 ++ steps 1 1 ++ steps 2 1 ++ .ret 2 :: .ret 0 ::
    steps 1 3 ++ [.call 0 (.on .get 3)] ++ steps 0 8 ++ [.ret 0]

/-- The history of `racing`. -/
def racingHistory : List (Event Nat Nat) :=
  [.ret 4 .missing, .call 4 (.on .get 3), .ret 1 (.removed true), .ret 3 .stored,
   .call 3 (.on (.put 8) 3), .call 2 (.on .get 3), .call 1 (.on .remove 3), .ret 0 .stored,
   .call 0 (.on (.put 7) 3)]

theorem racing_history : history still true racing = some racingHistory := by decide +kernel

example : Linearizable still.eq racingHistory := by
  obtain ⟨s, hr⟩ := history_run racing_history
  exact table_linearizable_partial (cfg := setup still true) still_lawful hr (by simp [racingHistory]) (Or.inl static_still)

/-- A table whose hash codes change at a collection, rehashed into a copy. -/
def copying : List (Act Nat Nat) :=
  .call 0 (.on (.put 7) 3) :: steps 0 7 ++ .ret 0 :: .collect :: .collect :: .collect :: .collect :: .collect :: .collect ::
    .call 1 (.on .get 3) :: steps 1 54 ++ [.ret 1]

example : ∃ s, Run (Init (setup demo false)) (Step (setup demo false))
    [.ret 1 (.value 7), .call 1 (.on .get 3), .ret 0 .stored, .call 0 (.on (.put 7) 3)] s :=
  history_run (acts := copying) (by decide +kernel)

/-! ### what the specification says about a call -/

theorem legal_out {eq : K → K → Bool} : ∀ {S : List (Entry K V)} {m : K → Option V}, Legal eq m S →
    ∀ e ∈ S, ∃ m' : K → Option V, (perform eq m' e.op).2 = e.out
  | [], _, _, e, he => by cases he
  | x :: r, m, h, e, he => by
    rcases List.mem_cons.1 he with rfl | he
    · exact ⟨m, h.1⟩
    · exact legal_out h.2 e he

theorem perform_marker (eq : K → K → Bool) (m : K → Option V) (op : Op K V) : (perform eq m op).2 ≠ .marker := by
  cases op with
  | removeAll => simp [perform]
  | on kind k => cases kind <;> simp only [perform] <;> (try split) <;> simp

theorem mem_before {S : List (Entry K V)} {R : Entry K V → Entry K V → Prop} (hp : S.Pairwise R) {a b : Entry K V}
    (ha : a ∈ S) (hb : b ∈ S) (hne : a ≠ b) (hR : ¬ R b a) : ∃ A B C, S = A ++ a :: (B ++ b :: C) := by
  obtain ⟨A, C, rfl⟩ := List.append_of_mem ha
  rcases List.mem_append.1 hb with h | h
  · exact absurd ((List.pairwise_append.1 hp).2.2 b h a (by simp)) hR
  · rcases List.mem_cons.1 h with rfl | h
    · exact absurd rfl hne
    · obtain ⟨B, D, rfl⟩ := List.append_of_mem h
      exact ⟨A, B, D, rfl⟩

/-- A property of maps that every call in a list keeps. -/
theorem after_keeps {eq : K → K → Bool} {P : (K → Option V) → Prop} : ∀ {B : List (Entry K V)} {m : K → Option V},
    P m → (∀ e ∈ B, ∀ m, P m → P (perform eq m e.op).1) → P (after eq m B)
  | [], _, h, _ => h
  | x :: r, m, h, hB => after_keeps (B := r) (hB x (by simp) m h) (fun e he => hB e (by simp [he]))

theorem legal_at {eq : K → K → Bool} {S A C : List (Entry K V)} {a : Entry K V} (h : Legal eq (fun _ => none) S)
    (hS : S = A ++ a :: C) :
    (perform eq (now eq A) a.op).2 = a.out := by
  subst hS
  rw [legal_append] at h
  exact h.2.1

/-! ### C69: where the claim is false -/

/-- Thread 1 has found its key when thread 0 clears the table; thread 1 fetches the cleared value. -/
def clearing : List (Act Nat Nat) :=
  .call 0 (.on (.put 7) 3) :: steps 0 7 ++ .ret 0 :: .call 1 (.on .get 3) :: steps 1 4 ++
    .call 0 .removeAll :: steps 0 45 ++ steps 1 3 ++ [.ret 1]

/-- `remove-all-keys!` clears keys and values before it invalidates the token, so `element` in another
    thread may return the marker of empty entries, an object that was never stored.  Hash codes do not
    change here. -/
theorem table_clear_marker_violated :
    ∃ H s, Run (Init (setup still true)) (Step (setup still true)) H s ∧ .ret 1 .marker ∈ H ∧
      ¬ Linearizable still.eq H := by
  have hh : history still true clearing = some
      [.ret 1 .marker, .call 2 .removeAll, .call 1 (.on .get 3), .ret 0 .stored, .call 0 (.on (.put 7) 3)] := by
    decide +kernel
  obtain ⟨s, hr⟩ := history_run hh
  refine ⟨_, s, hr, by simp, ?_⟩
  rintro ⟨S, -, -, hout, hret, -, hleg⟩
  obtain ⟨e, he, hid⟩ := hret 1 .marker (by simp) (by simp)
  obtain ⟨m, hm⟩ := legal_out hleg e he
  have := hout e he .marker (by rw [hid]; simp)
  exact perform_marker _ _ _ (hm.trans this.symm)

/-- Integers as keys that are their own hash codes; at time 2 the collector reports that a hash code
    may have changed although none has. -/
def spurred : World Nat where
  eq a b := a == b
  hash _ k := k
  spur t := t == 2

/-- Thread 0 fetches the table vector to clear it; thread 1 rehashes it into a copy while an iteration
    refers to it; thread 0 clears the old vector. -/
def clearLost : List (Act Nat Nat) :=
  .call 0 (.on (.put 7) 3) :: steps 0 7 ++ .ret 0 :: .call 0 .removeAll :: steps 0 2 ++
    .call 1 (.on .get 4) :: steps 1 54 false ++ .ret 1 :: steps 0 78 ++ .ret 0 ::
    .call 1 (.on .get 3) :: steps 1 7 ++ [.ret 1]

/-- `remove-all-keys!` does not test that the vector it clears is still the current one, so a call may
    return with all keys still in the table.  Hash codes do not change here. -/
theorem table_clear_lost_violated :
    ∃ H s, Run (Init (setup spurred true)) (Step (setup spurred true)) H s ∧
      H = [.ret 3 (.value 7), .call 3 (.on .get 3), .ret 1 .cleared, .ret 2 .missing, .call 2 (.on .get 4),
        .call 1 .removeAll, .ret 0 .stored, .call 0 (.on (.put 7) 3)] ∧
      ¬ Linearizable spurred.eq H := by
  have hh : history spurred true clearLost = some
      [.ret 3 (.value 7), .call 3 (.on .get 3), .ret 1 .cleared, .ret 2 .missing, .call 2 (.on .get 4),
        .call 1 .removeAll, .ret 0 .stored, .call 0 (.on (.put 7) 3)] := by
    decide +kernel
  obtain ⟨s, hr⟩ := history_run hh
  refine ⟨_, s, hr, rfl, ?_⟩
  rintro ⟨S, -, hcall, hout, hret, hpair, hleg⟩
  obtain ⟨e1, he1, hid1⟩ := hret 1 .cleared (by simp) (by simp)
  obtain ⟨e3, he3, hid3⟩ := hret 3 (.value 7) (by simp) (by simp)
  have ho1 : e1.op = .removeAll := by have := hcall e1 he1; rw [hid1] at this; simpa using this
  have ho3 : e3.op = .on .get 3 := by have := hcall e3 he3; rw [hid3] at this; simpa using this
  have h3 : e3.out = .value 7 := (hout e3 he3 (.value 7) (by rw [hid3]; simp)).symm
  obtain ⟨A, B, C, rfl⟩ := mem_before hpair he1 he3 (by rintro rfl; omega) (by
    rw [hid1, hid3, not_not]
    exact ⟨[.ret 3 (.value 7)], _, _, .cleared, rfl, by simp⟩)
  have hB : ∀ x ∈ B, ∀ m : Nat → Option Nat, m = (fun _ => none) → (perform spurred.eq m x.op).1 = fun _ => none := by
    intro x hx m hm
    have hxc := hcall x (by simp [hx])
    have hx0 : ¬ Precedes _ x.id e1.id := (List.pairwise_cons.1 (List.pairwise_append.1 hpair).2.1).1 x (by simp [hx])
    simp only [List.mem_cons, reduceCtorEq, false_or, Event.call.injEq, List.not_mem_nil, or_false] at hxc
    rcases hxc with ⟨-, h⟩ | ⟨-, h⟩ | ⟨-, h⟩ | ⟨h0, -⟩
    · rw [h, hm]; rfl
    · rw [h, hm]; rfl
    · rw [h]; rfl
    · rw [h0, hid1] at hx0
      exact absurd ⟨[.ret 3 (.value 7), .call 3 (.on .get 3), .ret 1 .cleared, .ret 2 .missing, .call 2 (.on .get 4)], _, _, .stored, rfl, by simp⟩ hx0
  have hat := legal_at (A := A ++ e1 :: B) (a := e3) (C := C) hleg (by simp)
  rw [now_append, ho3, h3] at hat
  have : after spurred.eq (now spurred.eq A) (e1 :: B) = fun _ => none := by
    show after spurred.eq (perform spurred.eq (now spurred.eq A) e1.op).1 B = _
    rw [ho1]
    exact after_keeps (P := fun m => m = fun _ => none) rfl hB
  rw [this] at hat
  simp [perform] at hat

/-- Integers as keys whose hash codes change at the second collection. -/
def moving : World Nat where
  eq a b := a == b
  hash t k := if t < 2 then k else k + 1
  spur _ := false

theorem moving_lawful : moving.Lawful where
  refl a := by simp [moving]
  symm a b h := by simp [moving] at h ⊢; exact h.symm
  trans a b c h h' := by simp [moving] at h h' ⊢; exact h.trans h'
  hash_eq t a b h := by simp [moving] at h; rw [h]

/-- Thread 1 has searched with the new hash code where the key is stored under the old one, and has
    tested its token; thread 0 rehashes the table in place; thread 1 tests whether the hash codes are
    out of date. -/
def raced : List (Act Nat Nat) :=
  .call 0 (.on (.put 7) 3) :: steps 0 7 ++ .ret 0 :: .collect :: .call 1 (.on .get 3) :: steps 1 6 ++
    .call 0 (.on .get 4) :: steps 0 131 ++ .ret 0 :: steps 1 1 ++ [.ret 1]

/-- `needs-rehash?` tests the token first and the hash codes afterwards.  If the table is rehashed in
    place in between, `element` misses a key that has been in the table all the time. -/
theorem table_rehash_race_violated :
    ∃ H s, Run (Init (setup moving true)) (Step (setup moving true)) H s ∧
      H = [.ret 1 .missing, .ret 2 .missing, .call 2 (.on .get 4), .call 1 (.on .get 3), .ret 0 .stored,
        .call 0 (.on (.put 7) 3)] ∧
      ¬ Linearizable moving.eq H := by
  have hh : history moving true raced = some
      [.ret 1 .missing, .ret 2 .missing, .call 2 (.on .get 4), .call 1 (.on .get 3), .ret 0 .stored,
        .call 0 (.on (.put 7) 3)] := by
    decide +kernel
  obtain ⟨s, hr⟩ := history_run hh
  refine ⟨_, s, hr, rfl, ?_⟩
  rintro ⟨S, -, hcall, hout, hret, hpair, hleg⟩
  obtain ⟨e0, he0, hid0⟩ := hret 0 .stored (by simp) (by simp)
  obtain ⟨e1, he1, hid1⟩ := hret 1 .missing (by simp) (by simp)
  have ho0 : e0.op = .on (.put 7) 3 := by have := hcall e0 he0; rw [hid0] at this; simpa using this
  have ho1 : e1.op = .on .get 3 := by have := hcall e1 he1; rw [hid1] at this; simpa using this
  have h1 : e1.out = .missing := (hout e1 he1 .missing (by rw [hid1]; simp)).symm
  obtain ⟨A, B, C, rfl⟩ := mem_before hpair he0 he1 (by rintro rfl; omega) (by
    rw [hid0, hid1, not_not]
    exact ⟨[.ret 1 .missing, .ret 2 .missing, .call 2 (.on .get 4)], _, _, .stored, rfl, by simp⟩)
  have hB : ∀ x ∈ B, ∀ m : Nat → Option Nat, m 3 = some 7 → (perform moving.eq m x.op).1 3 = some 7 := by
    intro x hx m hm
    have hxc := hcall x (by simp [hx])
    simp only [List.mem_cons, reduceCtorEq, false_or, Event.call.injEq, List.not_mem_nil, or_false] at hxc
    rcases hxc with ⟨-, h⟩ | ⟨-, h⟩ | ⟨-, h⟩
    · rw [h]; exact hm
    · rw [h]; exact hm
    · rw [h]; simp [perform, mapPut, moving]
  have hat := legal_at (A := A ++ e0 :: B) (a := e1) (C := C) hleg (by simp)
  rw [now_append, ho1, h1] at hat
  have : after moving.eq (now moving.eq A) (e0 :: B) 3 = some 7 := by
    show after moving.eq (perform moving.eq (now moving.eq A) e0.op).1 B 3 = _
    refine after_keeps (P := fun m => m 3 = some 7) ?_ hB
    rw [ho0]; simp [perform, mapPut, moving]
  simp [perform, this] at hat

/-! ### C70: symbols are unique -/

/-- Interning a key, or fetching the value of one. -/
def Op.gentle (op : Op K V) : Prop := op.interns ∨ ∃ k, op = .on .get k

theorem gentle_keeps {W : World K} {m : K → Option V} {op : Op K V} (hg : op.gentle) (hm : Respects W.eq m) {k : K} {v : V}
    (h : m k = some v) : (perform W.eq m op).1 k = some v := by
  have hput : ∀ k' v', m k' = none → mapPut W.eq m k' v' k = some v := by
    intro k' v' hk'
    unfold mapPut
    split
    · rename_i e
      rw [hm _ _ e, hk'] at h; cases h
    · exact h
  rcases hg with hg | ⟨k', rfl⟩
  · cases op with
    | removeAll => exact hg.elim
    | on kind k' =>
      cases kind with
      | get => exact h
      | put => exact hg.elim
      | remove => exact hg.elim
      | intern v' =>
        simp only [perform]
        split
        · exact h
        · rename_i hn; exact hput _ _ hn
      | symbol v' =>
        simp only [perform]
        split
        · exact h
        · rename_i hn; exact hput _ _ hn
  · exact h

/-- What interning does: the key has the value that is returned, and the value has been there before
    or is the one offered. -/
theorem interns_result {W : World K} (hW : W.Lawful) {m : K → Option V} {kind : Kind V} {k : K}
    (hi : (Op.on kind k : Op K V).interns) : ∃ v, (perform W.eq m (.on kind k)).2 = .value v ∧
      (perform W.eq m (.on kind k)).1 k = some v ∧ (m k = some v ∨ kind = .intern v ∨ kind = .symbol v) := by
  cases kind with
  | get => exact hi.elim
  | put => exact hi.elim
  | remove => exact hi.elim
  | intern v' =>
    simp only [perform]
    split
    · rename_i v h; exact ⟨v, rfl, h, Or.inl h⟩
    · exact ⟨v', rfl, by simp [mapPut, hW.refl], Or.inr (Or.inl rfl)⟩
  | symbol v' =>
    simp only [perform]
    split
    · rename_i v h; exact ⟨v, rfl, h, Or.inl h⟩
    · exact ⟨v', rfl, by simp [mapPut, hW.refl], Or.inr (Or.inr rfl)⟩

theorem legal_interns {W : World K} (hW : W.Lawful) : ∀ {S : List (Entry K V)} {m : K → Option V}, Respects W.eq m →
    Legal W.eq m S → (∀ e ∈ S, e.op.gentle) → ∀ e ∈ S, ∀ kind k, e.op = .on kind k → e.op.interns →
      ∃ v, e.out = .value v ∧ after W.eq m S k = some v
  | [], _, _, _, _, e, he => by cases he
  | x :: r, m, hm, hl, hg, e, he => by
    intro kind k ho hi
    have hm' := perform_respects hW hm x.op
    rcases List.mem_cons.1 he with rfl | he
    · rw [ho] at hi
      obtain ⟨v, h1, h2, -⟩ := interns_result hW (m := m) hi
      rw [← ho] at h1 h2
      refine ⟨v, hl.1.symm.trans h1, ?_⟩
      show after W.eq (perform W.eq m e.op).1 r k = some v
      have := after_keeps (eq := W.eq) (B := r) (P := fun m => Respects W.eq m ∧ m k = some v) ⟨hm', h2⟩
        (fun y hy m' h' => ⟨perform_respects hW h'.1 _, gentle_keeps (hg y (by simp [hy])) h'.1 h'.2⟩)
      exact this.2
    · exact legal_interns hW hm' hl.2 (fun y hy => hg y (by simp [hy])) e he kind k ho hi

theorem legal_origin {W : World K} (hW : W.Lawful) : ∀ {S : List (Entry K V)} {m : K → Option V}, Respects W.eq m →
    (∀ e ∈ S, e.op.gentle) → ∀ {k : K} {v : V}, after W.eq m S k = some v →
      m k = some v ∨ ∃ e ∈ S, ∃ kind k', e.op = .on kind k' ∧ (kind = .intern v ∨ kind = .symbol v) ∧ W.eq k k' = true
  | [], _, _, _, k, v, h => Or.inl h
  | x :: r, m, hm, hg, k, v, h => by
    rcases legal_origin hW (perform_respects hW hm x.op) (fun y hy => hg y (by simp [hy])) (S := r) h with h | ⟨e, he, h⟩
    · have hput : ∀ k' v', mapPut W.eq m k' v' k = some v → m k = some v ∨ v' = v ∧ W.eq k k' = true := by
        intro k' v' h
        unfold mapPut at h
        split at h
        · rename_i e; cases h; exact Or.inr ⟨rfl, e⟩
        · exact Or.inl h
      have hx := hg x (by simp)
      rcases hx with hx | ⟨k', hx⟩
      · cases ho : x.op with
        | removeAll => rw [ho] at hx; exact hx.elim
        | on kind k' =>
          rw [ho] at hx h
          cases kind with
          | get => exact hx.elim
          | put => exact hx.elim
          | remove => exact hx.elim
          | intern v' =>
            simp only [perform] at h
            split at h
            · exact Or.inl h
            · exact (hput _ _ h).imp id (fun g => ⟨x, by simp, _, k', ho, Or.inl (by rw [g.1]), g.2⟩)
          | symbol v' =>
            simp only [perform] at h
            split at h
            · exact Or.inl h
            · exact (hput _ _ h).imp id (fun g => ⟨x, by simp, _, k', ho, Or.inr (by rw [g.1]), g.2⟩)
      · rw [hx] at h; exact Or.inl h
    · exact Or.inr ⟨e, by simp [he], h⟩

/-- Any number of threads intern strings (`as(<symbol>, ...)`, `make(<symbol>, ...)`) in a table that is
    used for nothing else but fetches.  Two calls with equal strings return the same symbol, whatever the
    schedule; and a call returns a symbol that a call with an equal string has offered.

    Missing from C70: calls that signal the error for tables that are too large return no symbol; and
    the table is a `<table>` with the given key test and hash codes, `case-insensitive-string-hash`
    itself is not modelled here. -/
theorem symbols_unique_partial {cfg : Cfg K V} (hW : cfg.W.Lawful) (hhash : Static cfg.W) {H : List (Event K V)}
    {s : State K V} (hrun : Run (Init cfg) (Step cfg) H s) (honly : ∀ id op, .call id op ∈ H → op.gentle)
    {a b : Nat} {ka kb : K} {kinda kindb : Kind V} {oa ob : Out V}
    (ha : .call a (.on kinda ka) ∈ H) (hb : .call b (.on kindb kb) ∈ H)
    (hia : (Op.on kinda ka : Op K V).interns) (hib : (Op.on kindb kb : Op K V).interns)
    (hra : .ret a oa ∈ H) (hrb : .ret b ob ∈ H) (hna : oa ≠ .tooLarge) (hnb : ob ≠ .tooLarge)
    (heq : cfg.W.eq ka kb = true) :
    ∃ v, oa = .value v ∧ ob = .value v ∧
      ∃ c kind kc, .call c (.on kind kc) ∈ H ∧ (kind = .intern v ∨ kind = .symbol v) ∧ cfg.W.eq ka kc = true := by
  obtain ⟨S, rid, h⟩ := sim_run hW hrun ⟨fun i hm => (honly i _ hm).elim (fun g => g) (fun ⟨k, h⟩ => nomatch h), Or.inl hhash⟩
  obtain ⟨S, hnd, hcall, hout, hret, -, hleg⟩ := h.ex.linearizable
  have hops : ∀ {id : Nat} {op op' : Op K V}, .call id op ∈ H → .call id op' ∈ H → op = op' := by
    intro id op op'; exact calls_unique hrun
  obtain ⟨ea, hea, rfl⟩ := hret a oa hra hna
  obtain ⟨eb, heb, rfl⟩ := hret b ob hrb hnb
  have hoa := hops (hcall ea hea) ha
  have hob := hops (hcall eb heb) hb
  have hg : ∀ e ∈ S, e.op.gentle := fun e he => honly _ _ (hcall e he)
  have hR : Respects cfg.W.eq (fun _ => none : K → Option V) := fun _ _ _ => rfl
  obtain ⟨v, h1, h2⟩ := legal_interns hW hR hleg hg ea hea kinda ka hoa (by rw [hoa]; exact hia)
  obtain ⟨v', h3, h4⟩ := legal_interns hW hR hleg hg eb heb kindb kb hob (by rw [hob]; exact hib)
  have hf : Respects cfg.W.eq (after cfg.W.eq (fun _ => none : K → Option V) S) := after_respects hW S hR
  rw [← hf _ _ heq, h2] at h4
  cases h4
  refine ⟨v, (hout ea hea _ hra).trans h1, (hout eb heb _ hrb).trans h3, ?_⟩
  rcases legal_origin hW hR hg h2 with h | ⟨e, he, kind, k', h5, h6, h7⟩
  · cases h
  · exact ⟨e.id, kind, k', h5 ▸ hcall e he, h6, h7⟩

/-- Three threads intern the same string at the same time; the second and the third call offer symbols
    of their own, after the first search of each has found nothing. -/
def interning : List (Act Nat Nat) :=
  .call 0 (.on (.symbol 10) 3) :: .call 1 (.on (.symbol 11) 3) :: .call 2 (.on (.intern 12) 3) ::
    steps 0 7 ++ steps 1 7 ++ steps 2 4 ++ steps 0 3 ++ .ret 0 :: steps 2 1 ++ steps 1 8 ++ steps 2 11 ++ [.ret 1, .ret 2]

/-- The history of `interning`. -/
def interningHistory : List (Event Nat Nat) :=
  [.ret 2 (.value 10), .ret 1 (.value 10), .ret 0 (.value 10), .call 2 (.on (.intern 12) 3),
   .call 1 (.on (.symbol 11) 3), .call 0 (.on (.symbol 10) 3)]

theorem interning_history : history still true interning = some interningHistory := by decide +kernel

example : ∃ v, (.value 10 : Out Nat) = .value v ∧ (.value 10 : Out Nat) = .value v ∧
    ∃ c kind kc, Event.call c (.on kind kc) ∈ interningHistory ∧ (kind = Kind.intern v ∨ kind = .symbol v) ∧
      still.eq 3 kc = true := by
  obtain ⟨s, hr⟩ := history_run interning_history
  refine symbols_unique_partial (cfg := setup still true) still_lawful static_still hr ?_ (a := 1) (b := 2) (kinda := .symbol 11)
    (kindb := .intern 12) (ka := 3) (kb := 3) (by simp [interningHistory]) (by simp [interningHistory]) trivial trivial
    (by simp [interningHistory]) (by simp [interningHistory]) (by simp) (by simp) rfl
  intro id op h
  simp only [interningHistory, List.mem_cons, reduceCtorEq, false_or, Event.call.injEq, List.not_mem_nil, or_false] at h
  rcases h with ⟨-, rfl⟩ | ⟨-, rfl⟩ | ⟨-, rfl⟩ <;> exact Or.inl trivial

end Verif.Conc
