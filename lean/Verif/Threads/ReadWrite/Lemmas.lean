import Verif.Threads.ReadWrite.Spec
import Mathlib.Data.List.Basic
/-
Invariants of the read-write lock.
-/
namespace Verif.Threads.ReadWrite
open Function (update)
open Spec
variable {T : Type} [DecidableEq T]

/-- Program points at which the thread has the inner lock. -/
def PC.inside : PC → Bool
  | .wTest _ | .tUnlock | .wUnlock _ | .rTest | .rAll | .rUnlock _ => true
  | .idle | .sleep _ | .rLock => false

/-- A claim that the abstract lock does not show: granted and not yet returned, or given up by a call and
still recorded. -/
def PC.extra : PC → Nat
  | .wUnlock _ | .rLock | .rTest => 1
  | _ => 0

/-- Exactly the holder of the inner lock is inside. -/
def Mutex (s : State T) : Prop := ∀ t, (s.pc t).inside = true ↔ s.inner = some t

theorem Mutex.only {s : State T} (h : Mutex s) {t u : T} (ht : (s.pc t).inside = true) (hu : (s.pc u).inside = true) :
    t = u := by
  have h1 := (h t).mp ht
  have h2 := (h u).mp hu
  rw [h1] at h2
  exact Option.some.inj h2

theorem Mutex.enter {s : State T} (h : Mutex s) (hn : s.inner = none) {t : T} {p : PC} (hp : p.inside = true) :
    ∀ u, (update s.pc t p u).inside = true ↔ some t = some u := by
  intro u
  by_cases hu : u = t
  · subst hu; simp [hp]
  · rw [Function.update_of_ne hu, h u, hn]
    simp [Ne.symm hu]

theorem Mutex.leave {s : State T} (h : Mutex s) {t : T} {p : PC} (ht : (s.pc t).inside = true) (hp : p.inside = false) :
    ∀ u, (update s.pc t p u).inside = true ↔ none = some u := by
  intro u
  by_cases hu : u = t
  · subst hu; simp [hp]
  · rw [Function.update_of_ne hu, h u, (h t).mp ht]
    simp [Ne.symm hu]

theorem Mutex.stay {s : State T} (h : Mutex s) {t : T} {p : PC} (hp : p.inside = (s.pc t).inside) :
    ∀ u, (update s.pc t p u).inside = true ↔ s.inner = some u := by
  intro u
  by_cases hu : u = t
  · subst hu; rw [Function.update_self, hp]; exact h u
  · rw [Function.update_of_ne hu]; exact h u

theorem step_mutex {s s' : State T} {e : Option (Event T)} (h : Mutex s) (st : Step s e s') : Mutex s' := by
  cases st with
  | wLock h1 h2 => exact h.enter h2 rfl
  | wBlock h1 h2 => exact h.leave (by rw [h1]; rfl) rfl
  | wake h1 h2 => exact h.enter h2 rfl
  | wakeTimeout h1 h2 => exact h.enter h2 rfl
  | tUnlock h1 => exact h.leave (by rw [h1]; rfl) rfl
  | grant h1 h2 => exact h.stay (by rw [h1]; rfl)
  | wUnlock h1 => exact h.leave (by rw [h1]; rfl) rfl
  | releasing h1 => exact h.stay (by rw [h1]; rfl)
  | rLock h1 h2 => exact h.enter h2 rfl
  | rWriter h1 h2 => exact h.stay (by rw [h1]; rfl)
  | rReader h1 h2 => exact h.stay (by rw [h1]; split <;> rfl)
  | rNone h1 h2 h3 => exact h.stay (by rw [h1]; rfl)
  | rAll h1 => exact h.stay (by rw [h1]; rfl)
  | rUnlock h1 => exact h.leave (by rw [h1]; rfl) rfl
  | rFail h1 => exact h.leave (by rw [h1]; rfl) rfl
  | owned h1 => exact h
  | ownedForReading h1 => exact h

theorem exec_mutex {h : List (Event T)} {s : State T} (hr : Exec h s) : Mutex s := by
  induction hr with
  | start hi =>
    obtain ⟨-, h2, h3, -⟩ := hi
    intro t
    rw [h2, h3]; simp [PC.inside]
  | tau _ st ih => exact step_mutex ih st
  | emit _ st ih => exact step_mutex ih st

/-! ### Notification -/

/-- Whoever waits and has not been notified has to wait, unless a `release-all` is about to come. -/
structure Awake (s : State T) : Prop where
  asleep : ∀ t, s.waiting t = true → ∃ m, s.pc t = .sleep m
  soon : ∀ t m, s.waiting t = true → s.pc t = .sleep m → s.state.freeFor m = true → ∃ u, s.pc u = .rAll

/-- A step of a thread that is not asleep, which does not make the lock freer. -/
theorem Awake.mono {s : State T} (h : Awake s) {t : T} {p : PC} {st : LState T} (hs : ∀ m, s.pc t ≠ .sleep m)
    (ha : s.pc t ≠ .rAll) (hfree : ∀ m, st.freeFor m = true → s.state.freeFor m = true) :
    Awake ({ s with state := st, pc := update s.pc t p } : State T) := by
  constructor
  · intro u hu
    obtain ⟨m, hm⟩ := h.asleep u hu
    have : u ≠ t := by rintro rfl; exact hs m hm
    exact ⟨m, by simp only [Function.update_of_ne this]; exact hm⟩
  · intro u m hu hm hf
    obtain ⟨m', hm'⟩ := h.asleep u hu
    have hut : u ≠ t := by rintro rfl; exact hs m' hm'
    simp only [Function.update_of_ne hut] at hm
    obtain ⟨v, hv⟩ := h.soon u m hu hm (hfree m hf)
    have : v ≠ t := by rintro rfl; exact ha hv
    exact ⟨v, by simp only [Function.update_of_ne this]; exact hv⟩

theorem Awake.inner {s : State T} {i : Option T} (h : Awake s) : Awake ({ s with inner := i } : State T) :=
  ⟨h.asleep, h.soon⟩

theorem step_awake {s s' : State T} {e : Option (Event T)} (hx : Mutex s) (h : Awake s) (st : Step s e s') : Awake s' := by
  have wakeUp : ∀ (t : T) (m : Mode) (p : PC) (i : Option T), s.pc t = .sleep m → s.inner = none →
      Awake ({ s with inner := i, pc := update s.pc t p, waiting := update s.waiting t false } : State T) := by
    intro t m p i hp hn
    constructor
    · intro u hu
      by_cases hut : u = t
      · subst hut; simp at hu
      · simp only [Function.update_of_ne hut] at hu ⊢
        exact h.asleep u hu
    · intro u m' hu hm hf
      by_cases hut : u = t
      · subst hut; simp at hu
      · simp only [Function.update_of_ne hut] at hu hm
        obtain ⟨v, hv⟩ := h.soon u m' hu hm hf
        have : (s.pc v).inside = true := by rw [hv]; rfl
        rw [hx v, hn] at this; cases this
  have toAll : ∀ (t : T) (x : LState T), s.pc t = .rTest →
      Awake ({ s with state := x, pc := update s.pc t .rAll } : State T) := by
    intro t x hp
    constructor
    · intro u hu
      obtain ⟨m, hm⟩ := h.asleep u hu
      have : u ≠ t := by rintro rfl; rw [hp] at hm; cases hm
      exact ⟨m, by simp only [Function.update_of_ne this]; exact hm⟩
    · intro u m _ _ _
      exact ⟨t, by simp⟩
  cases st with
  | @wLock t m h1 h2 =>
    exact (h.mono (p := .wTest m) (st := s.state) (by rw [h1]; simp) (by rw [h1]; simp) (fun _ h => h)).inner
  | @wBlock t m h1 h2 =>
    have h0 := h.mono (t := t) (p := .sleep m) (st := s.state) (by rw [h1]; simp) (by rw [h1]; simp) (fun _ h => h)
    constructor
    · intro u hu
      by_cases hut : u = t
      · subst hut; exact ⟨m, by simp⟩
      · simp only [Function.update_of_ne hut] at hu
        exact h0.asleep u hu
    · intro u m' hu hm hf
      by_cases hut : u = t
      · subst hut
        simp only [Function.update_self, PC.sleep.injEq] at hm
        subst hm
        rw [h2] at hf; cases hf
      · simp only [Function.update_of_ne hut] at hu
        exact h0.soon u m' hu hm hf
  | wake h1 h2 => exact wakeUp _ _ _ _ h1 h2
  | wakeTimeout h1 h2 => exact wakeUp _ _ _ _ h1 h2
  | @tUnlock t h1 =>
    exact (h.mono (st := s.state) (by rw [h1]; simp) (by rw [h1]; simp) (fun _ h => h)).inner
  | @grant t m h1 h2 =>
    refine h.mono (by rw [h1]; simp) (by rw [h1]; simp) (fun m' hf => ?_)
    cases hs : s.state with
    | reading n => cases m <;> cases m' <;> simp_all [LState.grant, LState.freeFor]
    | writing u => rw [hs] at h2; cases m <;> cases h2
  | @wUnlock t m h1 =>
    exact (h.mono (st := s.state) (by rw [h1]; simp) (by rw [h1]; simp) (fun _ h => h)).inner
  | @releasing t h1 =>
    exact h.mono (st := s.state) (by rw [h1]; simp) (by rw [h1]; simp) (fun _ h => h)
  | @rLock t h1 h2 =>
    exact (h.mono (st := s.state) (by rw [h1]; simp) (by rw [h1]; simp) (fun _ h => h)).inner
  | @rWriter t h1 h2 => exact toAll t _ h1
  | @rReader t n h1 h2 =>
    by_cases hn : n = 0
    · rw [if_pos hn]; exact toAll t _ h1
    · rw [if_neg hn]
      refine h.mono (by rw [h1]; simp) (by rw [h1]; simp) (fun m hf => ?_)
      rw [h2]
      cases m with
      | read => rfl
      | write => simp [LState.freeFor, hn] at hf
  | @rNone t h1 h2 h3 =>
    exact h.mono (st := s.state) (by rw [h1]; simp) (by rw [h1]; simp) (fun _ h => h)
  | @rAll t h1 =>
    exact ⟨fun u hu => by simp at hu, fun u m hu => by simp at hu⟩
  | @rUnlock t h1 =>
    exact (h.mono (st := s.state) (by rw [h1]; simp) (by rw [h1]; simp) (fun _ h => h)).inner
  | @rFail t h1 =>
    exact (h.mono (st := s.state) (by rw [h1]; simp) (by rw [h1]; simp) (fun _ h => h)).inner
  | owned h1 => exact h
  | ownedForReading h1 => exact h

theorem exec_awake {h : List (Event T)} {s : State T} (hr : Exec h s) : Awake s := by
  induction hr with
  | start hi =>
    obtain ⟨-, -, -, h4⟩ := hi
    exact ⟨fun u hu => absurd hu (by rw [h4]; simp), fun u m hu => absurd hu (by rw [h4]; simp)⟩
  | tau hr st ih => exact step_awake (exec_mutex hr) ih st
  | emit hr st ih => exact step_awake (exec_mutex hr) ih st

/-! ### Exclusion -/

/-- The claims of a thread: those the abstract lock shows, and one that it does not show. -/
def claims (l : Lock T) (s : State T) (t : T) : Nat :=
  l.reads t + (if l.writer = some t then 1 else 0) + (s.pc t).extra

/-- The claims and the state word. -/
def Agree (l : Lock T) (s : State T) : Prop :=
  match s.state with
  | .reading n => (∃ L : List T, L.length = n ∧ ∀ u, L.count u = claims l s u) ∧ l.writer = none ∧
      ∀ u, s.pc u ≠ .wUnlock .write
  | .writing w => claims l s w = 1 ∧ (∀ u, u ≠ w → claims l s u = 0) ∧ (∀ u, l.reads u = 0) ∧
      ∀ u, s.pc u ≠ .wUnlock .read

/-- The invariant of disciplined executions. -/
structure Inv (l : Lock T) (s : State T) : Prop where
  agree : Agree l s
  fine : ∀ t, s.pc t ≠ .rUnlock false

theorem claims_congr {l : Lock T} {s : State T} {t : T} {p : PC} {st : LState T} {i : Option T} {w : T → Bool}
    (hp : p.extra = (s.pc t).extra) (u : T) : claims l ⟨st, i, update s.pc t p, w⟩ u = claims l s u := by
  simp only [claims]
  by_cases hu : u = t
  · subst hu; simp [hp]
  · rw [Function.update_of_ne hu]

/-- A step that changes neither the state word nor the claims. -/
theorem Inv.still {l : Lock T} {s : State T} (h : Inv l s) {t : T} {p : PC} {i : Option T} {w : T → Bool}
    (hp : p.extra = (s.pc t).extra) (h1 : ∀ m, p ≠ .wUnlock m) (h2 : p ≠ .rUnlock false) :
    Inv l ⟨s.state, i, update s.pc t p, w⟩ := by
  have hpc : ∀ q : PC, (∀ u, s.pc u ≠ q) → p ≠ q → ∀ u, update s.pc t p u ≠ q := by
    intro q hq hpq u
    by_cases hu : u = t
    · subst hu; simpa using hpq
    · rw [Function.update_of_ne hu]; exact hq u
  refine ⟨?_, hpc _ h.fine h2⟩
  have ha := h.agree
  simp only [Agree] at ha ⊢
  cases hs : s.state with
  | reading n =>
    rw [hs] at ha
    obtain ⟨⟨L, hL, hc⟩, ha2, ha3⟩ := ha
    refine ⟨⟨L, hL, fun u => ?_⟩, ha2, hpc _ ha3 (h1 _)⟩
    rw [hc u, claims_congr hp]
  | writing x =>
    rw [hs] at ha
    obtain ⟨ha1, ha2, ha3, ha4⟩ := ha
    refine ⟨?_, fun u hu => ?_, ha3, hpc _ ha4 (h1 _)⟩
    · rw [claims_congr hp]; exact ha1
    · rw [claims_congr hp]; exact ha2 u hu

theorem Inv.tau {l : Lock T} {s s' : State T} (h : Inv l s) (st : Step s none s') : Inv l s' := by
  have ha := h.agree
  cases st with
  | wLock h1 h2 => exact h.still (by rw [h1]; rfl) (by simp) (by simp)
  | wBlock h1 h2 => exact h.still (by rw [h1]; rfl) (by simp) (by simp)
  | wake h1 h2 => exact h.still (by rw [h1]; rfl) (by simp) (by simp)
  | wakeTimeout h1 h2 => exact h.still (by rw [h1]; rfl) (by simp) (by simp)
  | @grant t m h1 h2 =>
    cases hs : s.state with
    | writing u => rw [hs] at h2; cases m <;> cases h2
    | reading n =>
      simp only [Agree, hs] at ha
      obtain ⟨⟨L, hL, hc⟩, ha2, ha3⟩ := ha
      have hct : claims l s t = l.reads t + (if l.writer = some t then 1 else 0) := by
        simp [claims, h1, PC.extra]
      have hct' : ∀ st : LState T, claims l { s with state := st, pc := update s.pc t (.wUnlock m) } t = claims l s t + 1 := by
        intro st; rw [hct]; simp [claims, PC.extra]
      have hcu : ∀ (st : LState T) (u : T), u ≠ t → claims l { s with state := st, pc := update s.pc t (.wUnlock m) } u = claims l s u := by
        intro st u hu; simp [claims, Function.update_of_ne hu]
      have hfine : ∀ u, update s.pc t (.wUnlock m) u ≠ .rUnlock false := by
        intro u
        by_cases hu : u = t
        · subst hu; simp
        · rw [Function.update_of_ne hu]; exact h.fine u
      refine ⟨?_, hfine⟩
      cases m with
      | write =>
        rw [hs] at h2
        have hn : n = 0 := by simpa [LState.freeFor] using h2
        have hz : ∀ u, claims l s u = 0 := by
          intro u
          rw [← hc u]
          have : L = [] := List.length_eq_zero_iff.mp (by omega)
          rw [this]; rfl
        simp only [Agree, LState.grant]
        refine ⟨by rw [hct', hz], fun u hu => by rw [hcu _ u hu, hz], fun u => ?_, fun u => ?_⟩
        · have := hz u
          simp only [claims] at this; omega
        · by_cases hu : u = t
          · subst hu; simp
          · simp only [Function.update_of_ne hu]
            intro hh
            have := hz u
            simp only [claims, hh, PC.extra] at this
            omega
      | read =>
        simp only [Agree, LState.grant]
        refine ⟨⟨t :: L, by simp [hL], fun u => ?_⟩, ha2, fun u => ?_⟩
        · by_cases hu : u = t
          · subst hu; rw [List.count_cons_self, hc, hct']
          · rw [List.count_cons_of_ne (Ne.symm hu), hc, hcu _ u hu]
        · by_cases hu : u = t
          · subst hu; simp
          · simp only [Function.update_of_ne hu]; exact ha3 u
  | rLock h1 h2 => exact h.still (by rw [h1]; rfl) (by simp) (by simp)
  | @rWriter t h1 h2 =>
    cases hs : s.state with
    | reading n => rw [hs] at h2; cases h2
    | writing w =>
      rw [hs] at h2
      have hw : w = t := by simpa [LState.lockedForWriting] using h2
      subst hw
      simp only [Agree, hs] at ha
      obtain ⟨ha1, ha2, ha3, ha4⟩ := ha
      have e1 : (if l.writer = some w then 1 else 0) = 0 ∧ l.reads w = 0 := by
        simp only [claims, h1, PC.extra] at ha1
        omega
      have hwr : l.writer = none := by
        cases hl : l.writer with
        | none => rfl
        | some u =>
          exfalso
          by_cases hu : u = w
          · subst hu; simp [hl] at e1
          · have := ha2 u hu
            simp [claims, hl] at this
      refine ⟨?_, fun u => ?_⟩
      · simp only [Agree]
        refine ⟨⟨[], rfl, fun u => ?_⟩, hwr, fun u => ?_⟩
        · by_cases hu : u = w
          · subst hu; simp [claims, hwr, e1.2, PC.extra]
          · have := ha2 u hu
            simp only [claims] at this
            simp [claims, Function.update_of_ne hu, hwr]; omega
        · by_cases hu : u = w
          · subst hu; simp
          · simp only [Function.update_of_ne hu]
            intro hh
            have := ha2 u hu
            simp only [claims, hh, PC.extra] at this
            omega
      · by_cases hu : u = w
        · subst hu; simp
        · simp only [Function.update_of_ne hu]; exact h.fine u
  | @rReader t n h1 h2 =>
    simp only [Agree, h2] at ha
    obtain ⟨⟨L, hL, hc⟩, ha2, ha3⟩ := ha
    have hq : ∀ u, update s.pc t (if n = 0 then PC.rAll else PC.rUnlock true) u ≠ .rUnlock false := by
      intro u
      by_cases hu : u = t
      · subst hu; rw [Function.update_self]; split <;> simp
      · rw [Function.update_of_ne hu]; exact h.fine u
    refine ⟨?_, hq⟩
    simp only [Agree]
    have hct : 0 < L.count t := by rw [hc]; simp [claims, h1, PC.extra]
    have hmem : t ∈ L := List.count_pos_iff.mp hct
    refine ⟨⟨L.erase t, by rw [List.length_erase_of_mem hmem]; omega, fun u => ?_⟩, ha2, fun u => ?_⟩
    · by_cases hu : u = t
      · subst hu
        rw [List.count_erase_self, hc]
        have : (if n = 0 then PC.rAll else PC.rUnlock true).extra = 0 := by split <;> rfl
        simp only [claims, h1, Function.update_self, this]
        simp [PC.extra]
      · rw [List.count_erase_of_ne (Ne.symm hu).symm, hc]
        simp [claims, Function.update_of_ne hu]
    · by_cases hu : u = t
      · subst hu; rw [Function.update_self]; split <;> simp
      · rw [Function.update_of_ne hu]; exact ha3 u
  | @rNone t h1 h2 h3 =>
    exfalso
    cases hs : s.state with
    | reading n =>
      simp only [Agree, hs] at ha
      obtain ⟨⟨L, hL, hc⟩, ha2, ha3⟩ := ha
      have hct : 0 < L.count t := by rw [hc]; simp [claims, h1, PC.extra]
      have hmem : t ∈ L := List.count_pos_iff.mp hct
      have := List.length_pos_of_mem hmem
      rw [hs] at h3
      simp [LState.lockedForReading] at h3
      omega
    | writing w =>
      simp only [Agree, hs] at ha
      rw [hs] at h2
      have hw : w ≠ t := by simpa [LState.lockedForWriting] using h2
      have := ha.2.1 t (Ne.symm hw)
      simp [claims, h1, PC.extra] at this
  | rAll h1 => exact h.still (by rw [h1]; rfl) (by simp) (by simp)

theorem Inv.outstanding {h : List (Event T)} {l : Lock T} (ha : After h l) (t : T) :
    outstanding t h = (l.reads t : Int) + (if l.writer = some t then 1 else 0) := by
  induction ha with
  | new => simp [Spec.outstanding]
  | @write h l u _ h1 h2 ih =>
    simp only [Spec.outstanding, ih, h1, h2]
    by_cases hu : u = t <;> simp [hu]
  | @read h l u _ h1 ih =>
    simp only [Spec.outstanding, ih, h1]
    by_cases hu : u = t
    · subst hu; simp
    · simp [hu, Function.update_of_ne (Ne.symm hu)]
  | @endWrite h l u _ h1 ih =>
    simp only [Spec.outstanding, ih, h1]
    by_cases hu : u = t <;> simp [hu]
  | @endRead h l u _ h1 ih =>
    simp only [Spec.outstanding, ih]
    by_cases hu : u = t
    · subst hu
      simp only [Function.update_self, if_true]
      split <;> omega
    · simp [hu, Function.update_of_ne (Ne.symm hu)]
  | released _ ih => exact ih
  | timedOut _ ih => exact ih
  | owned _ _ ih => exact ih
  | ownedForReading _ ih => exact ih

theorem Inv.emit {h : List (Event T)} {l : Lock T} {s s' : State T} {e : Event T} (hl : After h l) (hi : Inv l s)
    (hd : Disciplined (e :: h)) (st : Step s (some e) s') : ∃ l', After (e :: h) l' ∧ Inv l' s' := by
  have ha := hi.agree
  cases st with
  | tUnlock h1 => exact ⟨l, .timedOut hl, hi.still (by rw [h1]; rfl) (by simp) (by simp)⟩
  | @wUnlock t m h1 =>
    have hfine : ∀ u, update s.pc t .idle u ≠ .rUnlock false := by
      intro u
      by_cases hu : u = t
      · subst hu; simp
      · rw [Function.update_of_ne hu]; exact hi.fine u
    have hnw : ∀ (q : PC) , (∀ u, u ≠ t → s.pc u ≠ q) → q ≠ .idle → ∀ u, update s.pc t .idle u ≠ q := by
      intro q hq hqi u
      by_cases hu : u = t
      · subst hu; rw [Function.update_self]; exact Ne.symm hqi
      · rw [Function.update_of_ne hu]; exact hq u hu
    cases m with
    | write =>
      cases hs : s.state with
      | reading n =>
        simp only [Agree, hs] at ha
        exact absurd h1 (ha.2.2 t)
      | writing w =>
        simp only [Agree, hs] at ha
        obtain ⟨ha1, ha2, ha3, ha4⟩ := ha
        have hw : w = t := by
          by_contra hne
          have := ha2 t (Ne.symm hne)
          simp [claims, h1, PC.extra] at this
        subst hw
        have hwr : l.writer = none := by
          cases hlw : l.writer with
          | none => rfl
          | some u =>
            exfalso
            by_cases hu : u = w
            · subst hu
              simp [claims, h1, PC.extra, hlw] at ha1
            · have := ha2 u hu
              simp [claims, hlw] at this
        refine ⟨_, .write hl hwr ha3, ?_, hfine⟩
        simp only [Agree, hs]
        refine ⟨by simp [claims, ha3, PC.extra], fun u hu => ?_, ha3, hnw _ (fun u _ => ha4 u) (by simp)⟩
        have := ha2 u hu
        simp only [claims] at this ⊢
        simp only [Function.update_of_ne hu]
        have : ¬ (some w = some u) := by simp [Ne.symm hu]
        simp only [if_neg this]
        omega
    | read =>
      cases hs : s.state with
      | writing w =>
        simp only [Agree, hs] at ha
        exact absurd h1 (ha.2.2.2 t)
      | reading n =>
        simp only [Agree, hs] at ha
        obtain ⟨⟨L, hL, hc⟩, ha2, ha3⟩ := ha
        refine ⟨_, .read hl ha2, ?_, hfine⟩
        simp only [Agree, hs]
        refine ⟨⟨L, hL, fun u => ?_⟩, ha2, hnw _ (fun u _ => ha3 u) (by simp)⟩
        rw [hc]
        by_cases hu : u = t
        · subst hu; simp [claims, h1, PC.extra, ha2]
        · simp [claims, Function.update_of_ne hu]
  | @releasing t h1 =>
    have hout := hd.1
    rw [Inv.outstanding hl t] at hout
    have hfine : ∀ u, update s.pc t .rLock u ≠ .rUnlock false := by
      intro u
      by_cases hu : u = t
      · subst hu; simp
      · rw [Function.update_of_ne hu]; exact hi.fine u
    have hnw : ∀ (q : PC) , (∀ u, s.pc u ≠ q) → q ≠ .rLock → ∀ u, update s.pc t .rLock u ≠ q := by
      intro q hq hqi u
      by_cases hu : u = t
      · subst hu; rw [Function.update_self]; exact Ne.symm hqi
      · rw [Function.update_of_ne hu]; exact hq u
    by_cases hw : l.writer = some t
    · refine ⟨_, .endWrite hl hw, ?_, hfine⟩
      cases hs : s.state with
      | reading n =>
        simp only [Agree, hs] at ha
        rw [ha.2.1] at hw; cases hw
      | writing w =>
        simp only [Agree, hs] at ha ⊢
        obtain ⟨ha1, ha2, ha3, ha4⟩ := ha
        have hcl : ∀ u, claims { l with writer := none } { s with pc := update s.pc t .rLock } u = claims l s u := by
          intro u
          by_cases hu : u = t
          · subst hu; simp [claims, hw, h1, PC.extra]
          · simp [claims, hw, Function.update_of_ne hu, Ne.symm hu]
        refine ⟨?_, fun u hu => ?_, ha3, hnw _ ha4 (by simp)⟩
        · exact (hcl w).trans ha1
        · exact (hcl u).trans (ha2 u hu)
    · rw [if_neg hw] at hout
      have hpos : 0 < l.reads t := by omega
      refine ⟨_, .endRead hl hpos, ?_, hfine⟩
      have hcl : ∀ u, claims { l with reads := update l.reads t (l.reads t - 1) } { s with pc := update s.pc t .rLock } u = claims l s u := by
        intro u
        by_cases hu : u = t
        · subst hu; simp [claims, h1, PC.extra]; omega
        · simp [claims, Function.update_of_ne hu]
      cases hs : s.state with
      | writing w =>
        simp only [Agree, hs] at ha
        have := ha.2.2.1 t
        omega
      | reading n =>
        simp only [Agree, hs] at ha ⊢
        obtain ⟨⟨L, hL, hc⟩, ha2, ha3⟩ := ha
        exact ⟨⟨L, hL, fun u => (hc u).trans (hcl u).symm⟩, ha2, hnw _ ha3 (by simp)⟩
  | rUnlock h1 => exact ⟨l, .released hl, hi.still (by rw [h1]; rfl) (by simp) (by simp)⟩
  | @rFail t h1 => exact absurd h1 (hi.fine t)
  | @owned t h1 =>
    refine ⟨l, .owned hl ?_, hi⟩
    cases hs : s.state with
    | reading n =>
      simp only [Agree, hs] at ha
      simp [LState.lockedForWriting, ha.2.1]
    | writing w =>
      simp only [Agree, hs] at ha
      simp only [LState.lockedForWriting, decide_eq_true_eq]
      constructor
      · rintro rfl
        have := ha.1
        by_contra hne
        simp [claims, ha.2.2.1, h1, PC.extra, hne] at this
      · intro hw
        by_contra hne
        have := ha.2.1 t (Ne.symm hne)
        simp [claims, hw] at this
  | ownedForReading h1 => exact ⟨l, .ownedForReading hl, hi⟩

theorem exec_inv {h : List (Event T)} {s : State T} (hr : Exec h s) (hd : Disciplined h) :
    ∃ l, After h l ∧ Inv l s := by
  induction hr with
  | start hi =>
    obtain ⟨h1, -, h3, -⟩ := hi
    refine ⟨_, .new, ?_, fun t => by rw [h3]; simp⟩
    simp only [Agree, h1]
    exact ⟨⟨[], rfl, fun u => by simp [claims, h3, PC.extra]⟩, trivial, fun u => by rw [h3]; simp⟩
  | tau _ st ih =>
    obtain ⟨l, hl, hi⟩ := ih hd
    exact ⟨l, hl, hi.tau st⟩
  | @emit h s e s' _ st ih =>
    have hd' : Disciplined h := by
      cases e with
      | releasing t => exact hd.2
      | _ => exact hd
    obtain ⟨l, hl, hi⟩ := ih hd'
    exact Inv.emit hl hi hd st

/-! ### The documented lock -/

/-- The documented lock of a state word. -/
def LState.doc : LState T → Doc T
  | .reading n => .count n
  | .writing t => .owner t

/-- The effect of a release. -/
def Released (t : T) (d d' : LState T) : Prop :=
  (d = .writing t ∧ d' = .reading 0) ∨ ∃ n, d = .reading (n + 1) ∧ d' = .reading n

/-- The state word seen by the thread with the inner lock, `d` being the lock as the API shows it. -/
def Seen (d st : LState T) (t : T) : PC → Prop
  | .wUnlock m => d.freeFor m = true ∧ st = d.grant t m
  | .rAll | .rUnlock true => Released t d st
  | .rUnlock false => st = d ∧ d.lockedForWriting t = false ∧ d.lockedForReading = false
  | _ => st = d

/-- The state word and the lock as the API shows it. -/
def Tracks (d : LState T) (s : State T) : Prop :=
  match s.inner with
  | none => s.state = d
  | some t => Seen d s.state t (s.pc t)

theorem Tracks.tau {d : LState T} {s s' : State T} (hx : Mutex s) (h : Tracks d s) (st : Step s none s') : Tracks d s' := by
  have inn : ∀ t, (s.pc t).inside = true → s.inner = some t := fun t => (hx t).mp
  cases st with
  | wLock h1 h2 => simp only [Tracks, h2] at h; simp [Tracks, Seen, h]
  | @wBlock t m h1 h2 =>
    simp only [Tracks, inn t (by rw [h1]; rfl), h1, Seen] at h
    simp [Tracks, h]
  | wake h1 h2 => simp only [Tracks, h2] at h; simp [Tracks, Seen, h]
  | wakeTimeout h1 h2 => simp only [Tracks, h2] at h; simp [Tracks, Seen, h]
  | @grant t m h1 h2 =>
    have hi := inn t (by rw [h1]; rfl)
    simp only [Tracks, hi, h1, Seen] at h
    simp only [Tracks, hi, Function.update_self, Seen]
    rw [← h]; exact ⟨h2, rfl⟩
  | rLock h1 h2 => simp only [Tracks, h2] at h; simp [Tracks, Seen, h]
  | @rWriter t h1 h2 =>
    have hi := inn t (by rw [h1]; rfl)
    simp only [Tracks, hi, h1, Seen] at h
    simp only [Tracks, hi, Function.update_self, Seen]
    left
    rw [← h]
    cases hs : s.state with
    | reading n => rw [hs] at h2; cases h2
    | writing w => rw [hs] at h2; simp only [LState.lockedForWriting, decide_eq_true_eq] at h2; simp [h2]
  | @rReader t n h1 h2 =>
    have hi := inn t (by rw [h1]; rfl)
    simp only [Tracks, hi, h1, Seen] at h
    simp only [Tracks, hi, Function.update_self]
    have hrel : Released t d (.reading n) := Or.inr ⟨n, by rw [← h, h2], rfl⟩
    split
    · exact hrel
    · exact hrel
  | @rNone t h1 h2 h3 =>
    have hi := inn t (by rw [h1]; rfl)
    simp only [Tracks, hi, h1, Seen] at h
    simp only [Tracks, hi, Function.update_self, Seen]
    rw [← h]; exact ⟨rfl, h2, h3⟩
  | @rAll t h1 =>
    have hi := inn t (by rw [h1]; rfl)
    simp only [Tracks, hi, h1, Seen] at h
    simp only [Tracks, hi, Function.update_self, Seen]
    exact h

theorem Tracks.emit {h : List (Event T)} {d : LState T} {s s' : State T} {e : Event T} (hx : Mutex s)
    (hd : DocAfter h d.doc) (hk : Tracks d s) (st : Step s (some e) s') :
    ∃ d' : LState T, DocAfter (e :: h) d'.doc ∧ Tracks d' s' := by
  have inn : ∀ t, (s.pc t).inside = true → s.inner = some t := fun t => (hx t).mp
  have out : ∀ t, s.pc t = .idle → s.inner ≠ some t := by
    intro t ht hi
    have := (hx t).mpr hi
    rw [ht] at this; cases this
  cases st with
  | @tUnlock t h1 =>
    simp only [Tracks, inn t (by rw [h1]; rfl), h1, Seen] at hk
    exact ⟨d, .timedOut hd, by simp [Tracks, hk]⟩
  | @wUnlock t m h1 =>
    simp only [Tracks, inn t (by rw [h1]; rfl), h1, Seen] at hk
    obtain ⟨k1, k2⟩ := hk
    refine ⟨d.grant t m, ?_, by simp [Tracks, k2]⟩
    cases d with
    | writing u => cases m <;> cases k1
    | reading n =>
      cases m with
      | read => exact .read hd
      | write =>
        have : n = 0 := by simpa [LState.freeFor] using k1
        subst this
        exact .write hd
  | @releasing t h1 =>
    refine ⟨d, .releasing hd, ?_⟩
    simp only [Tracks] at hk ⊢
    cases hi : s.inner with
    | none => rw [hi] at hk; exact hk
    | some u =>
      rw [hi] at hk
      have : u ≠ t := by rintro rfl; exact out _ h1 hi
      simpa [Function.update_of_ne this] using hk
  | @rUnlock t h1 =>
    simp only [Tracks, inn t (by rw [h1]; rfl), h1, Seen] at hk
    refine ⟨s.state, ?_, by simp [Tracks]⟩
    rcases hk with ⟨rfl, k2⟩ | ⟨n, rfl, k2⟩
    · rw [k2]; exact .freed hd
    · rw [k2]; exact .lowered hd
  | @rFail t h1 =>
    simp only [Tracks, inn t (by rw [h1]; rfl), h1, Seen] at hk
    obtain ⟨k1, k2, k3⟩ := hk
    refine ⟨d, ?_, by simp [Tracks, k1]⟩
    cases d with
    | reading n =>
      have : n = 0 := by simpa [LState.lockedForReading] using k3
      subst this
      exact .free hd
    | writing u => exact .foreign hd (by simpa [LState.lockedForWriting] using k2)
  | @owned t h1 =>
    have key : s.state.lockedForWriting t = d.lockedForWriting t := by
      simp only [Tracks] at hk
      cases hi : s.inner with
      | none => rw [hi] at hk; simp only at hk; rw [hk]
      | some u =>
        rw [hi] at hk
        have hne : u ≠ t := by rintro rfl; exact out _ h1 hi
        simp only at hk
        have hin := (hx u).mpr hi
        cases hp : s.pc u with
        | wUnlock m =>
          rw [hp] at hk
          obtain ⟨k1, k2⟩ := hk
          rw [k2]
          cases d with
          | writing w => cases m <;> cases k1
          | reading n => cases m <;> simp [LState.grant, LState.lockedForWriting, hne]
        | rAll =>
          rw [hp] at hk
          rcases hk with ⟨rfl, k2⟩ | ⟨n, rfl, k2⟩ <;> rw [k2] <;> simp [LState.lockedForWriting, hne]
        | rUnlock ok =>
          rw [hp] at hk
          cases ok with
          | true =>
            rcases hk with ⟨rfl, k2⟩ | ⟨n, rfl, k2⟩ <;> rw [k2] <;> simp [LState.lockedForWriting, hne]
          | false => rw [hk.1]
        | wTest m => rw [hp] at hk; rw [show s.state = d from hk]
        | tUnlock => rw [hp] at hk; rw [show s.state = d from hk]
        | rTest => rw [hp] at hk; rw [show s.state = d from hk]
        | idle => rw [hp] at hin; cases hin
        | sleep m => rw [hp] at hin; cases hin
        | rLock => rw [hp] at hin; cases hin
    refine ⟨d, ?_, hk⟩
    rw [key]
    cases d with
    | reading n => exact .ownsNot hd (by simp [LState.doc])
    | writing w =>
      by_cases hw : w = t
      · subst hw
        simp only [LState.lockedForWriting, decide_true]
        exact .owns hd
      · simp only [LState.lockedForWriting, hw, decide_false]
        exact .ownsNot hd (by simp [LState.doc, hw])
  | ownedForReading h1 => exact ⟨d, .ownedForReading hd, hk⟩

theorem exec_tracks {h : List (Event T)} {s : State T} (hr : Exec h s) :
    ∃ d : LState T, DocAfter h d.doc ∧ Tracks d s := by
  induction hr with
  | start hi =>
    obtain ⟨h1, h2, -, -⟩ := hi
    exact ⟨.reading 0, .new, by simp [Tracks, h2, h1]⟩
  | tau hr st ih =>
    obtain ⟨d, hd, hk⟩ := ih
    exact ⟨d, hd, hk.tau (exec_mutex hr) st⟩
  | emit hr st ih =>
    obtain ⟨d, hd, hk⟩ := ih
    exact Tracks.emit (exec_mutex hr) hd hk st

end Verif.Threads.ReadWrite
