import Verif.Threads.Tlv.Values
/-
C28: thread variables.  The number of threads must be below two million, the bias with which the code
marks a growth (`TLV_GROW`).  The theorems hold of the code in which a thread's vector is removed under
the list lock (`unsync = false`); the code as it is does not take the lock, and the last theorem shows
the access to a removed vector that this allows.
-/
namespace Verif.Threads.Tlv
open Spec
variable {T V : Type} [DecidableEq T] [Fintype T]

private structure Inv (h : List (Event T V)) (s : State T V) : Prop where
  sync : Sync s
  mem : Mem s
  size : Size s
  val : Val h s
  reads : ReadsExact h

private theorem inv_step (hT : Fintype.card T < 2000000) {h : List (Event T V)} {s s' : State T V}
    {e : Option (Event T V)} (hi : Inv h s) (st : Step false s e s') : Inv (push e h) s' := by
  obtain ⟨h1, h2, h3, h4, h5⟩ := hi
  refine ⟨sync_step hT h1 st, mem_step h1 h2 st, size_step h1 h2 h3 st, val_step h1 h2 h3 h4 st, ?_⟩
  cases st with
  | @rRead t off a v g1 g2 =>
    refine ⟨?_, h5⟩
    rw [g2]
    exact h4.reader t off a (by rw [g1]; rfl)
  | wDone => exact h5
  | aUnlock => exact h5
  | _ => exact h5

private theorem exec_inv (hT : Fintype.card T < 2000000) {h : List (Event T V)} {s : State T V}
    (hr : Exec false h s) : Inv h s := by
  induction hr with
  | start h => exact ⟨sync_init h, mem_init h, size_init h, val_init h, trivial⟩
  | tau _ st ih => exact inv_step hT ih st
  | emit _ st ih => exact inv_step hT ih st

/-- C28: in every execution, whatever the interleaving of allocations (with growth of the vectors),
writes, reads, and thread starts and ends, every read of a thread variable returns the value the thread
wrote last, or the default value if it did not write the variable. -/
theorem tlv_reads_exact_partial (hT : Fintype.card T < 2000000) {h : List (Event T V)}
    {s : State T V} (hr : Exec false h s) : ReadsExact h :=
  (exec_inv hT hr).reads

/-- C28: no allocation returns a variable that was allocated before. -/
theorem tlv_allocation_fresh_partial (hT : Fintype.card T < 2000000) {h : List (Event T V)} {t : T}
    {off : Nat} {v : V} {s : State T V} (hr : Exec false (.allocated t off v :: h) s) :
    ∀ u w, Event.allocated u off w ∉ h := by
  have key : defaultValue off h = none := by
    generalize he : Event.allocated t off v :: h = h' at hr
    induction hr with
    | start _ => cases he
    | tau _ _ ih => exact ih he
    | emit hr st _ =>
      obtain ⟨rfl, rfl⟩ := List.cons.inj he
      have hi := exec_inv hT hr
      cases st with
      | aUnlock g1 =>
        have hn := (hi.size.offTaken t off (by rw [g1]; rfl)).2
        rw [hi.val.dom] at hn
        exact not_not.mp hn
  clear hr
  intro u w hm
  induction h with
  | nil => cases hm
  | cons e h ih =>
    cases e with
    | allocated u' o w' =>
      by_cases ho : o = off
      · simp [defaultValue, ho] at key
      · simp only [defaultValue, ho, if_false] at key
        rcases List.mem_cons.mp hm with hm | hm
        · cases hm; exact ho rfl
        · exact ih key hm
    | wrote u' o w' =>
      rcases List.mem_cons.mp hm with hm | hm
      · cases hm
      · exact ih key hm
    | read u' o w' =>
      rcases List.mem_cons.mp hm with hm | hm
      · cases hm
      · exact ih key hm

/-- C28: no access to a vector of thread variables is out of bounds, or to the vector of a thread that
has ended. -/
theorem tlv_in_bounds_partial (hT : Fintype.card T < 2000000) {h : List (Event T V)} {s : State T V}
    (hr : Exec false h s) : AccessesInBounds s := by
  obtain ⟨hy, hm, hz, -, -⟩ := exec_inv hT hr
  refine ⟨?_, ?_, ?_, ?_, ?_⟩
  · intro t off v a hp
    exact hz.vec t a off (hm.writer t off v a hp) (hz.tgt t off (by rw [hp]; rfl))
  · intro t off a hp
    exact hz.reader t off a hp
  · intro t off v hp
    have ho := (hz.offTaken t off (by rw [hp]; rfl)).1
    have hl := hy.lock t (by rw [hp]; trivial)
    have := hz.offLarge (by
      intro g hg
      have := hy.lock g (small_holding hg)
      rw [hl] at this; cases this
      rw [hp] at hg; exact hg)
    exact Nat.lt_of_lt_of_le ho this
  · intro t off v u rest hp
    obtain ⟨a, ha⟩ := Option.ne_none_iff_exists'.mp (hm.todo t u (by rw [hp]; simp))
    refine ⟨a, ha, ?_⟩
    have ho := (hz.offTaken t off (by rw [hp]; rfl)).1
    have hl := hy.lock t (by rw [hp]; trivial)
    have h1 := hz.offLarge (by
      intro g hg
      have := hy.lock g (small_holding hg)
      rw [hl] at this; cases this
      rw [hp] at hg; exact hg)
    have h2 := hz.eq u a ha (by
      intro g hg
      have := hy.lock g (pend_holding hg)
      rw [hl] at this; cases this
      rw [hp] at hg; simp at hg)
    rw [Within, h2]
    exact Nat.lt_of_lt_of_le ho h1
  · intro t off v u rest hp
    obtain ⟨a, ha⟩ := Option.ne_none_iff_exists'.mp (hm.todo t u (by rw [hp]; simp))
    exact ⟨a, ha, hz.le u a ha⟩

private def s0 : State Bool Nat :=
  ⟨0, none, 2, 0, [], fun _ => ⟨20, fun _ => 0⟩, 1, fun _ => none, [], fun _ => .fresh⟩

private theorem s0_init : init Bool Nat s0 :=
  ⟨rfl, rfl, rfl, rfl, rfl, by decide, fun _ => rfl, rfl, fun _ => rfl⟩

private def a1 : State Bool Nat :=
  { s0 with heap := Function.update s0.heap s0.next ((s0.heap s0.default).copyTo (s0.heap s0.default).size 0), next := s0.next + 1, teb := Function.update s0.teb true (some s0.next), list := true :: s0.list, pc := Function.update s0.pc true .idle }

private theorem ra1 : Exec false [] a1 :=
  .tau (.start s0_init) (Step.start (s := s0) (t := true) (filler := 0) rfl rfl)

private def a2 : State Bool Nat :=
  { a1 with lock := some true, pc := Function.update a1.pc true (.aOffset 7) }

private theorem ra2 : Exec false [] a2 :=
  .tau (ra1) (Step.aLock (s := a1) (t := true) (v := 7) rfl rfl)

private def a3 : State Bool Nat :=
  { a2 with offset := a2.offset + 1, pc := Function.update a2.pc true (.aDefault 2 7) }

private theorem ra3 : Exec false [] a3 :=
  .tau (ra2) (Step.aOffset (s := a2) (t := true) rfl (by decide))

private def a4 : State Bool Nat :=
  { a3 with heap := Function.update a3.heap a3.default { a3.heap a3.default with data := Function.update (a3.heap a3.default).data 2 7 }, pc := Function.update a3.pc true (.aUpdate 2 7 [true]) }

private theorem ra4 : Exec false [] a4 :=
  .tau (ra3) (Step.aDefault (s := a3) (t := true) rfl)

private def a5 : State Bool Nat :=
  { a4 with heap := Function.update a4.heap 1 { a4.heap 1 with data := Function.update (a4.heap 1).data 2 7 }, pc := Function.update a4.pc true (.aUpdate 2 7 []) }

private theorem ra5 : Exec false [] a5 :=
  .tau (ra4) (Step.aUpdate (s := a4) (t := true) (u := true) rfl rfl)

private def a6 : State Bool Nat :=
  { a5 with pc := Function.update a5.pc true (.aUnlock 2 7) }

private theorem ra6 : Exec false [] a6 :=
  .tau (ra5) (Step.aEnd (s := a5) (t := true) rfl)

private def a7 : State Bool Nat :=
  { a6 with lock := none, handles := 2 :: a6.handles, pc := Function.update a6.pc true .idle }

private theorem ra7 : Exec false [.allocated true 2 7] a7 :=
  .emit (ra6) (Step.aUnlock (s := a6) (t := true) rfl)

private def a8 : State Bool Nat :=
  { a7 with pc := Function.update a7.pc true (.wInc 2 8) }

private theorem ra8 : Exec false [.allocated true 2 7] a8 :=
  .tau (ra7) (Step.write (s := a7) (t := true) (off := 2) (v := 8) rfl (by decide))

private def a9 : State Bool Nat :=
  { a8 with counter := a8.counter + 1, pc := Function.update a8.pc true (.wLoad 2 8) }

private theorem ra9 : Exec false [.allocated true 2 7] a9 :=
  .tau (ra8) (Step.wIncPos (s := a8) (t := true) rfl (by decide))

private def a10 : State Bool Nat :=
  { a9 with pc := Function.update a9.pc true (.wStore 2 8 1) }

private theorem ra10 : Exec false [.allocated true 2 7] a10 :=
  .tau (ra9) (Step.wLoad (s := a9) (t := true) rfl rfl)

private def a11 : State Bool Nat :=
  { a10 with heap := Function.update a10.heap 1 { a10.heap 1 with data := Function.update (a10.heap 1).data 2 8 }, pc := Function.update a10.pc true (.wDone 2 8) }

private theorem ra11 : Exec false [.allocated true 2 7] a11 :=
  .tau (ra10) (Step.wStore (s := a10) (t := true) rfl)

private def a12 : State Bool Nat :=
  { a11 with counter := a11.counter - 1, pc := Function.update a11.pc true .idle }

private theorem ra12 : Exec false [.wrote true 2 8, .allocated true 2 7] a12 :=
  .emit (ra11) (Step.wDone (s := a11) (t := true) rfl)

private def a13 : State Bool Nat :=
  { a12 with heap := Function.update a12.heap a12.next ((a12.heap a12.default).copyTo (a12.heap a12.default).size 0), next := a12.next + 1, teb := Function.update a12.teb false (some a12.next), list := false :: a12.list, pc := Function.update a12.pc false .idle }

private theorem ra13 : Exec false [.wrote true 2 8, .allocated true 2 7] a13 :=
  .tau (ra12) (Step.start (s := a12) (t := false) (filler := 0) rfl rfl)

private def a14 : State Bool Nat :=
  { a13 with pc := Function.update a13.pc false (.rRead 2 2) }

private theorem ra14 : Exec false [.wrote true 2 8, .allocated true 2 7] a14 :=
  .tau (ra13) (Step.rLoad (s := a13) (t := false) (off := 2) rfl (by decide) rfl)

private def a15 : State Bool Nat :=
  { a14 with pc := Function.update a14.pc false .idle }

private theorem ra15 : Exec false [.read false 2 7, .wrote true 2 8, .allocated true 2 7] a15 :=
  .emit (ra14) (Step.rRead (s := a14) (t := false) rfl rfl)

private def a16 : State Bool Nat :=
  { a15 with pc := Function.update a15.pc true (.rRead 2 1) }

private theorem ra16 : Exec false [.read false 2 7, .wrote true 2 8, .allocated true 2 7] a16 :=
  .tau (ra15) (Step.rLoad (s := a15) (t := true) (off := 2) rfl (by decide) rfl)

private def a17 : State Bool Nat :=
  { a16 with pc := Function.update a16.pc true .idle }

private theorem ra17 : Exec false [.read true 2 8, .read false 2 7, .wrote true 2 8, .allocated true 2 7] a17 :=
  .emit (ra16) (Step.rRead (s := a16) (t := true) rfl rfl)

/-- A run in which one thread allocates a variable with default value 7 and writes 8 to it, and another
thread, started afterwards, reads 7, while the first reads 8. -/
example : ∃ s, Exec (T := Bool) (V := Nat) false
    [.read true 2 8, .read false 2 7, .wrote true 2 8, .allocated true 2 7] s ∧
    Fintype.card Bool < 2000000 := ⟨a17, ra17, by decide⟩

private def b1 : State Bool Nat :=
  { s0 with heap := Function.update s0.heap s0.next ((s0.heap s0.default).copyTo (s0.heap s0.default).size 0), next := s0.next + 1, teb := Function.update s0.teb true (some s0.next), list := true :: s0.list, pc := Function.update s0.pc true .idle }

private theorem rb1 : Exec true [] b1 :=
  .tau (.start s0_init) (Step.start (s := s0) (t := true) (filler := 0) rfl rfl)

private def b2 : State Bool Nat :=
  { b1 with heap := Function.update b1.heap b1.next ((b1.heap b1.default).copyTo (b1.heap b1.default).size 0), next := b1.next + 1, teb := Function.update b1.teb false (some b1.next), list := false :: b1.list, pc := Function.update b1.pc false .idle }

private theorem rb2 : Exec true [] b2 :=
  .tau (rb1) (Step.start (s := b1) (t := false) (filler := 0) rfl rfl)

private def b3 : State Bool Nat :=
  { b2 with lock := some true, pc := Function.update b2.pc true (.aOffset 7) }

private theorem rb3 : Exec true [] b3 :=
  .tau (rb2) (Step.aLock (s := b2) (t := true) (v := 7) rfl rfl)

private def b4 : State Bool Nat :=
  { b3 with offset := b3.offset + 1, pc := Function.update b3.pc true (.aDefault 2 7) }

private theorem rb4 : Exec true [] b4 :=
  .tau (rb3) (Step.aOffset (s := b3) (t := true) rfl (by decide))

private def b5 : State Bool Nat :=
  { b4 with heap := Function.update b4.heap b4.default { b4.heap b4.default with data := Function.update (b4.heap b4.default).data 2 7 }, pc := Function.update b4.pc true (.aUpdate 2 7 [false, true]) }

private theorem rb5 : Exec true [] b5 :=
  .tau (rb4) (Step.aDefault (s := b4) (t := true) rfl)

private def b6 : State Bool Nat :=
  { b5 with list := b5.list.erase false, teb := Function.update b5.teb false none, pc := Function.update b5.pc false .exited }

private theorem rb6 : Exec true [] b6 :=
  .tau (rb5) (Step.exit (s := b5) (t := false) rfl (.inr rfl))

/-- C28 fails in the code as it is: a thread can end, and its vector be removed and freed, after another
thread that allocates a variable has found it on the list and before it stores into its vector. -/
theorem tlv_removed_vector_violated :
    ∃ s, Exec (T := Bool) (V := Nat) true [] s ∧
      s.pc true = .aUpdate 2 7 [false, true] ∧ s.pc false = .exited ∧ s.teb false = none :=
  ⟨b6, rb6, rfl, rfl, rfl⟩

end Verif.Threads.Tlv
