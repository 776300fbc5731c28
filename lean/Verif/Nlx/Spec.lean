import Verif.Nlx.Model

/-!
# What exits and cleanup clauses mean

The meaning of a program, with no frames, no jumps and no memory.  An exit ends
everything up to its block, whose value is then the values of the exit.  On the
way every cleanup clause is run.  A cleanup clause that itself exits takes the
place of what was under way.
-/

namespace Verif.Nlx

/-- How a piece of program ends: with values, on the way to a block with
values, or by calling the exit procedure of a block that is over. -/
inductive Res where
  | normal (vs : Vals)
  | exiting (h : Handle) (vs : Vals)
  | invalid
deriving DecidableEq, Repr

/-- The end of a piece of program, what happened up to there, and the number
for the next block. -/
structure SRes where
  out : Res
  tr : List Event
  next : Nat
deriving DecidableEq, Repr

/-- A block ends with the values of its body or of an exit to it. -/
def arrive (h : Handle) : Res → Res
  | .exiting h' vs => if h' = h then .normal vs else .exiting h' vs
  | o => o

/-- After a cleanup clause that ends normally, what was under way goes on.
Otherwise the end of the cleanup clause counts. -/
def resume (body cl : Res) : Res :=
  match cl with
  | .normal _ => body
  | o => o

/-- Go on after a block, if it ended normally. -/
def SRes.andThen (r : SRes) (k : Vals → List Event → Nat → SRes) : SRes :=
  match r.out with
  | .normal vs => k vs r.tr r.next
  | _ => r

/-- Run the cleanup clause of block `u`, unless the body did something that has
no meaning. -/
def SRes.cleanup (u : Nat) (r : SRes) (cl : List Event → Nat → SRes) : SRes :=
  match r.out with
  | .invalid => r
  | o =>
    let c := cl (r.tr ++ [.clean u]) r.next
    ⟨resume o c.out, c.tr, c.next⟩

/-- The meaning of a program.  `A` are the blocks the program is in, `tr` is
what happened before, `n` is the number for the next block. -/
def spec (w : World) : Prog → List Handle → List Event → Nat → SRes
  | .done vs, _, tr, n => ⟨.normal vs, tr, n⟩
  | .act e k, A, tr, n => spec w (k (w (tr ++ [.act e]))) A (tr ++ [.act e]) n
  | .exit h vs, A, tr, n => ⟨if h ∈ A then .exiting h vs else .invalid, tr, n⟩
  | .bindExit loc body k, A, tr, n =>
    let r := spec w (body ⟨n, loc⟩) (⟨n, loc⟩ :: A) tr (n + 1)
    SRes.andThen ⟨arrive ⟨n, loc⟩ r.out, r.tr, r.next⟩ fun vs tr n => spec w (k vs) A tr n
  | .protect body cl k, A, tr, n =>
    SRes.andThen
      ((spec w body A (tr ++ [.enter n]) (n + 1)).cleanup n fun tr n => spec w cl A tr n)
      fun vs tr n => spec w (k vs) A tr n

/-- Every protected body that was entered had its cleanup clause started
exactly once, and the inner ones before the outer ones. -/
inductive Balanced : List Event → Prop
  | nil : Balanced []
  | act (e : Nat) {t} : Balanced t → Balanced (.act e :: t)
  | block (u : Nat) {s t} : Balanced s → Balanced t →
      Balanced (.enter u :: (s ++ .clean u :: t))

/-- Where a piece of program is: in the body of the innermost block with a
cleanup clause that is not over; or in its cleanup clause after its body ended
normally; or in the cleanup clause of a block that an exit has already left. -/
inductive Mode where
  | body
  | after
  | pend
deriving DecidableEq, Repr

/-- What is asked of the exits in cleanup clauses.

* A cleanup clause that runs after a body that ended normally ends normally.
* A cleanup clause that runs because of an exit does not use another
  (non-local) exit within itself.
* It may leave by another exit, but not by a local one if the block is itself
  in a cleanup clause, and not if an outer cleanup clause is run because of
  the same exit procedure (`D` are the exit procedures with an exit under way).

Besides, no more than `valuesMax` values are returned at once. -/
def Tame (w : World) : Prog → Mode → List Handle → List Handle → List Event → Nat → Prop
  | .done vs, _, _, _, _, _ => vs.length ≤ valuesMax
  | .act e k, μ, D, A, tr, n =>
    (w (tr ++ [.act e])).length ≤ valuesMax ∧
      Tame w (k (w (tr ++ [.act e]))) μ D A (tr ++ [.act e]) n
  | .exit _ vs, _, _, _, _, _ => vs.length ≤ valuesMax
  | .bindExit loc body k, μ, D, A, tr, n =>
    let r := spec w (body ⟨n, loc⟩) (⟨n, loc⟩ :: A) tr (n + 1)
    Tame w (body ⟨n, loc⟩) μ D (⟨n, loc⟩ :: A) tr (n + 1) ∧
      (∀ vs, r.out = .exiting ⟨n, loc⟩ vs → loc = false → μ ≠ .pend) ∧
      (∀ vs, arrive ⟨n, loc⟩ r.out = .normal vs → Tame w (k vs) μ D A r.tr r.next)
  | .protect body cl k, μ, D, A, tr, n =>
    let r := spec w body A (tr ++ [.enter n]) (n + 1)
    let c := spec w cl A (r.tr ++ [.clean n]) r.next
    Tame w body .body D A (tr ++ [.enter n]) (n + 1) ∧
      (∀ vs, r.out = .normal vs →
        Tame w cl .after D A (r.tr ++ [.clean n]) r.next ∧ (∃ vs', c.out = .normal vs') ∧
          Tame w (k vs) μ D A c.tr c.next) ∧
      (∀ h vs, r.out = .exiting h vs →
        Tame w cl .pend (h :: D) A (r.tr ++ [.clean n]) r.next ∧
          ∀ h2 vs2, c.out = .exiting h2 vs2 →
            (h2.loc = true → μ = .body) ∧ (h2 ≠ h → h ∉ D))

/-- A program without exits. -/
def NoExit : Prog → Prop
  | .done _ => True
  | .act _ k => ∀ vs, NoExit (k vs)
  | .exit _ _ => False
  | .bindExit _ body k => (∀ h, NoExit (body h)) ∧ ∀ vs, NoExit (k vs)
  | .protect body cl k => NoExit body ∧ NoExit cl ∧ ∀ vs, NoExit (k vs)

/-- A program with no exits in cleanup clauses. -/
def PlainCleanups : Prog → Prop
  | .done _ => True
  | .act _ k => ∀ vs, PlainCleanups (k vs)
  | .exit _ _ => True
  | .bindExit _ body k => (∀ h, PlainCleanups (body h)) ∧ ∀ vs, PlainCleanups (k vs)
  | .protect body cl k => PlainCleanups body ∧ NoExit cl ∧ ∀ vs, PlainCleanups (k vs)

/-- A program that never gives more than `valuesMax` values. -/
def FewValues : Prog → Prop
  | .done vs => vs.length ≤ valuesMax
  | .act _ k => ∀ vs, FewValues (k vs)
  | .exit _ vs => vs.length ≤ valuesMax
  | .bindExit _ body k => (∀ h, FewValues (body h)) ∧ ∀ vs, FewValues (k vs)
  | .protect body cl k => FewValues body ∧ FewValues cl ∧ ∀ vs, FewValues (k vs)

end Verif.Nlx
