import Verif.Cse.Lemmas

/-
C139: sharing common subexpressions changes nothing of what a function does.
-/

namespace Verif.Cse

variable {V W : Type}

/-- Sharing as it is meant: if the computations do what is said of them, good code does the same afterwards, for all
parameters, in all worlds, for any number of rounds of its loops. -/
theorem sharing_meant (S : Sem V W) (hS : S.Honest) (ar : Prim → Nat) (params : List Nat) (body : Code)
    (hg : Good ar params body) (n : Nat) (e : Nat → V) (w : W) :
    S.run n (shareMeant params body) e w = S.run n body e w := by
  refine walk_run S hS ar n body params .tmp _ _ e e w hg ⟨?_, ?_, ?_, ?_, ?_⟩
  · intro t ht; rfl
  · intro t ht; exact ht
  · intro t ht; rfl
  · intro s hs p hp
    simp only [List.mem_singleton] at hs; subst hs; simp at hp
  · intro s hs q d hq
    simp only [List.mem_singleton] at hs; subst hs; simp at hq

/-- Sharing as it is, as long as it folds no `if`.  Missing: code in which an `if` stands in a branch of an `if` with the
same test (`folded_if_violated`), and primitives that are not what their adjectives say (`read_again_violated`,
`written_again_violated`, `fresh_object_violated`). -/
theorem sharing_partial (S : Sem V W) (hS : S.Honest) (ar : Prim → Nat) (params : List Nat) (body : Code)
    (hg : Good ar params body) (hf : folds params body = false) (n : Nat) (e : Nat → V) (w : W) :
    S.run n (share params body) e w = S.run n body e w := by
  have h := (walkOut_walk body .tmp _ _ _ hf).1
  rw [share, h]
  exact sharing_meant S hS ar params body hg n e w

/-- The code stays good: no temporary is used where it has no value. -/
theorem stays_good_partial (ar : Prim → Nat) (params : List Nat) (body : Code) (hg : Good ar params body)
    (hf : folds params body = false) : Good ar params (share params body) := by
  have h := (walkOut_walk body .tmp _ _ _ hf).1
  rw [share, h]
  refine walk_good ar body params params .tmp _ _ hg ⟨fun t h => h, fun t h => h, fun t _ => rfl, ?_⟩
  intro s hs p hp
  simp only [List.mem_singleton] at hs; subst hs; simp at hp

/-- A primitive is taken for stateless unless it is said to be stateful. -/
theorem stateless_unless_said (as : List Adj) (init : Bool × Bool × Bool) (h : parseAdjectives as = some init) :
    init = (decide (Adj.sideEffecting ∈ as), !decide (Adj.stateful ∈ as), !decide (Adj.indefiniteExtent ∈ as)) ∧
      ¬ (Adj.sideEffecting ∈ as ∧ Adj.sideEffectFree ∈ as) ∧ ¬ (Adj.stateless ∈ as ∧ Adj.stateful ∈ as) ∧
      ¬ (Adj.dynamicExtent ∈ as ∧ Adj.indefiniteExtent ∈ as) := by
  unfold parseAdjectives at h
  split at h
  · cases h
  · rename_i h1
    split at h
    · cases h
    · rename_i h2
      split at h
      · cases h
      · rename_i h3
        exact ⟨(Option.some.inj h).symm, h1, h2, h3⟩

/-! ### A case of the theorems -/

/-- Numbers; the world is what has been called. -/
def numbers : Sem Int (List Int) where
  obj := fun o => match o with | .raw _ x => x | .other i => i
  isTrue := fun v => v != 0
  prim := fun p vs w =>
    match p with
    | some p => if p.stateless then (.value (vs.foldl (· * ·) 1), w) else (.value 0, w ++ vs)
    | none => (.value 0, w ++ vs)
  slot := fun s v w => if s.setter then (.value w.length, w) else (.value (v + s.id), w)
  binding := fun b w => if b.constant then (.value b.id, w) else (.value w.length, w)
  other := fun k vs w => if k = 9 then (.exit 0 (vs.foldl (· + ·) 0), w) else (.value w.length, w ++ vs)

theorem numbers_honest : numbers.Honest := by
  refine ⟨?_, ?_, ?_, ?_⟩
  · intro p hp; exact ⟨fun vs => .value (vs.foldl (· * ·) 1), fun vs w => by simp [numbers, hp]⟩
  · intro s hs; exact ⟨fun v => .value (v + s.id), fun v w => by simp [numbers, hs]⟩
  · intro b hb; exact ⟨.value b.id, fun w => by simp [numbers, hb]⟩
  · intro i j x; rfl

/-- A multiplication. -/
def times : Prim := ⟨0, [.sideEffectFree, .stateless, .dynamicExtent]⟩

/-- `let p = a * b; let q = if (a) g(a * b) else a * b * 2 end; for (i = p then i * i, until: i) a * b end; a * b + q`,
more or less. -/
def sample : Code :=
  .op 2 (.prim (some times) [.tmp 0, .tmp 1])
  (.ifs 3 (.tmp 0)
    (.op 4 (.prim (some times) [.tmp 0, .tmp 1]) (.op 5 (.other 1 [.tmp 4]) (.ret (.tmp 5))))
    (.op 6 (.prim (some times) [.tmp 0, .tmp 1]) (.op 7 (.prim (some times) [.tmp 6, .obj (.raw 1 2)]) (.ret (.tmp 7))))
  (.loop 8 [(9, .tmp 2)]
    (.op 10 (.prim (some times) [.tmp 9, .tmp 9]) (.op 11 (.prim (some times) [.tmp 0, .tmp 1])
      (.ifs 12 (.tmp 10) (.ret (.tmp 11)) (.again [.tmp 10]) (.ret (.tmp 12)))))
  (.op 13 (.prim (some times) [.tmp 0, .tmp 1])
  (.op 14 (.other 2 [.tmp 13, .tmp 3, .tmp 8]) (.ret (.tmp 14))))))

/-- The same with the products shared. -/
def sampleShared : Code :=
  .op 2 (.prim (some times) [.tmp 0, .tmp 1])
  (.ifs 3 (.tmp 0)
    (.op 5 (.other 1 [.tmp 2]) (.ret (.tmp 5)))
    (.op 7 (.prim (some times) [.tmp 2, .obj (.raw 1 2)]) (.ret (.tmp 7)))
  (.loop 8 [(9, .tmp 2)]
    (.op 10 (.prim (some times) [.tmp 9, .tmp 9])
      (.ifs 12 (.tmp 10) (.ret (.tmp 2)) (.again [.tmp 10]) (.ret (.tmp 12))))
  (.op 14 (.other 2 [.tmp 2, .tmp 3, .tmp 8]) (.ret (.tmp 14)))))

example : share [0, 1] sample = sampleShared := by decide +kernel
example : folds [0, 1] sample = false := by decide +kernel
example : Good (fun _ => 2) [0, 1] sample := by
  simp [sample, Good, Ref.Seen, Op.Seen, Op.Arity]
example (n : Nat) (e : Nat → Int) (w : List Int) : numbers.run n sampleShared e w = numbers.run n sample e w :=
  (by decide +kernel : share [0, 1] sample = sampleShared) ▸
    sharing_partial numbers numbers_honest (fun _ => 2) [0, 1] sample
      (by simp [sample, Good, Ref.Seen, Op.Seen, Op.Arity]) (by decide +kernel) n e w
example : numbers.run 3 sample (fun t => if t = 0 then 3 else 5) [] = some (.value 1, [15, 15, 0, 15]) := by
  decide +kernel

/-! ### Where it goes wrong -/

/-- `if (x) let p = a * b; if (x) g(p) else 0 end else 0 end; a * b`. -/
def nested : Code :=
  .ifs 10 (.tmp 0)
    (.op 3 (.prim (some times) [.tmp 1, .tmp 2])
      (.ifs 11 (.tmp 0) (.op 4 (.other 1 [.tmp 3]) (.ret (.tmp 4))) (.ret (.obj (.other 0))) (.ret (.tmp 11))))
    (.ret (.obj (.other 0)))
  (.op 5 (.prim (some times) [.tmp 1, .tmp 2]) (.ret (.tmp 5)))

/-- Folding an `if` whose test is that of the `if` around it shares what only one branch computes with the code after
both: the product after the `if` is that of the branch, which has not been computed when the test fails. -/
theorem folded_if_violated :
    Good (fun _ => 2) [0, 1, 2] nested ∧ numbers.Honest ∧
      share [0, 1, 2] nested =
        .ifs 10 (.tmp 0)
          (.op 3 (.prim (some times) [.tmp 1, .tmp 2])
            (.splice 11 (.op 4 (.other 1 [.tmp 3]) (.ret (.tmp 4))) (.ret (.tmp 11))))
          (.ret (.obj (.other 0)))
        (.ret (.tmp 3)) ∧
      ¬ Good (fun _ => 2) [0, 1, 2] (share [0, 1, 2] nested) ∧
      ∀ e : Nat → Int, e 0 = 0 → e 3 ≠ e 1 * e 2 →
        numbers.run 0 (share [0, 1, 2] nested) e [] ≠ numbers.run 0 nested e [] := by
  have hs : share [0, 1, 2] nested =
        .ifs 10 (.tmp 0)
          (.op 3 (.prim (some times) [.tmp 1, .tmp 2])
            (.splice 11 (.op 4 (.other 1 [.tmp 3]) (.ret (.tmp 4))) (.ret (.tmp 11))))
          (.ret (.obj (.other 0)))
        (.ret (.tmp 3)) := by decide +kernel
  refine ⟨by simp [nested, Good, Ref.Seen, Op.Seen, Op.Arity], numbers_honest, hs, ?_, ?_⟩
  · rw [hs]; simp [Good, Ref.Seen, Op.Seen, Op.Arity]
  · intro e h0 h3
    have ht : times.stateless = true := by decide
    rw [hs]
    simp [nested, Sem.run, Sem.ref, Sem.op, andThen, numbers, h0, ht, upd, h3]

/-- A memory: addresses and what is there. -/
def memory : Sem Int (List (Int × Int)) where
  obj := fun o => match o with | .raw _ x => x | .other i => i
  isTrue := fun v => v != 0
  prim := fun p vs w =>
    match p, vs with
    | some ⟨1, _⟩, [address, _, _] => (.value ((w.lookup address).getD 0), w)
    | some ⟨2, _⟩, [v, address, _, _] => (.value v, (address, v) :: w)
    | some ⟨3, _⟩, _ => (.value w.length, (w.length, 0) :: w)
    | some ⟨4, _⟩, [x, y] => (.value (if x = y then 1 else 0), w)
    | _, _ => (.value 0, w)
  slot := fun _ _ w => (.value 0, w)
  binding := fun _ w => (.value 0, w)
  other := fun _ _ w => (.value 0, w)

/-- `primitive-c-signed-int-at` and all others of `define &raw-type-accessors` (modeling/raw-type-macros.dylan 60-64):
no adjective. -/
def rawAt : Prim := ⟨1, []⟩

/-- `primitive-c-signed-int-at-setter` (modeling/raw-type-macros.dylan 65-70). -/
def rawAtSetter : Prim := ⟨2, [.sideEffecting]⟩

/-- `primitive-vector` (modeling/primitives.dylan 447-449). -/
def vectorPrim : Prim := ⟨3, [.sideEffectFree, .stateless, .indefiniteExtent]⟩

/-- `primitive-id?` (modeling/primitives.dylan 417-419). -/
def idPrim : Prim := ⟨4, [.sideEffectFree, .stateless, .dynamicExtent]⟩

/-- `let x = p[0]; p[0] := 7; p[0]` for a pointer `p` to C integers. -/
def readAgain : Code :=
  .op 1 (.prim (some rawAt) [.tmp 0, .obj (.raw 1 0), .obj (.raw 2 0)])
  (.op 2 (.prim (some rawAtSetter) [.obj (.raw 3 7), .tmp 0, .obj (.raw 4 0), .obj (.raw 5 0)])
  (.op 3 (.prim (some rawAt) [.tmp 0, .obj (.raw 6 0), .obj (.raw 7 0)]) (.ret (.tmp 3))))

/-- What is read from memory after a write is what was read before it. -/
theorem read_again_violated :
    Good (fun p => if p.name = 1 then 3 else 4) [0] readAgain ∧ folds [0] readAgain = false ∧
      ∀ (n : Nat) (e : Nat → Int),
        (memory.run n readAgain e []).map (·.1) = some (.value 7) ∧
          (memory.run n (share [0] readAgain) e []).map (·.1) = some (.value 0) := by
  have hs : share [0] readAgain =
      .op 1 (.prim (some rawAt) [.tmp 0, .obj (.raw 1 0), .obj (.raw 2 0)])
      (.op 2 (.prim (some rawAtSetter) [.obj (.raw 3 7), .tmp 0, .obj (.raw 4 0), .obj (.raw 5 0)])
      (.ret (.tmp 1))) := by decide +kernel
  refine ⟨by simp [readAgain, Good, Ref.Seen, Op.Seen, Op.Arity, rawAt, rawAtSetter], by decide +kernel, ?_⟩
  intro n e
  rw [hs]
  simp [readAgain, Sem.run, Sem.ref, Sem.op, andThen, memory, rawAt, rawAtSetter, upd, List.lookup]

/-- `p[0] := 1; p[0] := 2; p[0] := 1`. -/
def writtenAgain : Code :=
  .op 1 (.prim (some rawAtSetter) [.obj (.raw 1 1), .tmp 0, .obj (.raw 2 0), .obj (.raw 3 0)])
  (.op 2 (.prim (some rawAtSetter) [.obj (.raw 4 2), .tmp 0, .obj (.raw 5 0), .obj (.raw 6 0)])
  (.op 3 (.prim (some rawAtSetter) [.obj (.raw 7 1), .tmp 0, .obj (.raw 8 0), .obj (.raw 9 0)]) (.ret (.tmp 3))))

/-- A write that has been made before is left out, whatever has been written since. -/
theorem written_again_violated :
    Good (fun _ => 4) [0] writtenAgain ∧ folds [0] writtenAgain = false ∧
      ∀ (n : Nat) (e : Nat → Int),
        ((memory.run n writtenAgain e []).map fun r => r.2.lookup (e 0)) = some (some 1) ∧
          ((memory.run n (share [0] writtenAgain) e []).map fun r => r.2.lookup (e 0)) = some (some 2) := by
  have hs : share [0] writtenAgain =
      .op 1 (.prim (some rawAtSetter) [.obj (.raw 1 1), .tmp 0, .obj (.raw 2 0), .obj (.raw 3 0)])
      (.op 2 (.prim (some rawAtSetter) [.obj (.raw 4 2), .tmp 0, .obj (.raw 5 0), .obj (.raw 6 0)])
      (.ret (.tmp 1))) := by decide +kernel
  refine ⟨by simp [writtenAgain, Good, Ref.Seen, Op.Seen, Op.Arity], by decide +kernel, ?_⟩
  intro n e
  rw [hs]
  simp [writtenAgain, Sem.run, Sem.ref, Sem.op, andThen, memory, rawAtSetter, upd, List.lookup]

/-- `vector(x) == vector(x)`. -/
def fresh : Code :=
  .op 1 (.prim (some vectorPrim) [.obj (.raw 1 1), .tmp 0])
  (.op 2 (.prim (some vectorPrim) [.obj (.raw 2 1), .tmp 0])
  (.op 3 (.prim (some idPrim) [.tmp 1, .tmp 2]) (.ret (.tmp 3))))

/-- Two new vectors become one. -/
theorem fresh_object_violated :
    Good (fun _ => 2) [0] fresh ∧ folds [0] fresh = false ∧
      ∀ (n : Nat) (e : Nat → Int),
        (memory.run n fresh e []).map (·.1) = some (.value 0) ∧
          (memory.run n (share [0] fresh) e []).map (·.1) = some (.value 1) := by
  have hs : share [0] fresh =
      .op 1 (.prim (some vectorPrim) [.obj (.raw 1 1), .tmp 0])
      (.op 3 (.prim (some idPrim) [.tmp 1, .tmp 1]) (.ret (.tmp 3))) := by decide +kernel
  refine ⟨by simp [fresh, Good, Ref.Seen, Op.Seen, Op.Arity], by decide +kernel, ?_⟩
  intro n e
  rw [hs]
  simp [fresh, Sem.run, Sem.ref, Sem.op, andThen, memory, vectorPrim, idPrim, upd]

end Verif.Cse
