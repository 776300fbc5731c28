import Verif.Cse.Model

/-
What code does, told without the sharing: every computation is carried out where it stands, on the state of the world.
-/

namespace Verif.Cse

/-- How a block or a computation ends: with a value, with a loop call, with an exit (also one out of the function, or an
error that is not handled in it). -/
inductive Outcome (V : Type) where
  | value (v : V)
  | again (vs : List V)
  | exit (n : Nat) (v : V)
  deriving DecidableEq, Repr

/-- What the computations of a program do. -/
structure Sem (V W : Type) where
  obj : Obj → V
  isTrue : V → Bool
  prim : Option Prim → List V → W → Outcome V × W
  slot : Slot → V → W → Outcome V × W
  binding : Binding → W → Outcome V × W
  other : Nat → List V → W → Outcome V × W

variable {V W : Type}

/-- The value of a reference, the values of the temporaries being `e`. -/
def Sem.ref (S : Sem V W) (e : Nat → V) : Ref → V
  | .tmp t => e t
  | .obj o => S.obj o

/-- A computation carried out. -/
def Sem.op (S : Sem V W) (e : Nat → V) : Op → W → Outcome V × W
  | .prim p as, w => S.prim p (as.map (S.ref e)) w
  | .slotValue s r, w => S.slot s (S.ref e r) w
  | .binding b, w => S.binding b w
  | .other k as, w => S.other k (as.map (S.ref e)) w

/-- The temporaries with new values; `d` for one that is missing. -/
def bindAll (d : V) (e : Nat → V) : List Nat → List V → Nat → V
  | [], _ => e
  | t :: ts, [] => upd (bindAll d e ts []) t d
  | t :: ts, v :: vs => upd (bindAll d e ts vs) t v

/-- A loop: the body with the initial values, again after each loop call.  `none`: not finished after so many rounds. -/
def rounds (body : List V → W → Option (Outcome V × W)) : Nat → List V → W → Option (Outcome V × W)
  | 0, _, _ => none
  | n + 1, vs, w =>
    match body vs w with
    | some (.again vs, w) => rounds body n vs w
    | r => r

/-- After a block: with its value to the rest, any other outcome goes out. -/
def andThen (r : Option (Outcome V × W)) (k : V → W → Option (Outcome V × W)) : Option (Outcome V × W) :=
  match r with
  | some (.value v, w) => k v w
  | r => r

/-- An exit to here is a value. -/
def caught (n : Nat) (r : Option (Outcome V × W)) : Option (Outcome V × W) :=
  match r with
  | some (.exit m v, w) => if m = n then some (.value v, w) else some (.exit m v, w)
  | r => r

/-- The cleanups run however the body ends; if they end with a value, the outcome is that of the body. -/
def afterwards (r : Option (Outcome V × W)) (c : W → Option (Outcome V × W)) : Option (Outcome V × W) :=
  match r with
  | none => none
  | some (o, w) => andThen (c w) fun _ w => some (o, w)

/-- What code does in the world `w`, the values of the temporaries being `e`: `none` if some loop does not end within
`n` rounds. -/
def Sem.run (S : Sem V W) (n : Nat) : Code → (Nat → V) → W → Option (Outcome V × W)
  | .ret r, e, w => some (.value (S.ref e r), w)
  | .again rs, e, w => some (.again (rs.map (S.ref e)), w)
  | .exit m r, e, w => some (.exit m (S.ref e r), w)
  | .op t o k, e, w => andThen (some (S.op e o w)) fun v w => S.run n k (upd e t v) w
  | .ifs t r a b k, e, w =>
    andThen (if S.isTrue (S.ref e r) then S.run n a e w else S.run n b e w) fun v w => S.run n k (upd e t v) w
  | .splice t a k, e, w => andThen (S.run n a e w) fun v w => S.run n k (upd e t v) w
  | .loop t ms a k, e, w =>
    andThen (rounds (fun vs w => S.run n a (bindAll (S.obj (.other 0)) e (ms.map (·.1)) vs) w) n (ms.map fun m => S.ref e m.2) w)
      fun v w => S.run n k (upd e t v) w
  | .bindExit t m a k, e, w => andThen (caught m (S.run n a e w)) fun v w => S.run n k (upd e t v) w
  | .protect t a c k, e, w =>
    andThen (afterwards (S.run n a e w) fun w => S.run n c e w) fun v w => S.run n k (upd e t v) w

/-- What a computation says is true of it: a primitive that is not said to be `stateful` gives what its arguments say
and changes nothing; a slot without setter and a constant keep their values; raw words with one value are one. -/
structure Sem.Honest (S : Sem V W) : Prop where
  prim : ∀ p : Prim, p.stateless = true → ∃ f : List V → Outcome V, ∀ vs w, S.prim (some p) vs w = (f vs, w)
  slot : ∀ s : Slot, s.setter = false → ∃ f : V → Outcome V, ∀ v w, S.slot s v w = (f v, w)
  binding : ∀ b : Binding, b.constant = true → ∃ o, ∀ w, S.binding b w = (o, w)
  raw : ∀ i j x, S.obj (.raw i x) = S.obj (.raw j x)

/-- The reference is to a temporary that can be seen. -/
def Ref.Seen (D : List Nat) : Ref → Prop
  | .tmp t => t ∈ D
  | .obj _ => True

/-- The same for all references of a computation. -/
def Op.Seen (D : List Nat) : Op → Prop
  | .prim _ as => ∀ r ∈ as, r.Seen D
  | .slotValue _ r => r.Seen D
  | .binding _ => True
  | .other _ as => ∀ r ∈ as, r.Seen D

/-- A call of a primitive has as many arguments as the primitive has parameters. -/
def Op.Arity (ar : Prim → Nat) : Op → Prop
  | .prim (some p) as => as.length = ar p
  | _ => True

/-- Good code: each temporary is given a value before it is used, and never a second time; primitives have the right
number of arguments. -/
def Good (ar : Prim → Nat) : List Nat → Code → Prop
  | D, .ret r => r.Seen D
  | D, .again rs => ∀ r ∈ rs, r.Seen D
  | D, .exit _ r => r.Seen D
  | D, .op t o k => t ∉ D ∧ o.Seen D ∧ o.Arity ar ∧ Good ar (t :: D) k
  | D, .ifs t r a b k => t ∉ D ∧ r.Seen D ∧ Good ar D a ∧ Good ar D b ∧ Good ar (t :: D) k
  | D, .splice t a k => t ∉ D ∧ Good ar D a ∧ Good ar (t :: D) k
  | D, .loop t ms a k =>
    t ∉ D ∧ (∀ m ∈ ms, m.1 ∉ D ∧ m.2.Seen D) ∧ Good ar (ms.map (·.1) ++ D) a ∧ Good ar (t :: D) k
  | D, .bindExit t _ a k => t ∉ D ∧ Good ar D a ∧ Good ar (t :: D) k
  | D, .protect t a c k => t ∉ D ∧ Good ar D a ∧ Good ar D c ∧ Good ar (t :: D) k

end Verif.Cse
