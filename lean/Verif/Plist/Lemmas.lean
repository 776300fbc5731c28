import Verif.Plist.Spec

set_option linter.unusedSectionVars false

namespace Verif.Plist

variable {α : Type} [DecidableEq α]

/-! ### Properties -/

theorem length_flat : ∀ ps : List (α × α), (flat ps).length = 2 * ps.length
  | [] => rfl
  | p :: ps => by simp only [flat, List.length_cons, length_flat ps]; omega

theorem flat_append : ∀ ps qs : List (α × α), flat (ps ++ qs) = flat ps ++ flat qs
  | [], qs => rfl
  | p :: ps, qs => by simp only [List.cons_append, flat, flat_append ps qs]

theorem even_flat {β : Type} (ps : List (α × α)) (k : Out β) : even (flat ps) k = k := by
  unfold even
  rw [if_pos (by rw [length_flat]; omega)]

/-- A sequence of even length consists of properties. -/
theorem exists_flat : ∀ (n : Nat) (xs : List α), xs.length = 2 * n → ∃ ps, xs = flat ps
  | 0, xs, h => ⟨[], List.eq_nil_of_length_eq_zero (by omega)⟩
  | n + 1, [], h => by simp at h
  | n + 1, [x], h => by simp only [List.length_singleton] at h; omega
  | n + 1, x :: y :: xs, h => by
    obtain ⟨ps, hp⟩ := exists_flat n xs (by simp only [List.length_cons] at h; omega)
    exact ⟨(x, y) :: ps, by rw [hp]; rfl⟩

theorem lookup_append (k : α) : ∀ ps qs : List (α × α), lookup (ps ++ qs) k = (lookup ps k).or (lookup qs k)
  | [], qs => by simp [lookup]
  | p :: ps, qs => by
    simp only [List.cons_append, lookup]
    split
    · simp
    · exact lookup_append k ps qs

theorem lookupLast_cons (p : α × α) (ps : List (α × α)) (k : α) :
    lookupLast (p :: ps) k = (lookupLast ps k).or (if p.1 = k then some p.2 else none) := by
  unfold lookupLast
  rw [List.reverse_cons, lookup_append]
  simp only [lookup]

theorem lookup_update (k v : α) : ∀ ps : List (α × α), lookup (update ps k v) k = some v
  | [] => by simp [update, lookup]
  | p :: ps => by
    unfold update
    split
    · simp [lookup]
    · rename_i h
      simp only [lookup, if_neg h]
      exact lookup_update k v ps

theorem lookup_update_other {k k' : α} (h : k' ≠ k) (v : α) :
    ∀ ps : List (α × α), lookup (update ps k v) k' = lookup ps k'
  | [] => by simp [update, lookup, Ne.symm h]
  | p :: ps => by
    unfold update
    split
    · rename_i hp
      simp only [lookup, hp, if_neg (Ne.symm h)]
    · simp only [lookup]
      split
      · rfl
      · exact lookup_update_other h v ps

theorem lookup_filter {k : α} (f : α → Bool) (hk : f k = false) :
    ∀ ps : List (α × α), lookup (ps.filter fun p => !f p.1) k = lookup ps k
  | [] => rfl
  | p :: ps => by
    rw [List.filter_cons]
    by_cases hf : f p.1 = true
    · have hp : p.1 ≠ k := by
        intro h0
        rw [h0, hk] at hf
        exact absurd hf (by simp)
      simp only [hf, Bool.not_true, Bool.false_eq_true, if_false, lookup, if_neg hp]
      exact lookup_filter f hk ps
    · simp only [hf, Bool.not_false, if_true, lookup]
      split
      · rfl
      · exact lookup_filter f hk ps

theorem lookup_filter_none {k : α} (f : α → Bool) (hk : f k = true) :
    ∀ ps : List (α × α), lookup (ps.filter fun p => !f p.1) k = none
  | [] => rfl
  | p :: ps => by
    rw [List.filter_cons]
    by_cases hf : f p.1 = true
    · simp only [hf, Bool.not_true, Bool.false_eq_true, if_false]
      exact lookup_filter_none f hk ps
    · have hp : p.1 ≠ k := by
        intro h0
        rw [h0] at hf
        exact hf hk
      simp only [hf, Bool.not_false, if_true, lookup, if_neg hp]
      exact lookup_filter_none f hk ps

theorem lookup_removeFirst_other {k k' : α} (h : k' ≠ k) :
    ∀ ps : List (α × α), lookup (removeFirst ps k) k' = lookup ps k'
  | [] => rfl
  | p :: ps => by
    unfold removeFirst
    split
    · rename_i hp
      simp only [lookup, hp, if_neg (Ne.symm h)]
    · simp only [lookup]
      split
      · rfl
      · exact lookup_removeFirst_other h ps

theorem lookup_none {k : α} : ∀ {ps : List (α × α)}, (∀ p ∈ ps, p.1 ≠ k) → lookup ps k = none
  | [], _ => rfl
  | p :: ps, h => by
    simp only [lookup, if_neg (h p (by simp))]
    exact lookup_none fun q hq => h q (by simp [hq])

theorem removeFirst_nodup {k : α} : ∀ {ps : List (α × α)}, (ps.map Prod.fst).Nodup → lookup (removeFirst ps k) k = none
  | [], _ => rfl
  | p :: ps, h => by
    rw [List.map_cons, List.nodup_cons] at h
    unfold removeFirst
    split
    · rename_i hp
      apply lookup_none
      intro q hq hqk
      apply h.1
      rw [hp, ← hqk]
      exact List.mem_map_of_mem hq
    · rename_i hp
      simp only [lookup, if_neg hp]
      exact removeFirst_nodup h.2

theorem lookupLast_nodup {k : α} : ∀ {ps : List (α × α)}, (ps.map Prod.fst).Nodup → lookupLast ps k = lookup ps k
  | [], _ => rfl
  | p :: ps, h => by
    rw [List.map_cons, List.nodup_cons] at h
    rw [lookupLast_cons, lookupLast_nodup h.2]
    simp only [lookup]
    split
    · rename_i hp
      rw [lookup_none]
      · rfl
      · intro q hq hqk
        apply h.1
        rw [hp, ← hqk]
        exact List.mem_map_of_mem hq
    · cases lookup ps k <;> rfl

/-! ### Vectors -/

theorem at_mid (ds r : List α) (x : α) {i : Nat} (hi : i = ds.length) : at' (ds ++ x :: r) i = .ok x := by
  unfold at'
  subst hi
  simp

theorem at_mid1 (ds r : List α) (x y : α) {i : Nat} (hi : i = ds.length + 1) : at' (ds ++ x :: y :: r) i = .ok y := by
  unfold at'
  subst hi
  simp

theorem put_mid (ds r : List α) (x y : α) {i : Nat} (hi : i = ds.length) : put' (ds ++ x :: r) i y = .ok (ds ++ y :: r) := by
  unfold put'
  subst hi
  simp

theorem put_mid1 (ds r : List α) (x y z : α) {i : Nat} (hi : i = ds.length + 1) :
    put' (ds ++ x :: y :: r) i z = .ok (ds ++ x :: z :: r) := by
  unfold put'
  subst hi
  simp

theorem bind_ok {β γ : Type} (b : β) (f : β → Out γ) : (Out.ok b).bind f = f b := rfl

theorem getLoop_flat (k d : α) : ∀ (todo done : List (α × α)) (n : Nat), todo.length ≤ n →
    getLoop (flat done ++ flat todo) k d n (2 * done.length) = .ok ((lookup todo k).getD d)
  | [], done, n, _ => by
    cases n with
    | zero => rfl
    | succ n =>
      unfold getLoop
      rw [if_neg (by simp [flat, length_flat])]
      rfl
  | p :: ps, done, 0, h => by simp at h
  | p :: ps, done, n + 1, h => by
    unfold getLoop
    have hl := length_flat done
    have hl2 := length_flat ps
    rw [if_pos (by simp only [flat, List.length_append, List.length_cons]; omega)]
    simp only [flat]
    rw [at_mid _ _ _ hl.symm, bind_ok, at_mid1 _ _ _ _ (by omega)]
    simp only [lookup]
    split
    · rfl
    · have := getLoop_flat k d ps (done ++ [p]) n (by simp only [List.length_cons] at h; omega)
      simp only [flat_append, flat, List.append_assoc, List.cons_append, List.nil_append, List.length_append,
        List.length_singleton, Nat.mul_add] at this
      exact this

theorem putLoop_flat (k v : α) : ∀ (todo done : List (α × α)) (n : Nat), todo.length ≤ n →
    putLoop (flat done ++ flat todo) k v n (2 * done.length) = .ok (flat done ++ flat (update todo k v))
  | [], done, n, _ => by
    cases n with
    | zero => simp [putLoop, flat, update]
    | succ n =>
      unfold putLoop
      rw [if_neg (by simp [flat, length_flat])]
      simp [flat, update]
  | p :: ps, done, 0, h => by simp at h
  | p :: ps, done, n + 1, h => by
    unfold putLoop
    have hl := length_flat done
    have hl2 := length_flat ps
    rw [if_pos (by simp only [flat, List.length_append, List.length_cons]; omega)]
    simp only [flat]
    rw [at_mid _ _ _ hl.symm, bind_ok, put_mid1 _ _ _ _ _ (by omega)]
    simp only [update]
    split
    · rename_i hp
      rw [hp]
      rfl
    · have := putLoop_flat k v ps (done ++ [p]) n (by simp only [List.length_cons] at h; omega)
      simp only [flat_append, flat, List.append_assoc, List.cons_append, List.nil_append, List.length_append,
        List.length_singleton, Nat.mul_add] at this
      exact this

theorem everySecond_flat (d : Nat) (hd : d ≤ 1) : ∀ (todo done : List (α × α)),
    everySecond (flat done ++ flat todo) d todo.length done.length =
      .ok (todo.map fun p => if d = 0 then p.1 else p.2)
  | [], done => rfl
  | p :: ps, done => by
    have hl := length_flat done
    have := everySecond_flat d hd ps (done ++ [p])
    simp only [flat_append, flat, List.append_assoc, List.cons_append, List.nil_append, List.length_append,
      List.length_singleton] at this
    simp only [List.length_cons, everySecond, flat, this, bind_ok, List.map_cons]
    by_cases h0 : d = 0
    · rw [at_mid _ _ _ (by omega), if_pos h0]
      rfl
    · rw [at_mid1 _ _ _ _ (by omega), if_neg h0]
      rfl

/-- The elements that are moved down. -/
theorem move (A g R : List α) (x v : α) {i j : Nat} (hj : j = A.length) (hi : i = A.length + g.length) :
    ∃ ys, put' (A ++ g ++ x :: v :: R) j x = .ok ys ∧ at' ys (i + 1) = .ok v ∧
      ∃ g', g'.length = g.length ∧ put' ys (j + 1) v = .ok (A ++ [x, v] ++ g' ++ R) := by
  match g, hi with
  | [], hi =>
    refine ⟨A ++ x :: v :: R, ?_, at_mid1 _ _ _ _ (by simp at hi; omega), [], rfl, ?_⟩
    · rw [List.append_nil]; exact put_mid _ _ _ _ hj
    · rw [put_mid1 _ _ _ _ _ (by omega)]; simp
  | [y], hi =>
    refine ⟨A ++ x :: x :: v :: R, ?_, ?_, [v], rfl, ?_⟩
    · rw [List.append_assoc]; exact put_mid _ _ _ _ hj
    · have := at_mid1 (A ++ [x]) R x v (i := i + 1) (by simp at hi ⊢; omega)
      simpa using this
    · rw [put_mid1 _ _ _ _ _ (by omega)]; simp
  | y :: z :: g, hi =>
    refine ⟨A ++ x :: z :: (g ++ x :: v :: R), ?_, ?_, g ++ [x, v], by simp, ?_⟩
    · rw [List.append_assoc]; exact put_mid _ _ _ _ hj
    · have := at_mid1 (A ++ x :: z :: g) R x v (i := i + 1) (by simp at hi ⊢; omega)
      simpa using this
    · rw [put_mid1 _ _ _ _ _ (by omega)]; simp

theorem removeLoop_flat (k : α) : ∀ (todo kept : List (α × α)) (g : List α) (n : Nat) (value : α), todo.length ≤ n →
    ∃ zs, removeLoop k n (flat kept ++ g ++ flat todo) (2 * kept.length + g.length) (2 * kept.length) value =
      .ok (flat (kept ++ todo.filter fun p => !decide (p.1 = k)) ++ zs,
        2 * (kept ++ todo.filter fun p => !decide (p.1 = k)).length, (lookupLast todo k).getD value)
  | [], kept, g, n, value, _ => by
    refine ⟨g, ?_⟩
    cases n with
    | zero => simp [removeLoop, flat, lookupLast, lookup]
    | succ n =>
      unfold removeLoop
      rw [if_neg (by simp [flat, length_flat])]
      simp [flat, lookupLast, lookup]
  | p :: ps, kept, g, 0, value, h => by simp at h
  | p :: ps, kept, g, n + 1, value, h => by
    have hn : ps.length ≤ n := by simp only [List.length_cons] at h; omega
    have hl := length_flat kept
    have hl2 := length_flat ps
    unfold removeLoop
    rw [if_pos (by simp only [flat, List.length_append, List.length_cons]; omega)]
    simp only [flat]
    rw [at_mid _ _ _ (by simp only [List.length_append]; omega), bind_ok]
    by_cases hp : p.1 = k
    · rw [if_pos hp, at_mid1 _ _ _ _ (by simp only [List.length_append]; omega), bind_ok]
      obtain ⟨zs, hz⟩ := removeLoop_flat k ps kept (g ++ [p.1, p.2]) n p.2 hn
      refine ⟨zs, ?_⟩
      have hf : ((p :: ps).filter fun p => !decide (p.1 = k)) = ps.filter fun p => !decide (p.1 = k) := by
        rw [List.filter_cons]; simp [hp]
      have hv : (lookupLast (p :: ps) k).getD value = (lookupLast ps k).getD p.2 := by
        rw [lookupLast_cons, if_pos hp]
        cases lookupLast ps k <;> rfl
      rw [hf, hv, ← hz]
      congr 1
      · simp
      · simp only [List.length_append, List.length_cons, List.length_nil]
        omega
    · rw [if_neg hp]
      obtain ⟨ys, h1, h2, g', h3, h4⟩ := move (flat kept) g (flat ps) p.1 p.2 (i := 2 * kept.length + g.length)
        (j := 2 * kept.length) hl.symm (by omega)
      rw [h1, bind_ok, h2, bind_ok, h4, bind_ok]
      obtain ⟨zs, hz⟩ := removeLoop_flat k ps (kept ++ [p]) g' n value hn
      refine ⟨zs, ?_⟩
      have hf : ((p :: ps).filter fun p => !decide (p.1 = k)) = p :: ps.filter fun p => !decide (p.1 = k) := by
        rw [List.filter_cons]; simp [hp]
      have hv : (lookupLast (p :: ps) k).getD value = (lookupLast ps k).getD value := by
        rw [lookupLast_cons, if_neg hp]
        cases lookupLast ps k <;> rfl
      rw [hf, hv]
      have ha : kept ++ p :: ps.filter (fun p => !decide (p.1 = k)) = kept ++ [p] ++ ps.filter fun p => !decide (p.1 = k) := by
        simp
      rw [ha, ← hz]
      congr 1
      · simp [flat_append, flat]
      · simp; omega
      · simp; omega

theorem countLoop_flat (k : α) : ∀ (todo done : List (α × α)) (n count : Nat), todo.length ≤ n →
    countLoop (flat done ++ flat todo) k n (2 * done.length) count =
      .ok (count + 2 * (todo.length - (todo.filter fun p => !decide (p.1 = k)).length))
  | [], done, n, count, _ => by
    cases n with
    | zero => simp [countLoop]
    | succ n =>
      unfold countLoop
      rw [if_neg (by simp [flat, length_flat])]
      simp
  | p :: ps, done, 0, count, h => by simp at h
  | p :: ps, done, n + 1, count, h => by
    unfold countLoop
    have hl := length_flat done
    have hl2 := length_flat ps
    have hle := List.length_filter_le (fun p : α × α => !decide (p.1 = k)) ps
    rw [if_pos (by simp only [flat, List.length_append, List.length_cons]; omega)]
    simp only [flat]
    rw [at_mid _ _ _ hl.symm, bind_ok]
    have := countLoop_flat k ps (done ++ [p]) n (if p.1 = k then count + 2 else count)
      (by simp only [List.length_cons] at h; omega)
    simp only [flat_append, flat, List.append_assoc, List.cons_append, List.nil_append, List.length_append,
      List.length_singleton, Nat.mul_add] at this
    rw [show 2 * done.length + 2 = 2 * done.length + 2 * 1 from rfl, this, List.filter_cons]
    by_cases hp : p.1 = k
    · simp only [hp, if_true, decide_true, Bool.not_true, Bool.false_eq_true, if_false, List.length_cons]
      congr 1; omega
    · simp only [hp, if_false, decide_false, Bool.not_false, if_true, List.length_cons]
      congr 1; omega

theorem copyLoop_flat (f : α → Bool) : ∀ (todo done kept : List (α × α)) (space : List α) (n : Nat) (value : α),
    todo.length ≤ n → 2 * (todo.filter fun p => !f p.1).length ≤ space.length →
    ∃ zs v, zs.length = space.length - 2 * (todo.filter fun p => !f p.1).length ∧
      (∀ k, (∀ x, f x = true ↔ x = k) → v = (lookupLast todo k).getD value) ∧
      copyLoop (flat done ++ flat todo) f n (flat kept ++ space) (2 * done.length) (2 * kept.length) value =
      .ok (flat (kept ++ todo.filter fun p => !f p.1) ++ zs, 2 * (kept ++ todo.filter fun p => !f p.1).length, v)
  | [], done, kept, space, n, value, _, _ => by
    refine ⟨space, value, by simp, by simp [lookupLast, lookup], ?_⟩
    cases n with
    | zero => simp [copyLoop]
    | succ n =>
      unfold copyLoop
      rw [if_neg (by simp [flat, length_flat])]
      simp
  | p :: ps, done, kept, space, 0, value, h, _ => by simp at h
  | p :: ps, done, kept, space, n + 1, value, h, hs => by
    have hn : ps.length ≤ n := by simp only [List.length_cons] at h; omega
    have hl := length_flat done
    have hk := length_flat kept
    have hl2 := length_flat ps
    unfold copyLoop
    rw [if_pos (by simp only [flat, List.length_append, List.length_cons]; omega)]
    simp only [flat]
    rw [at_mid _ _ _ hl.symm, bind_ok, at_mid1 _ _ _ _ (by omega), bind_ok]
    have hd : 2 * done.length + 2 = 2 * (done ++ [p]).length := by simp; omega
    have hx : flat done ++ p.1 :: p.2 :: flat ps = flat (done ++ [p]) ++ flat ps := by simp [flat_append, flat]
    by_cases hp : f p.1 = true
    · rw [List.filter_cons] at hs
      simp only [hp, Bool.not_true, Bool.false_eq_true, if_false] at hs
      obtain ⟨zs, v, h1, h2, h3⟩ := copyLoop_flat f ps (done ++ [p]) kept space n p.2 hn hs
      refine ⟨zs, v, ?_, ?_, ?_⟩
      · rw [List.filter_cons]
        simp only [hp, Bool.not_true, Bool.false_eq_true, if_false]
        exact h1
      · intro k hk
        rw [h2 k hk, lookupLast_cons, if_pos ((hk _).1 hp)]
        cases lookupLast ps k <;> rfl
      · rw [List.filter_cons]
        simp only [hp, Bool.not_true, Bool.false_eq_true, if_false, if_true]
        rw [hd, hx]
        exact h3
    · rw [List.filter_cons] at hs
      simp only [hp, Bool.not_false, if_true, List.length_cons] at hs
      match space, hs with
      | [], hs => simp at hs
      | [y], hs => simp only [List.length_singleton] at hs; omega
      | y :: z :: space, hs =>
        obtain ⟨zs, v, h1, h2, h3⟩ := copyLoop_flat f ps (done ++ [p]) (kept ++ [p]) space n value hn
          (by simp only [List.length_cons] at hs; omega)
        refine ⟨zs, v, ?_, ?_, ?_⟩
        · rw [List.filter_cons]
          simp only [hp, Bool.not_false, if_true, List.length_cons]
          omega
        · intro k hk
          have hne : p.1 ≠ k := fun h0 => hp ((hk _).2 h0)
          rw [h2 k hk, lookupLast_cons, if_neg hne]
          cases lookupLast ps k <;> rfl
        · rw [List.filter_cons]
          simp only [hp, Bool.not_false, Bool.false_eq_true, if_true, if_false]
          rw [put_mid _ _ _ _ hk.symm, bind_ok, put_mid1 _ _ _ _ _ (by omega), bind_ok, hd, hx,
            show 2 * kept.length + 2 = 2 * (kept ++ [p]).length by simp; omega,
            show flat kept ++ p.1 :: p.2 :: space = flat (kept ++ [p]) ++ space by simp [flat_append, flat]]
          have ha : kept ++ p :: ps.filter (fun p => !f p.1) = kept ++ [p] ++ ps.filter fun p => !f p.1 := by simp
          rw [ha]
          exact h3

/-! ### Lists -/

theorem chain_frame {m m' : Mem α} : ∀ {p : Option Nat} {as : List Nat} {xs : List α}, Chain m p as xs →
    (∀ a ∈ as, m'.cells a = m.cells a) → Chain m' p as xs
  | none, [], [], _, _ => trivial
  | none, [], _ :: _, h, _ => h.elim
  | none, _ :: _, _, h, _ => h.elim
  | some a, [], _, h, _ => h.elim
  | some a, b :: as, [], h, _ => h.elim
  | some a, b :: as, x :: xs, ⟨h1, h2, h3⟩, hf => by
    have ha := hf a (by rw [h1]; simp)
    refine ⟨h1, by rw [ha]; exact h2, ?_⟩
    rw [ha]
    exact chain_frame h3 fun c hc => hf c (by simp [hc])

theorem chain_length {m : Mem α} : ∀ {p : Option Nat} {as : List Nat} {xs : List α}, Chain m p as xs →
    as.length = xs.length
  | none, [], [], _ => rfl
  | none, [], _ :: _, h => h.elim
  | none, _ :: _, _, h => h.elim
  | some a, [], _, h => h.elim
  | some a, b :: as, [], h => h.elim
  | some a, b :: as, x :: xs, ⟨_, _, h3⟩ => by simp only [List.length_cons, chain_length h3]

theorem chain_nil {m : Mem α} {p : Option Nat} {as : List Nat} (h : Chain m p as []) : p = none ∧ as = [] := by
  cases p <;> cases as <;> simp [Chain] at h ⊢

/-- The first two pairs. -/
theorem chain_two {m : Mem α} {p : Option Nat} {as : List Nat} {x y : α} {xs : List α} (h : Chain m p as (x :: y :: xs)) :
    ∃ a b as', as = a :: b :: as' ∧ p = some a ∧ (m.cells a).head = x ∧ (m.cells a).tail = some b ∧
      (m.cells b).head = y ∧ Chain m (m.cells b).tail as' xs := by
  cases p with
  | none => cases as <;> simp [Chain] at h
  | some a =>
    cases as with
    | nil => simp [Chain] at h
    | cons a' as =>
      obtain ⟨h1, h2, h3⟩ := h
      subst h1
      cases ht : (m.cells a).tail with
      | none => rw [ht] at h3; cases as <;> simp [Chain] at h3
      | some b =>
        rw [ht] at h3
        cases as with
        | nil => simp [Chain] at h3
        | cons b' as =>
          obtain ⟨h4, h5, h6⟩ := h3
          subst h4
          exact ⟨a, b, as, rfl, rfl, h2, ht, h5, h6⟩

theorem getList_chain (nil k d : α) {m : Mem α} : ∀ (ps : List (α × α)) (n : Nat) (p : Option Nat) (as : List Nat),
    Chain m p as (flat ps) → ps.length ≤ n → getList m nil k d n p = some ((lookup ps k).getD d)
  | [], n, p, as, h, _ => by
    obtain ⟨rfl, _⟩ := chain_nil h
    unfold getList
    rfl
  | q :: ps, 0, p, as, _, hn => by simp at hn
  | q :: ps, n + 1, p, as, h, hn => by
    obtain ⟨a, b, as', _, rfl, h1, h2, h3, h4⟩ := chain_two h
    unfold getList
    simp only [h1, h2, Mem.head, Mem.tail, h3, lookup]
    split
    · rfl
    · exact getList_chain nil k d ps n _ as' h4 (by simp only [List.length_cons] at hn; omega)

theorem keywordsList_chain {m : Mem α} : ∀ (ps : List (α × α)) (n : Nat) (p : Option Nat) (as : List Nat) (acc : List α),
    Chain m p as (flat ps) → ps.length ≤ n → keywordsList m n p acc = some (acc.reverse ++ ps.map Prod.fst)
  | [], n, p, as, acc, h, _ => by
    obtain ⟨rfl, _⟩ := chain_nil h
    unfold keywordsList
    simp
  | q :: ps, 0, p, as, _, _, hn => by simp at hn
  | q :: ps, n + 1, p, as, acc, h, hn => by
    obtain ⟨a, b, as', _, rfl, h1, h2, h3, h4⟩ := chain_two h
    unfold keywordsList
    rw [h2]
    have := keywordsList_chain ps n _ as' (q.1 :: acc) h4 (by simp only [List.length_cons] at hn; omega)
    simp only [Mem.tail, h1, this, List.reverse_cons, List.map_cons, List.append_assoc, List.singleton_append]

theorem valuesList_chain {m : Mem α} : ∀ (ps : List (α × α)) (n : Nat) (p : Option Nat) (as : List Nat) (acc : List α),
    Chain m p as (flat ps) → ps.length ≤ n → valuesList m n p acc = some (acc.reverse ++ ps.map Prod.snd)
  | [], n, p, as, acc, h, _ => by
    obtain ⟨rfl, _⟩ := chain_nil h
    unfold valuesList
    simp
  | q :: ps, 0, p, as, _, _, hn => by simp at hn
  | q :: ps, n + 1, p, as, acc, h, hn => by
    obtain ⟨a, b, as', _, rfl, h1, h2, h3, h4⟩ := chain_two h
    unfold valuesList
    have := valuesList_chain ps n _ as' (q.2 :: acc) h4 (by simp only [List.length_cons] at hn; omega)
    simp only [h2, h3, this, List.reverse_cons, List.map_cons, List.append_assoc, List.singleton_append]

theorem setHead_other (m : Mem α) {a b : Nat} (x : α) (h : b ≠ a) : (m.setHead a x).cells b = m.cells b := by
  simp [Mem.setHead, h]

theorem setTail_other (m : Mem α) {a b : Nat} (t : Option Nat) (h : b ≠ a) : (m.setTail a t).cells b = m.cells b := by
  simp [Mem.setTail, h]

theorem setHead_self (m : Mem α) (a : Nat) (x : α) : (m.setHead a x).cells a = ⟨x, (m.cells a).tail⟩ := by
  simp [Mem.setHead]

theorem setTail_self (m : Mem α) (a : Nat) (t : Option Nat) : (m.setTail a t).cells a = ⟨(m.cells a).head, t⟩ := by
  simp [Mem.setTail]

/-- `find-tail` joins two lists. -/
theorem findTail_chain {m : Mem α} {x : Option Nat} : ∀ (as : List Nat) (xs : List α) (n a : Nat) (bs : List Nat) (ys : List α),
    Chain m (some a) as xs → Chain m x bs ys → as.Nodup → (∀ b ∈ bs, b ∉ as) → as.length ≤ n →
    ∃ m', findTail m x n a = some m' ∧ m'.next = m.next ∧ Chain m' (some a) (as ++ bs) (xs ++ ys) ∧
      ∀ c, c ∉ as → m'.cells c = m.cells c
  | [], xs, n, a, bs, ys, h, _, _, _, _ => h.elim
  | b :: as, [], n, a, bs, ys, h, _, _, _, _ => h.elim
  | b :: as, z :: zs, 0, a, bs, ys, _, _, _, _, hn => by simp at hn
  | b :: as, z :: zs, n + 1, a, bs, ys, ⟨h1, h2, h3⟩, hx, hnd, hdis, hn => by
    subst h1
    rw [List.nodup_cons] at hnd
    unfold findTail
    cases ht : (m.cells a).tail with
    | none =>
      rw [ht] at h3
      have h30 : as = [] ∧ zs = [] := by
        cases as <;> cases zs <;> simp [Chain] at h3 ⊢
      obtain ⟨rfl, rfl⟩ := h30
      refine ⟨m.setTail a x, rfl, rfl, ?_, ?_⟩
      · refine ⟨rfl, by rw [setTail_self]; exact h2, ?_⟩
        rw [setTail_self]
        refine chain_frame hx fun c hc => setTail_other m x ?_
        intro h0
        exact hdis c hc (by rw [h0]; simp)
      · intro c hc
        exact setTail_other m x (by simpa using hc)
    | some a' =>
      rw [ht] at h3
      obtain ⟨m', h4, h5, h6, h7⟩ := findTail_chain as zs n a' bs ys h3 hx hnd.2
        (fun c hc hca => hdis c hc (by simp [hca])) (by simp only [List.length_cons] at hn; omega)
      have ha := h7 a hnd.1
      refine ⟨m', h4, h5, ⟨rfl, by rw [ha]; exact h2, by rw [ha, ht]; exact h6⟩, ?_⟩
      intro c hc
      exact h7 c fun hca => hc (by simp [hca])

/-- A chain after a change of one head within it. -/
theorem putList_found {m : Mem α} (k v : α) (bound : Nat) (plist : Option Nat) :
    ∀ (ps : List (α × α)) (n : Nat) (p : Option Nat) (as : List Nat), Chain m p as (flat ps) → as.Nodup →
    lookup ps k ≠ none → ps.length ≤ n → ∃ m', putList m k v bound plist n p = some (m', plist) ∧ m'.next = m.next ∧
      Chain m' p as (flat (update ps k v)) ∧ ∀ c, c ∉ as → m'.cells c = m.cells c
  | [], n, p, as, _, _, hl, _ => absurd rfl hl
  | q :: ps, 0, p, as, _, _, _, hn => by simp at hn
  | q :: ps, n + 1, p, as, h, hnd, hl, hn => by
    obtain ⟨a, b, as', rfl, rfl, h1, h2, h3, h4⟩ := chain_two h
    simp only [List.nodup_cons, List.mem_cons, not_or] at hnd
    obtain ⟨⟨hab, ha⟩, hb, hnd⟩ := hnd
    unfold putList
    rw [h1]
    by_cases hq : q.1 = k
    · rw [if_pos hq, h2]
      refine ⟨_, rfl, rfl, ?_, ?_⟩
      · unfold update
        rw [if_pos hq]
        have ea := setHead_other m v hab
        have eb := setHead_self m b v
        refine ⟨rfl, by rw [ea, h1, hq], ?_⟩
        rw [ea, h2]
        refine ⟨rfl, by rw [eb], ?_⟩
        rw [eb]
        exact chain_frame h4 fun c hc => setHead_other m v fun h0 => hb (h0 ▸ hc)
      · intro c hc
        simp only [List.mem_cons, not_or] at hc
        exact setHead_other m v hc.2.1
    · rw [if_neg hq, h2]
      simp only [Mem.tail]
      have hl' : lookup ps k ≠ none := by simpa only [lookup, if_neg hq] using hl
      obtain ⟨m', g1, g2, g3, g4⟩ := putList_found k v bound plist ps n _ as' h4 hnd hl'
        (by simp only [List.length_cons] at hn; omega)
      refine ⟨m', g1, g2, ?_, ?_⟩
      · unfold update
        rw [if_neg hq]
        have ea := g4 a ha
        have eb := g4 b hb
        refine ⟨rfl, by rw [ea, h1], ?_⟩
        rw [ea, h2]
        exact ⟨rfl, by rw [eb, h3], by rw [eb]; exact g3⟩
      · intro c hc
        simp only [List.mem_cons, not_or] at hc
        exact g4 c hc.2.2

theorem putList_missing {m : Mem α} (k v : α) (bound : Nat) (plist : Option Nat) :
    ∀ (ps : List (α × α)) (n : Nat) (p : Option Nat) (as : List Nat), Chain m p as (flat ps) →
    lookup ps k = none → ps.length ≤ n →
    putList m k v bound plist n p = concatenate (m.list2 k v).1 bound plist (m.list2 k v).2
  | [], n, p, as, h, _, _ => by
    obtain ⟨rfl, _⟩ := chain_nil h
    unfold putList
    rfl
  | q :: ps, 0, p, as, _, _, hn => by simp at hn
  | q :: ps, n + 1, p, as, h, hl, hn => by
    obtain ⟨a, b, as', rfl, rfl, h1, h2, h3, h4⟩ := chain_two h
    have hq : ¬ q.1 = k := by
      intro h0
      simp [lookup, h0] at hl
    unfold putList
    rw [h1, if_neg hq, h2]
    simp only [Mem.tail]
    exact putList_missing k v bound plist ps n _ as' h4 (by simpa only [lookup, if_neg hq] using hl)
      (by simp only [List.length_cons] at hn; omega)

theorem update_missing (k v : α) : ∀ {ps : List (α × α)}, lookup ps k = none → update ps k v = ps ++ [(k, v)]
  | [], _ => rfl
  | q :: ps, h => by
    have hq : ¬ q.1 = k := by
      intro h0
      simp [lookup, h0] at h
    unfold update
    rw [if_neg hq, update_missing k v (by simpa only [lookup, if_neg hq] using h)]
    rfl

/-- The chain of the two pairs that `list` makes. -/
theorem list2_chain (m : Mem α) (k v : α) :
    Chain (m.list2 k v).1 (m.list2 k v).2 [m.next + 1, m.next] [k, v] := by
  have e1 : (m.list2 k v).1.cells (m.next + 1) = ⟨k, some m.next⟩ := by simp [Mem.list2]
  have e2 : (m.list2 k v).1.cells m.next = ⟨v, none⟩ := by simp [Mem.list2]
  refine ⟨rfl, by rw [e1], ?_⟩
  rw [e1]
  refine ⟨rfl, by rw [e2], ?_⟩
  rw [e2]
  trivial

theorem list2_old (m : Mem α) (k v : α) {a : Nat} (h : a < m.next) : (m.list2 k v).1.cells a = m.cells a := by
  have h1 : a ≠ m.next := by omega
  have h2 : a ≠ m.next + 1 := by omega
  simp [Mem.list2, h1, h2]

/-- The rest of the loop of `do-remove-property!`, after the first property: `a0` and `c` are the first pair of the list and
the pair before `p`. -/
theorem removeList_rest {m : Mem α} (f k : α) (a0 : Nat) : ∀ (ps : List (α × α)) (n : Nat) (p : Option Nat) (c : Nat)
    (as : List Nat), Chain m p as (flat ps) → (m.cells c).tail = p → a0 ∉ as → c ∉ as → as.Nodup → ps.length ≤ n →
    ∃ m' as', removeList m f k (some a0) n p (some c) = some ((lookup ps k).getD f, m', some a0) ∧ m'.next = m.next ∧
      Chain m' (m'.cells c).tail as' (flat (removeFirst ps k)) ∧ as'.Sublist as ∧
      (m'.cells c).head = (m.cells c).head ∧ ∀ b, b ∉ c :: as → m'.cells b = m.cells b
  | [], n, p, c, as, h, ht, _, _, _, _ => by
    obtain ⟨rfl, rfl⟩ := chain_nil h
    refine ⟨m, [], ?_, rfl, by rw [ht]; exact h, List.Sublist.refl _, rfl, fun _ _ => rfl⟩
    unfold removeList
    rfl
  | q :: ps, 0, p, c, as, _, _, _, _, _, hn => by simp at hn
  | q :: ps, n + 1, p, c, as, h, ht, h0, hc, hnd, hn => by
    obtain ⟨a, b, as', rfl, rfl, h1, h2, h3, h4⟩ := chain_two h
    simp only [List.nodup_cons, List.mem_cons, not_or] at hnd h0 hc
    obtain ⟨⟨hab, ha⟩, hb, hnd⟩ := hnd
    have hne : ¬ some a = some a0 := by
      intro h
      exact h0.1 (Option.some.inj h).symm
    unfold removeList
    rw [h1]
    by_cases hq : q.1 = k
    · rw [if_pos hq, h2]
      simp only [if_neg hne, h3, lookup, if_pos hq, Option.getD_some, removeFirst]
      refine ⟨_, as', rfl, rfl, ?_, ?_, ?_, ?_⟩
      · rw [setTail_self]
        exact chain_frame h4 fun d hd => setTail_other m _ fun e => hc.2.2 (e ▸ hd)
      · exact (List.sublist_cons_self b as').cons a
      · rw [setTail_self]
      · intro d hd
        simp only [List.mem_cons, not_or] at hd
        exact setTail_other m _ hd.1
    · rw [if_neg hq, if_neg hne, h2]
      simp only [Mem.tail, ht, h2, lookup, if_neg hq, removeFirst]
      obtain ⟨m', bs, g1, g2, g3, g4, g5, g6⟩ := removeList_rest f k a0 ps n _ b as' h4 rfl h0.2.2 hb hnd
        (by simp only [List.length_cons] at hn; omega)
      have ea : m'.cells a = m.cells a := g6 a (by simp [hab, ha])
      have ec : m'.cells c = m.cells c := g6 c (by simp [hc.2.1, hc.2.2])
      refine ⟨m', a :: b :: bs, g1, g2, ?_, ?_, by rw [ec], ?_⟩
      · rw [ec, ht]
        refine ⟨rfl, by rw [ea, h1], ?_⟩
        rw [ea, h2]
        exact ⟨rfl, by rw [g5, h3], g3⟩
      · exact (g4.cons_cons b).cons_cons a
      · intro d hd
        simp only [List.mem_cons, not_or] at hd
        exact g6 d (by simp [hd.2.2.1, hd.2.2.2])

end Verif.Plist
