/-
The invariant of the dispatch cache, and that extending the cache keeps it.
-/
import Verif.Dispatch.Engine.Ponder

namespace Verif.Dispatch
open Verif.Types
open Classical in
section
variable {C : Type} [DecidableEq C] {K : DWorld C} {nreq : Nat} {ms0 : List (Meth C)}

/-- The method accepts the arguments at the positions `D`. -/
def App (K : DWorld C) (D : Set Nat) (x : Args C) (m : Meth C) : Prop :=
  ∀ a ∈ D, Inst K (x a) (spec K m a)

/-- As far as the positions `D` go, all arguments in `Q` are treated alike. -/
structure Uniform (K : DWorld C) (ms0 : List (Meth C)) (Q : Args C → Prop) (D : Set Nat) :
    Prop where
  app : ∀ x y, Q x → Q y → ∀ m ∈ ms0, App K D x m → App K D y m
  ord : ∀ x y, Q x → Q y → ∀ m ∈ ms0, ∀ m' ∈ ms0, App K D x m → App K D x m' →
    ∀ a ∈ D, orderSpec K (spec K m a) (spec K m' a) (x a) =
      orderSpec K (spec K m a) (spec K m' a) (y a)
  off : ∀ x y, Q x → Q y → ∀ m ∈ ms0, App K D x m → ∀ a ∈ D, m.acc = some a →
    K.offset m.id (classOf K.toWorld (x a)) = K.offset m.id (classOf K.toWorld (y a))

theorem Uniform.mono {Q Q' : Args C → Prop} {D : Set Nat} (h : Uniform K ms0 Q D)
    (hQ : ∀ x, Q' x → Q x) : Uniform K ms0 Q' D :=
  ⟨fun x y hx hy => h.app x y (hQ x hx) (hQ y hy), fun x y hx hy => h.ord x y (hQ x hx) (hQ y hy),
    fun x y hx hy => h.off x y (hQ x hx) (hQ y hy)⟩

theorem app_insert {D : Set Nat} {a : Nat} {x : Args C} {m : Meth C} :
    App K (insert a D) x m ↔ Inst K (x a) (spec K m a) ∧ App K D x m := by
  simp [App, Set.mem_insert_iff]

/-- One more position. -/
theorem Uniform.extend {Q Q' : Args C → Prop} {D : Set Nat} {a : Nat} (h : Uniform K ms0 Q D)
    (hQ : ∀ x, Q' x → Q x)
    (h1 : ∀ x y, Q' x → Q' y → ∀ m ∈ ms0, App K D x m → Inst K (x a) (spec K m a) →
      Inst K (y a) (spec K m a))
    (h2 : ∀ x y, Q' x → Q' y → ∀ m ∈ ms0, ∀ m' ∈ ms0, App K D x m → App K D x m' →
      Inst K (x a) (spec K m a) → Inst K (x a) (spec K m' a) →
      orderSpec K (spec K m a) (spec K m' a) (x a) = orderSpec K (spec K m a) (spec K m' a) (y a))
    (h3 : ∀ x y, Q' x → Q' y → ∀ m ∈ ms0, App K D x m → Inst K (x a) (spec K m a) →
      m.acc = some a →
      K.offset m.id (classOf K.toWorld (x a)) = K.offset m.id (classOf K.toWorld (y a))) :
    Uniform K ms0 Q' (insert a D) := by
  refine ⟨fun x y hx hy m hm ha => ?_, fun x y hx hy m hm m' hm' ha ha' b hb => ?_,
    fun x y hx hy m hm ha b hb hacc => ?_⟩
  · rw [app_insert] at ha ⊢
    exact ⟨h1 x y hx hy m hm ha.2 ha.1, h.app x y (hQ x hx) (hQ y hy) m hm ha.2⟩
  · rw [app_insert] at ha ha'
    rcases Set.mem_insert_iff.1 hb with rfl | hb
    · exact h2 x y hx hy m hm m' hm' ha.2 ha'.2 ha.1 ha'.1
    · exact h.ord x y (hQ x hx) (hQ y hy) m hm m' hm' ha.2 ha'.2 b hb
  · rw [app_insert] at ha
    rcases Set.mem_insert_iff.1 hb with rfl | hb
    · exact h3 x y hx hy m hm ha.2 ha.1 hacc
    · exact h.off x y (hQ x hx) (hQ y hy) m hm ha.2 b hb hacc

/-- A position at which the argument is known. -/
theorem Uniform.known {Q Q' : Args C → Prop} {D : Set Nat} {a : Nat} (h : Uniform K ms0 Q D)
    (hQ : ∀ x, Q' x → Q x) (he : ∀ x y, Q' x → Q' y → x a = y a) :
    Uniform K ms0 Q' (insert a D) :=
  h.extend hQ (fun x y hx hy m _ _ hi => he x y hx hy ▸ hi)
    (fun x y hx hy m _ m' _ _ _ _ _ => by rw [he x y hx hy])
    (fun x y hx hy m _ _ _ _ => by rw [he x y hx hy])

mutual
/-- What an engine node is good for: arguments in `Q`, with the positions `D` considered on the
    way to it. -/
def WF (K : DWorld C) (nreq : Nat) (ms0 : List (Meth C)) :
    Node C → (Args C → Prop) → Set Nat → Prop
  | .absent, Q, D => Uniform K ms0 Q D
  | .inapplicable, Q, _ => ∀ x, Q x → direct K nreq ms0 x = .inapplicable
  | .leaf o m, Q, _ => ∀ x, Q x → direct K nreq ms0 x = .invoke o m
  | .ifType a t thn els, Q, D => a < nreq ∧
    WF K nreq ms0 thn (fun x => Q x ∧ Inst K (x a) t) (insert a D) ∧
    WF K nreq ms0 els (fun x => Q x ∧ ¬ Inst K (x a) t) (insert a D)
  | .table k a t d, Q, D => a < nreq ∧ WFT K nreq ms0 k a t Q D ∧
    (k = .byClass → Uniform K ms0 Q D) ∧
    (k = .bySingleton → (∀ x, Q x → isClassObj (x a) = true) ∧
      ∀ o, Uniform K ms0 (fun x => Q x ∧ x a = o) (insert a D)) ∧
    (k ≠ .singles → d = .absent) ∧
    (k = .singles → WF K nreq ms0 d (fun x => Q x ∧ hasKey (x a) t = false) (insert a D))
/-- The same for the entries of a table. -/
def WFT (K : DWorld C) (nreq : Nat) (ms0 : List (Meth C)) (k : Kind) (a : Nat) :
    Tbl C → (Args C → Prop) → Set Nat → Prop
  | .nil, _, _ => True
  | .cons key n rest, Q, D =>
    ((k = .byClass ∧ n = .absent) ∨
      WF K nreq ms0 n (fun x => Q x ∧ keyOf K k (x a) = key) (insert a D)) ∧
    WFT K nreq ms0 k a rest Q D
end

mutual
theorem WF_mono : ∀ (n : Node C) {Q Q' : Args C → Prop} {D : Set Nat},
    (∀ x, Q' x → Q x) → WF K nreq ms0 n Q D → WF K nreq ms0 n Q' D
  | .absent, _, _, _, hQ, h => by simp only [WF] at h ⊢; exact h.mono hQ
  | .inapplicable, _, _, _, hQ, h => by simp only [WF] at h ⊢; exact fun x hx => h x (hQ x hx)
  | .leaf o m, _, _, _, hQ, h => by simp only [WF] at h ⊢; exact fun x hx => h x (hQ x hx)
  | .ifType a t thn els, _, _, _, hQ, h => by
    simp only [WF] at h ⊢
    exact ⟨h.1, WF_mono thn (fun x hx => ⟨hQ x hx.1, hx.2⟩) h.2.1,
      WF_mono els (fun x hx => ⟨hQ x hx.1, hx.2⟩) h.2.2⟩
  | .table k a t d, _, _, _, hQ, h => by
    simp only [WF] at h ⊢
    obtain ⟨h0, h1, h2, h3, h4, h5⟩ := h
    exact ⟨h0, WFT_mono t hQ h1, fun e => (h2 e).mono hQ,
      fun e => ⟨fun x hx => (h3 e).1 x (hQ x hx),
        fun o => ((h3 e).2 o).mono fun x hx => ⟨hQ x hx.1, hx.2⟩⟩, h4,
      fun e => WF_mono d (fun x hx => ⟨hQ x hx.1, hx.2⟩) (h5 e)⟩
theorem WFT_mono {k : Kind} {a : Nat} : ∀ (t : Tbl C) {Q Q' : Args C → Prop} {D : Set Nat},
    (∀ x, Q' x → Q x) → WFT K nreq ms0 k a t Q D → WFT K nreq ms0 k a t Q' D
  | .nil, _, _, _, _, _ => by simp only [WFT]
  | .cons key n rest, _, _, _, hQ, h => by
    simp only [WFT] at h ⊢
    exact ⟨h.1.imp id (WF_mono n fun x hx => ⟨hQ x hx.1, hx.2⟩), WFT_mono rest hQ h.2⟩
end

/-- All methods that are left accept any argument at position `a`. -/
def Moot (K : DWorld C) (ms0 : List (Meth C)) (a : Nat) (Q : Args C → Prop) (D : Set Nat) : Prop :=
  ∀ x, Q x → ∀ m ∈ ms0, App K D x m → Inst K (x a) (spec K m a)

theorem Moot.sub {a : Nat} {Q Q' : Args C → Prop} {D D' : Set Nat} (h : Moot K ms0 a Q D)
    (hQ : ∀ x, Q' x → Q x) (hD : D ⊆ D') : Moot K ms0 a Q' D' :=
  fun x hx m hm ha => h x (hQ x hx) m hm fun b hb => ha b (hD hb)

theorem Uniform.drop {a : Nat} {Q : Args C → Prop} {D : Set Nat} (hm : Moot K ms0 a Q D)
    (h : Uniform K ms0 Q (insert a D)) : Uniform K ms0 Q D := by
  have key : ∀ x, Q x → ∀ m ∈ ms0, App K D x m → App K (insert a D) x m :=
    fun x hx m hmm ha => app_insert.2 ⟨hm x hx m hmm ha, ha⟩
  refine ⟨fun x y hx hy m hmm ha => ?_, fun x y hx hy m hmm m' hm' ha ha' b hb => ?_,
    fun x y hx hy m hmm ha b hb => ?_⟩
  · exact (app_insert.1 (h.app x y hx hy m hmm (key x hx m hmm ha))).2
  · exact h.ord x y hx hy m hmm m' hm' (key x hx m hmm ha) (key x hx m' hm' ha') b
      (Set.mem_insert_of_mem _ hb)
  · exact h.off x y hx hy m hmm (key x hx m hmm ha) b (Set.mem_insert_of_mem _ hb)

mutual
theorem WF_drop {a : Nat} : ∀ (n : Node C) {Q : Args C → Prop} {D : Set Nat},
    Moot K ms0 a Q D → WF K nreq ms0 n Q (insert a D) → WF K nreq ms0 n Q D
  | .absent, _, _, hm, h => by simp only [WF] at h ⊢; exact h.drop hm
  | .inapplicable, _, _, _, h => by simp only [WF] at h ⊢; exact h
  | .leaf o m, _, _, _, h => by simp only [WF] at h ⊢; exact h
  | .ifType b t thn els, _, D, hm, h => by
    simp only [WF] at h ⊢
    rw [Set.insert_comm] at h
    exact ⟨h.1, WF_drop thn (hm.sub (fun x hx => hx.1) (Set.subset_insert b D)) h.2.1,
      WF_drop els (hm.sub (fun x hx => hx.1) (Set.subset_insert b D)) h.2.2⟩
  | .table k b t d, _, D, hm, h => by
    simp only [WF] at h ⊢
    obtain ⟨h0, h1, h2, h3, h4, h5⟩ := h
    rw [Set.insert_comm] at h3 h5
    exact ⟨h0, WFT_drop t hm h1, fun e => (h2 e).drop hm,
      fun e => ⟨(h3 e).1, fun o =>
        ((h3 e).2 o).drop (hm.sub (fun x hx => hx.1) (Set.subset_insert b D))⟩, h4,
      fun e => WF_drop d (hm.sub (fun x hx => hx.1) (Set.subset_insert b D)) (h5 e)⟩
theorem WFT_drop {a : Nat} {k : Kind} {b : Nat} : ∀ (t : Tbl C) {Q : Args C → Prop} {D : Set Nat},
    Moot K ms0 a Q D → WFT K nreq ms0 k b t Q (insert a D) → WFT K nreq ms0 k b t Q D
  | .nil, _, _, _, _ => by simp only [WFT]
  | .cons key n rest, _, D, hm, h => by
    simp only [WFT] at h ⊢
    rw [Set.insert_comm] at h
    exact ⟨h.1.imp id (WF_drop n (hm.sub (fun x hx => hx.1) (Set.subset_insert b D))),
      WFT_drop rest hm h.2⟩
end

/-! ### the methods that are left -/

/-- The methods that accept the arguments at the positions `D`. -/
noncomputable def live (K : DWorld C) (ms0 : List (Meth C)) (D : Set Nat) (x : Args C) :
    List (Meth C) := ms0.filter fun m => decide (App K D x m)

theorem mem_live {D : Set Nat} {x : Args C} {m : Meth C} :
    m ∈ live K ms0 D x ↔ m ∈ ms0 ∧ App K D x m := by simp [live]

theorem consider_live {D : Set Nat} {x : Args C} {a : Nat} :
    consider K a (x a) (live K ms0 D x) = live K ms0 (insert a D) x := by
  unfold consider live
  rw [List.filter_filter]
  apply List.filter_congr
  intro m _
  rw [Bool.eq_iff_iff, Bool.and_eq_true, decide_eq_true_iff, decide_eq_true_iff, app_insert]
  rw [isInst_iff]; rfl

theorem live_empty {x : Args C} : live K ms0 ∅ x = ms0 := by
  simp [live, App]

theorem consider_prune (hK : DLawful K) {a : Nat} {x : Obj C} {ms : List (Meth C)}
    (hf : ∀ m ∈ ms, Fine K (spec K m a)) :
    consider K a x (pruneByClass K a (classOf K.toWorld x) ms) = consider K a x ms := by
  unfold consider pruneByClass
  rw [List.filter_filter]
  apply List.filter_congr
  intro m hm
  rw [Bool.eq_iff_iff, Bool.and_eq_true]
  exact ⟨fun h => h.1, fun h => ⟨h, groundedHas_some hK (hf m hm) (isInst_iff.1 h)⟩⟩

/-- `todo` and `D` together are all positions. -/
structure Cov (nreq : Nat) (todo : List Nat) (D : Set Nat) : Prop where
  all : ∀ a < nreq, a ∈ todo ∨ a ∈ D
  todo : ∀ a ∈ todo, a < nreq
  done : ∀ a ∈ D, a < nreq

theorem Cov.step {a : Nat} {todo : List Nat} {D : Set Nat} (h : Cov nreq (a :: todo) D) :
    Cov nreq todo (insert a D) where
  all b hb := by
    rcases h.all b hb with h1 | h1
    · rcases List.mem_cons.1 h1 with rfl | h1
      · exact .inr (Set.mem_insert _ _)
      · exact .inl h1
    · exact .inr (Set.mem_insert_of_mem _ h1)
  todo b hb := h.todo b (by simp [hb])
  done b hb := by
    rcases Set.mem_insert_iff.1 hb with rfl | hb
    · exact h.todo b (by simp)
    · exact h.done b hb

theorem Cov.filter {a : Nat} {todo : List Nat} {D : Set Nat} (h : Cov nreq todo D) (ha : a < nreq) :
    Cov nreq (todo.filter (· ≠ a)) (insert a D) where
  all b hb := by
    by_cases e : b = a
    · exact .inr (by simp [e])
    · rcases h.all b hb with h1 | h1
      · exact .inl (by simp [h1, e])
      · exact .inr (Set.mem_insert_of_mem _ h1)
  todo b hb := h.todo b (List.mem_of_mem_filter hb)
  done b hb := by
    rcases Set.mem_insert_iff.1 hb with rfl | hb
    · exact ha
    · exact h.done b hb

theorem applicable_live {D : Set Nat} (h : Cov nreq [] D) (x : Args C) :
    applicable K nreq ms0 x = live K ms0 D x := by
  unfold applicable live
  apply List.filter_congr
  intro m _
  rw [Bool.eq_iff_iff, decide_eq_true_iff, List.all_eq_true]
  constructor
  · intro h1 a ha
    exact isInst_iff.1 (h1 a (List.mem_range.2 (h.done a ha)))
  · intro h1 a ha
    have := (h.all a (List.mem_range.1 ha)).resolve_left (by simp)
    exact isInst_iff.2 (h1 a this)

theorem applicable_sub {D : Set Nat} (h : ∀ a ∈ D, a < nreq) {x : Args C} {m : Meth C}
    (hm : m ∈ applicable K nreq ms0 x) : m ∈ live K ms0 D x := by
  simp only [applicable, List.mem_filter, List.all_eq_true, List.mem_range] at hm
  exact mem_live.2 ⟨hm.1, fun a ha => isInst_iff.1 (hm.2 a (h a ha))⟩

theorem live_uniform {Q : Args C → Prop} {D : Set Nat} (hU : Uniform K ms0 Q D) {x y : Args C}
    (hx : Q x) (hy : Q y) : live K ms0 D x = live K ms0 D y := by
  unfold live
  apply List.filter_congr
  intro m hm
  rw [Bool.eq_iff_iff, decide_eq_true_iff, decide_eq_true_iff]
  exact ⟨hU.app x y hx hy m hm, hU.app y x hy hx m hm⟩

/-- The terminal node. -/
theorem direct_uniform (hA : ∀ m ∈ ms0, ∀ a, m.acc = some a → a < nreq) {Q : Args C → Prop}
    {D : Set Nat} (hc : Cov nreq [] D) (hU : Uniform K ms0 Q D) {x y : Args C} (hx : Q x)
    (hy : Q y) : direct K nreq ms0 x = direct K nreq ms0 y := by
  unfold direct
  rw [applicable_live hc, applicable_live hc, ← live_uniform hU hx hy]
  have hD : ∀ a < nreq, a ∈ D := fun a ha => (hc.all a ha).resolve_left (by simp)
  have e : sortMethods (orderMethods K nreq x) (live K ms0 D x) =
      sortMethods (orderMethods K nreq y) (live K ms0 D x) := by
    apply sortMethods_congr
    intro m hm m' hm'
    rw [mem_live] at hm hm'
    rw [orderMethods, orderMethods, orderMethodsFrom_eq, orderMethodsFrom_eq]
    congr 1
    apply List.map_congr_left
    intro a ha
    exact hU.ord x y hx hy m hm.1 m' hm'.1 hm.2 hm'.2 a (hD a (List.mem_range.1 ha))
  simp only [e]
  have e2 : ∀ m ∈ (sortMethods (orderMethods K nreq y) (live K ms0 D x)).1,
      action K x m = action K y m := by
    intro m hm
    have hm := mem_live.1 (sortMethods_mem (.inl hm))
    unfold action
    rcases he : m.acc with _ | a
    · rfl
    · simp only [Option.map_some]
      rw [hU.off x y hx hy m hm.1 hm.2 a (hD a (hA m hm.1 a he)) he]
  rw [List.map_congr_left e2]

/-- What a computed node has to satisfy. -/
def Good (K : DWorld C) (nreq : Nat) (ms0 : List (Meth C)) (Q : Args C → Prop) (D : Set Nat)
    (args : Args C) (r : Node C × Bool) : Prop :=
  WF K nreq ms0 r.1 Q D ∧ (r.2 = true → direct K nreq ms0 args = .inapplicable) ∧
    (r.2 = false → outcome (run K args r.1) = some (direct K nreq ms0 args))

theorem direct_empty {args : Args C} {D : Set Nat} (hD : ∀ a ∈ D, a < nreq)
    (h : live K ms0 D args = []) : direct K nreq ms0 args = .inapplicable := by
  have : applicable K nreq ms0 args = [] := by
    rw [List.eq_nil_iff_forall_not_mem]
    intro m hm
    have := applicable_sub hD hm
    rw [h] at this; cases this
  simp [direct, this]

theorem terminal_good (hA : ∀ m ∈ ms0, ∀ a, m.acc = some a → a < nreq) {Q : Args C → Prop}
    {D : Set Nat} {args : Args C} (hc : Cov nreq [] D) (hU : Uniform K ms0 Q D) (hq : Q args) :
    Good K nreq ms0 Q D args (terminal K nreq args (live K ms0 D args)) := by
  unfold terminal
  simp only [sortMethods_nil]
  by_cases he : live K ms0 D args = []
  · simp only [he, if_true]
    exact ⟨by simpa only [WF] using hU, fun _ => direct_empty hc.done he, by simp⟩
  · simp only [he, if_false]
    have hd : direct K nreq ms0 args = .invoke
        ((sortMethods (orderMethods K nreq args) (live K ms0 D args)).1.map (action K args))
        ((sortMethods (orderMethods K nreq args) (live K ms0 D args)).2.map Meth.id) := by
      unfold direct
      rw [applicable_live hc]
      simp [he]
    refine ⟨?_, by simp, fun _ => ?_⟩
    · simp only [WF]
      intro x hx
      rw [← hd]
      exact direct_uniform hA hc hU hx hq
    · simp only [run, outcome, hd]

end
end Verif.Dispatch
