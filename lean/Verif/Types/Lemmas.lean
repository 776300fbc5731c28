import Verif.Types.Spec
import Mathlib.Tactic.Ring
import Mathlib.Tactic.Tauto

namespace Verif.Types
variable {C : Type} [DecidableEq C]

set_option linter.unusedSimpArgs false

/-! ### answers -/

theorem andO_true {x y : Option Bool} : andO x y = some true ↔ x = some true ∧ y = some true := by
  rcases x with _ | _ | _ <;> simp [andO]

theorem andO_false {x y : Option Bool} (h : andO x y = some false) :
    x = some false ∨ y = some false := by
  rcases x with _ | _ | _ <;> simp_all [andO]

theorem orO_true {x y : Option Bool} : orO x y = some true ↔
    x = some true ∨ (x = some false ∧ y = some true) := by
  rcases x with _ | _ | _ <;> simp [orO]

theorem orO_false {x y : Option Bool} : orO x y = some false ↔ x = some false ∧ y = some false := by
  rcases x with _ | _ | _ <;> simp [orO]

theorem andO_isSome {x y : Option Bool} (hx : x ≠ none) (hy : y ≠ none) : andO x y ≠ none := by
  rcases x with _ | _ | _ <;> simp_all [andO]

theorem orO_isSome {x y : Option Bool} (hx : x ≠ none) (hy : y ≠ none) : orO x y ≠ none := by
  rcases x with _ | _ | _ <;> simp_all [orO]

/-! ### limited integers -/

theorem fix_range (i : Fix) : -2 ^ 61 ≤ i.toInt ∧ i.toInt < 2 ^ 61 := by
  have h1 := BitVec.toInt_lt (x := i)
  have h2 := BitVec.le_toInt (x := i)
  norm_num at h1 h2 ⊢
  omega

theorem tagWord_toInt (i : Fix) : (tagWord i).toInt = 4 * i.toInt + 1 := by
  have := fix_range i
  unfold tagWord
  rw [BitVec.toInt_ofInt]
  unfold Int.bmod
  norm_num at *
  omega

theorem tagWord_sub (i m : Fix) :
    ((tagWord i - tagWord m).toNat : Int) = (4 * (i.toInt - m.toInt)) % 2 ^ 64 := by
  unfold tagWord
  rw [BitVec.toNat_sub]
  simp only [BitVec.toNat_ofInt]
  norm_num
  have h1 : (0:Int) ≤ (4 * i.toInt + 1) % 18446744073709551616 := by omega
  have h2 : (0:Int) ≤ (4 * m.toInt + 1) % 18446744073709551616 := by omega
  omega

theorem limIntTest_both {i m M : Fix} (h : m.toInt ≤ M.toInt) :
    limIntTest i (.both m M) = true ↔ m.toInt ≤ i.toInt ∧ i.toInt ≤ M.toInt := by
  have h1 := tagWord_sub i m
  have h2 := tagWord_sub M m
  have := fix_range i
  have := fix_range m
  have := fix_range M
  simp only [limIntTest, decide_eq_true_eq]
  norm_num at *
  omega

theorem limIntTest_min {i m : Fix} :
    limIntTest i (.minOnly m) = true ↔ m.toInt ≤ i.toInt := by
  simp [limIntTest, tagWord_toInt]

theorem limIntTest_max {i M : Fix} :
    limIntTest i (.maxOnly M) = true ↔ i.toInt ≤ M.toInt := by
  simp [limIntTest, tagWord_toInt]

/-- The interval of the bounds is not inverted. -/
def Bounds.Ok : Bounds → Prop
  | .both m M => m.toInt ≤ M.toInt
  | _ => True

theorem limIntTest_iff {i : Fix} {b : Bounds} (h : b.Ok) : limIntTest i b = true ↔
    (∀ m, b.min? = some m → m.toInt ≤ i.toInt) ∧ (∀ M, b.max? = some M → i.toInt ≤ M.toInt) := by
  cases b with
  | minOnly m => simp [limIntTest_min, Bounds.min?, Bounds.max?]
  | maxOnly M => simp [limIntTest_max, Bounds.min?, Bounds.max?]
  | both m M => simp [limIntTest_both h, Bounds.min?, Bounds.max?]

theorem limIntSub_iff {a b : Bounds} : limIntSub a b = true ↔
    (∀ m, b.min? = some m → ∃ v, a.min? = some v ∧ m.toInt ≤ v.toInt) ∧
    (∀ M, b.max? = some M → ∃ v, a.max? = some v ∧ v.toInt ≤ M.toInt) := by
  unfold limIntSub satisfiesBound
  cases a <;> cases b <;> simp [Bounds.min?, Bounds.max?]

theorem limIntSub_sound {a b : Bounds} {i : Fix} (ha : a.Ok) (hb : b.Ok)
    (h : limIntSub a b = true) (hi : limIntTest i a = true) : limIntTest i b = true := by
  rw [limIntTest_iff ha] at hi
  rw [limIntTest_iff hb]
  rw [limIntSub_iff] at h
  refine ⟨fun m hm => ?_, fun M hM => ?_⟩
  · obtain ⟨v, hv, hle⟩ := h.1 m hm
    have := hi.1 v hv
    omega
  · obtain ⟨v, hv, hle⟩ := h.2 M hM
    have := hi.2 v hv
    omega

theorem limIntSub_trans {a b c : Bounds} (h : limIntSub a b = true) (h' : limIntSub b c = true) :
    limIntSub a c = true := by
  rw [limIntSub_iff] at *
  refine ⟨fun m hm => ?_, fun M hM => ?_⟩
  · obtain ⟨v, hv, hle⟩ := h'.1 m hm
    obtain ⟨w, hw, hle'⟩ := h.1 v hv
    exact ⟨w, hw, by omega⟩
  · obtain ⟨v, hv, hle⟩ := h'.2 M hM
    obtain ⟨w, hw, hle'⟩ := h.2 v hv
    exact ⟨w, hw, by omega⟩

theorem limIntSub_refl (a : Bounds) : limIntSub a a = true := by
  rw [limIntSub_iff]
  exact ⟨fun m hm => ⟨m, hm, le_refl _⟩, fun M hM => ⟨M, hM, le_refl _⟩⟩

theorem limIntDisj_sound {a b : Bounds} {i : Fix} (ha : a.Ok) (hb : b.Ok)
    (h : limIntDisj a b = true) (h1 : limIntTest i a = true) (h2 : limIntTest i b = true) :
    False := by
  rw [limIntTest_iff ha] at h1
  rw [limIntTest_iff hb] at h2
  cases a <;> cases b <;>
    simp [limIntDisj, below, Bounds.min?, Bounds.max?] at h h1 h2 <;> omega

/-! ### dimensions -/

theorem everyEq_eq : ∀ {a b : List Nat}, a.length = b.length → everyEq a b = true → a = b
  | [], [], _, _ => rfl
  | x :: xs, y :: ys, hl, h => by
    simp only [everyEq, Bool.and_eq_true, decide_eq_true_eq] at h
    rw [h.1, everyEq_eq (by simpa using hl) h.2]

theorem everyEq_refl : ∀ a : List Nat, everyEq a a = true
  | [] => rfl
  | x :: xs => by simp [everyEq, everyEq_refl xs]

theorem foldl_mul (l : List Nat) : ∀ a, l.foldl (· * ·) a = a * l.prod := by
  induction l with
  | nil => simp
  | cons x xs ih => intro a; simp only [List.foldl_cons, ih, List.prod_cons]; ring

theorem sizeOfDims_prod (l : List Nat) : sizeOfDims l = l.prod := by
  simp [sizeOfDims, foldl_mul]

theorem reduce1Mul_prod {l : List Nat} {p : Nat} (h : reduce1Mul l = some p) : p = l.prod := by
  cases l with
  | nil => simp [reduce1Mul] at h
  | cons d ds => simp only [reduce1Mul, Option.some.injEq, foldl_mul] at h; simp [← h]

theorem sizeByDims_true {d : List Nat} {s : Option Nat} (h : sizeByDims d s = some true) :
    ∀ n, s = some n → d.prod = n := by
  intro n hn
  subst hn
  simp only [sizeByDims] at h
  cases hr : reduce1Mul d with
  | none => simp [hr] at h
  | some p =>
    have := reduce1Mul_prod hr
    simp [hr] at h
    omega

theorem sizeByDims_intro {d : List Nat} {s : Option Nat} (h : ∀ n, s = some n → d.prod = n) :
    sizeByDims d s ≠ some false := by
  cases s with
  | none => simp [sizeByDims]
  | some n =>
    simp only [sizeByDims]
    cases hr : reduce1Mul d with
    | none => simp
    | some p =>
      have := reduce1Mul_prod hr
      have := h n rfl
      simp
      omega

theorem shapeSub_sound {r : Nat} {xd : List Nat} {s1 s2 : Option Nat} {d1 d2 : Option (List Nat)}
    (hx : xd.length = r) (h1 : ∀ d, d1 = some d → d.length = r)
    (h2 : ∀ d, d2 = some d → d.length = r)
    (hi : shapeInst xd s1 d1 = true) (h : shapeSub s1 d1 s2 d2 = some true) :
    shapeInst xd s2 d2 = true := by
  have key : ∀ d, d1 = some d → xd = d := by
    intro d hd
    subst hd
    simp only [shapeInst, Bool.and_eq_true] at hi
    exact everyEq_eq (by rw [hx, h1 d rfl]) hi.2
  have main : ∀ d, d1 = some d → sizeByDims d s2 = some true →
      shapeInst xd s2 none = true := by
    intro d hd hs
    have := sizeByDims_true hs
    cases s2 with
    | none => rfl
    | some n => simp [shapeInst, sizeOfDims_prod, key d hd, this n rfl]
  cases d1 with
  | none =>
    cases d2 with
    | some d => simp [shapeSub] at h
    | none =>
      cases s2 with
      | none => simp [shapeInst]
      | some n =>
        simp only [shapeSub, Option.some.injEq, decide_eq_true_eq] at h
        subst h
        simpa [shapeInst] using hi
  | some d =>
    have hxd := key d rfl
    cases d2 with
    | none =>
      simp only [shapeSub] at h
      exact main d rfl h
    | some d' =>
      simp only [shapeSub, andO_true, Option.some.injEq] at h
      have hm := main d rfl h.2
      simp only [shapeInst, Bool.and_eq_true] at hm ⊢
      refine ⟨hm.1, ?_⟩
      rw [hxd]; exact h.1

theorem shapeSub_trans {r : Nat} {s1 s2 s3 : Option Nat} {d1 d2 d3 : Option (List Nat)}
    (h1 : ∀ d, d1 = some d → d.length = r) (h2 : ∀ d, d2 = some d → d.length = r)
    (h : shapeSub s1 d1 s2 d2 = some true) (h' : shapeSub s2 d2 s3 d3 = some true) :
    shapeSub s1 d1 s3 d3 ≠ some false := by
  cases d1 with
  | none =>
    cases d2 with
    | some d => simp [shapeSub] at h
    | none =>
      cases d3 with
      | some d => simp [shapeSub] at h'
      | none =>
        cases s3 with
        | none => simp [shapeSub]
        | some n =>
          simp only [shapeSub, Option.some.injEq, decide_eq_true_eq] at h'
          subst h'
          simp only [shapeSub, Option.some.injEq, decide_eq_true_eq] at h
          simp [shapeSub, h]
  | some d =>
    cases d2 with
    | none =>
      simp only [shapeSub] at h
      cases d3 with
      | some d => simp [shapeSub] at h'
      | none =>
        simp only [shapeSub]
        apply sizeByDims_intro
        intro n hn
        subst hn
        simp only [shapeSub, Option.some.injEq, decide_eq_true_eq] at h'
        exact sizeByDims_true h n h'
    | some d' =>
      simp only [shapeSub, andO_true, Option.some.injEq] at h
      have hd : d = d' := everyEq_eq (by rw [h1 d rfl, h2 d' rfl]) h.1
      subst hd
      cases d3 with
      | none =>
        simp only [shapeSub] at h' ⊢
        rw [h']; simp
      | some d3 =>
        simp only [shapeSub] at h' ⊢
        rw [h']; simp

/-! ### instance? is subtype? of the singleton -/

theorem sub_single (K : World C) (x : Obj C) (b : Ty C) : sub K (.single x) b = inst K x b := by
  cases b with
  | subclass c => cases x <;> simp [sub, inst]
  | _ => simp [sub, inst]

/-! ### transitivity -/

theorem equiv_true {K : World C} (hK : Lawful K) {a b : Ty C} (h : equiv K a b = some true) :
    a = b ∧ K.same a b = true ∨ a = b ∧ (∃ c, a = .cls c) ∨
      sub K a b = some true ∧ sub K b a = some true := by
  unfold equiv at h
  split at h
  · simp only [Option.some.injEq, decide_eq_true_eq] at h
    subst h
    exact Or.inr (Or.inl ⟨rfl, _, rfl⟩)
  · split at h
    · rename_i hs
      exact Or.inl ⟨hK.same _ _ hs, hs⟩
    · exact Or.inr (Or.inr (andO_true.mp h))

theorem sub_union_left (K : World C) (a1 a2 b : Ty C) :
    sub K (.union a1 a2) b = andO (sub K a1 b) (sub K a2 b) := by
  simp [sub]

/-- Not a union. -/
def Leaf (a : Ty C) : Prop := ∀ p q, a ≠ .union p q

theorem sub_union_right (K : World C) {a : Ty C} (ha : Leaf a) (b1 b2 : Ty C) :
    sub K a (.union b1 b2) = orO (sub K a b1) (sub K a b2) := by
  cases a with
  | union p q => exact absurd rfl (ha p q)
  | single o => simp [sub_single, inst]
  | _ => simp [sub]

theorem equiv_not_false {K : World C} {a b : Ty C}
    (hc : ∀ p q, a = .cls p → b = .cls q → p = q)
    (h1 : sub K a b ≠ some false) (h2 : sub K b a ≠ some false) :
    equiv K a b ≠ some false := by
  unfold equiv
  split
  · simpa using hc _ _ rfl rfl
  · split
    · simp
    · intro h
      rcases andO_false h with h | h <;> contradiction

theorem equiv_trans {K : World C} (hK : Lawful K) {a b c : Ty C}
    (h1 : equiv K a b = some true) (h2 : equiv K b c = some true)
    (t1 : sub K a b = some true → sub K b c = some true → sub K a c ≠ some false)
    (t2 : sub K c b = some true → sub K b a = some true → sub K c a ≠ some false) :
    equiv K a c ≠ some false := by
  rcases equiv_true hK h1 with ⟨rfl, _⟩ | ⟨rfl, _⟩ | ⟨s1, s2⟩
  · rw [h2]; simp
  · rw [h2]; simp
  · rcases equiv_true hK h2 with ⟨rfl, _⟩ | ⟨rfl, _⟩ | ⟨s3, s4⟩
    · rw [h1]; simp
    · rw [h1]; simp
    · have u1 := t1 s1 s3
      have u2 := t2 s4 s2
      refine equiv_not_false ?_ u1 u2
      rintro p q rfl rfl
      simp [sub] at u1 u2
      exact hK.antisymm _ _ u1 u2

theorem tame_ok {K : World C} {r : Nat} {b : Bounds} (h : Ty.Tame K r (.limInt b)) : b.Ok := by
  cases b <;> simp_all [Ty.Tame, Bounds.Ok]

theorem inst_trans_leaf {K : World C} (hK : Lawful K) {r : Nat} {o : Obj C} {b c : Ty C}
    (hb : Leaf b) (hc : Leaf c)
    (ta : o.Tame K r) (tb : b.Tame K r) (tc : c.Tame K r)
    (ih : ∀ e1 e2 e3 : Ty C, sizeOf e1 + sizeOf e2 + sizeOf e3 < sizeOf o + sizeOf b + sizeOf c →
      e1.Tame K r → e2.Tame K r → e3.Tame K r → sub K e1 e2 = some true →
      sub K e2 e3 = some true → sub K e1 e3 ≠ some false)
    (h1 : inst K o b = some true) (h2 : sub K b c = some true) : inst K o c ≠ some false := by
  cases b with
  | union p q => exact absurd rfl (hb p q)
  | single p =>
    rw [sub_single] at h2
    simp only [inst, Option.some.injEq, decide_eq_true_eq] at h1
    subst h1; rw [h2]; simp
  | cls k =>
    cases c with
    | union p q => exact absurd rfl (hc p q)
    | cls d =>
      simp only [inst, sub, Option.some.injEq] at h1 h2 ⊢
      simpa using hK.trans _ _ _ h1 h2
    | subclass d =>
      simp [sub] at h2
      exact absurd h2.2 tc
    | _ => simp [sub] at h2
  | limInt b =>
    cases o with
    | int i =>
      simp only [inst, Option.some.injEq] at h1
      cases c with
      | union p q => exact absurd rfl (hc p q)
      | cls d => simpa [sub, inst, classOf] using h2
      | limInt b' =>
        simp only [sub, Option.some.injEq] at h2
        simpa [inst] using limIntSub_sound (tame_ok tb) (tame_ok tc) h2 h1
      | _ => simp [sub] at h2
    | _ => simp [inst] at h1
  | subclass k =>
    cases o with
    | cls d =>
      simp only [inst, Option.some.injEq] at h1
      cases c with
      | union p q => exact absurd rfl (hc p q)
      | cls e =>
        simp only [sub, Option.some.injEq] at h2
        simpa [inst, classOf] using hK.trans _ _ _ (hK.metaC d) h2
      | subclass e =>
        simp only [sub, Option.some.injEq] at h2
        simpa [inst] using hK.trans _ _ _ h1 h2
      | _ => simp [sub] at h2
    | _ => simp [inst] at h1
  | limFun s =>
    cases o with
    | fn k sg id =>
      simp only [inst, Option.some.injEq, Bool.and_eq_true] at h1
      cases c with
      | union p q => exact absurd rfl (hc p q)
      | cls e =>
        simp only [sub, Option.some.injEq] at h2
        simpa [inst, classOf] using hK.trans _ _ _ h1.1 h2
      | _ => simp [sub] at h2
    | _ => simp [inst] at h1
  | limColl k e s d =>
    cases o with
    | coll xk xe xd id =>
      simp only [inst, andO_true, Option.some.injEq] at h1
      obtain ⟨hk, hs, he, hsh⟩ := h1
      cases c with
      | union p q => exact absurd rfl (hc p q)
      | cls f =>
        simp only [sub, Option.some.injEq] at h2
        simpa [inst, classOf] using hK.trans _ _ _ hs h2
      | limColl k' e' s' d' =>
        simp only [sub, andO_true, Option.some.injEq] at h2
        obtain ⟨hk', he', hsh'⟩ := h2
        simp only [Ty.Tame, Obj.Tame] at ta tb tc
        have hsh2 := shapeSub_sound ta.2 tb.2 tc.2 hsh hsh'
        have hkk := hK.trans _ _ _ hs hk'
        intro hf
        simp only [inst, hk, hkk, hsh2, andO] at hf
        refine equiv_trans hK he he' (fun u v => ih _ _ _ ?_ ta.1 tb.1 tc.1 u v)
          (fun u v => ih _ _ _ ?_ tc.1 tb.1 ta.1 u v) ?_
        · simp; omega
        · simp; omega
        · rcases andO_false hf with h | h
          · exact h
          · simp at h
      | _ => simp [sub] at h2
    | _ => simp [inst] at h1

theorem sub_trans_leaf {K : World C} (hK : Lawful K) {r : Nat} {a b c : Ty C}
    (ha : Leaf a) (hb : Leaf b) (hc : Leaf c)
    (ta : a.Tame K r) (tb : b.Tame K r) (tc : c.Tame K r)
    (ih : ∀ e1 e2 e3 : Ty C, sizeOf e1 + sizeOf e2 + sizeOf e3 < sizeOf a + sizeOf b + sizeOf c →
      e1.Tame K r → e2.Tame K r → e3.Tame K r → sub K e1 e2 = some true →
      sub K e2 e3 = some true → sub K e1 e3 ≠ some false)
    (h1 : sub K a b = some true) (h2 : sub K b c = some true) : sub K a c ≠ some false := by
  cases a with
  | union p q => exact absurd rfl (ha p q)
  | single o =>
    rw [sub_single] at h1 ⊢
    refine inst_trans_leaf hK hb hc ta tb tc (fun e1 e2 e3 hs => ih e1 e2 e3 ?_) h1 h2
    simp; omega
  | cls k =>
    cases b with
    | union p q => exact absurd rfl (hb p q)
    | cls k' =>
      cases c with
      | union p q => exact absurd rfl (hc p q)
      | cls d =>
        simp only [sub, Option.some.injEq] at h1 h2 ⊢
        simpa using hK.trans _ _ _ h1 h2
      | subclass d =>
        simp [sub] at h2
        exact absurd h2.2 tc
      | _ => simp [sub] at h2
    | subclass d =>
      simp [sub] at h1
      exact absurd h1.2 tb
    | _ => simp [sub] at h1
  | limInt x =>
    cases b with
    | union p q => exact absurd rfl (hb p q)
    | cls k =>
      cases c with
      | union p q => exact absurd rfl (hc p q)
      | cls d =>
        simp only [sub, Option.some.injEq] at h1 h2 ⊢
        simpa using hK.trans _ _ _ h1 h2
      | subclass d =>
        simp [sub] at h2
        exact absurd h2.2 tc
      | _ => simp [sub] at h2
    | limInt y =>
      cases c with
      | union p q => exact absurd rfl (hc p q)
      | cls d => simpa [sub] using h2
      | limInt z =>
        simp only [sub, Option.some.injEq] at h1 h2 ⊢
        simpa using limIntSub_trans h1 h2
      | _ => simp [sub] at h2
    | _ => simp [sub] at h1
  | subclass x =>
    cases b with
    | union p q => exact absurd rfl (hb p q)
    | cls k =>
      cases c with
      | union p q => exact absurd rfl (hc p q)
      | cls d =>
        simp only [sub, Option.some.injEq] at h1 h2 ⊢
        simpa using hK.trans _ _ _ h1 h2
      | subclass d =>
        simp [sub] at h2
        exact absurd h2.2 tc
      | _ => simp [sub] at h2
    | subclass y =>
      cases c with
      | union p q => exact absurd rfl (hc p q)
      | cls d => simpa [sub] using h2
      | subclass z =>
        simp only [sub, Option.some.injEq] at h1 h2 ⊢
        simpa using hK.trans _ _ _ h1 h2
      | _ => simp [sub] at h2
    | _ => simp [sub] at h1
  | limFun x =>
    cases b with
    | union p q => exact absurd rfl (hb p q)
    | cls k =>
      cases c with
      | union p q => exact absurd rfl (hc p q)
      | cls d =>
        simp only [sub, Option.some.injEq] at h1 h2 ⊢
        simpa using hK.trans _ _ _ h1 h2
      | subclass d =>
        simp [sub] at h2
        exact absurd h2.2 tc
      | _ => simp [sub] at h2
    | _ => simp [sub] at h1
  | limColl k e s d =>
    cases b with
    | union p q => exact absurd rfl (hb p q)
    | cls k' =>
      cases c with
      | union p q => exact absurd rfl (hc p q)
      | cls d =>
        simp only [sub, Option.some.injEq] at h1 h2 ⊢
        simpa using hK.trans _ _ _ h1 h2
      | subclass d =>
        simp [sub] at h2
        exact absurd h2.2 tc
      | _ => simp [sub] at h2
    | limColl k' e' s' d' =>
      simp only [sub, andO_true, Option.some.injEq] at h1
      obtain ⟨hk, he, hsh⟩ := h1
      cases c with
      | union p q => exact absurd rfl (hc p q)
      | cls f =>
        simp only [sub, Option.some.injEq] at h2
        simpa [sub] using hK.trans _ _ _ hk h2
      | limColl k'' e'' s'' d'' =>
        simp only [sub, andO_true, Option.some.injEq] at h2
        obtain ⟨hk', he', hsh'⟩ := h2
        simp only [Ty.Tame] at ta tb tc
        have hsh2 := shapeSub_trans ta.2 tb.2 hsh hsh'
        have hkk := hK.trans _ _ _ hk hk'
        intro hf
        simp only [sub, hkk, andO] at hf
        refine equiv_trans hK he he' (fun u v => ih _ _ _ ?_ ta.1 tb.1 tc.1 u v)
          (fun u v => ih _ _ _ ?_ tc.1 tb.1 ta.1 u v) ?_
        · simp; omega
        · simp; omega
        · rcases andO_false hf with h | h
          · exact h
          · exact absurd h hsh2
      | _ => simp [sub] at h2
    | _ => simp [sub] at h1

theorem leaf_or (a : Ty C) : (∃ p q, a = .union p q) ∨ Leaf a := by
  cases a with
  | union p q => exact Or.inl ⟨p, q, rfl⟩
  | _ => exact Or.inr (fun _ _ h => by cases h)

theorem sub_trans_aux {K : World C} (hK : Lawful K) {r : Nat} : ∀ (n : Nat) (a b c : Ty C),
    sizeOf a + sizeOf b + sizeOf c ≤ n → a.Tame K r → b.Tame K r → c.Tame K r →
    sub K a b = some true → sub K b c = some true → sub K a c ≠ some false := by
  intro n
  induction n using Nat.strong_induction_on with
  | _ n ih =>
    have ih' : ∀ (a b c : Ty C), sizeOf a + sizeOf b + sizeOf c < n → a.Tame K r → b.Tame K r →
        c.Tame K r → sub K a b = some true → sub K b c = some true → sub K a c ≠ some false :=
      fun a b c hs => ih (sizeOf a + sizeOf b + sizeOf c) hs a b c le_rfl
    clear ih
    intro a b c hn ta tb tc h1 h2
    rcases leaf_or a with ⟨a1, a2, rfl⟩ | ha
    · rw [sub_union_left, andO_true] at h1
      rw [sub_union_left]
      simp only [Ty.union.sizeOf_spec, Ty.Tame] at hn ta
      have u1 := ih' a1 b c (by omega) ta.1 tb tc h1.1 h2
      have u2 := ih' a2 b c (by omega) ta.2 tb tc h1.2 h2
      intro h
      rcases andO_false h with h | h <;> contradiction
    · rcases leaf_or b with ⟨b1, b2, rfl⟩ | hb
      · rw [sub_union_right K ha, orO_true] at h1
        rw [sub_union_left, andO_true] at h2
        simp only [Ty.union.sizeOf_spec, Ty.Tame] at hn tb
        rcases h1 with h1 | ⟨_, h1⟩
        · exact ih' a b1 c (by omega) ta tb.1 tc h1 h2.1
        · exact ih' a b2 c (by omega) ta tb.2 tc h1 h2.2
      · rcases leaf_or c with ⟨c1, c2, rfl⟩ | hc
        · rw [sub_union_right K hb, orO_true] at h2
          rw [sub_union_right K ha]
          simp only [Ty.union.sizeOf_spec, Ty.Tame] at hn tc
          rw [Ne, orO_false]
          rintro ⟨f1, f2⟩
          rcases h2 with h2 | ⟨_, h2⟩
          · exact ih' a b c1 (by omega) ta tb tc.1 h1 h2 f1
          · exact ih' a b c2 (by omega) ta tb tc.2 h1 h2 f2
        · exact sub_trans_leaf hK ha hb hc ta tb tc (fun e1 e2 e3 hs => ih' e1 e2 e3 (by omega))
            h1 h2

/-! ### reflexivity -/

theorem sub_leaf_member {K : World C} {a : Ty C} (ha : Leaf a) (h : sub K a a ≠ some false) :
    ∀ b : Ty C, a ∈ b.members → sub K a b ≠ some false := by
  intro b
  have base : ∀ b : Ty C, Leaf b → a ∈ b.members → sub K a b ≠ some false := by
    intro b hb hm
    have : a = b := by
      cases b with
      | union p q => exact absurd rfl (hb p q)
      | _ => simpa [Ty.members] using hm
    rw [← this]; exact h
  have main : ∀ n (b : Ty C), sizeOf b ≤ n → a ∈ b.members → sub K a b ≠ some false := by
    intro n
    induction n with
    | zero => intro b hb; cases b <;> simp at hb
    | succ n ih =>
      intro b hn hm
      rcases leaf_or b with ⟨b1, b2, rfl⟩ | hb
      · rw [sub_union_right K ha, Ne, orO_false]
        simp only [Ty.union.sizeOf_spec] at hn
        simp only [Ty.members, List.mem_append] at hm
        rintro ⟨f1, f2⟩
        rcases hm with hm | hm
        · exact ih b1 (by omega) hm f1
        · exact ih b2 (by omega) hm f2
      · exact base b hb hm
  exact main _ b le_rfl

theorem sub_members {K : World C} : ∀ n (a : Ty C), sizeOf a ≤ n →
    (∀ l, Leaf l → sizeOf l ≤ sizeOf a → l ∈ a.members → sub K l l ≠ some false) →
    ∀ b : Ty C, (∀ l ∈ a.members, l ∈ b.members) → sub K a b ≠ some false := by
  intro n
  induction n with
  | zero => intro a ha; cases a <;> simp at ha
  | succ n ih =>
    intro a hn hl b hm
    rcases leaf_or a with ⟨a1, a2, rfl⟩ | ha
    · simp only [Ty.union.sizeOf_spec, Ty.members, List.mem_append] at hn hm hl
      rw [sub_union_left]
      have u1 := ih a1 (by omega) (fun l h1 h2 h3 => hl l h1 (by omega) (Or.inl h3)) b
        (fun l h => hm l (Or.inl h))
      have u2 := ih a2 (by omega) (fun l h1 h2 h3 => hl l h1 (by omega) (Or.inr h3)) b
        (fun l h => hm l (Or.inr h))
      intro h
      rcases andO_false h with h | h <;> contradiction
    · have hmem : a ∈ a.members := by
        cases a with
        | union p q => exact absurd rfl (ha p q)
        | _ => simp [Ty.members]
      exact sub_leaf_member ha (hl a ha le_rfl hmem) b (hm a hmem)

theorem reflexive_members : ∀ n (a : Ty C), sizeOf a ≤ n → a.Reflexive →
    ∀ l ∈ a.members, l.Reflexive := by
  intro n
  induction n with
  | zero => intro a ha; cases a <;> simp at ha
  | succ n ih =>
    intro a hn hr l hl
    cases a with
    | union p q =>
      simp only [Ty.union.sizeOf_spec, Ty.members, List.mem_append, Ty.Reflexive] at hn hl hr
      rcases hl with hl | hl
      · exact ih p (by omega) hr.1 l hl
      · exact ih q (by omega) hr.2 l hl
    | _ => simp only [Ty.members, List.mem_singleton] at hl; rw [hl]; exact hr

theorem sub_refl_aux {K : World C} (hK : Lawful K) : ∀ n (a : Ty C), sizeOf a ≤ n →
    a.Reflexive → sub K a a ≠ some false := by
  intro n
  induction n with
  | zero => intro a ha; cases a <;> simp at ha
  | succ n ih =>
    intro a hn hr
    refine sub_members _ a le_rfl (fun l hleaf hsz hmem => ?_) a (fun l h => h)
    have hlr := reflexive_members _ a le_rfl hr l hmem
    cases l with
    | union p q => exact absurd rfl (hleaf p q)
    | cls c => simp [sub, hK.refl]
    | single o => simp [sub]
    | limInt b => simp [sub, limIntSub_refl]
    | subclass c => simp [sub, hK.refl]
    | limFun s => exact hlr.elim
    | limColl c e s d =>
      have her : e.Reflexive := by
        rcases s with _ | s <;> rcases d with _ | _ | ⟨d, ds⟩ <;>
          simp only [Ty.Reflexive] at hlr <;> first | exact hlr | exact hlr.1
      have he : equiv K e e ≠ some false := by
        simp only [Ty.limColl.sizeOf_spec] at hsz
        have := ih e (by omega) her
        refine equiv_not_false ?_ this this
        rintro p q rfl h
        exact (Ty.cls.inj h)
      have hsh : shapeSub s d s d ≠ some false := by
        rcases s with _ | s <;> rcases d with _ | _ | ⟨d, ds⟩ <;>
          simp only [Ty.Reflexive] at hlr <;> simp [shapeSub, sizeByDims, reduce1Mul, everyEq_refl, andO]
        have := hlr.2
        simp only [List.prod_cons] at this
        simpa [foldl_mul] using this
      simp only [sub, hK.refl, andO]
      intro h
      rcases andO_false h with h | h <;> contradiction

/-! ### no error -/

theorem shapeSub_some {s1 s2 : Option Nat} {d1 d2 : Option (List Nat)} (h : d1 ≠ some []) :
    shapeSub s1 d1 s2 d2 ≠ none := by
  have hb : ∀ d ds, sizeByDims (d :: ds) s2 ≠ none := by
    intro d ds; cases s2 <;> simp [sizeByDims, reduce1Mul]
  rcases d1 with _ | _ | ⟨d, ds⟩
  · rcases d2 with _ | d2
    · cases s2 <;> simp [shapeSub]
    · simp [shapeSub]
  · exact absurd rfl h
  · rcases d2 with _ | d2
    · exact hb d ds
    · exact andO_isSome (by simp) (hb d ds)

theorem no_error_aux {K : World C} {k : Kind} : ∀ (n : Nat),
    (∀ a b : Ty C, sizeOf a + sizeOf b ≤ n → a.Only k → b.Only k → sub K a b ≠ none) ∧
    (∀ (x : Obj C) (b : Ty C), sizeOf x + sizeOf b ≤ n → x.Only k → b.Only k →
      inst K x b ≠ none) := by
  intro n
  induction n using Nat.strong_induction_on with
  | _ n ih =>
    have ihs : ∀ a b : Ty C, sizeOf a + sizeOf b < n → a.Only k → b.Only k → sub K a b ≠ none :=
      fun a b h => (ih _ h).1 a b le_rfl
    have ihi : ∀ (x : Obj C) (b : Ty C), sizeOf x + sizeOf b < n → x.Only k → b.Only k →
        inst K x b ≠ none := fun a b h => (ih _ h).2 a b le_rfl
    clear ih
    have ihe : ∀ a b : Ty C, sizeOf a + sizeOf b < n → a.Only k → b.Only k →
        equiv K a b ≠ none := by
      intro a b h ha hb
      unfold equiv
      split
      · simp
      · split
        · simp
        · exact andO_isSome (ihs _ _ h ha hb) (ihs _ _ (by omega) hb ha)
    have instn : ∀ (x : Obj C) (b : Ty C), sizeOf x + sizeOf b ≤ n → x.Only k → b.Only k →
        inst K x b ≠ none := by
      intro x b hn hx hb
      cases b with
      | union p q =>
        simp only [Ty.union.sizeOf_spec] at hn
        simp only [inst]
        exact orO_isSome (ihi x p (by omega) hx hb.1) (ihi x q (by omega) hx hb.2)
      | limColl c e s d =>
        cases x with
        | coll xc xe xd id =>
          simp only [Ty.limColl.sizeOf_spec, Obj.coll.sizeOf_spec] at hn
          simp only [inst]
          exact andO_isSome (by simp) (andO_isSome (by simp)
            (andO_isSome (ihe _ _ (by omega) hx hb.1) (by simp)))
        | _ => simp [inst]
      | _ => cases x <;> simp [inst]
    refine ⟨?_, instn⟩
    intro a b hn ha hb
    rcases leaf_or a with ⟨a1, a2, rfl⟩ | la
    · simp only [Ty.union.sizeOf_spec] at hn
      rw [sub_union_left]
      exact andO_isSome (ihs _ _ (by omega) ha.1 hb) (ihs _ _ (by omega) ha.2 hb)
    · rcases leaf_or b with ⟨b1, b2, rfl⟩ | lb
      · simp only [Ty.union.sizeOf_spec] at hn
        rw [sub_union_right K la]
        exact orO_isSome (ihs _ _ (by omega) ha hb.1) (ihs _ _ (by omega) ha hb.2)
      · cases a with
        | union p q => exact absurd rfl (la p q)
        | single o =>
          rw [sub_single]
          simp only [Ty.single.sizeOf_spec] at hn
          exact instn o b (by omega) ha hb
        | limColl c e s d =>
          cases b with
          | union p q => exact absurd rfl (lb p q)
          | limColl c' e' s' d' =>
            simp only [Ty.limColl.sizeOf_spec] at hn
            simp only [sub]
            exact andO_isSome (by simp) (andO_isSome (ihe _ _ (by omega) ha.1 hb.1)
              (shapeSub_some ha.2))
          | _ => simp [sub]
        | _ =>
          cases b with
          | union p q => exact absurd rfl (lb p q)
          | _ => simp_all [sub, Ty.Only]

/-! ### disjointness -/

theorem disjCls_sound {K : World C} (hJ : Joined K) {c d k : C} (h : disjCls K c d = true)
    (hc : K.sub k c = true) (hd : K.sub k d = true) : False := by
  simp only [disjCls, Bool.and_eq_true, Bool.not_eq_true', Bool.or_eq_true,
    decide_eq_false_iff_not] at h
  obtain ⟨⟨h1, h2⟩, h3⟩ := h
  rcases h3 with ⟨p1, p2⟩ | ⟨j1, j2⟩
  · rcases hJ.primary k c d hc hd p1 p2 with h | h <;> simp_all
  · rcases hJ.joint k c d hc hd with h | h | h | h <;> simp_all

theorem equiv_symm {K : World C} (hK : Lawful K) {a b : Ty C} (h : equiv K a b = some true) :
    equiv K b a = some true := by
  rcases equiv_true hK h with ⟨rfl, _⟩ | ⟨rfl, _⟩ | ⟨s1, s2⟩
  · exact h
  · exact h
  · unfold equiv
    split
    · simp only [sub, Option.some.injEq] at s1 s2
      simp [hK.antisymm _ _ s1 s2]
    · split
      · rfl
      · rw [s1, s2]; rfl

theorem notO_true {x : Option Bool} : notO x = some true ↔ x = some false := by
  rcases x with _ | _ | _ <;> simp [notO]

theorem disj1_sound {K : World C} (hK : Lawful K) (hJ : Joined K) {r : Nat} {a b : Ty C}
    {x : Obj C} (ha : Leaf a) (hb : Leaf b) (tx : x.Tame K r) (ta : a.Tame K r)
    (tb : b.Tame K r) (hs : ¬ Shaky K a b) (h : disj1 K a b = some true)
    (h1 : inst K x a = some true) (h2 : inst K x b = some true) : False := by
  have single_l : ∀ o : Obj C, ∀ t : Ty C, sub K (.single o) t = some false →
      inst K x (.single o) = some true → inst K x t = some true → False := by
    intro o t h h1 h2
    simp only [inst, Option.some.injEq, decide_eq_true_eq] at h1
    subst h1
    rw [sub_single, h2] at h
    simp at h
  cases a with
  | union p q => exact absurd rfl (ha p q)
  | cls c =>
    simp only [inst, Option.some.injEq] at h1
    cases b with
    | union p q => exact absurd rfl (hb p q)
    | cls d =>
      simp only [inst, disj1, Option.some.injEq] at h h2
      exact disjCls_sound hJ h h1 h2
    | single o =>
      simp only [inst, disj1, hasInst, Option.some.injEq, decide_eq_true_eq] at h h2
      subst h2; simp [h1] at h
    | limInt b =>
      cases x with
      | int i => simp [disj1, hasInst] at h; simp [classOf, h.1] at h1
      | _ => simp [inst] at h2
    | subclass d =>
      cases x with
      | cls e =>
        simp only [disj1, Option.some.injEq] at h
        exact disjCls_sound hJ h (hK.metaC e) h1
      | _ => simp [inst] at h2
    | limColl => simp [Shaky] at hs
    | limFun => simp [Shaky] at hs
  | single o =>
    cases b with
    | union p q => exact absurd rfl (hb p q)
    | cls d =>
      simp only [inst, disj1, hasInst, Option.some.injEq, decide_eq_true_eq] at h h1 h2
      subst h1; simp [h2] at h
    | single p =>
      simp only [inst, disj1, Option.some.injEq, decide_eq_true_eq] at h h1 h2
      exact h (h1.symm.trans h2)
    | _ =>
      simp only [disj1, andO_true, notO_true] at h
      exact single_l _ _ h.1 h1 h2
  | limInt m =>
    cases b with
    | union p q => exact absurd rfl (hb p q)
    | single o =>
      simp only [disj1, andO_true, notO_true] at h
      exact single_l _ _ h.2 h2 h1
    | cls d =>
      cases x with
      | int i =>
        simp only [inst, Option.some.injEq] at h2
        simp [disj1, hasInst] at h; simp [classOf, h.1] at h2
      | _ => simp [inst] at h1
    | limInt m' =>
      cases x with
      | int i =>
        simp only [inst, disj1, Option.some.injEq] at h h1 h2
        exact limIntDisj_sound (tame_ok ta) (tame_ok tb) h h1 h2
      | _ => simp [inst] at h1
    | _ => cases x <;> simp [inst] at h1 h2
  | subclass c =>
    cases b with
    | union p q => exact absurd rfl (hb p q)
    | single o =>
      simp only [disj1, andO_true, notO_true] at h
      exact single_l _ _ h.2 h2 h1
    | cls d =>
      cases x with
      | cls e =>
        simp only [inst, disj1, Option.some.injEq] at h h2
        exact disjCls_sound hJ h (hK.metaC e) h2
      | _ => simp [inst] at h1
    | subclass d =>
      cases x with
      | cls e =>
        simp only [inst, disj1, Option.some.injEq] at h h1 h2
        exact disjCls_sound hJ h h1 h2
      | _ => simp [inst] at h1
    | _ => cases x <;> simp [inst] at h1 h2
  | limFun s =>
    cases b with
    | union p q => exact absurd rfl (hb p q)
    | single o =>
      simp only [disj1, andO_true, notO_true] at h
      exact single_l _ _ h.2 h2 h1
    | cls d => simp [Shaky] at hs
    | limFun t => simp [Shaky] at hs
    | _ => cases x <;> simp [inst] at h1 h2
  | limColl c e s d =>
    cases b with
    | union p q => exact absurd rfl (hb p q)
    | single o =>
      simp only [disj1, andO_true, notO_true] at h
      exact single_l _ _ h.2 h2 h1
    | cls d => simp [Shaky] at hs
    | limColl c' e' s' d' =>
      simp only [Shaky, not_not] at hs
      obtain ⟨rfl, rfl, rfl, rfl, hcc⟩ := hs
      simp only [disj1, andO_true, notO_true] at h
      cases x with
      | coll xc xe xd id =>
        simp only [inst, andO_true] at h1 h2
        have e1 := h1.2.2.1
        have e2 := h2.2.2.1
        simp only [Ty.Tame, Obj.Tame] at tx ta tb
        have tr : ∀ p q t : Ty C, p.Tame K r → q.Tame K r → t.Tame K r → sub K p q = some true →
            sub K q t = some true → sub K p t ≠ some false :=
          fun p q t => sub_trans_aux hK _ p q t le_rfl
        have q1 : equiv K e e' ≠ some false :=
          equiv_trans hK (equiv_symm hK e1) e2 (tr _ _ _ ta.1 tx.1 tb.1) (tr _ _ _ tb.1 tx.1 ta.1)
        have q2 : equiv K e' e ≠ some false :=
          equiv_trans hK (equiv_symm hK e2) e1 (tr _ _ _ tb.1 tx.1 ta.1) (tr _ _ _ ta.1 tx.1 tb.1)
        rcases hcc with hcc | hcc
        · have := h.1
          simp only [sub, hcc, shapeSub, andO] at this
          rcases andO_false this with h | h
          · exact q1 h
          · simp at h
        · have := h.2
          simp only [sub, hcc, shapeSub, andO] at this
          rcases andO_false this with h | h
          · exact q2 h
          · simp at h
      | _ => simp [inst] at h1
    | _ => cases x <;> simp [inst] at h1 h2

theorem members_self {a : Ty C} (ha : Leaf a) : a.members = [a] := by
  cases a with
  | union p q => exact absurd rfl (ha p q)
  | _ => rfl

theorem disj_sound_aux {K : World C} (hK : Lawful K) (hJ : Joined K) {r : Nat} {x : Obj C}
    (tx : x.Tame K r) : ∀ (n : Nat) (a b : Ty C), sizeOf a + sizeOf b ≤ n → a.Tame K r →
    b.Tame K r → (∀ p ∈ a.members, ∀ q ∈ b.members, ¬ Shaky K p q) →
    disj K a b = some true → inst K x a = some true → inst K x b = some true → False := by
  intro n
  induction n using Nat.strong_induction_on with
  | _ n ih =>
    have ih' : ∀ (a b : Ty C), sizeOf a + sizeOf b < n → a.Tame K r →
        b.Tame K r → (∀ p ∈ a.members, ∀ q ∈ b.members, ¬ Shaky K p q) →
        disj K a b = some true → inst K x a = some true → inst K x b = some true → False :=
      fun a b h => ih _ h a b le_rfl
    clear ih
    intro a b hn ta tb hs h h1 h2
    rcases leaf_or a with ⟨a1, a2, rfl⟩ | la
    · simp only [Ty.union.sizeOf_spec, Ty.Tame, Ty.members, List.mem_append] at hn ta hs
      have ha : inst K x a1 = some true ∨ inst K x a2 = some true := by
        simp only [inst, orO_true] at h1; tauto
      rcases leaf_or b with ⟨b1, b2, rfl⟩ | lb
      · simp only [Ty.union.sizeOf_spec, Ty.Tame, Ty.members, List.mem_append] at hn tb hs
        have hb : inst K x b1 = some true ∨ inst K x b2 = some true := by
          simp only [inst, orO_true] at h2; tauto
        simp only [disj, andO_true] at h
        rcases ha with ha | ha <;> rcases hb with hb | hb
        · exact ih' a1 b1 (by omega) ta.1 tb.1 (fun p hp q hq => hs p (.inl hp) q (.inl hq)) h.1 ha hb
        · exact ih' a1 b2 (by omega) ta.1 tb.2 (fun p hp q hq => hs p (.inl hp) q (.inr hq)) h.2.1 ha hb
        · exact ih' a2 b1 (by omega) ta.2 tb.1 (fun p hp q hq => hs p (.inr hp) q (.inl hq)) h.2.2.1 ha hb
        · exact ih' a2 b2 (by omega) ta.2 tb.2 (fun p hp q hq => hs p (.inr hp) q (.inr hq)) h.2.2.2 ha hb
      · have h' : disj K a1 b = some true ∧ disj K a2 b = some true := by
          cases b with
          | union p q => exact absurd rfl (lb p q)
          | _ => simpa only [disj, andO_true] using h
        rcases ha with ha | ha
        · exact ih' a1 b (by omega) ta.1 tb (fun p hp q hq => hs p (.inl hp) q hq) h'.1 ha h2
        · exact ih' a2 b (by omega) ta.2 tb (fun p hp q hq => hs p (.inr hp) q hq) h'.2 ha h2
    · rcases leaf_or b with ⟨b1, b2, rfl⟩ | lb
      · simp only [Ty.union.sizeOf_spec, Ty.Tame, Ty.members, List.mem_append] at hn tb hs
        have hb : inst K x b1 = some true ∨ inst K x b2 = some true := by
          simp only [inst, orO_true] at h2; tauto
        have h' : disj K a b1 = some true ∧ disj K a b2 = some true := by
          cases a with
          | union p q => exact absurd rfl (la p q)
          | _ => simpa only [disj, andO_true] using h
        rcases hb with hb | hb
        · exact ih' a b1 (by omega) ta tb.1 (fun p hp q hq => hs p hp q (.inl hq)) h'.1 h1 hb
        · exact ih' a b2 (by omega) ta tb.2 (fun p hp q hq => hs p hp q (.inr hq)) h'.2 h1 hb
      · have h' : disj1 K a b = some true := by
          cases a with
          | union p q => exact absurd rfl (la p q)
          | _ =>
            cases b with
            | union p q => exact absurd rfl (lb p q)
            | _ => simpa only [disj] using h
        rw [members_self la, members_self lb] at hs
        exact disj1_sound hK hJ la lb tx ta tb (hs a (by simp) b (by simp)) h' h1 h2

end Verif.Types
