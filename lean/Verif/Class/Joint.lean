/-
Joint classes: loading a library records every pair of unrelated classes with a common subclass.
-/
import Verif.Class.Load

namespace Verif.Class

/-- The pair is in the table, one way or the other. -/
def Pair (t : JointTable) (a b : Nat) : Prop := b ∈ t a ∨ a ∈ t b

theorem Pair.symm {t : JointTable} {a b : Nat} (h : Pair t a b) : Pair t b a := Or.symm h

/-- The table only grows. -/
def TLe (t t' : JointTable) : Prop := ∀ c x, x ∈ t c → x ∈ t' c

theorem TLe.pair {t t' : JointTable} (h : TLe t t') {a b : Nat} (hp : Pair t a b) : Pair t' a b :=
  hp.imp (h a b) (h b a)

theorem put_le (t : JointTable) (c x : Nat) : TLe t (t.put c (x :: t c)) := by
  intro a y hy
  simp only [JointTable.put]
  split
  · next e => subst e; exact List.mem_cons_of_mem _ hy
  · exact hy

theorem jointInner_spec (lib : Nat) (w : World) (c1 : Nat) : ∀ (l : List Nat) (t : JointTable),
    TLe t (jointInner lib w c1 l t) ∧
    ∀ c2 ∈ l, statSubtype w c1 c2 = true ∨ Pair (jointInner lib w c1 l t) c1 c2 := by
  intro l
  induction l with
  | nil => intro t; exact ⟨fun _ _ h => h, by simp⟩
  | cons c2 l ih =>
    intro t
    simp only [jointInner]
    generalize ht : (if statSubtype w c1 c2 || decide (c2 ∈ t c1) || decide (c1 ∈ t c2) then t
       else if lib ≤ c1 ∨ c2 < lib then t.put c1 (c2 :: t c1)
       else t.put c2 (c1 :: t c2)) = t1
    have h1 : TLe t t1 ∧ (statSubtype w c1 c2 = true ∨ Pair t1 c1 c2) := by
      split at ht
      · next hc =>
        subst ht
        simp only [Bool.or_eq_true, decide_eq_true_eq] at hc
        refine ⟨fun _ _ h => h, ?_⟩
        rcases hc with (hc | hc) | hc
        · exact Or.inl hc
        · exact Or.inr (Or.inl hc)
        · exact Or.inr (Or.inr hc)
      · split at ht
        · subst ht
          exact ⟨put_le t c1 c2, Or.inr (Or.inl (by simp [JointTable.put]))⟩
        · subst ht
          exact ⟨put_le t c2 c1, Or.inr (Or.inr (by simp [JointTable.put]))⟩
    obtain ⟨i1, i2⟩ := ih t1
    refine ⟨fun c x hx => i1 c x (h1.1 c x hx), fun x hx => ?_⟩
    rcases List.mem_cons.mp hx with rfl | hx
    · exact h1.2.imp id i1.pair
    · exact i2 x hx

theorem jointOuter_spec (lib : Nat) (w : World) : ∀ (l : List Nat) (t : JointTable),
    TLe t (jointOuter lib w l t) ∧
    ∀ a b, [a, b].Sublist l → statSubtype w a b = true ∨ Pair (jointOuter lib w l t) a b := by
  intro l
  induction l with
  | nil => intro t; exact ⟨fun _ _ h => h, by simp⟩
  | cons c1 l ih =>
    intro t
    simp only [jointOuter]
    obtain ⟨j1, j2⟩ := jointInner_spec lib w c1 l t
    obtain ⟨i1, i2⟩ := ih (jointInner lib w c1 l t)
    refine ⟨fun c x hx => i1 c x (j1 c x hx), fun a b hab => ?_⟩
    cases hab with
    | cons _ h => exact i2 a b h
    | cons_cons _ h =>
      exact (j2 b (List.singleton_sublist.mp h)).imp id i1.pair

theorem jointAll_spec (lib : Nat) {w : World} (h : FInv (fixeds w)) : ∀ (cs : List Nat)
    (t : JointTable), TLe t (jointAll lib w cs t) ∧
    ∀ c ∈ cs, ∀ r, w[c]? = some r → ∀ a b, [a, b].Sublist r.fx.cpl.tail →
      statSubtype w a b = true ∨ Pair (jointAll lib w cs t) a b := by
  intro cs
  induction cs with
  | nil => intro t; exact ⟨fun _ _ h => h, by simp⟩
  | cons c cs ih =>
    intro t
    simp only [jointAll]
    cases ha : allSuperclasses w c with
    | error e =>
      simp only
      obtain ⟨i1, i2⟩ := ih t
      refine ⟨i1, fun c' hc' r hr a b hab => ?_⟩
      rcases List.mem_cons.mp hc' with rfl | hc'
      · rw [all_eq h hr] at ha
        cases ha
      · exact i2 c' hc' r hr a b hab
    | ok cpl =>
      simp only
      obtain ⟨o1, o2⟩ := jointOuter_spec lib w cpl.tail t
      obtain ⟨i1, i2⟩ := ih (jointOuter lib w cpl.tail t)
      refine ⟨fun c x hx => i1 c x (o1 c x hx), fun c' hc' r hr a b hab => ?_⟩
      rcases List.mem_cons.mp hc' with rfl | hc'
      · rw [all_eq h hr] at ha
        cases ha
        exact (o2 a b hab).imp id i1.pair
      · exact i2 c' hc' r hr a b hab

theorem mem_newJoint (w : World) (c1 : Nat) (kn : List Nat) : ∀ (l acc : List Nat),
    (∀ x ∈ acc, x ∈ newJoint w c1 kn l acc) ∧
    ∀ c2 ∈ l, c2 ∈ newJoint w c1 kn l acc ∨ c2 ∈ kn ∨ ∃ r, w[c2]? = some r ∧ c1 ∈ r.joint := by
  intro l
  induction l with
  | nil => intro acc; exact ⟨fun _ h => h, by simp⟩
  | cons c2 l ih =>
    intro acc
    simp only [newJoint]
    obtain ⟨i1, i2⟩ := ih (if !((w[c2]?).elim false (fun r => decide (c1 ∈ r.joint))) &&
      !decide (c2 ∈ kn) then c2 :: acc else acc)
    refine ⟨fun x hx => i1 x (by split; exact List.mem_cons_of_mem _ hx; exact hx), fun x hx => ?_⟩
    rcases List.mem_cons.mp hx with rfl | hx
    · by_cases hc : (!((w[x]?).elim false (fun r => decide (c1 ∈ r.joint))) &&
          !decide (x ∈ kn)) = true
      · left
        apply i1
        rw [if_pos hc]
        exact List.mem_cons_self
      · right
        simp only [Bool.and_eq_true, Bool.not_eq_true', decide_eq_false_iff_not, not_and_or,
          not_not] at hc
        rcases hc with hc | hc
        · right
          cases hw : w[x]? with
          | none => simp [hw] at hc
          | some r => exact ⟨r, rfl, by simpa [hw] using hc⟩
        · exact Or.inl hc
    · exact i2 x hx

/-- One of the two classes lists the other. -/
def Listed (w : World) (a b : Nat) : Prop :=
  (∃ r, w[a]? = some r ∧ b ∈ r.joint) ∨ ∃ r, w[b]? = some r ∧ a ∈ r.joint

theorem Listed.symm {w : World} {a b : Nat} (h : Listed w a b) : Listed w b a := Or.symm h

/-- Joint sets only grow. -/
def JLe (w w' : World) : Prop :=
  ∀ (k : Nat) (r : Cls), w[k]? = some r → ∃ r', w'[k]? = some r' ∧ ∀ x ∈ r.joint, x ∈ r'.joint

theorem JLe.listed {w w' : World} (h : JLe w w') {a b : Nat} (hl : Listed w a b) : Listed w' a b := by
  rcases hl with ⟨r, hr, hm⟩ | ⟨r, hr, hm⟩
  · obtain ⟨r', hr', hs⟩ := h a r hr
    exact Or.inl ⟨r', hr', hs b hm⟩
  · obtain ⟨r', hr', hs⟩ := h b r hr
    exact Or.inr ⟨r', hr', hs a hm⟩

theorem JLe.trans {a b c : World} (h1 : JLe a b) (h2 : JLe b c) : JLe a c := by
  intro k r hr
  obtain ⟨r1, hr1, s1⟩ := h1 k r hr
  obtain ⟨r2, hr2, s2⟩ := h2 k r1 hr1
  exact ⟨r2, hr2, fun x hx => s2 x (s1 x hx)⟩

/-- Above `n`, the classes are not changed. -/
theorem applyJoint_above (lib : Nat) (t : JointTable) : ∀ (n : Nat) (w : World) (k : Nat), n ≤ k →
    (applyJoint lib t n w)[k]? = w[k]? := by
  intro n
  induction n with
  | zero => intro w k _; rfl
  | succ n ih =>
    intro w k hk
    simp only [applyJoint]
    rw [List.getElem?_modify]
    have : n ≠ k := by omega
    simp only [if_neg this]
    rw [ih w k (by omega)]
    simp

theorem applyJoint_spec (lib : Nat) (t : JointTable) : ∀ (n : Nat) (w : World), n ≤ w.length →
    (∀ (k : Nat) (r : Cls), lib ≤ k → w[k]? = some r → r.joint = []) →
    JLe w (applyJoint lib t n w) ∧
    ∀ c1 < n, ∀ c2 ∈ t c1, Listed (applyJoint lib t n w) c1 c2 := by
  intro n
  induction n with
  | zero =>
    intro w _ _
    exact ⟨fun k r hr => ⟨r, hr, fun _ h => h⟩, fun c1 h => absurd h (by omega)⟩
  | succ n ih =>
    intro w hn hloc
    obtain ⟨i1, i2⟩ := ih w (by omega) hloc
    have habove := applyJoint_above lib t n w n (Nat.le_refl _)
    simp only [applyJoint]
    generalize applyJoint lib t n w = w1 at i1 i2 habove ⊢
    obtain ⟨rn, hrn⟩ : ∃ r, w[n]? = some r := ⟨_, List.getElem?_eq_getElem (by omega)⟩
    rw [hrn] at habove
    generalize hf : (fun r : Cls => if lib ≤ n then setJoint (t n) r
      else addJoint (newJoint w1 n r.joint (t n) []) r) = f
    have hsub : ∀ x ∈ rn.joint, x ∈ (f rn).joint := by
      intro x hx
      subst hf
      simp only
      split
      · next hl =>
        rw [hloc n rn hl hrn] at hx
        cases hx
      · exact List.mem_append_left _ hx
    have hget : (w1.modify n f)[n]? = some (f rn) := by
      rw [List.getElem?_modify]
      simp [habove]
    have hle : JLe w1 (w1.modify n f) := by
      intro k r hr
      by_cases e : n = k
      · subst e
        rw [habove] at hr
        cases hr
        exact ⟨_, hget, hsub⟩
      · refine ⟨r, ?_, fun _ h => h⟩
        rw [List.getElem?_modify]
        simp [e, hr]
    refine ⟨i1.trans hle, fun c1 hc1 c2 hc2 => ?_⟩
    rcases Nat.lt_or_eq_of_le (Nat.lt_succ_iff.mp hc1) with h1 | rfl
    · exact hle.listed (i2 c1 h1 c2 hc2)
    · by_cases hl : lib ≤ c1
      · left
        refine ⟨_, hget, ?_⟩
        subst hf
        simp only [if_pos hl, setJoint]
        exact hc2
      · rcases (mem_newJoint w1 c1 rn.joint (t c1) []).2 c2 hc2 with h1 | h1 | ⟨r2, hr2, h1⟩
        · left
          refine ⟨_, hget, ?_⟩
          subst hf
          simp only [if_neg hl, addJoint]
          exact List.mem_append_right _ h1
        · exact Or.inl ⟨_, hget, hsub _ h1⟩
        · exact hle.listed (Or.inr ⟨r2, hr2, h1⟩)

/-- Any two classes with a common subclass are related or listed. -/
def JInv (w : World) : Prop :=
  ∀ (k : Nat) (rk : Cls), w[k]? = some rk → ∀ a ∈ rk.fx.cpl, ∀ b ∈ rk.fx.cpl, ∀ ra rb : Cls,
    w[a]? = some ra → w[b]? = some rb → b ∈ ra.fx.cpl ∨ a ∈ rb.fx.cpl ∨ Listed w a b

theorem pair_sublist {a b : Nat} (hab : a ≠ b) : ∀ {l : List Nat}, a ∈ l → b ∈ l →
    [a, b].Sublist l ∨ [b, a].Sublist l := by
  intro l
  induction l with
  | nil => intro h; simp at h
  | cons x l ih =>
    intro ha hb
    rcases List.mem_cons.mp ha with ea | ha'
    · rcases List.mem_cons.mp hb with eb | hb'
      · exact absurd (ea.trans eb.symm) hab
      · subst ea
        exact Or.inl ((List.singleton_sublist.mpr hb').cons_cons _)
    · rcases List.mem_cons.mp hb with eb | hb'
      · subst eb
        exact Or.inr ((List.singleton_sublist.mpr ha').cons_cons _)
      · exact (ih ha' hb').imp (fun h => h.cons _) (fun h => h.cons _)

theorem load_joint {w : World} (h : WInv w) (hj : JInv w) {ds : List Def} {w' : World}
    (he : loadLibrary w ds = .ok w') : JInv w' := by
  obtain ⟨hw', w1, w2, hc, h1, hx, h2, rfl⟩ := loadLibrary_ok h he
  have hjo := applyJoint_only w.length
    (jointAll w.length w1 (mineOf w.length w1.length) (fun _ => [])) w2.length w2
  obtain ⟨a1, a2⟩ := jointAll_spec w.length h1.fixed (mineOf w.length w1.length) (fun _ => [])
  generalize jointAll w.length w1 (mineOf w.length w1.length) (fun _ => []) = t at a1 a2 hjo hw' ⊢
  have hfin : ∀ (k : Nat) (r2 : Cls), w2[k]? = some r2 → ∃ r1, w1[k]? = some r1 ∧ r2.fx = r1.fx ∧
      r2.joint = r1.joint := by
    intro k r2 hr2
    obtain ⟨r, hr, e1, -, -, e2, -⟩ := hx.2 k r2 hr2
    obtain ⟨r1, hr1, e⟩ := get_finishAll hr
    refine ⟨r1, hr1, ?_, ?_⟩
    · rw [e1, e]; split <;> rfl
    · rw [e2, e]; split <;> rfl
  obtain ⟨b1, b2⟩ := applyJoint_spec w.length t w2.length w2 (Nat.le_refl _) (by
    intro k r hk hr
    obtain ⟨r1, hr1, -, e⟩ := hfin k r hr
    rw [e]
    exact (h1.localOk k r1 hk hr1).joint)
  generalize applyJoint w.length t w2.length w2 = w' at b1 b2 hjo hw' ⊢
  -- the fixed parts are those of `w1`
  have hfx : ∀ (k : Nat) (r : Cls), w'[k]? = some r → ∃ r1, w1[k]? = some r1 ∧ r.fx = r1.fx := by
    intro k r hr
    obtain ⟨r2, hr2, e, -⟩ := hjo.2 k r hr
    obtain ⟨r1, hr1, e1, -⟩ := hfin k r2 hr2
    exact ⟨r1, hr1, e.trans e1⟩
  have hlen2 : w2.length = w'.length := hjo.1.symm
  intro k rk hrk a ha b hb ra rb hra hrb
  obtain ⟨rk1, hrk1, ek⟩ := hfx k rk hrk
  obtain ⟨ra1, hra1, ea⟩ := hfx a ra hra
  obtain ⟨rb1, hrb1, eb⟩ := hfx b rb hrb
  rw [ek] at ha hb
  by_cases hk : k < w.length
  · -- an old class
    rw [h1.same k hk] at hrk1
    have hak : a < w.length := Nat.lt_of_le_of_lt ((h.fixed k _ (get_fixeds hrk1)).mem_le ha) hk
    have hbk : b < w.length := Nat.lt_of_le_of_lt ((h.fixed k _ (get_fixeds hrk1)).mem_le hb) hk
    rw [h1.same a hak] at hra1
    rw [h1.same b hbk] at hrb1
    rcases hj k rk1 hrk1 a ha b hb ra1 rb1 hra1 hrb1 with h3 | h3 | h3
    · exact Or.inl (by rw [ea]; exact h3)
    · exact Or.inr (Or.inl (by rw [eb]; exact h3))
    · right; right
      apply b1.listed
      -- from `w` to `w2`
      have key : ∀ (x : Nat) (r : Cls), w[x]? = some r → ∃ r2, w2[x]? = some r2 ∧ r2.joint = r.joint := by
        intro x r hr
        have hxl := lt_of_get hr
        obtain ⟨r2, hr2⟩ : ∃ r2, w2[x]? = some r2 := by
          refine ⟨_, List.getElem?_eq_getElem ?_⟩
          have := hx.length
          rw [this]
          simp only [finishAll, List.length_mapIdx]
          have := h1.le
          omega
        obtain ⟨r1, hr1, -, e⟩ := hfin x r2 hr2
        rw [h1.same x hxl, hr] at hr1
        cases hr1
        exact ⟨r2, hr2, e⟩
      rcases h3 with ⟨r, hr, hm⟩ | ⟨r, hr, hm⟩
      · obtain ⟨r2, hr2, e⟩ := key a r hr
        exact Or.inl ⟨r2, hr2, by rw [e]; exact hm⟩
      · obtain ⟨r2, hr2, e⟩ := key b r hr
        exact Or.inr ⟨r2, hr2, by rw [e]; exact hm⟩
  · -- a class of the library
    have hok := h1.fixed k _ (get_fixeds hrk1)
    obtain ⟨M, hM, -⟩ := hok.head
    by_cases e1 : a = k
    · subst e1
      left
      rw [hrk1] at hra1
      cases hra1
      rw [ea]
      exact hb
    · by_cases e2 : b = k
      · subst e2
        right; left
        rw [hrk1] at hrb1
        cases hrb1
        rw [eb]
        exact ha
      · by_cases e3 : a = b
        · subst e3
          left
          rw [ea]
          exact (h1.fixed a _ (get_fixeds hra1)).self_mem
        · have ha' : a ∈ rk1.fx.cpl.tail := by
            rw [hM] at ha ⊢
            rcases List.mem_cons.mp ha with h3 | h3
            · exact absurd h3 e1
            · exact h3
          have hb' : b ∈ rk1.fx.cpl.tail := by
            rw [hM] at hb ⊢
            rcases List.mem_cons.mp hb with h3 | h3
            · exact absurd h3 e2
            · exact h3
          have hmine : k ∈ mineOf w.length w1.length :=
            mem_mineOf.mpr ⟨by omega, lt_of_get hrk1⟩
          have hlst : ∀ x y, Pair t x y → x < w2.length → y < w2.length → Listed w' x y := by
            intro x y hp hx' hy'
            rcases hp with hp | hp
            · exact b2 x hx' y hp
            · exact (b2 y hy' x hp).symm
          have hal : a < w2.length := by rw [hlen2]; exact lt_of_get hra
          have hbl : b < w2.length := by rw [hlen2]; exact lt_of_get hrb
          rcases pair_sublist e3 ha' hb' with hs | hs
          · rcases a2 k hmine rk1 hrk1 a b hs with h3 | h3
            · rw [statSubtype_eq h1.fixed hra1, decide_eq_true_eq] at h3
              exact Or.inl (by rw [ea]; exact h3)
            · exact Or.inr (Or.inr (hlst a b h3 hal hbl))
          · rcases a2 k hmine rk1 hrk1 b a hs with h3 | h3
            · rw [statSubtype_eq h1.fixed hrb1, decide_eq_true_eq] at h3
              exact Or.inr (Or.inl (by rw [eb]; exact h3))
            · exact Or.inr (Or.inr (hlst b a h3 hbl hal).symm)

theorem object_joint : JInv objectWorld := by
  intro k rk hrk a ha b hb ra rb hra hrb
  have hget : ∀ (k : Nat) (r : Cls), objectWorld[k]? = some r → k = 0 := by
    intro k r h
    match k, h with
    | 0, _ => rfl
    | k + 1, h => simp [objectWorld] at h
  obtain rfl := hget a ra hra
  obtain rfl := hget b rb hrb
  exact Or.inl (object_inv.fixed 0 _ (get_fixeds hra)).self_mem

theorem run_joint : ∀ (ops : List Op) {w : World}, WInv w → JInv w → LoadsOnly ops →
    JInv (run w ops) := by
  intro ops
  induction ops with
  | nil => intro w _ h _; exact h
  | cons op ops ih =>
    intro w h hj hl
    obtain ⟨ds, rfl⟩ := hl op List.mem_cons_self
    have hl' : LoadsOnly ops := fun o ho => hl o (List.mem_cons_of_mem _ ho)
    simp only [run, step]
    cases hs : loadLibrary w ds with
    | ok w' => exact ih (loadLibrary_ok h hs).1 (load_joint h hj hs) hl'
    | error e => exact ih h hj hl'

end Verif.Class
