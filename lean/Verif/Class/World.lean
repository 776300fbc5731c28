/-
The invariant of the world of classes, and its preservation by run-time class creation.
-/
import Verif.Class.Fixed
import Mathlib.Order.Basic
import Mathlib.Tactic.Tauto

namespace Verif.Class

/-- The fixed parts. -/
abbrev fixeds (w : World) : List Fixed := w.map Cls.fx

theorem get_fixeds {w : World} {k : Nat} {r : Cls} (h : w[k]? = some r) :
    (fixeds w)[k]? = some r.fx := by
  simp [fixeds, List.getElem?_map, h]

theorem get_of_fixeds {w : World} {k : Nat} {f : Fixed} (h : (fixeds w)[k]? = some f) :
    ∃ r, w[k]? = some r ∧ r.fx = f := by
  simp only [fixeds, List.getElem?_map, Option.map_eq_some_iff] at h
  exact h

/-- What is known of the position data of class number `k`. -/
structure Good (k : Nat) (r : Cls) : Prop where
  sorted : r.others.Pairwise (· < ·)
  above : ∀ p ∈ r.others, r.fx.pos < p
  iep : r.iep = chooseIep r.fx r.others ∨ (k = 0 ∧ r.iep = .object)
  stat : ∀ p ∈ r.stat, p ∈ r.others

/-- The invariant, with position data required for the pairs of classes in `K`. -/
structure WInvG (K : Nat → Nat → Prop) (w : World) : Prop where
  fixed : FInv (fixeds w)
  zero : ∃ r, w[0]? = some r ∧ r.fx.primary = false
  good : ∀ k r, w[k]? = some r → Good k r
  known : ∀ k rk p b rb, w[k]? = some rk → rk.fx.rcpl[p]? = some (some b) → w[b]? = some rb →
    b ≠ 0 → K k b → p = rb.fx.pos ∨ p ∈ rb.others

abbrev WInv : World → Prop := WInvG (fun _ _ => True)

/-! ### The subclass test -/

theorem posLoop_eq (rcpl : List (Option Nat)) (b : Nat) : ∀ (ps : List Nat), ps.Pairwise (· < ·) →
    posLoop rcpl b ps = .ok (decide (∃ p ∈ ps, rcpl[p]? = some (some b))) := by
  intro ps
  induction ps with
  | nil => intro _; simp [posLoop]
  | cons p ps ih =>
    intro hs
    obtain ⟨h1, h2⟩ := List.pairwise_cons.mp hs
    simp only [posLoop]
    by_cases hp : p < rcpl.length
    · rw [if_pos hp, List.getElem?_eq_getElem hp]
      by_cases he : rcpl[p] = some b
      · simp only [if_pos he]
        congr 1
        symm
        rw [decide_eq_true_eq]
        exact ⟨p, List.mem_cons_self, by rw [List.getElem?_eq_getElem hp, he]⟩
      · simp only [if_neg he]
        rw [ih h2]
        congr 1
        rw [decide_eq_decide]
        constructor
        · rintro ⟨q, hq, e⟩
          exact ⟨q, List.mem_cons_of_mem _ hq, e⟩
        · rintro ⟨q, hq, e⟩
          rcases List.mem_cons.mp hq with rfl | hq
          · rw [List.getElem?_eq_getElem hp] at e
            exact absurd (Option.some.inj e) he
          · exact ⟨q, hq, e⟩
    · rw [if_neg hp]
      congr 1
      symm
      rw [decide_eq_false_iff_not]
      rintro ⟨q, hq, e⟩
      have hlt := lt_of_get e
      rcases List.mem_cons.mp hq with rfl | hq
      · exact hp hlt
      · have := h1 q hq
        omega

/-- The test finds the class when its position is among the known ones. -/
theorem rcplIsubclass_eq {fs : List Fixed} (hfs : FInv fs) {k b : Nat} {f : Fixed} {rb : Cls}
    (hf : fs[k]? = some f) (hs : rb.others.Pairwise (· < ·)) (ha : ∀ p ∈ rb.others, rb.fx.pos < p)
    (hk : ∀ p : Nat, f.rcpl[p]? = some (some b) → p = rb.fx.pos ∨ p ∈ rb.others) :
    rcplIsubclass f k rb b = .ok (decide (b ∈ f.cpl)) := by
  unfold rcplIsubclass
  by_cases e : k = b
  · subst e
    simp [(hfs k f hf).self_mem]
  rw [if_neg e]
  have hm := hfs.mem_rcpl hf (b := b)
  by_cases hp : rb.fx.pos ≥ f.rcpl.length
  · rw [if_pos hp]
    congr 1
    symm
    rw [decide_eq_false_iff_not, hm]
    rintro ⟨p, e⟩
    have hlt := lt_of_get e
    rcases hk p e with h1 | h1
    · omega
    · have := ha p h1
      omega
  · rw [if_neg hp]
    have hp' : rb.fx.pos < f.rcpl.length := Nat.lt_of_not_le hp
    rw [List.getElem?_eq_getElem hp']
    by_cases he : f.rcpl[rb.fx.pos] = some b
    · simp only [if_pos he]
      congr 1
      symm
      rw [decide_eq_true_eq, hm]
      exact ⟨_, by rw [List.getElem?_eq_getElem hp', he]⟩
    · simp only [if_neg he]
      rw [posLoop_eq _ _ _ hs]
      congr 1
      rw [decide_eq_decide, hm]
      constructor
      · rintro ⟨p, -, h1⟩
        exact ⟨p, h1⟩
      · rintro ⟨p, h1⟩
        rcases hk p h1 with rfl | h2
        · rw [List.getElem?_eq_getElem hp'] at h1
          exact absurd (Option.some.inj h1) he
        · exact ⟨p, h2, h1⟩

theorem WInv.subclass_eq {w : World} (h : WInv w) {a b : Nat} {ra rb : Cls} (ha : w[a]? = some ra)
    (hb : w[b]? = some rb) (h0 : b ≠ 0) : subclass w a b = .ok (decide (b ∈ ra.fx.cpl)) := by
  simp only [subclass, ha, hb]
  exact rcplIsubclass_eq h.fixed (get_fixeds ha) (h.good b rb hb).sorted (h.good b rb hb).above
    (fun p hp => h.known a ra p b rb ha hp hb h0 trivial)

/-! ### Extension of position data -/

/-- The fixed parts stay, positions are only added. -/
def Ext (w w' : World) : Prop :=
  fixeds w' = fixeds w ∧ ∀ k r', w'[k]? = some r' → ∃ r, w[k]? = some r ∧ r'.fx = r.fx ∧
    (∀ p ∈ r.others, p ∈ r'.others) ∧ r'.stat = r.stat ∧ r'.joint = r.joint ∧
    (Good k r → Good k r')

theorem Ext.refl (w : World) : Ext w w :=
  ⟨rfl, fun _ r h => ⟨r, h, rfl, fun _ h => h, rfl, rfl, id⟩⟩

theorem Ext.trans {a b c : World} (h1 : Ext a b) (h2 : Ext b c) : Ext a c := by
  refine ⟨h2.1.trans h1.1, fun k r hr => ?_⟩
  obtain ⟨r1, hr1, e1, o1, s1, j1, g1⟩ := h2.2 k r hr
  obtain ⟨r2, hr2, e2, o2, s2, j2, g2⟩ := h1.2 k r1 hr1
  exact ⟨r2, hr2, e1.trans e2, fun p hp => o1 p (o2 p hp), s1.trans s2, j1.trans j2, fun g => g1 (g2 g)⟩

theorem Ext.length {w w' : World} (h : Ext w w') : w'.length = w.length := by
  have := congrArg List.length h.1
  simpa using this

theorem Ext.get {w w' : World} (h : Ext w w') {k : Nat} {r : Cls} (hr : w[k]? = some r) :
    ∃ r', w'[k]? = some r' ∧ r'.fx = r.fx ∧ ∀ p ∈ r.others, p ∈ r'.others := by
  have hlt := lt_of_get hr
  rw [← h.length] at hlt
  refine ⟨w'[k], List.getElem?_eq_getElem hlt, ?_⟩
  obtain ⟨r2, hr2, e, o, -⟩ := h.2 k w'[k] (List.getElem?_eq_getElem hlt)
  rw [hr] at hr2
  cases hr2
  exact ⟨e, o⟩

/-- Replacing one record. -/
theorem Ext.set {w : World} {s : Nat} {r r' : Cls} (hr : w[s]? = some r) (hfx : r'.fx = r.fx)
    (ho : ∀ p ∈ r.others, p ∈ r'.others) (hst : r'.stat = r.stat) (hj : r'.joint = r.joint)
    (hg : Good s r → Good s r') : Ext w (w.set s r') := by
  refine ⟨?_, fun k q hq => ?_⟩
  · apply List.ext_getElem?
    intro i
    simp only [fixeds, List.getElem?_map, List.getElem?_set]
    by_cases e : s = i
    · subst e
      rw [if_pos rfl]
      rw [if_pos (lt_of_get hr), hr]
      simp [hfx]
    · rw [if_neg e]
  · rw [List.getElem?_set] at hq
    by_cases e : s = k
    · subst e
      rw [if_pos rfl, if_pos (lt_of_get hr)] at hq
      cases hq
      exact ⟨r, hr, hfx, ho, hst, hj, hg⟩
    · rw [if_neg e] at hq
      exact ⟨q, hq, rfl, fun _ h => h, rfl, rfl, id⟩

/-! ### One more position -/

theorem mem_insertPos {p x : Nat} {l : List Nat} : x ∈ insertPos p l ↔ x = p ∨ x ∈ l := by
  induction l with
  | nil => simp [insertPos]
  | cons e es ih =>
    simp only [insertPos]
    split
    · simp only [List.mem_cons, ih]
      tauto
    · simp

theorem insertPos_sorted {p : Nat} {l : List Nat} (hs : l.Pairwise (· < ·)) (hp : p ∉ l) :
    (insertPos p l).Pairwise (· < ·) := by
  induction l with
  | nil => simp [insertPos]
  | cons e es ih =>
    obtain ⟨h1, h2⟩ := List.pairwise_cons.mp hs
    simp only [List.mem_cons, not_or] at hp
    simp only [insertPos]
    split
    · next hlt =>
      refine List.pairwise_cons.mpr ⟨fun x hx => ?_, ih h2 hp.2⟩
      rcases mem_insertPos.mp hx with rfl | hx
      · exact hlt
      · exact h1 x hx
    · next hge =>
      refine List.pairwise_cons.mpr ⟨fun x hx => ?_, hs⟩
      have hep : p < e := by have := hp.1; omega
      rcases List.mem_cons.mp hx with rfl | hx
      · exact hep
      · exact Nat.lt_trans hep (h1 x hx)

theorem augment_ok {r : Cls} {p : Nat} (hp : r.fx.pos ≤ p) :
    ∃ r', augment r p = .ok r' ∧ r'.fx = r.fx ∧ (∀ q ∈ r.others, q ∈ r'.others) ∧
      r'.stat = r.stat ∧ r'.joint = r.joint ∧ (∀ s, Good s r → Good s r') ∧
      (p = r'.fx.pos ∨ p ∈ r'.others) := by
  unfold augment
  by_cases hk : known p r = true
  · rw [if_pos hk]
    refine ⟨r, rfl, rfl, fun _ h => h, rfl, rfl, fun _ => id, ?_⟩
    simpa [known] using hk
  · rw [if_neg hk, if_neg (by omega)]
    simp only [known, Bool.or_eq_true, decide_eq_true_eq, not_or] at hk
    refine ⟨_, rfl, rfl, fun q hq => mem_insertPos.mpr (Or.inr hq), rfl, rfl, fun s g => ?_,
      Or.inr (mem_insertPos.mpr (Or.inl rfl))⟩
    refine ⟨insertPos_sorted g.sorted hk.2, fun q hq => ?_, Or.inl rfl, fun q hq => ?_⟩
    · simp only [Cls.initIep] at hq ⊢
      rcases mem_insertPos.mp hq with rfl | hq
      · have := hk.1
        omega
      · exact g.above q hq
    · exact mem_insertPos.mpr (Or.inr (g.stat q hq))

theorem augmentAt_ok {w : World} {s p : Nat} {r : Cls} (hr : w[s]? = some r) (hp : r.fx.pos ≤ p) :
    ∃ w', augmentAt w s p = .ok w' ∧ Ext w w' ∧
      ∀ r', w'[s]? = some r' → p = r'.fx.pos ∨ p ∈ r'.others := by
  obtain ⟨r', he, hfx, ho, hst, hj, hg, hk⟩ := augment_ok hp
  refine ⟨w.set s r', by simp [augmentAt, hr, he], Ext.set hr hfx ho hst hj (hg s), ?_⟩
  intro r2 hr2
  rw [List.getElem?_set, if_pos rfl, if_pos (lt_of_get hr)] at hr2
  cases hr2
  exact hk

theorem augmentSuperior_ok {c : Nat} {f : Fixed} : ∀ (n : Nat) (w : World),
    (∀ p, 0 < p → p ≤ n → ∃ s r, f.rcpl[p]? = some (some s) ∧ w[s]? = some r ∧ r.fx.pos ≤ p) →
    ∃ w', augmentSuperior c f.rcpl n w = .ok w' ∧ Ext w w' ∧
      ∀ p s r', 0 < p → p ≤ n → f.rcpl[p]? = some (some s) → s ≠ c → s ≠ 0 → w'[s]? = some r' →
        p = r'.fx.pos ∨ p ∈ r'.others := by
  intro n
  induction n with
  | zero =>
    intro w _
    exact ⟨w, rfl, Ext.refl w, fun p s r' h1 h2 => absurd h1 (by omega)⟩
  | succ n ih =>
    intro w hw
    obtain ⟨s, r, hs, hr, hp⟩ := hw (n + 1) (by omega) (Nat.le_refl _)
    simp only [augmentSuperior, hs]
    by_cases hsc : s = c ∨ s = 0
    · rw [if_pos hsc]
      obtain ⟨w', he, hx, hk⟩ := ih w (fun p h1 h2 => hw p h1 (by omega))
      refine ⟨w', he, hx, fun p s' r' h1 h2 h3 h4 h5 h6 => ?_⟩
      rcases Nat.lt_or_eq_of_le h2 with h2 | rfl
      · exact hk p s' r' h1 (by omega) h3 h4 h5 h6
      · rw [hs] at h3
        cases h3
        exact absurd hsc (by simp [h4, h5])
    · rw [if_neg hsc]
      obtain ⟨w1, he1, hx1, hk1⟩ := augmentAt_ok hr hp
      rw [he1]
      obtain ⟨w', he, hx, hk⟩ := ih w1 (fun p h1 h2 => by
        obtain ⟨s', r', hs', hr', hp'⟩ := hw p h1 (by omega)
        obtain ⟨r2, hr2, e2, -⟩ := hx1.get hr'
        exact ⟨s', r2, hs', hr2, by rw [e2]; exact hp'⟩)
      refine ⟨w', he, hx1.trans hx, fun p s' r' h1 h2 h3 h4 h5 h6 => ?_⟩
      rcases Nat.lt_or_eq_of_le h2 with h2 | rfl
      · exact hk p s' r' h1 (by omega) h3 h4 h5 h6
      · rw [hs] at h3
        cases h3
        obtain ⟨r1, hr1, e1, o1, -⟩ := hx.2 _ _ h6
        rcases hk1 r1 hr1 with h7 | h7
        · exact Or.inl (by rw [e1]; exact h7)
        · exact Or.inr (o1 _ h7)

/-! ### Primary classes -/

theorem subclass_true {w : World} (h : WInv w) {a b : Nat} {ra rb : Cls} (ha : w[a]? = some ra)
    (hb : w[b]? = some rb) (hpb : rb.fx.primary = true) :
    subclass w a b = .ok (decide (b ∈ ra.fx.cpl)) := by
  refine h.subclass_eq ha hb ?_
  rintro rfl
  obtain ⟨r, hr, hp⟩ := h.zero
  rw [hb] at hr
  cases hr
  rw [hp] at hpb
  cases hpb

theorem primaryLoop_some {w : World} (h : WInv w) {f : Nat} {rf : Cls} (hf : w[f]? = some rf) :
    ∀ l : List Nat, primaryLoop w l (some f) = .ok () →
    ∀ b ∈ l, ∀ rb, w[b]? = some rb → rb.fx.primary = true → b ∈ rf.fx.cpl := by
  intro l
  induction l with
  | nil => intro _ b hb; simp at hb
  | cons s l ih =>
    intro he b hb rb hrb hpb
    simp only [primaryLoop] at he
    cases hs : w[s]? with
    | none => simp [hs] at he
    | some r =>
      simp only [hs] at he
      cases hp : r.fx.primary with
      | false =>
        simp only [hp, Bool.false_eq_true, if_false] at he
        rcases List.mem_cons.mp hb with rfl | hb
        · rw [hs] at hrb
          cases hrb
          rw [hp] at hpb
          cases hpb
        · exact ih he b hb rb hrb hpb
      | true =>
        simp only [hp, if_true] at he
        rw [subclass_true h hf hs hp] at he
        by_cases hm : s ∈ rf.fx.cpl
        · simp only [hm, decide_true] at he
          rcases List.mem_cons.mp hb with rfl | hb
          · exact hm
          · exact ih he b hb rb hrb hpb
        · simp [hm] at he

theorem primaryLoop_none {w : World} (h : WInv w) : ∀ l : List Nat,
    primaryLoop w l none = .ok () →
    (∀ b ∈ l, ∀ rb, w[b]? = some rb → rb.fx.primary = false) ∨
    ∃ (f : Nat) (rf : Cls), w[f]? = some rf ∧
      ∀ b ∈ l, ∀ rb, w[b]? = some rb → rb.fx.primary = true → b ∈ rf.fx.cpl := by
  intro l
  induction l with
  | nil => intro _; exact Or.inl (by simp)
  | cons s l ih =>
    intro he
    simp only [primaryLoop] at he
    cases hs : w[s]? with
    | none => simp [hs] at he
    | some r =>
      simp only [hs] at he
      cases hp : r.fx.primary with
      | false =>
        simp only [hp, Bool.false_eq_true, if_false] at he
        rcases ih he with h1 | ⟨f, rf, hf, h1⟩
        · refine Or.inl fun b hb rb hrb => ?_
          rcases List.mem_cons.mp hb with rfl | hb
          · rw [hs] at hrb; cases hrb; exact hp
          · exact h1 b hb rb hrb
        · refine Or.inr ⟨f, rf, hf, fun b hb rb hrb hpb => ?_⟩
          rcases List.mem_cons.mp hb with rfl | hb
          · rw [hs] at hrb; cases hrb; rw [hp] at hpb; cases hpb
          · exact h1 b hb rb hrb hpb
      | true =>
        simp only [hp, if_true] at he
        refine Or.inr ⟨s, r, hs, fun b hb rb hrb hpb => ?_⟩
        rcases List.mem_cons.mp hb with rfl | hb
        · exact (h.fixed _ _ (get_fixeds hs)).self_mem
        · exact primaryLoop_some h hs l he b hb rb hrb hpb

/-- After the check, the primary classes among the superclasses are related. -/
theorem primaryLoop_related {w : World} (h : WInv w) {l : List Nat}
    (he : primaryLoop w l none = .ok ()) : ∀ a ∈ l, ∀ b ∈ l, ∀ ga gb : Fixed,
    (fixeds w)[a]? = some ga → (fixeds w)[b]? = some gb → ga.primary = true →
    gb.primary = true → b ∈ ga.cpl ∨ a ∈ gb.cpl := by
  intro a ha b hb ga gb hga hgb pa pb
  obtain ⟨ra, hra, rfl⟩ := get_of_fixeds hga
  obtain ⟨rb, hrb, rfl⟩ := get_of_fixeds hgb
  rcases primaryLoop_none h l he with h1 | ⟨f, rf, hf, h1⟩
  · rw [h1 a ha ra hra] at pa
    cases pa
  · exact (h.fixed f rf.fx (get_fixeds hf)).prim a (h1 a ha ra hra pa) b (h1 b hb rb hrb pb) _ _
      hga hgb pa pb

/-- The check fails only for two unrelated primary classes. -/
theorem primaryLoop_error {w : World} (h : WInv w) : ∀ (l : List Nat) (fp : Option Nat),
    (∀ s ∈ l, ∃ r, w[s]? = some r) →
    (∀ f, fp = some f → ∃ rf, w[f]? = some rf ∧ rf.fx.primary = true) →
    ∀ e, primaryLoop w l fp = .error e → e = .primaries ∧
      ∃ a b ra rb, (fp = some a ∧ b ∈ l ∨ [a, b].Sublist l) ∧ w[a]? = some ra ∧ w[b]? = some rb ∧
        ra.fx.primary = true ∧ rb.fx.primary = true ∧ b ∉ ra.fx.cpl := by
  intro l
  induction l with
  | nil => intro fp _ _ e he; simp [primaryLoop] at he
  | cons s l ih =>
    intro fp hl hfp e he
    obtain ⟨r, hs⟩ := hl s List.mem_cons_self
    have hl' : ∀ s ∈ l, ∃ r, w[s]? = some r := fun x hx => hl x (List.mem_cons_of_mem _ hx)
    simp only [primaryLoop, hs] at he
    have up : ∀ fp' : Option Nat, (∀ f, fp' = some f → f = s ∨ fp = some f) →
        (∃ a b ra rb, (fp' = some a ∧ b ∈ l ∨ [a, b].Sublist l) ∧ w[a]? = some ra ∧ w[b]? = some rb ∧
          ra.fx.primary = true ∧ rb.fx.primary = true ∧ b ∉ ra.fx.cpl) →
        ∃ a b ra rb, (fp = some a ∧ b ∈ s :: l ∨ [a, b].Sublist (s :: l)) ∧ w[a]? = some ra ∧
          w[b]? = some rb ∧ ra.fx.primary = true ∧ rb.fx.primary = true ∧ b ∉ ra.fx.cpl := by
      rintro fp' hfp' ⟨a, b, ra, rb, hab, rest⟩
      refine ⟨a, b, ra, rb, ?_, rest⟩
      rcases hab with ⟨h1, h2⟩ | h1
      · rcases hfp' a h1 with rfl | h3
        · exact Or.inr ((List.singleton_sublist.mpr h2).cons_cons a)
        · exact Or.inl ⟨h3, List.mem_cons_of_mem _ h2⟩
      · exact Or.inr (h1.cons _)
    cases hp : r.fx.primary with
    | false =>
      simp only [hp, Bool.false_eq_true, if_false] at he
      obtain ⟨h1, h2⟩ := ih fp hl' hfp e he
      exact ⟨h1, up fp (fun f hf => Or.inr hf) h2⟩
    | true =>
      simp only [hp, if_true] at he
      cases fp with
      | none =>
        simp only at he
        obtain ⟨h1, h2⟩ := ih (some s) hl' (fun f hf => by cases hf; exact ⟨r, hs, hp⟩) e he
        exact ⟨h1, up (some s) (fun f hf => by cases hf; exact Or.inl rfl) h2⟩
      | some f =>
        obtain ⟨rf, hf, hpf⟩ := hfp f rfl
        simp only at he
        rw [subclass_true h hf hs hp] at he
        by_cases hm : s ∈ rf.fx.cpl
        · simp only [hm, decide_true] at he
          obtain ⟨h1, h2⟩ := ih (some f) hl' hfp e he
          exact ⟨h1, up (some f) (fun f hf => Or.inr hf) h2⟩
        · simp only [hm, decide_false] at he
          cases he
          exact ⟨rfl, f, s, rf, r, Or.inl ⟨rfl, List.mem_cons_self⟩, hf, hs, hpf, hp, hm⟩

/-! ### Masks -/

theorem maskLoop_bit {w : World} : ∀ (l : List Nat) (m i : Nat), (maskLoop w l m).testBit i = true ↔
    m.testBit i = true ∨
      ∃ x ∈ l, ∃ g : Fixed, (fixeds w)[x]? = some g ∧ g.mask.testBit i = true := by
  intro l
  induction l with
  | nil => intro m i; simp [maskLoop]
  | cons s l ih =>
    intro m i
    simp only [maskLoop]
    rw [ih, Nat.testBit_or, Bool.or_eq_true]
    have : (((w[s]?).elim 0 (fun r => r.fx.mask)).testBit i = true) ↔
        ∃ g : Fixed, (fixeds w)[s]? = some g ∧ g.mask.testBit i = true := by
      cases hs : w[s]? with
      | none => simp [fixeds, List.getElem?_map, hs]
      | some r => simp [fixeds, List.getElem?_map, hs]
    rw [this]
    constructor
    · rintro ((h1 | h1) | ⟨x, hx, h1⟩)
      · exact Or.inl h1
      · exact Or.inr ⟨s, List.mem_cons_self, h1⟩
      · exact Or.inr ⟨x, List.mem_cons_of_mem _ hx, h1⟩
    · rintro (h1 | ⟨x, hx, h1⟩)
      · exact Or.inl (Or.inl h1)
      · rcases List.mem_cons.mp hx with rfl | hx
        · exact Or.inl (Or.inr h1)
        · exact Or.inr ⟨x, hx, h1⟩

/-! ### The precedence lists of the direct superclasses -/

theorem all_eq {w : World} (h : FInv (fixeds w)) {k : Nat} {r : Cls}
    (hr : w[k]? = some r) : allSuperclasses w k = .ok r.fx.cpl := by
  have := h k r.fx (get_fixeds hr)
  simp only [allSuperclasses, hr]
  exact allSuperclasses_eq this.rcpl this.len

theorem superCpls_ok {w : World} (h : FInv (fixeds w)) : ∀ (sups : List Nat)
    (cpls : List (List Nat)), superCpls w sups = .ok cpls → CplsOf (fixeds w) sups cpls := by
  intro sups
  induction sups with
  | nil =>
    intro cpls he
    simp only [superCpls] at he
    cases he
    exact .nil
  | cons s l ih =>
    intro cpls he
    simp only [superCpls] at he
    cases hs : w[s]? with
    | none => simp [allSuperclasses, hs] at he
    | some r =>
      rw [all_eq h hs] at he
      simp only at he
      cases hl : superCpls w l with
      | error e => simp [hl] at he
      | ok cs =>
        simp only [hl] at he
        cases he
        exact .cons ⟨r.fx, get_fixeds hs, rfl⟩ (ih cs hl)

theorem superCpls_exists {w : World} (h : FInv (fixeds w)) : ∀ (sups : List Nat),
    (∀ s ∈ sups, s < w.length) → ∃ cpls, superCpls w sups = .ok cpls := by
  intro sups
  induction sups with
  | nil => intro _; exact ⟨[], rfl⟩
  | cons s l ih =>
    intro hl
    obtain ⟨cs, hcs⟩ := ih (fun x hx => hl x (List.mem_cons_of_mem _ hx))
    have hs := List.getElem?_eq_getElem (hl s List.mem_cons_self)
    exact ⟨_ :: cs, by simp only [superCpls]; rw [all_eq h hs]; simp only [hcs]; rfl⟩

theorem superCpls_error {w : World} (h : FInv (fixeds w)) {sups : List Nat} {e : Err}
    (he : superCpls w sups = .error e) : e = .noClass ∧ ∃ s ∈ sups, w.length ≤ s := by
  induction sups with
  | nil => simp [superCpls] at he
  | cons s l ih =>
    simp only [superCpls] at he
    cases hs : w[s]? with
    | none =>
      simp only [allSuperclasses, hs] at he
      cases he
      exact ⟨rfl, s, List.mem_cons_self, List.getElem?_eq_none_iff.mp hs⟩
    | some r =>
      rw [all_eq h hs] at he
      simp only at he
      cases hl : superCpls w l with
      | error e' =>
        simp only [hl] at he
        cases he
        obtain ⟨h1, x, hx, h2⟩ := ih hl
        exact ⟨h1, x, List.mem_cons_of_mem _ hx, h2⟩
      | ok cs => simp [hl] at he

/-- When the newer algorithm succeeds, so does the older one. -/
theorem mergeOld_ok {w : World} (h : FInv (fixeds w)) {c : Nat} {sups : List Nat}
    {cpls : List (List Nat)} (hc : CplsOf (fixeds w) sups cpls) (hlen : w.length ≤ c) {M : List Nat}
    (hM : Merged (cpls ++ [sups]) M) :
    ∃ L, mergeOld (fun x => if x = c then sups else supersOf w x) (mergeFuel (cpls ++ [sups])) [c]
      (sups :: cpls) = .ok L := by
  refine mergeOld_complete _ _ _ _ M ?_ hM.nodup (fun l hl => hM.sub l ?_) ?_
  · simp only [mergeFuel, List.map_append, List.map_cons, List.map_nil, List.sum_append,
      List.sum_cons, List.sum_nil]
    omega
  · rcases List.mem_cons.mp hl with rfl | hl
    · simp
    · exact List.mem_append_left _ hl
  · intro l hl
    rcases List.mem_cons.mp hl with rfl | hl
    · rintro a x b rfl
      exact ⟨c, Or.inl (by simp), by simp⟩
    · obtain ⟨s, hs, g, hg, rfl⟩ := hc.of_mem.2 l hl
      intro a x b e
      by_cases hx : x = s
      · subst hx
        exact ⟨c, Or.inl (by simp), by simpa using hs⟩
      · obtain ⟨y, gy, hy, hgy, hxy⟩ := h.fedL hg e hx
        refine ⟨y, Or.inr hy, ?_⟩
        have hyl := lt_of_get hgy
        simp only [fixeds, List.length_map] at hyl
        have hyc : y ≠ c := by omega
        obtain ⟨ry, hry, rfl⟩ := get_of_fixeds hgy
        simp only [if_neg hyc, supersOf, hry]
        exact hxy

/-! ### Run-time class creation -/

theorem newFixed_cpl {w : World} {d : Def} {cpl : List Nat} {bit : Nat} (h : cpl ≠ []) :
    (newFixed w d cpl bit).cpl = cpl ∧ cpl.length = (newFixed w d cpl bit).pos + 1 := by
  have hl : cpl.length = (newFixed w d cpl bit).pos + 1 := by
    have := List.length_pos_iff.mpr h
    simp only [newFixed]
    omega
  exact ⟨cpl_of_rcplOf rfl hl, hl⟩

theorem fixeds_append (w : World) (r : Cls) : fixeds (w ++ [r]) = fixeds w ++ [r.fx] := by
  simp [fixeds]

theorem computeCpl_ok {w : World} (h : FInv (fixeds w)) {sups : List Nat} {cpls : List (List Nat)}
    (hc : CplsOf (fixeds w) sups cpls) :
    (∀ cpl, computeCpl (supersOf w) w.length sups cpls = .ok cpl →
      ∃ M, cpl = w.length :: M ∧ Merged (cpls ++ [sups]) M) ∧
    (∀ e, computeCpl (supersOf w) w.length sups cpls = .error e →
      e = .inconsistent ∧ ¬ ∃ M : List Nat, M.Nodup ∧ ∀ l ∈ cpls ++ [sups], l.Sublist M) := by
  unfold computeCpl
  constructor
  · intro cpl he
    simp only at he
    cases hm : mergeC3 (mergeFuel (cpls ++ [sups])) [w.length] (cpls ++ [sups]) with
    | error e => simp [hm] at he
    | ok L =>
      obtain ⟨M, rfl, hM⟩ := mergeC3_ok _ _ _ _ hm
      obtain ⟨L', hL'⟩ := mergeOld_ok h hc (Nat.le_refl _) hM
      simp only [hm, hL'] at he
      cases he
      exact ⟨M, by simp, hM⟩
  · intro e he
    simp only at he
    cases hm : mergeC3 (mergeFuel (cpls ++ [sups])) [w.length] (cpls ++ [sups]) with
    | error e' =>
      simp only [hm] at he
      cases he
      refine ⟨mergeC3_error _ _ _ _ (Nat.le_refl _) hm, ?_⟩
      rintro ⟨M, h1, h2⟩
      obtain ⟨L, hL⟩ := mergeC3_complete _ [w.length] _ M (Nat.le_refl _) h1 h2
      rw [hm] at hL
      cases hL
    | ok L =>
      obtain ⟨M, rfl, hM⟩ := mergeC3_ok _ _ _ _ hm
      obtain ⟨L', hL'⟩ := mergeOld_ok h hc (Nat.le_refl _) hM
      simp only [hm, hL'] at he
      cases he

/-- The fixed part of a new class fits. -/
theorem FInv.addNew {w : World} (h : FInv (fixeds w)) {d : Def} {bit : Nat} {M : List Nat}
    {cpls : List (List Nat)} (hc : CplsOf (fixeds w) d.supers cpls)
    (hM : Merged (cpls ++ [d.supers]) M)
    (hprim : ∀ a ∈ M, ∀ b ∈ M, ∀ ga gb : Fixed, (fixeds w)[a]? = some ga →
      (fixeds w)[b]? = some gb → ga.primary = true → gb.primary = true → b ∈ ga.cpl ∨ a ∈ gb.cpl) :
    FInv (fixeds w ++ [newFixed w d (w.length :: M) bit]) ∧
    (newFixed w d (w.length :: M) bit).cpl = w.length :: M := by
  obtain ⟨h1, h2⟩ := newFixed_cpl (w := w) (d := d) (bit := bit) (List.cons_ne_nil w.length M)
  refine ⟨h.append (M := M) (cpls := cpls) ?_ ?_ ?_ hc hM hprim ?_, h1⟩
  · rw [h1]
    simp [fixeds]
  · rw [h1]; rfl
  · rw [h1, h2]
  · intro i
    exact maskLoop_bit M bit i

theorem chooseIep_good (k : Nat) (fx : Fixed) : Good k (freshCls fx) :=
  ⟨by simp [freshCls], by simp [freshCls], Or.inl rfl, by simp [freshCls]⟩

/-- The position of a class in its own vector. -/
theorem FInv.self_pos {fs : List Fixed} (h : FInv fs) {k p : Nat} {f : Fixed} (hf : fs[k]? = some f)
    (hp : f.rcpl[p]? = some (some k)) : p = f.pos := by
  rw [(h k f hf).rcpl, rcplOf_get] at hp
  obtain ⟨a, t, he, ht⟩ := reverse_split hp
  obtain ⟨M, hM, -⟩ := (h k f hf).head
  have hn := (h k f hf).nodup
  have hl := (h k f hf).len
  cases a with
  | nil =>
    rw [he] at hl
    simp only [List.nil_append, List.length_cons] at hl
    omega
  | cons x a =>
    rw [hM] at he
    have hx : k = x := by simpa using congrArg List.head? he
    rw [hM] at hn
    have h1 : M = a ++ k :: t := by simpa using (congrArg List.tail he)
    exact absurd (by rw [h1]; simp) (List.nodup_cons.mp hn).1

theorem get_append_world {w : World} {n g : Cls} {k : Nat} (h : (w ++ [n])[k]? = some g) :
    w[k]? = some g ∨ (k = w.length ∧ g = n) := by
  by_cases hk : k < w.length
  · rw [List.getElem?_append_left hk] at h
    exact Or.inl h
  · rw [List.getElem?_append_right (Nat.le_of_not_lt hk)] at h
    have hlt := lt_of_get h
    simp only [List.length_singleton] at hlt
    have hz : k - w.length = 0 := by omega
    rw [hz] at h
    simp only [List.getElem?_cons_zero, Option.some.injEq] at h
    exact Or.inr ⟨by omega, h.symm⟩

/-- Every position below the class's own holds a class that exists, at or above its position. -/
theorem FInv.rcpl_entry {fs : List Fixed} (h : FInv fs) {k : Nat} {f : Fixed}
    (hf : fs[k]? = some f) {p : Nat} (hp : p ≤ f.pos) :
    ∃ s g, f.rcpl[p]? = some (some s) ∧ s ∈ f.cpl ∧ fs[s]? = some g ∧ g.pos ≤ p := by
  have hlt : p < f.cpl.reverse.length := by
    rw [List.length_reverse, (h k f hf).len]
    omega
  have h1 : f.rcpl[p]? = some (some (f.cpl.reverse[p])) := by
    rw [(h k f hf).rcpl, rcplOf_get]
    exact List.getElem?_eq_getElem hlt
  have hmem : f.cpl.reverse[p] ∈ f.cpl := List.mem_reverse.mp (List.getElem_mem hlt)
  obtain ⟨g, hg, -⟩ := h.trans k f hf _ hmem
  exact ⟨_, g, h1, hmem, hg, h.pos_le hf h1 hg⟩

/-- What run-time class creation does. -/
theorem computeCpl_merge {sup : Nat → List Nat} {c : Nat} {sups : List Nat} {cpls : List (List Nat)}
    {L : List Nat} (h : computeCpl sup c sups cpls = .ok L) :
    mergeC3 (mergeFuel (cpls ++ [sups])) [c] (cpls ++ [sups]) = .ok L := by
  unfold computeCpl at h
  simp only at h
  cases hm : mergeC3 (mergeFuel (cpls ++ [sups])) [c] (cpls ++ [sups]) with
  | error e => simp [hm] at h
  | ok K =>
    simp only [hm] at h
    split at h
    · cases h
    · exact h

theorem makeClass_ok {w : World} (h : WInv w) {d : Def} {w' : World} (he : makeClass w d = .ok w') :
    WInv w' ∧ ∃ cpls M, superCpls w d.supers = .ok cpls ∧ Merged (cpls ++ [d.supers]) M ∧
      fixeds w' = fixeds w ++ [newFixed w d (w.length :: M) 0] ∧
      (∀ k r', w'[k]? = some r' → k < w.length → ∃ r, w[k]? = some r ∧ r'.joint = r.joint) ∧
      mergeC3 (mergeFuel (cpls ++ [d.supers])) [w.length] (cpls ++ [d.supers]) =
        .ok (w.length :: M) := by
  unfold makeClass at he
  cases hs : superCpls w d.supers with
  | error e => simp [hs] at he
  | ok cpls =>
    have hc := superCpls_ok h.fixed _ _ hs
    simp only [hs] at he
    cases hcpl : computeCpl (supersOf w) w.length d.supers cpls with
    | error e => simp [hcpl] at he
    | ok cpl =>
      obtain ⟨M, rfl, hM⟩ := (computeCpl_ok h.fixed hc).1 cpl hcpl
      simp only [hcpl] at he
      simp only [List.tail_cons] at he
      cases hp : primaryLoop w M none with
      | error e => simp [hp] at he
      | ok u =>
        simp only [hp] at he
        obtain ⟨hF, hcp⟩ := h.fixed.addNew (bit := 0) hc hM (primaryLoop_related h hp)
        generalize hfx : newFixed w d (w.length :: M) 0 = fx at he hF hcp
        have hF1 : FInv (fixeds (w ++ [freshCls fx])) := by
          rw [fixeds_append]; exact hF
        have hself : (fixeds (w ++ [freshCls fx]))[w.length]? = some fx := by
          rw [fixeds_append]
          simp [fixeds, freshCls]
        obtain ⟨w2, he2, hx, hk⟩ := augmentSuperior_ok (c := w.length) (f := fx) fx.pos
          (w ++ [freshCls fx]) (fun p h1 h2 => by
            obtain ⟨s, g, hs', -, hg, hpos⟩ := hF1.rcpl_entry hself h2
            obtain ⟨r, hr, rfl⟩ := get_of_fixeds hg
            exact ⟨s, r, hs', hr, hpos⟩)
        rw [he2] at he
        cases he
        refine ⟨⟨?_, ?_, ?_, ?_⟩, cpls, M, rfl, hM, ?_, ?_, computeCpl_merge hcpl⟩
        · rw [hx.1]; exact hF1
        · obtain ⟨r, hr, hpr⟩ := h.zero
          have hr1 : (w ++ [freshCls fx])[0]? = some r := by
            rw [List.getElem?_append_left (lt_of_get hr)]; exact hr
          obtain ⟨r', hr', e, -⟩ := hx.get hr1
          exact ⟨r', hr', by rw [e]; exact hpr⟩
        · intro k r' hr'
          obtain ⟨r, hr, -, -, -, -, hg⟩ := hx.2 k r' hr'
          apply hg
          rcases get_append_world hr with h1 | ⟨rfl, rfl⟩
          · exact h.good k r h1
          · exact chooseIep_good _ _
        · intro k rk p b rb hrk hpb hrb hb0 _
          obtain ⟨rk0, hrk0, ek, -⟩ := hx.2 k rk hrk
          obtain ⟨rb0, hrb0, eb, ob, -⟩ := hx.2 b rb hrb
          rw [ek] at hpb
          have hle : rb0.fx.pos ≤ p := hF1.pos_le (get_fixeds hrk0) hpb (get_fixeds hrb0)
          rcases get_append_world hrk0 with h1 | ⟨rfl, rfl⟩
          · rcases get_append_world hrb0 with h2 | ⟨rfl, rfl⟩
            · rcases h.known k rk0 p b rb0 h1 hpb h2 hb0 trivial with h3 | h3
              · exact Or.inl (by rw [eb]; exact h3)
              · exact Or.inr (ob p h3)
            · exfalso
              have hmem := (h.fixed.mem_rcpl (get_fixeds h1)).mpr ⟨p, hpb⟩
              obtain ⟨g, hg, -⟩ := h.fixed.trans k _ (get_fixeds h1) _ hmem
              have := lt_of_get hg
              simp [fixeds] at this
          · by_cases hbw : b = w.length
            · subst hbw
              left
              have : rb0 = freshCls fx := by
                simpa using hrb0.symm
              rw [eb, this]
              exact hF1.self_pos hself hpb
            · by_cases hp0 : p = 0
              · left; rw [eb]; omega
              · have hpp : p ≤ fx.pos := by
                  have h9 := (hF1 _ _ hself).rcpl
                  have h10 := (hF1 _ _ hself).len
                  have hpb' : fx.rcpl[p]? = some (some b) := hpb
                  rw [h9, rcplOf_get] at hpb'
                  have := lt_of_get hpb'
                  rw [List.length_reverse] at this
                  omega
                exact hk p b rb (by omega) hpp hpb hbw hb0 hrb
        · rw [hx.1, fixeds_append, hfx]; rfl
        · intro k r' hr' hklt
          obtain ⟨r, hr, -, -, -, hj, -⟩ := hx.2 k r' hr'
          rcases get_append_world hr with h1 | ⟨rfl, rfl⟩
          · exact ⟨r, h1, hj⟩
          · exact absurd hklt (Nat.lt_irrefl _)

/-- How run-time class creation fails. -/
theorem makeClass_error {w : World} (h : WInv w) {d : Def} {e : Err}
    (he : makeClass w d = .error e) :
    (e = .noClass ∧ ∃ s ∈ d.supers, w.length ≤ s) ∨
    ∃ cpls, superCpls w d.supers = .ok cpls ∧
      ((e = .inconsistent ∧
          ¬ ∃ M : List Nat, M.Nodup ∧ ∀ l ∈ cpls ++ [d.supers], l.Sublist M) ∨
       (e = .primaries ∧ ∃ M, Merged (cpls ++ [d.supers]) M ∧
          ∃ a b ra rb, [a, b].Sublist M ∧ w[a]? = some ra ∧ w[b]? = some rb ∧
            ra.fx.primary = true ∧ rb.fx.primary = true ∧ b ∉ ra.fx.cpl)) := by
  unfold makeClass at he
  cases hs : superCpls w d.supers with
  | error e' =>
    simp only [hs] at he
    cases he
    exact Or.inl (superCpls_error h.fixed hs)
  | ok cpls =>
    right
    refine ⟨cpls, rfl, ?_⟩
    have hc := superCpls_ok h.fixed _ _ hs
    simp only [hs] at he
    cases hcpl : computeCpl (supersOf w) w.length d.supers cpls with
    | error e' =>
      simp only [hcpl] at he
      cases he
      exact Or.inl ((computeCpl_ok h.fixed hc).2 _ hcpl)
    | ok cpl =>
      obtain ⟨M, rfl, hM⟩ := (computeCpl_ok h.fixed hc).1 cpl hcpl
      simp only [hcpl] at he
      simp only [List.tail_cons] at he
      have hMex : ∀ s ∈ M, ∃ r, w[s]? = some r := by
        intro x hx
        obtain ⟨l, hl, hxl⟩ := hM.src x hx
        rcases List.mem_append.mp hl with hl | hl
        · obtain ⟨s, hs, g, hg, rfl⟩ := hc.of_mem.2 l hl
          obtain ⟨g2, hg2, -⟩ := h.fixed.trans s g hg x hxl
          obtain ⟨r, hr, -⟩ := get_of_fixeds hg2
          exact ⟨r, hr⟩
        · rw [List.mem_singleton] at hl
          subst hl
          obtain ⟨g, hg, -⟩ := hc.of_mem.1 x hxl
          obtain ⟨r, hr, -⟩ := get_of_fixeds hg
          exact ⟨r, hr⟩
      cases hp : primaryLoop w M none with
      | error e' =>
        simp only [hp] at he
        cases he
        obtain ⟨h1, a, b, ra, rb, hab, rest⟩ := primaryLoop_error h M none hMex (by simp) _ hp
        refine Or.inr ⟨h1, M, hM, a, b, ra, rb, ?_, rest⟩
        rcases hab with ⟨h2, -⟩ | h2
        · cases h2
        · exact h2
      | ok u =>
        exfalso
        simp only [hp] at he
        obtain ⟨hF, hcp⟩ := h.fixed.addNew (bit := 0) hc hM (primaryLoop_related h hp)
        generalize hfx : newFixed w d (w.length :: M) 0 = fx at he hF hcp
        have hF1 : FInv (fixeds (w ++ [freshCls fx])) := by
          rw [fixeds_append]; exact hF
        have hself : (fixeds (w ++ [freshCls fx]))[w.length]? = some fx := by
          rw [fixeds_append]
          simp [fixeds, freshCls]
        obtain ⟨w2, he2, -⟩ := augmentSuperior_ok (c := w.length) (f := fx) fx.pos
          (w ++ [freshCls fx]) (fun p h1 h2 => by
            obtain ⟨s, g, hs', -, hg, hpos⟩ := hF1.rcpl_entry hself h2
            obtain ⟨r, hr, rfl⟩ := get_of_fixeds hg
            exact ⟨s, r, hs', hr, hpos⟩)
        rw [he2] at he
        cases he

end Verif.Class
