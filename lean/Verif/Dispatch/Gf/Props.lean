/-
C54: adding and removing methods.
-/
import Verif.Dispatch.Gf.Lemmas

namespace Verif.Dispatch.Gf
open Verif.Types Verif.Dispatch
variable {C : Type} [DecidableEq C]

/-- C54: when a method is added, and none has the same specializers, it is one more method; if
    there is one with the same specializers, it is replaced and returned.  The methods belong to
    the same libraries as before.  Missing: the case in which the new method belongs to another
    library than the generic function, and the old one is the first of those that belong to the
    library of the generic function, for which it is false (see below). -/
theorem add_method_partial (K : DWorld C) (nreq glib : Nat) (g : Gf C)
    (hlen : g.libs.length ≤ g.meths.length) (m : Meth C) (lib : Nat)
    (hsame : ∀ x ∈ g.meths, sameSpecs K nreq x m = true ↔ SameTypes K nreq x m) :
    ((∀ x ∈ g.meths, ¬ SameTypes K nreq x m) →
      (addMethod K nreq glib g m lib).1 = none ∧
      entries glib (addMethod K nreq glib g m lib).2 = (m, lib) :: entries glib g) ∧
    (∀ (i : Nat) old, g.meths[i]? = some old → SameTypes K nreq old m →
      (∀ j < i, ∀ x : Meth C, g.meths[j]? = some x → ¬ SameTypes K nreq x m) →
      (addMethod K nreq glib g m lib).1 = some old ∧
      ((lib = glib ∨ i ≠ g.libs.length) →
        (entries glib (addMethod K nreq glib g m lib).2).Perm
          ((m, lib) :: (entries glib g).eraseIdx i))) := by
  refine ⟨fun h => ?_, fun i old hi hs hb => ?_⟩
  · have hloc : locate K nreq m g.meths 0 = none := locate_none fun y hy => by
      rw [Bool.eq_false_iff]; intro e; exact h y hy ((hsame y hy).1 e)
    exact ⟨by simp [addMethod, hloc], add_new hloc⟩
  · have hloc : locate K nreq m g.meths 0 = some (old, i) := by
      have := locate_some (K := K) (nreq := nreq) (m := m) (k := 0) hi
        ((hsame old (List.mem_of_getElem? hi)).2 hs) (fun j hj y hy => by
          rw [Bool.eq_false_iff]; intro e
          exact hb j hj y hy ((hsame y (List.mem_of_getElem? hy)).1 e))
      simpa using this
    refine ⟨?_, fun hne => (add_replace hlen hi hloc hne).1⟩
    simp only [addMethod, hloc]
    split_ifs <;> rfl

/-- C54: `find-method` returns the first method with the given specializers. -/
theorem find_method_spec (K : DWorld C) (nreq : Nat) (g : Gf C) (m : Meth C)
    (hsame : ∀ x ∈ g.meths, sameSpecs K nreq x m = true ↔ SameTypes K nreq x m) :
    ((∀ x ∈ g.meths, ¬ SameTypes K nreq x m) → findMethod K nreq g m = none) ∧
    (∀ (i : Nat) old, g.meths[i]? = some old → SameTypes K nreq old m →
      (∀ j < i, ∀ x : Meth C, g.meths[j]? = some x → ¬ SameTypes K nreq x m) →
      findMethod K nreq g m = some old) := by
  refine ⟨fun h => ?_, fun i old hi hs hb => ?_⟩
  · have hloc : locate K nreq m g.meths 0 = none := locate_none fun y hy => by
      rw [Bool.eq_false_iff]; intro e; exact h y hy ((hsame y hy).1 e)
    simp [findMethod, hloc]
  · have := locate_some (K := K) (nreq := nreq) (m := m) (k := 0) hi
        ((hsame old (List.mem_of_getElem? hi)).2 hs) (fun j hj y hy => by
          rw [Bool.eq_false_iff]; intro e
          exact hb j hj y hy ((hsame y (List.mem_of_getElem? hy)).1 e))
    simp [findMethod, this]

/-- C54: `remove-method` removes the method it is given from the list, and returns it; the other
    methods stay, in order and with their libraries.  If it is not there, nothing changes. -/
theorem remove_method_spec (glib : Nat) (g : Gf C) (hlen : g.libs.length ≤ g.meths.length)
    (m : Meth C) :
    (m ∉ g.meths → removeMethod g m = (none, g)) ∧
    (m ∈ g.meths → (removeMethod g m).1 = some m ∧
      ∃ k, g.meths[k]? = some m ∧ (∀ j < k, g.meths[j]? ≠ some m) ∧
        entries glib (removeMethod g m).2 = (entries glib g).eraseIdx k) := by
  have h := removeFrom_spec (glib := glib) (g := g) (m := m) [] g.meths 0 rfl rfl (by simp) hlen
  exact ⟨h.1, fun hm => ⟨(h.2 hm).1, (h.2 hm).2.2.2⟩⟩

theorem sameSpecs_iff {K : DWorld C} {nreq : Nat} {U : List (Meth C)} (hU : Plain K nreq U)
    {x m : Meth C} (hx : x ∈ U) (hm : m ∈ U) :
    sameSpecs K nreq x m = true ↔ SameTypes K nreq x m := by
  simp only [sameSpecs, List.all_eq_true, List.mem_range, SameTypes]
  refine forall_congr' fun a => forall_congr' fun ha => ⟨fun h => ?_, fun h => ?_⟩
  · refine hU.same x hx m hm a ha ?_
    generalize spec K x a = s at h
    generalize spec K m a = t at h
    cases s with
    | cls c => simp only [sameSpec, decide_eq_true_eq] at h; exact .inl h
    | single o => cases t <;> simp_all [sameSpec, Equivalent]
    | subclass c => cases t <;> simp_all [sameSpec, Equivalent]
    | _ =>
      simp only [sameSpec, Bool.or_eq_true, decide_eq_true_eq, Bool.and_eq_true] at h
      exact h.imp id fun h => ⟨isSub_iff.1 h.1, isSub_iff.1 h.2⟩
  · rw [h]
    generalize spec K m a = t
    cases t <;> simp [sameSpec]

theorem wf_absent (K : DWorld C) (nreq : Nat) (ms : List (Meth C)) :
    WF K nreq ms .absent (ProperArgs K nreq) ∅ := by
  simp only [WF]
  exact ⟨fun x y _ _ m _ h => by simp [App], fun x y _ _ m _ m' _ _ _ a ha => by simp at ha,
    fun x y _ _ m _ _ a ha => by simp at ha⟩

/-- What holds between the operations. -/
structure Ok (K : DWorld C) (nreq glib : Nat) (U : List (Meth C)) (called : Bool)
    (S : Meth C × Nat → Prop) (g : Gf C) : Prop where
  len : g.libs.length ≤ g.meths.length
  sub : ∀ m ∈ g.meths, m ∈ U
  diff : g.meths.Pairwise fun x y => ¬ SameTypes K nreq x y
  mem : ∀ e, e ∈ entries glib g ↔ S e
  wf : WF K nreq g.meths g.root (ProperArgs K nreq) ∅
  fresh : called = false → g.root = .absent

theorem SameTypes.symm {K : DWorld C} {nreq : Nat} {x y : Meth C} (h : SameTypes K nreq x y) :
    SameTypes K nreq y x := fun a ha => (h a ha).symm

theorem SameTypes.trans {K : DWorld C} {nreq : Nat} {x y z : Meth C} (h : SameTypes K nreq x y)
    (h' : SameTypes K nreq y z) : SameTypes K nreq x z := fun a ha => (h a ha).trans (h' a ha)

theorem entries_fst (glib : Nat) (g : Gf C) (hlen : g.libs.length ≤ g.meths.length) :
    (entries glib g).map Prod.fst = g.meths := by
  simp only [entries]
  rw [List.map_fst_zip (by simp; omega)]

theorem mem_erase_of_pairwise {α : Type} {R : α → α → Prop} {l : List α} (hp : l.Pairwise R)
    {i : Nat} {x : α} (hi : l[i]? = some x) {y : α} :
    y ∈ l.eraseIdx i → y ∈ l ∧ (R x y ∨ R y x) := by
  obtain ⟨A, B, rfl, rfl⟩ := split_at hi
  rw [List.eraseIdx_append_of_length_le (by simp)]
  simp only [Nat.sub_self, List.eraseIdx_cons_zero, List.mem_append, List.mem_cons]
  rw [List.pairwise_append, List.pairwise_cons] at hp
  rintro (h | h)
  · exact ⟨.inl h, .inr (hp.2.2 y h x (by simp))⟩
  · exact ⟨.inr (.inr h), .inl (hp.2.1.1 y h)⟩

theorem mem_erase_or {α : Type} {l : List α} {i : Nat} {x : α} (hi : l[i]? = some x) {y : α}
    (hy : y ∈ l) : y = x ∨ y ∈ l.eraseIdx i := by
  obtain ⟨A, B, rfl, rfl⟩ := split_at hi
  rw [List.eraseIdx_append_of_length_le (by simp)]
  simp only [Nat.sub_self, List.eraseIdx_cons_zero, List.mem_append, List.mem_cons] at hy ⊢
  tauto

theorem entries_get {glib : Nat} {g : Gf C} (hlen : g.libs.length ≤ g.meths.length) {i : Nat}
    {x : Meth C} (hi : g.meths[i]? = some x) : ∃ l, (entries glib g)[i]? = some (x, l) := by
  have h := entries_fst glib g hlen
  rw [← h, List.getElem?_map] at hi
  rcases he : (entries glib g)[i]? with _ | ⟨y, l⟩ <;> rw [he] at hi <;> simp at hi
  subst hi
  exact ⟨l, rfl⟩

theorem entries_pairwise {K : DWorld C} {nreq glib : Nat} {g : Gf C}
    (hlen : g.libs.length ≤ g.meths.length)
    (h : g.meths.Pairwise fun x y => ¬ SameTypes K nreq x y) :
    (entries glib g).Pairwise fun x y => ¬ SameTypes K nreq x.1 y.1 := by
  rw [← entries_fst glib g hlen, List.pairwise_map] at h
  exact h

theorem Ok.add {K : DWorld C} {nreq glib : Nat} {U : List (Meth C)} (hU : Plain K nreq U)
    {called : Bool} {S : Meth C × Nat → Prop} {g : Gf C} (ok : Ok K nreq glib U called S g)
    {m : Meth C} (hm : m ∈ U) {lib : Nat}
    (ht : lib ≠ glib → ∀ x, S (x, glib) → ¬ SameTypes K nreq x m) :
    Ok K nreq glib U false (After K nreq S (.add m lib)) (addMethod K nreq glib g m lib).2 := by
  have hsame : ∀ x ∈ g.meths, sameSpecs K nreq x m = true ↔ SameTypes K nreq x m :=
    fun x hx => sameSpecs_iff hU (ok.sub x hx) hm
  have hroot : (addMethod K nreq glib g m lib).2.root = .absent := by
    unfold addMethod
    rcases locate K nreq m g.meths 0 with _ | ⟨old, idx⟩
    · rfl
    · simp only
      split_ifs <;> rfl
  have main : ∃ E : List (Meth C × Nat), (entries glib (addMethod K nreq glib g m lib).2).Perm
      ((m, lib) :: E) ∧ (∀ e, e ∈ E ↔ S e ∧ ¬ SameTypes K nreq e.1 m) ∧
      E.Pairwise (fun x y => ¬ SameTypes K nreq x.1 y.1) ∧
      (addMethod K nreq glib g m lib).2.libs.length ≤
        (addMethod K nreq glib g m lib).2.meths.length := by
    rcases hloc : locate K nreq m g.meths 0 with _ | ⟨old, idx⟩
    · refine ⟨entries glib g, List.Perm.of_eq (add_new hloc), fun e => ?_,
        entries_pairwise ok.len ok.diff, ?_⟩
      · rw [ok.mem]
        refine ⟨fun h => ⟨h, fun hs => ?_⟩, And.left⟩
        have he : e.1 ∈ g.meths := by
          rw [← entries_fst glib g ok.len]; exact List.mem_map_of_mem ((ok.mem e).2 h)
        obtain ⟨i, hi⟩ := List.mem_iff_getElem?.1 he
        -- the first one
        classical
        have hex : ∃ i x, g.meths[i]? = some x ∧ sameSpecs K nreq x m = true :=
          ⟨i, e.1, hi, (hsame _ he).2 hs⟩
        obtain ⟨x, hx, hxs⟩ := Nat.find_spec hex
        have := locate_some (K := K) (nreq := nreq) (m := m) (k := 0) hx hxs
          (fun j hj y hy => by
            have := Nat.find_min hex hj
            rw [Bool.eq_false_iff]
            exact fun e => this ⟨y, hy, e⟩)
        rw [this] at hloc; cases hloc
      · simp only [addMethod, hloc]
        have := ok.len
        simp; omega
    · obtain ⟨hi, hs⟩ : g.meths[idx]? = some old ∧ sameSpecs K nreq old m = true := by
        have : ∀ (l : List (Meth C)) (k : Nat), locate K nreq m l k = some (old, idx) →
            k ≤ idx ∧ l[idx - k]? = some old ∧ sameSpecs K nreq old m = true := by
          intro l
          induction l with
          | nil => intro k h; cases h
          | cons x l ih =>
            intro k h
            simp only [locate] at h
            by_cases hx : sameSpecs K nreq x m = true
            · rw [if_pos hx] at h
              simp only [Option.some.injEq, Prod.mk.injEq] at h
              obtain ⟨rfl, rfl⟩ := h
              simp [hx]
            · rw [if_neg hx] at h
              obtain ⟨h1, h2, h3⟩ := ih _ h
              refine ⟨by omega, ?_, h3⟩
              rw [show idx - k = (idx - (k + 1)) + 1 by omega]
              simpa using h2
        have := this _ _ hloc
        simpa using this.2
      have hold := List.mem_of_getElem? hi
      have hst := (hsame old hold).1 hs
      obtain ⟨l, hl⟩ := entries_get (glib := glib) ok.len hi
      have hne : lib = glib ∨ idx ≠ g.libs.length := by
        by_cases h : lib = glib
        · exact .inl h
        · right
          rintro rfl
          have hlt : g.libs.length < g.meths.length := (List.getElem?_eq_some_iff.1 hi).1
          have hlg : (entries glib g)[g.libs.length]? = some (old, glib) := by
            simp only [entries]
            rw [List.getElem?_zip_eq_some]
            refine ⟨hi, ?_⟩
            rw [List.getElem?_append_right (by simp), List.getElem?_replicate]
            rw [if_pos (by omega)]
          exact ht h old ((ok.mem _).1 (List.mem_of_getElem? hlg)) hst
      obtain ⟨hp, hl1, hl2⟩ := add_replace (glib := glib) ok.len hi hloc hne
      have pw := entries_pairwise (glib := glib) ok.len ok.diff
      refine ⟨_, hp, fun e => ?_, pw.sublist (List.eraseIdx_sublist _ _), by omega⟩
      rw [← ok.mem]
      constructor
      · intro h
        obtain ⟨h1, h2⟩ := mem_erase_of_pairwise pw hl h
        refine ⟨h1, fun h3 => ?_⟩
        rcases h2 with h2 | h2
        · exact h2 (hst.trans h3.symm)
        · exact h2 (h3.trans hst.symm)
      · rintro ⟨h1, h2⟩
        rcases mem_erase_or hl h1 with rfl | h
        · exact absurd hst h2
        · exact h
  obtain ⟨E, hp, hE, hpw, hlen⟩ := main
  have hfst : (addMethod K nreq glib g m lib).2.meths.Perm (m :: E.map Prod.fst) := by
    have := hp.map Prod.fst
    rw [entries_fst glib _ hlen] at this
    simpa using this
  have hS : ∀ e, S e → e.1 ∈ U := fun e he => ok.sub _ (by
    rw [← entries_fst glib g ok.len]; exact List.mem_map_of_mem ((ok.mem e).2 he))
  refine ⟨hlen, fun x hx => ?_, ?_, fun e => ?_, by rw [hroot]; exact wf_absent _ _ _, fun _ => hroot⟩
  · rcases List.mem_cons.1 (hfst.mem_iff.1 hx) with rfl | h
    · exact hm
    · obtain ⟨e, he, rfl⟩ := List.mem_map.1 h
      exact hS e ((hE e).1 he).1
  · rw [hfst.pairwise_iff (fun h h' => h h'.symm), List.pairwise_cons]
    refine ⟨fun x hx hs => ?_, List.pairwise_map.2 hpw⟩
    obtain ⟨e, he, rfl⟩ := List.mem_map.1 hx
    exact ((hE e).1 he).2 hs.symm
  · rw [hp.mem_iff, List.mem_cons, hE]
    rfl

theorem Ok.nodup {K : DWorld C} {nreq glib : Nat} {U : List (Meth C)} {called : Bool}
    {S : Meth C × Nat → Prop} {g : Gf C} (ok : Ok K nreq glib U called S g) : g.meths.Nodup :=
  ok.diff.imp fun h => by rintro rfl; exact h fun _ _ => rfl

theorem Ok.remove {K : DWorld C} {nreq glib : Nat} {U : List (Meth C)}
    {S : Meth C × Nat → Prop} {g : Gf C} (ok : Ok K nreq glib U false S g) (m : Meth C) :
    Ok K nreq glib U false (After K nreq S (.remove m)) (removeMethod g m).2 := by
  have h := removeFrom_spec (glib := glib) (g := g) (m := m) [] g.meths 0 rfl rfl (by simp) ok.len
  have hmem : ∀ e : Meth C × Nat, e ∈ entries glib g → e.1 ∈ g.meths := fun e he => by
    rw [← entries_fst glib g ok.len]; exact List.mem_map_of_mem he
  by_cases hm : m ∈ g.meths
  · obtain ⟨_, hr, hlen, k, hk, _, he⟩ := h.2 hm
    have hr' : (removeMethod g m).2.root = .absent := hr.trans (ok.fresh rfl)
    have hsub : (removeMethod g m).2.meths.Sublist g.meths := by
      have h1 : ((entries glib (removeFrom g m g.meths 0).2).map Prod.fst).Sublist
          ((entries glib g).map Prod.fst) := by
        rw [he]
        exact (List.eraseIdx_sublist _ _).map _
      rw [entries_fst glib g ok.len, entries_fst glib _ hlen] at h1
      exact h1
    obtain ⟨l, hl⟩ := entries_get (glib := glib) ok.len hk
    have hnd : (entries glib g).Pairwise fun x y => x.1 ≠ y.1 := by
      have := ok.nodup
      rw [← entries_fst glib g ok.len, List.Nodup, List.pairwise_map] at this
      exact this
    refine ⟨hlen, fun x hx => ok.sub x (hsub.subset hx), ok.diff.sublist hsub, fun e => ?_,
      by rw [hr']; exact wf_absent _ _ _, fun _ => hr'⟩
    change e ∈ entries glib (removeFrom g m g.meths 0).2 ↔ S e ∧ e.1 ≠ m
    rw [he, ← ok.mem]
    constructor
    · intro h
      obtain ⟨h1, h2⟩ := mem_erase_of_pairwise hnd hl h
      exact ⟨h1, h2.elim Ne.symm id⟩
    · rintro ⟨h1, h2⟩
      rcases mem_erase_or hl h1 with rfl | h
      · exact absurd rfl h2
      · exact h
  · have h0 : removeMethod g m = (none, g) := h.1 hm
    rw [h0]
    refine ⟨ok.len, ok.sub, ok.diff, fun e => ?_, ok.wf, ok.fresh⟩
    rw [ok.mem]
    refine ⟨fun h => ⟨h, ?_⟩, And.left⟩
    intro he
    exact hm (he ▸ hmem e ((ok.mem e).2 h))

/-- C54 with C52 and C53: in any history of additions, removals and calls, every call invokes the
    applicable ones of the methods that there are at the time, in the order of the specificity
    rules, and signals an error if there are none.  Missing: removals after a call (unless a
    method is added in between), and the replacement of a method of the library of the generic
    function by one of another library, for which it is false (see below); and the types for which
    dispatch is not right (C52, C53). -/
theorem gf_history_partial (K : DWorld C) (hK : DLawful K) (nreq glib : Nat) (U : List (Meth C))
    (hU : Plain K nreq U) (g : Gf C) (hlen : g.libs.length ≤ g.meths.length)
    (hg : ∀ m ∈ g.meths, m ∈ U) (hroot : g.root = .absent)
    (hdiff : g.meths.Pairwise fun x y => ¬ SameTypes K nreq x y)
    (ops : List (Op C)) (hops : ∀ m lib, Op.add m lib ∈ ops → m ∈ U)
    (hcalls : ProperCalls K nreq ops) (hrem : RemovesFirst false ops)
    (hnt : NoTakeover K nreq glib ops fun e => e ∈ entries glib g) :
    ∃ os, run K nreq glib ops g = some os ∧
      RightRun K nreq ops (fun e => e ∈ entries glib g) os := by
  have ok : Ok K nreq glib U false (fun e => e ∈ entries glib g) g :=
    ⟨hlen, hg, hdiff, fun e => Iff.rfl, by rw [hroot]; exact wf_absent _ _ _, fun _ => hroot⟩
  generalize (fun e => e ∈ entries glib g) = S at ok hnt ⊢
  generalize false = called at ok hrem
  clear hlen hg hroot hdiff
  induction ops generalizing g S called with
  | nil => exact ⟨[], rfl, rfl⟩
  | cons op ops ih =>
    have hops' : ∀ m lib, Op.add m lib ∈ ops → m ∈ U := fun m lib h => hops m lib (by simp [h])
    have hcalls' : ProperCalls K nreq ops := fun o a h => hcalls o a (by simp [h])
    cases op with
    | add m lib =>
      simp only [NoTakeover] at hnt
      simp only [RemovesFirst] at hrem
      simp only [run, RightRun]
      exact ih _ hops' hcalls' _ hnt.2 _ (ok.add hU (hops m lib (by simp)) hnt.1) hrem
    | remove m =>
      simp only [NoTakeover] at hnt
      simp only [RemovesFirst] at hrem
      simp only [run, RightRun]
      obtain ⟨rfl, hrem⟩ := hrem
      exact ih _ hops' hcalls' _ hnt _ (ok.remove m) hrem
    | call order args =>
      simp only [NoTakeover] at hnt
      simp only [RemovesFirst] at hrem
      simp only [run, RightRun]
      obtain ⟨ho, hp⟩ := hcalls order args (by simp)
      obtain ⟨root', h1, h2⟩ := call_good hK (hU.regular.filter ok.sub) ho hp ok.wf
      rw [h1]
      simp only [Option.bind_some]
      obtain ⟨os, ho1, ho2⟩ := ih { meths := g.meths, libs := g.libs, root := root' } hops' hcalls' S
        hnt true ⟨ok.len, ok.sub, ok.diff, ok.mem, h2, by simp⟩ hrem
      rw [ho1]
      refine ⟨_, rfl, _, _, rfl, ⟨g.meths, fun m => ?_, ?_⟩, ho2⟩
      · constructor
        · intro hm
          rw [← entries_fst glib g ok.len] at hm
          obtain ⟨e, he, rfl⟩ := List.mem_map.1 hm
          exact ⟨e.2, (ok.mem _).1 he⟩
        · rintro ⟨lib, h⟩
          rw [← entries_fst glib g ok.len]
          exact List.mem_map.2 ⟨_, (ok.mem _).2 h, rfl⟩
      · have ne : ∀ x ∈ g.meths, ∀ y ∈ g.meths, x ≠ y → ¬ SameTypes K nreq x y := by
          have := ok.diff
          rw [List.pairwise_iff_getElem] at this
          intro x hx y hy hxy
          obtain ⟨i, hi, rfl⟩ := List.mem_iff_getElem.1 hx
          obtain ⟨j, hj, rfl⟩ := List.mem_iff_getElem.1 hy
          rcases Nat.lt_trichotomy i j with h | h | h
          · exact this i j hi hj h
          · subst h; exact absurd rfl hxy
          · exact fun hs => this j i hj hi h hs.symm
        refine direct_right hK ok.nodup
          (fun x hx y hy => hU.comparable x (ok.sub x hx) y (ok.sub y hy)) (fun x hx y hy hxy => ?_) args
        by_contra hcon
        push Not at hcon
        exact ne x hx y hy hxy fun a ha =>
          hU.same x (ok.sub x hx) y (ok.sub y hy) a ha (hcon a ha)

/-! ### the hypotheses are met -/

/-- A method that replaces method 2 of `mixPlain`. -/
def newTwo : Meth K8 := { id := 20, specs := [.cls .vector, .limInt (.minOnly 0)] }

/-- The methods that appear in the example. -/
def demoMethods : List (Meth K8) := newTwo :: mixPlain

theorem Regular.cons_like {K : DWorld C} {nreq : Nat} {ms : List (Meth C)} {m m' : Meth C}
    (h : Regular K nreq ms) (hm : m' ∈ ms) (hs : ∀ a, spec K m a = spec K m' a)
    (ha : m.acc = none) : Regular K nreq (m :: ms) := by
  have at' : ∀ {a t}, At K (m :: ms) a t → At K ms a t := by
    rintro a t ⟨x, hx, ht⟩
    rcases List.mem_cons.1 hx with rfl | hx
    · exact ⟨m', hm, hs a ▸ ht⟩
    · exact ⟨x, hx, ht⟩
  have rep : ∀ x ∈ m :: ms, ∃ y ∈ ms, ∀ a, spec K x a = spec K y a := by
    intro x hx
    rcases List.mem_cons.1 hx with rfl | hx
    · exact ⟨m', hm, hs⟩
    · exact ⟨x, hx, fun _ => rfl⟩
  refine ⟨fun a ha t ht => h.noColl a ha t (at' ht), fun a ha t ht => h.noSubclass a ha t (at' ht),
    fun a ha m M ht => h.bounds a ha m M (at' ht), fun a ha x hx y hy => ?_, fun a ha x hx => ?_,
    fun a ha s t c d h1 h2 => h.unrelated a ha s t c d (at' h1) (at' h2),
    fun a ha o t c h1 h2 => h.noMix a ha o t c (at' h1) (at' h2), fun x hx a hacc => ?_,
    fun x hx a hacc => ?_⟩
  · obtain ⟨x', hx', ex⟩ := rep x hx
    obtain ⟨y', hy', ey⟩ := rep y hy
    rw [ex, ey]; exact h.defined a ha x' hx' y' hy'
  · obtain ⟨x', hx', ex⟩ := rep x hx
    rw [ex]; exact h.flat a ha x' hx'
  · rcases List.mem_cons.1 hx with rfl | hx
    · rw [ha] at hacc; cases hacc
    · exact h.accArg x hx a hacc
  · rcases List.mem_cons.1 hx with rfl | hx
    · rw [ha] at hacc; cases hacc
    · exact h.accFixed x hx a hacc

theorem demo_plain : Plain zoo 2 demoMethods where
  regular := by
    refine Regular.cons_like (m' := { id := 2, specs := [.cls .vector, .limInt (.minOnly 0)] })
      (mix_regular.filter fun m hm => List.mem_of_mem_filter hm) (by decide) (fun a => rfl) rfl
  comparable := by
    intro m hm m' hm' _ a ha
    have hcl : ∀ m ∈ demoMethods, ∀ a < 2,
        (match spec zoo m a with | .subclass _ => false | .union _ _ => false | _ => true) = true := by
      decide
    have hs : ∀ m ∈ demoMethods, ∀ m' ∈ demoMethods, ∀ a < 2,
        subS zoo.toWorld (spec zoo m a) (spec zoo m' a) ≠ none := by decide
    have c1 := hcl m hm a ha
    have c2 := hcl m' hm' a ha
    refine comparable_of (hs m hm m' hm' a ha) (hs m' hm' m hm a ha) ?_ ?_ ?_ ?_ <;>
    · intros; intro h; simp [h] at c1 c2
  same := by
    have h : ∀ m ∈ demoMethods, ∀ m' ∈ demoMethods, ∀ a < 2,
        subS zoo.toWorld (spec zoo m a) (spec zoo m' a) = some true →
        subS zoo.toWorld (spec zoo m' a) (spec zoo m a) = some true →
        spec zoo m a = spec zoo m' a := by decide
    intro m hm m' hm' a ha he
    rcases he with he | ⟨h1, h2⟩
    · exact he
    · simp only [Sub, ← subS_eq] at h1 h2
      exact h m hm m' hm' a ha h1 h2

/-- Method `n` of `mixPlain`. -/
def mth (n : Nat) : Meth K8 := (mixPlain.find? fun m => m.id = n).getD newTwo

/-- The example: methods 1 (of the library of the generic function, 0) and 2 (of library 7) are
    there at first. -/
def demoGf : Gf K8 := { meths := [mth 2, mth 1], libs := [7], root := .absent }

def demoOps : List (Op K8) :=
  [.remove (mth 1), .add (mth 1) 0,
   .call [0, 1] (two (.other .vector 1) (.int 3)),
   .add newTwo 0,
   .call [1, 0] (two (.other .vector 1) (.int 3)),
   .call [0, 1] (two (.other .limitedVector 2) (.other .method 1)),
   .add (mth 6) 8, .remove newTwo,
   .call [0, 1] (two (.other .limitedVector 2) (.other .method 1)),
   .call [0, 1] (two (.other .limitedVector 2) (.int 4))]

example : run zoo 2 0 demoOps demoGf = some
    [.invoke [(2, none), (1, none)] [], .invoke [(20, none), (1, none)] [],
     .invoke [(1, none)] [], .invoke [(6, some 0), (1, none)] [], .invoke [(1, none)] []] := by
  decide +kernel

instance (m m' : Meth K8) : Decidable (SameTypes zoo 2 m m') :=
  inferInstanceAs (Decidable (∀ a < 2, spec zoo m a = spec zoo m' a))

example : demoGf.libs.length ≤ demoGf.meths.length ∧ (∀ m ∈ demoGf.meths, m ∈ demoMethods) ∧
    demoGf.root = .absent ∧ (demoGf.meths.Pairwise fun x y => ¬ SameTypes zoo 2 x y) ∧
    (∀ m lib, Op.add m lib ∈ demoOps → m ∈ demoMethods) ∧ ProperCalls zoo 2 demoOps ∧
    RemovesFirst false demoOps ∧
    NoTakeover zoo 2 0 demoOps fun e => e ∈ entries 0 demoGf := by
  refine ⟨by decide, by decide, rfl, by decide, ?_, ?_, by simp [demoOps, RemovesFirst], ?_⟩
  · intro m lib h
    simp only [demoOps, List.mem_cons, Op.add.injEq, reduceCtorEq, List.not_mem_nil, or_false,
      false_or] at h
    rcases h with ⟨rfl, rfl⟩ | ⟨rfl, rfl⟩ | ⟨rfl, rfl⟩ <;> decide
  · intro order args h
    simp only [demoOps, List.mem_cons, Op.call.injEq, reduceCtorEq, List.not_mem_nil, or_false,
      false_or] at h
    rcases h with ⟨rfl, rfl⟩ | ⟨rfl, rfl⟩ | ⟨rfl, rfl⟩ | ⟨rfl, rfl⟩ | ⟨rfl, rfl⟩ <;>
    · refine ⟨fun a => by simp; omega, fun a ha h => ?_⟩
      have : a = 0 ∨ a = 1 := by omega
      rcases this with rfl | rfl <;> exact absurd h (by decide)
  · simp only [demoOps, NoTakeover, After]
    refine ⟨by simp, by simp, ?_, trivial⟩
    intro _ x hx hs
    have : x ∈ [newTwo, mth 1, mth 2] := by
      simp only [demoGf, entries] at hx
      simp at hx ⊢
      tauto
    have key : ∀ x ∈ [newTwo, mth 1, mth 2], ¬ SameTypes zoo 2 x (mth 6) := by decide
    exact key x this hs

/-! ### disagreements -/

/-- C54 fails when a method of the library of the generic function is replaced by one of another
    library: here method 1 on `<integer>` of library 0 is replaced by method 2 of library 7.
    `add-method` returns method 1 as the method that was replaced, but method 1 is still there and
    method 2 is not.  If the old method is the first of those without a library of their own,
    the list of libraries is extended, but the new method is not stored
    (`generic-function.dylan:396-402`). -/
theorem replace_dropped_violated :
    let m1 : Meth K8 := { id := 1, specs := [.cls .integer] }
    let m2 : Meth K8 := { id := 2, specs := [.cls .integer] }
    let g : Gf K8 := { meths := [m1], libs := [], root := .absent }
    let r := addMethod zoo 1 0 g m2 7
    r.1 = some m1 ∧ entries 0 r.2 = [(m1, 7)] ∧
      run zoo 1 0 [.add m2 7, .call [0] fun _ => .int 5] g = some [.invoke [(1, none)] []] := by
  decide +kernel

/-- C54 fails when a method is removed after a call: with methods 1 on `<integer>` and 2 on
    `<object>`, `f(5)` invokes method 1 with method 2 as the next; after
    `remove-method(f, method 1)`, it still does.  The cache is not emptied
    (`generic-function.dylan:571-575,625-640`). -/
theorem stale_remove_violated :
    let m1 : Meth K8 := { id := 1, specs := [.cls .integer] }
    let m2 : Meth K8 := { id := 2, specs := [.cls .object] }
    let g : Gf K8 := { meths := [m1, m2], libs := [], root := .absent }
    (removeMethod g m1).1 = some m1 ∧ (removeMethod g m1).2.meths = [m2] ∧
      run zoo 1 0 [.call [0] fun _ => .int 5, .remove m1, .call [0] fun _ => .int 5] g =
        some [.invoke [(1, none), (2, none)] [], .invoke [(1, none), (2, none)] []] ∧
      run zoo 1 0 [.remove m1, .call [0] fun _ => .int 5] g = some [.invoke [(2, none)] []] := by
  decide +kernel

end Verif.Dispatch.Gf
