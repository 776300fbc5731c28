import Verif.Nlx.Lemmas

/-!
# The C code follows the meaning of the program: the simulation
-/

namespace Verif.Nlx

theorem nlxStep_cases {m : Mem} {c : Nat} (hc : m.cur = some c) (d : Nat) :
    (nlxStep m d).1 = .jump (.toBef d) ∨ (nlxStep m d).1 = .jump (.toUwp c) ∨
      (nlxStep m d).1 = .ub := by
  unfold nlxStep
  rw [hc]
  simp only
  split
  · left; rfl
  · split
    · right; right; rfl
    · right; left; rfl

/-- A block whose exits are calls of `NLX`. -/
theorem catchExit_sim {w : World} {body : Handle → Prog} {m : Mem} {c : Nat}
    {A D G : List Handle} {n : Nat} {μ : Mode} {tr : List Event}
    (hpre : Pre m c A D n μ tr) (hcomp : ∀ h, h.loc = false → Compiled (body h) G)
    (hG : G = [])
    (ht : ∀ vs, (spec w (body ⟨n, false⟩) (⟨n, false⟩ :: A) tr (n + 1)).out =
      .exiting ⟨n, false⟩ vs → μ ≠ .pend)
    (ih : ∀ m1, Pre m1 c (⟨n, false⟩ :: A) D (n + 1) μ tr →
      Matches μ c D (n + 1) m1 (spec w (body ⟨n, false⟩) (⟨n, false⟩ :: A) tr (n + 1))
        (exec w (body ⟨n, false⟩) m1)) :
    Matches μ c D n m
      ⟨arrive ⟨n, false⟩ (spec w (body ⟨n, false⟩) (⟨n, false⟩ :: A) tr (n + 1)).out,
        (spec w (body ⟨n, false⟩) (⟨n, false⟩ :: A) tr (n + 1)).tr,
        (spec w (body ⟨n, false⟩) (⟨n, false⟩ :: A) tr (n + 1)).next⟩
      (catchExit n (exec w (body ⟨n, false⟩)
        (setupExitFrame { m with next := n + 1 } n))) := by
  have hmem := spec_exiting_mem w (body ⟨n, false⟩) (⟨n, false⟩ :: A) tr (n + 1)
  have hloc := spec_exiting_loc w (body ⟨n, false⟩) G (⟨n, false⟩ :: A) tr (n + 1)
  have hnext := spec_next_le w (body ⟨n, false⟩) (⟨n, false⟩ :: A) tr (n + 1)
  have hpre1 : Pre (setupExitFrame { m with next := n + 1 } n) c (⟨n, false⟩ :: A) D (n + 1) μ
      tr := by
    refine ⟨hpre.cur, by have := hpre.hc; omega, rfl, hpre.tr, ?_, ?_, ?_,
      fun g hg => List.mem_cons_of_mem _ (hpre.sub g hg), hpre.aft⟩
    · intro g hg
      rcases List.mem_cons.mp hg with h1 | h1
      · rw [h1]; simp
      · have := hpre.ids g h1; omega
    · intro g hg g' hg' he
      rcases List.mem_cons.mp hg with h1 | h1 <;> rcases List.mem_cons.mp hg' with h2 | h2
      · rw [h1, h2]
      · rw [h1] at he; have := hpre.ids g' h2; simp only at he; omega
      · rw [h2] at he; have := hpre.ids g h1; simp only at he; omega
      · exact hpre.inj g h1 g' h2 he
    · intro g hg hl
      rcases List.mem_cons.mp hg with h1 | h1
      · subst h1
        exact ⟨c, by simp [setupExitFrame, Mem.setBef, hpre.cur],
          by have := hpre.hc; omega⟩
      · obtain ⟨p, hp, hlt⟩ := hpre.pres g h1 hl
        have hne : g.id ≠ n := by have := hpre.ids g h1; omega
        exact ⟨p, by simpa [setupExitFrame, Mem.setBef, hne] using hp, by omega⟩
  have hM := ih _ hpre1
  have hpn : ((setupExitFrame { m with next := n + 1 } n).bef n).present = some c := by
    simp [setupExitFrame, Mem.setBef, hpre.cur]
  have hstart : ∀ {r x}, Matches μ c D (n + 1) (setupExitFrame { m with next := n + 1 } n) r x →
      Matches μ c D n m r x := fun h =>
    Matches.start (m0 := setupExitFrame { m with next := n + 1 } n) rfl
      (fun i hi => by
        have : i ≠ n := by omega
        simp [setupExitFrame, Mem.setBef, this])
      (fun g hg => hpre.ids g (hpre.sub g hg)) (Matches.mono (by omega) h)
  generalize hx : exec w (body ⟨n, false⟩) (setupExitFrame { m with next := n + 1 } n) = x at hM ⊢
  generalize hr : spec w (body ⟨n, false⟩) (⟨n, false⟩ :: A) tr (n + 1) = r at *
  obtain ⟨out, rtr, rnext⟩ := r
  cases out with
  | invalid => simp [Matches, arrive]
  | normal vs =>
    have h1 : x.1 = .normal := hM.1
    have e : catchExit n x = x := by
      unfold catchExit
      rw [h1]
    rw [e]
    exact hstart hM
  | exiting h vs =>
    have hl : h.loc = false := by
      cases hh : h.loc with
      | false => rfl
      | true =>
        have := hloc h vs (hcomp _ rfl) rfl hh
        rw [hG] at this
        simp at this
    have hM' := hM
    unfold Matches at hM'
    simp only [hl, Bool.false_eq_true, if_false] at hM'
    obtain ⟨m', hxe, hv, hat, hD⟩ := hM'
    by_cases hh : h = ⟨n, false⟩
    · subst hh
      have hpres : (m'.bef n).present = some c := by
        rw [hat.keep.pres n (by omega), hpn]
      have hstep : nlxStep m' n =
          (.jump (.toBef n), m'.setUwp c { m'.uwp c with ultimate := none }) := by
        unfold nlxStep
        rw [hat.cur]
        simp only [hpres, if_true]
      have hμ := ht vs rfl
      have e : catchExit n x =
          (.normal, frameRetval (m'.setUwp c { m'.uwp c with ultimate := none }) n) := by
        rw [hxe]
        simp only at hstep ⊢
        rw [hstep]
        simp [catchExit]
      rw [e]
      simp only [arrive, if_true, Matches]
      refine ⟨trivial, hv, ⟨hat.cur, hat.next, hat.tr, ?_⟩, ?_, ?_⟩
      · have hk := hat.keep
        refine ⟨fun i hi => ?_, fun i hi => ?_, fun i hi hne => ?_, fun i hi => ?_⟩
        · have := hk.prev i (by omega)
          by_cases hic : i = c
          · subst hic; simpa [frameRetval, Mem.setUwp, setupExitFrame, Mem.setBef] using this
          · simpa [frameRetval, Mem.setUwp, hic, setupExitFrame, Mem.setBef] using this
        · have := hk.vals i (by omega)
          by_cases hic : i = c
          · subst hic; simpa [frameRetval, Mem.setUwp, setupExitFrame, Mem.setBef] using this
          · simpa [frameRetval, Mem.setUwp, hic, setupExitFrame, Mem.setBef] using this
        · have := hk.ult i (by omega) hne
          simpa [frameRetval, Mem.setUwp, hne, setupExitFrame, Mem.setBef] using this
        · have := hk.pres i (by omega)
          have hne : i ≠ n := by omega
          simpa [frameRetval, Mem.setUwp, setupExitFrame, Mem.setBef, hne] using this
      · intro hb
        have : μ = .after := by cases μ <;> simp_all
        simp [frameRetval, Mem.setUwp, hpre.aft this]
      · intro g hg
        have hlt := hpre.ids g (hpre.sub g hg)
        have hne : g ≠ ⟨n, false⟩ := by
          rintro rfl
          simp at hlt
        have hne' : g.id ≠ n := by omega
        have := hD g hg hne
        simpa [frameRetval, Mem.setUwp, setupExitFrame, Mem.setBef, hne'] using this
    · have hA : h ∈ A := by
        rcases List.mem_cons.mp (hmem h vs rfl) with h1 | h1
        · exact absurd h1 hh
        · exact h1
      have hid : h.id ≠ n := by have := hpre.ids h hA; omega
      have e : catchExit n x = x := by
        rcases nlxStep_cases hat.cur h.id with h1 | h1 | h1 <;> rw [← hxe] at h1 <;>
          simp [catchExit, h1, hid]
      rw [e]
      have : arrive ⟨n, false⟩ (.exiting h vs) = .exiting h vs := by simp [arrive, hh]
      simp only [this]
      exact hstart hM

/-- A block whose exits are `goto`s. -/
theorem catchGoto_sim {w : World} {body : Handle → Prog} {m : Mem} {c : Nat}
    {A D : List Handle} {n : Nat} {μ : Mode} {tr : List Event}
    (hpre : Pre m c A D n μ tr) (hcomp : Compiled (body ⟨n, true⟩) [⟨n, true⟩])
    (ih : ∀ m1, Pre m1 c (⟨n, true⟩ :: A) D (n + 1) μ tr →
      Matches μ c D (n + 1) m1 (spec w (body ⟨n, true⟩) (⟨n, true⟩ :: A) tr (n + 1))
        (exec w (body ⟨n, true⟩) m1)) :
    Matches μ c D n m
      ⟨arrive ⟨n, true⟩ (spec w (body ⟨n, true⟩) (⟨n, true⟩ :: A) tr (n + 1)).out,
        (spec w (body ⟨n, true⟩) (⟨n, true⟩ :: A) tr (n + 1)).tr,
        (spec w (body ⟨n, true⟩) (⟨n, true⟩ :: A) tr (n + 1)).next⟩
      (catchGoto n (exec w (body ⟨n, true⟩) { m with next := n + 1 })) := by
  have hloc := spec_exiting_loc w (body ⟨n, true⟩) [⟨n, true⟩] (⟨n, true⟩ :: A) tr (n + 1)
  have hpre1 : Pre { m with next := n + 1 } c (⟨n, true⟩ :: A) D (n + 1) μ tr := by
    refine ⟨hpre.cur, by have := hpre.hc; omega, rfl, hpre.tr, ?_, ?_, ?_,
      fun g hg => List.mem_cons_of_mem _ (hpre.sub g hg), hpre.aft⟩
    · intro g hg
      rcases List.mem_cons.mp hg with h1 | h1
      · rw [h1]; simp
      · have := hpre.ids g h1; omega
    · intro g hg g' hg' he
      rcases List.mem_cons.mp hg with h1 | h1 <;> rcases List.mem_cons.mp hg' with h2 | h2
      · rw [h1, h2]
      · rw [h1] at he; have := hpre.ids g' h2; simp only at he; omega
      · rw [h2] at he; have := hpre.ids g h1; simp only at he; omega
      · exact hpre.inj g h1 g' h2 he
    · intro g hg hl
      rcases List.mem_cons.mp hg with h1 | h1
      · subst h1
        simp at hl
      · obtain ⟨p, hp, hlt⟩ := hpre.pres g h1 hl
        exact ⟨p, hp, by omega⟩
  have hM : Matches μ c D n m _ _ :=
    Matches.start (m0 := { m with next := n + 1 }) rfl (fun _ _ => rfl)
      (fun g hg => hpre.ids g (hpre.sub g hg)) (Matches.mono (Nat.le_succ n) (ih _ hpre1))
  generalize exec w (body ⟨n, true⟩) { m with next := n + 1 } = x at hM ⊢
  generalize hr : spec w (body ⟨n, true⟩) (⟨n, true⟩ :: A) tr (n + 1) = r at *
  obtain ⟨out, rtr, rnext⟩ := r
  cases out with
  | invalid => simp [Matches, arrive]
  | normal vs =>
    have h1 : x.1 = .normal := hM.1
    have e : catchGoto n x = x := by
      unfold catchGoto
      rw [h1]
    rw [e]
    exact hM
  | exiting h vs =>
    cases hl : h.loc with
    | true =>
      have hh := hloc h vs hcomp rfl hl
      simp only [List.mem_singleton] at hh
      subst hh
      unfold Matches at hM
      simp only [if_true] at hM
      obtain ⟨h1, h2, h3, h4, h5⟩ := hM
      have e : catchGoto n x = (.normal, x.2) := by simp [catchGoto, h1]
      rw [e]
      simp only [arrive, if_true, Matches]
      exact ⟨trivial, h2, ⟨h3.cur, h3.next, h3.tr, h3.keep⟩, h4, h5⟩
    | false =>
      have hne : h ≠ ⟨n, true⟩ := by rintro rfl; simp at hl
      have e : catchGoto n x = x := by
        have hM' := hM
        unfold Matches at hM'
        simp only [hl, Bool.false_eq_true, if_false] at hM'
        obtain ⟨m', hxe, -, hat, -⟩ := hM'
        rcases nlxStep_cases hat.cur h.id with h1 | h1 | h1 <;> rw [← hxe] at h1 <;>
          simp [catchGoto, h1]
      rw [e]
      have : arrive ⟨n, true⟩ (.exiting h vs) = .exiting h vs := by simp [arrive, hne]
      simp only [this]
      exact hM

/-- The end of a cleanup clause that does not jump back to its own block. -/
theorem cleanups_of_once {cl : Mem → Out × Mem} {u : Nat} {m : Mem} {x : Out × Mem}
    (h : cleanupOnce cl u m = x) (hx : x.1 ≠ .jump (.toUwp u)) : cleanups cl u m = x := by
  unfold cleanups
  rw [h]
  obtain ⟨o, m'⟩ := x
  split
  · rename_i v m'' heq
    simp only [Prod.mk.injEq] at heq
    rw [if_neg]
    · rw [heq.1, heq.2]
    · rintro rfl
      exact hx heq.1
  · rfl

/-- A block with a cleanup clause. -/
theorem protect_sim {w : World} {body cl : Prog} {m : Mem} {c : Nat}
    {A D : List Handle} {n : Nat} {μ : Mode} {tr : List Event} {r q : SRes}
    (hpre : Pre m c A D n μ tr) (hcomp : Compiled body [])
    (hr : spec w body A (tr ++ [.enter n]) (n + 1) = r)
    (hq : spec w cl A (r.tr ++ [.clean n]) r.next = q)
    (ihb : ∀ m1, Pre m1 n A D (n + 1) .body (tr ++ [.enter n]) →
      Matches .body n D (n + 1) m1 r (exec w body m1))
    (ihn : ∀ vs, r.out = .normal vs → (∃ vs', q.out = .normal vs') ∧
      ∀ m1, Pre m1 n A D r.next .after (r.tr ++ [.clean n]) →
        Matches .after n D r.next m1 q (exec w cl m1))
    (ihe : ∀ h vs, r.out = .exiting h vs →
      (∀ h2 vs2, q.out = .exiting h2 vs2 → (h2.loc = true → μ = .body) ∧ (h2 ≠ h → h ∉ D)) ∧
      ∀ m1, Pre m1 c A (h :: D) r.next .pend (r.tr ++ [.clean n]) →
        Matches .pend c (h :: D) r.next m1 q (exec w cl m1)) :
    Matches μ c D n m (r.cleanup n fun tr n => spec w cl A tr n)
      (afterBody (exec w cl) n (exec w body
        ((setupUnwindFrame { m with next := n + 1 } n).log (.enter n)))) := by
  have hmem := spec_exiting_mem w body A (tr ++ [.enter n]) (n + 1)
  have hloc := spec_exiting_loc w body [] A (tr ++ [.enter n]) (n + 1)
  have hrn : n + 1 ≤ r.next := by
    have := spec_next_le w body A (tr ++ [.enter n]) (n + 1)
    rwa [hr] at this
  have hqn : r.next ≤ q.next := by
    have := spec_next_le w cl A (r.tr ++ [.clean n]) r.next
    rwa [hq] at this
  rw [hr] at hmem hloc
  have hcn := hpre.hc
  generalize hm1 : (setupUnwindFrame { m with next := n + 1 } n).log (.enter n) = m1
  have m1cur : m1.cur = some n := by rw [← hm1]; rfl
  have m1next : m1.next = n + 1 := by rw [← hm1]; rfl
  have m1tr : m1.tr = tr ++ [.enter n] := by
    rw [← hm1, ← hpre.tr]; rfl
  have m1bef : m1.bef = m.bef := by rw [← hm1]; rfl
  have m1prev : (m1.uwp n).prev = some c := by
    rw [← hm1, ← hpre.cur]; simp [setupUnwindFrame, Mem.log, Mem.setUwp]
  have m1uwp : ∀ i < n, m1.uwp i = m.uwp i := by
    intro i hi
    have : i ≠ n := by omega
    rw [← hm1]; simp [setupUnwindFrame, Mem.log, Mem.setUwp, this]
  have hpre1 : Pre m1 n A D (n + 1) .body (tr ++ [.enter n]) := by
    refine ⟨m1cur, by omega, m1next, m1tr, fun g hg => by have := hpre.ids g hg; omega, hpre.inj,
      fun g hg hl => ?_, hpre.sub, fun h => by simp at h⟩
    obtain ⟨p, hp, hlt⟩ := hpre.pres g hg hl
    exact ⟨p, by rw [m1bef]; exact hp, by omega⟩
  have hM := ihb m1 hpre1
  generalize exec w body m1 = x at hM ⊢
  cases ho : r.out with
  | invalid =>
    have : (r.cleanup n fun tr n => spec w cl A tr n) = r := by simp [SRes.cleanup, ho]
    rw [this]
    simp [Matches, ho]
  | normal vs =>
    unfold Matches at hM
    rw [ho] at hM
    obtain ⟨h1, h2, h3, -, h5⟩ := hM
    obtain ⟨⟨vs', hqo⟩, ihc⟩ := ihn vs ho
    have e1 : (r.cleanup n fun tr n => spec w cl A tr n) = ⟨.normal vs, q.tr, q.next⟩ := by
      simp [SRes.cleanup, ho, hq, hqo, resume]
    rw [e1]
    generalize hm2 : x.2.setUwp n { x.2.uwp n with vals := x.2.ret, ultimate := none } = m2
    have hft : fallThrough x.2 = some m2 := by
      simp [fallThrough, h3.cur, hm2]
    have e2 : afterBody (exec w cl) n x = cleanups (exec w cl) n m2 := by
      simp [afterBody, h1, hft]
    have m2bef : m2.bef = x.2.bef := by rw [← hm2]; rfl
    have m2n : m2.uwp n = { x.2.uwp n with vals := vs, ultimate := none } := by
      rw [← hm2, ← h2]; simp [Mem.setUwp]
    have m2uwp : ∀ i, i ≠ n → m2.uwp i = x.2.uwp i := by
      intro i hi; rw [← hm2]; simp [Mem.setUwp, hi]
    have hpre2 : Pre (m2.log (.clean n)) n A D r.next .after (r.tr ++ [.clean n]) := by
      refine ⟨?_, by omega, ?_, ?_, fun g hg => by have := hpre.ids g hg; omega, hpre.inj,
        fun g hg hl => ?_, hpre.sub, fun _ => ?_⟩
      · rw [← hm2]; exact h3.cur
      · rw [← hm2]; exact h3.next
      · rw [← hm2, ← h3.tr]; rfl
      · obtain ⟨p, hp, hlt⟩ := hpre.pres g hg hl
        refine ⟨p, ?_, by omega⟩
        have := h3.keep.pres g.id (by have := hpre.ids g hg; omega)
        rw [m1bef, hp] at this
        rw [← this, ← m2bef]; rfl
      · show (m2.uwp n).ultimate = none
        rw [m2n]
    have hMc := ihc _ hpre2
    generalize hxc : exec w cl (m2.log (.clean n)) = xc at hMc
    unfold Matches at hMc
    rw [hqo] at hMc
    obtain ⟨c1, -, c3, c4, c5⟩ := hMc
    have cult : (xc.2.uwp n).ultimate = none := by
      have := c4 (by simp)
      rw [this]
      show (m2.uwp n).ultimate = none
      rw [m2n]
    have cvals : (xc.2.uwp n).vals = vs := by
      rw [c3.keep.vals n (by omega)]
      show (m2.uwp n).vals = vs
      rw [m2n]
    have cprev : (xc.2.uwp n).prev = some c := by
      rw [c3.keep.prev n (by omega)]
      show (m2.uwp n).prev = some c
      rw [m2n]
      exact (h3.keep.prev n (by omega)).trans m1prev
    have honce : cleanupOnce (exec w cl) n m2 =
        (.normal, { xc.2 with ret := vs, cur := some c }) := by
      obtain ⟨o, mc⟩ := xc
      simp only at c1 cult cvals cprev c3
      subst c1
      unfold cleanupOnce
      rw [hxc]
      simp only [continueUnwind, c3.cur, cult, cvals, cprev]
    rw [e2, cleanups_of_once honce (by simp)]
    simp only [Matches]
    refine ⟨trivial, trivial, ⟨rfl, c3.next, c3.tr, ?_⟩, fun _ => ?_, fun g hg => ?_⟩
    · refine ⟨fun i hi => ?_, fun i hi => ?_, fun i hi hne => ?_, fun i hi => ?_⟩
      · have hne : i ≠ n := by omega
        show (xc.2.uwp i).prev = _
        rw [c3.keep.prev i (by omega)]
        show (m2.uwp i).prev = _
        rw [m2uwp i hne, h3.keep.prev i (by omega), m1uwp i hi]
      · have hne : i ≠ n := by omega
        show (xc.2.uwp i).vals = _
        rw [c3.keep.vals i (by omega)]
        show (m2.uwp i).vals = _
        rw [m2uwp i hne, h3.keep.vals i (by omega), m1uwp i hi]
      · have hne : i ≠ n := by omega
        show (xc.2.uwp i).ultimate = _
        rw [c3.keep.ult i (by omega) hne]
        show (m2.uwp i).ultimate = _
        rw [m2uwp i hne, h3.keep.ult i (by omega) hne, m1uwp i hi]
      · show (xc.2.bef i).present = _
        rw [c3.keep.pres i (by omega)]
        show (m2.bef i).present = _
        rw [m2bef, h3.keep.pres i (by omega), m1bef]
    · have hne : c ≠ n := by omega
      show (xc.2.uwp c).ultimate = _
      rw [c3.keep.ult c (by omega) hne]
      show (m2.uwp c).ultimate = _
      rw [m2uwp c hne, h3.keep.ult c (by omega) hne, m1uwp c hcn]
    · show (xc.2.bef g.id).vals = _
      rw [c5 g hg]
      show (m2.bef g.id).vals = _
      rw [m2bef, h5 g hg, m1bef]
  | exiting h vs =>
    have hl : h.loc = false := by
      cases hh : h.loc with
      | false => rfl
      | true => exact absurd (hloc h vs hcomp ho hh) (by simp)
    have hA : h ∈ A := hmem h vs ho
    unfold Matches at hM
    rw [ho] at hM
    simp only [hl, Bool.false_eq_true, if_false] at hM
    obtain ⟨m', hxe, hv, hat, hD⟩ := hM
    obtain ⟨hq2, ihc⟩ := ihe h vs ho
    have hpres : (m'.bef h.id).present ≠ some n := by
      obtain ⟨p, hp, hlt⟩ := hpre.pres h hA hl
      rw [hat.keep.pres h.id (by have := hpre.ids h hA; omega), m1bef, hp]
      simp only [ne_eq, Option.some.injEq]
      omega
    have hprev : (m'.uwp n).prev = some c := (hat.keep.prev n (by omega)).trans m1prev
    generalize hm2 : ({ m'.setUwp c { m'.uwp c with ultimate := some h.id } with cur := some c } :
      Mem) = m2
    have hstep : x = (.jump (.toUwp n), m2) := by
      rw [hxe, ← hm2]
      unfold nlxStep
      rw [hat.cur]
      simp only [hpres, if_false, hprev]
    have e2 : afterBody (exec w cl) n x = cleanups (exec w cl) n m2 := by
      rw [hstep]; simp [afterBody]
    have m2bef : m2.bef = m'.bef := by rw [← hm2]; rfl
    have m2c : m2.uwp c = { m'.uwp c with ultimate := some h.id } := by
      rw [← hm2]; simp [Mem.setUwp]
    have m2uwp : ∀ i, i ≠ c → m2.uwp i = m'.uwp i := by
      intro i hi; rw [← hm2]; simp [Mem.setUwp, hi]
    have hpre2 : Pre (m2.log (.clean n)) c A (h :: D) r.next .pend (r.tr ++ [.clean n]) := by
      refine ⟨?_, by omega, ?_, ?_, fun g hg => by have := hpre.ids g hg; omega, hpre.inj,
        fun g hg hl => ?_, ?_, fun hh => by simp at hh⟩
      · rw [← hm2]; rfl
      · rw [← hm2]; exact hat.next
      · rw [← hm2, ← hat.tr]; rfl
      · obtain ⟨p, hp, hlt⟩ := hpre.pres g hg hl
        refine ⟨p, ?_, by omega⟩
        have := hat.keep.pres g.id (by have := hpre.ids g hg; omega)
        rw [m1bef, hp] at this
        rw [← this, ← m2bef]; rfl
      · intro g hg
        rcases List.mem_cons.mp hg with h1 | h1
        · rw [h1]; exact hA
        · exact hpre.sub g h1
    have hMc := ihc _ hpre2
    have keep2 : ∀ mc, Keep c r.next (m2.log (.clean n)) mc → Keep c n m mc := by
      intro mc hk
      refine ⟨fun i hi => ?_, fun i hi => ?_, fun i hi hne => ?_, fun i hi => ?_⟩
      · rw [hk.prev i (by omega)]
        show (m2.uwp i).prev = _
        by_cases hic : i = c
        · subst hic; rw [m2c]
          exact (hat.keep.prev i (by omega)).trans (by rw [m1uwp i hi])
        · rw [m2uwp i hic, hat.keep.prev i (by omega), m1uwp i hi]
      · rw [hk.vals i (by omega)]
        show (m2.uwp i).vals = _
        by_cases hic : i = c
        · subst hic; rw [m2c]
          exact (hat.keep.vals i (by omega)).trans (by rw [m1uwp i hi])
        · rw [m2uwp i hic, hat.keep.vals i (by omega), m1uwp i hi]
      · rw [hk.ult i (by omega) hne]
        show (m2.uwp i).ultimate = _
        rw [m2uwp i hne, hat.keep.ult i (by omega) (by omega), m1uwp i hi]
      · rw [hk.pres i (by omega)]
        show (m2.bef i).present = _
        rw [m2bef, hat.keep.pres i (by omega), m1bef]
    have valsD : ∀ g ∈ D, g ≠ h → ((m2.log (.clean n)).bef g.id).vals = (m.bef g.id).vals := by
      intro g hg hne
      show (m2.bef g.id).vals = _
      rw [m2bef, hD g hg hne, m1bef]
    have valsh : ((m2.log (.clean n)).bef h.id).vals = vs := by
      show (m2.bef h.id).vals = _
      rw [m2bef, hv]
    generalize hxc : exec w cl (m2.log (.clean n)) = xc at hMc
    have hcne : n ≠ c := by omega
    cases hqo : q.out with
    | invalid =>
      have e1 : (r.cleanup n fun tr n => spec w cl A tr n) = ⟨.invalid, q.tr, q.next⟩ := by
        simp [SRes.cleanup, ho, hq, hqo, resume]
      rw [e1]
      simp [Matches]
    | normal vs' =>
      have e1 : (r.cleanup n fun tr n => spec w cl A tr n) = ⟨.exiting h vs, q.tr, q.next⟩ := by
        simp [SRes.cleanup, ho, hq, hqo, resume]
      unfold Matches at hMc
      rw [hqo] at hMc
      obtain ⟨c1, -, c3, c4, c5⟩ := hMc
      have cult : (xc.2.uwp c).ultimate = some h.id := by
        rw [c4 (by simp)]
        show (m2.uwp c).ultimate = _
        rw [m2c]
      have honce : cleanupOnce (exec w cl) n m2 = nlxStep xc.2 h.id := by
        obtain ⟨o, mc⟩ := xc
        simp only at c1 cult c3
        subst c1
        unfold cleanupOnce
        rw [hxc]
        simp only [continueUnwind, c3.cur, cult]
      have hne : (nlxStep xc.2 h.id).1 ≠ .jump (.toUwp n) := by
        rcases nlxStep_cases c3.cur h.id with h1 | h1 | h1 <;> rw [h1] <;> simp <;> omega
      rw [e1, e2, cleanups_of_once honce hne]
      simp only [Matches, hl, Bool.false_eq_true, if_false]
      refine ⟨xc.2, rfl, ?_, ⟨c3.cur, c3.next, c3.tr, keep2 _ c3.keep⟩, fun g hg hgh => ?_⟩
      · rw [c5 h (by simp), valsh]
      · rw [c5 g (by simp [hg]), valsD g hg hgh]
    | exiting h2 vs2 =>
      have e1 : (r.cleanup n fun tr n => spec w cl A tr n) =
          ⟨.exiting h2 vs2, q.tr, q.next⟩ := by
        simp [SRes.cleanup, ho, hq, hqo, resume]
      obtain ⟨ht1, ht2⟩ := hq2 h2 vs2 hqo
      unfold Matches at hMc
      rw [hqo] at hMc
      simp only at hMc
      rw [e1, e2]
      cases hl2 : h2.loc with
      | true =>
        simp only [hl2, if_true] at hMc
        obtain ⟨c1, c2, c3, c4, c5⟩ := hMc
        have hh : h2 ≠ h := by rintro rfl; simp [hl] at hl2
        have honce : cleanupOnce (exec w cl) n m2 = xc := by
          obtain ⟨o, mc⟩ := xc
          simp only at c1
          subst c1
          unfold cleanupOnce
          rw [hxc]
        rw [cleanups_of_once honce (by rw [c1]; simp)]
        simp only [Matches, hl2, if_true]
        refine ⟨c1, c2, ⟨c3.cur, c3.next, c3.tr, keep2 _ c3.keep⟩, fun hb => absurd (ht1 hl2) hb,
          fun g hg => ?_⟩
        have hgh : g ≠ h := by rintro rfl; exact ht2 hh hg
        rw [c5 g (by simp [hg]), valsD g hg hgh]
      | false =>
        simp only [hl2, Bool.false_eq_true, if_false] at hMc
        obtain ⟨m3, c1, c2, c3, c4⟩ := hMc
        have hcases := nlxStep_cases c3.cur h2.id
        rw [← c1] at hcases
        have honce : cleanupOnce (exec w cl) n m2 = xc := by
          obtain ⟨o, mc⟩ := xc
          unfold cleanupOnce
          rw [hxc]
          simp only at hcases
          rcases hcases with h1 | h1 | h1 <;> subst h1 <;> rfl
        have hne : xc.1 ≠ .jump (.toUwp n) := by
          rcases hcases with h1 | h1 | h1 <;> rw [h1] <;> simp <;> omega
        rw [cleanups_of_once honce hne]
        simp only [Matches, hl2, Bool.false_eq_true, if_false]
        refine ⟨m3, c1, c2, ⟨c3.cur, c3.next, c3.tr, keep2 _ c3.keep⟩, fun g hg hg2 => ?_⟩
        have hgh : g ≠ h := by
          rintro rfl
          exact ht2 (fun e => hg2 e.symm) hg
        rw [c4 g (by simp [hg]) hg2, valsD g hg hgh]

/-- The simulation. -/
theorem sim (w : World) (p : Prog) (G A D : List Handle) (μ : Mode) (tr : List Event) (n : Nat)
    (m : Mem) (c : Nat) (hcomp : Compiled p G) (ht : Tame w p μ D A tr n)
    (hpre : Pre m c A D n μ tr) :
    Matches μ c D n m (spec w p A tr n) (exec w p m) := by
  induction p generalizing G A D μ tr n m c with
  | done vs =>
    simp only [Tame] at ht
    simp only [exec, setValues, if_pos ht, spec, Matches]
    exact ⟨trivial, trivial, ⟨hpre.cur, hpre.next, hpre.tr, ⟨fun _ _ => rfl, fun _ _ => rfl, fun _ _ _ => rfl,
      fun _ _ => rfl⟩⟩, fun _ => rfl,
      fun _ _ => rfl⟩
  | act e k ih =>
    simp only [Tame] at ht
    simp only [exec, setValues, hpre.tr, if_pos ht.1, spec]
    refine Matches.start (m0 := { m.log (.act e) with ret := w (tr ++ [.act e]) }) rfl
      (fun _ _ => rfl) (fun g hg => hpre.ids g (hpre.sub g hg))
      (ih _ G A D μ _ n _ c (hcomp _) ht.2 ?_)
    exact ⟨hpre.cur, hpre.hc, hpre.next, by rw [← hpre.tr]; rfl, hpre.ids, hpre.inj, hpre.pres,
      hpre.sub, hpre.aft⟩
  | exit h vs =>
    simp only [Tame] at ht
    simp only [exec, setValues, if_pos ht, spec]
    by_cases hA : h ∈ A
    · simp only [hA, if_true, Matches]
      cases hl : h.loc with
      | true =>
        simp only [if_true]
        exact ⟨trivial, trivial, ⟨hpre.cur, hpre.next, hpre.tr, ⟨fun _ _ => rfl, fun _ _ => rfl, fun _ _ _ => rfl,
      fun _ _ => rfl⟩⟩, fun _ => rfl,
          fun _ _ => rfl⟩
      | false =>
        simp only [Bool.false_eq_true, if_false]
        refine ⟨_, rfl, by simp [Mem.setBef], ⟨hpre.cur, hpre.next, hpre.tr, ?_⟩, ?_⟩
        · refine ⟨fun _ _ => rfl, fun _ _ => rfl, fun _ _ _ => rfl, fun i hi => ?_⟩
          by_cases hi' : i = h.id
          · subst hi'; simp [Mem.setBef]
          · simp [Mem.setBef, hi']
        · intro g hg hne
          have : g.id ≠ h.id := fun e => hne (hpre.inj g (hpre.sub g hg) h hA e)
          simp [Mem.setBef, this]
    · simp [hA, Matches]
  | bindExit loc body k ihb ihk =>
    simp only [Tame] at ht
    obtain ⟨ht1, ht2, ht3⟩ := ht
    have hn := spec_next_le w (body ⟨n, loc⟩) (⟨n, loc⟩ :: A) tr (n + 1)
    cases loc with
    | false =>
      simp only [exec, spec, hpre.next]
      refine andThen_sim hpre (by simp only; omega) ?_ fun vs m1 ho hp => ?_
      · refine catchExit_sim hpre (G := []) (fun h hh => by simpa using hcomp.1 h hh) rfl
          (fun vs he => ht2 vs he rfl) fun m1 hp => ?_
        exact ihb _ [] _ D μ tr (n + 1) m1 c (by simpa using hcomp.1 ⟨n, false⟩ rfl) ht1 hp
      · exact ihk vs G A D μ _ _ m1 c (hcomp.2 vs) (ht3 vs ho) hp
    | true =>
      simp only [exec, spec, hpre.next]
      refine andThen_sim hpre (by simp only; omega) ?_ fun vs m1 ho hp => ?_
      · refine catchGoto_sim hpre (by simpa using hcomp.1 ⟨n, true⟩ rfl) fun m1 hp => ?_
        exact ihb _ _ _ D μ tr (n + 1) m1 c (hcomp.1 ⟨n, true⟩ rfl) ht1 hp
      · exact ihk vs G A D μ _ _ m1 c (hcomp.2 vs) (ht3 vs ho) hp
  | protect body cl k ihb ihc ihk =>
    simp only [Tame] at ht
    obtain ⟨ht1, ht2, ht3⟩ := ht
    simp only [exec, spec, hpre.next]
    have hn := spec_next_le w body A (tr ++ [.enter n]) (n + 1)
    have hn2 := spec_next_le w cl A ((spec w body A (tr ++ [.enter n]) (n + 1)).tr ++ [.clean n])
      (spec w body A (tr ++ [.enter n]) (n + 1)).next
    refine andThen_sim hpre ?_ ?_ fun vs m1 ho hp => ?_
    · simp only [SRes.cleanup]
      split
      · omega
      · simp only; omega
    · exact protect_sim hpre hcomp.1 rfl rfl
        (fun m1 hp => ihb [] A D .body _ _ m1 n hcomp.1 ht1 hp)
        (fun vs ho => ⟨(ht2 vs ho).2.1,
          fun m1 hp => ihc G A D .after _ _ m1 n hcomp.2.1 (ht2 vs ho).1 hp⟩)
        (fun h vs ho => ⟨(ht3 h vs ho).2,
          fun m1 hp => ihc G A (h :: D) .pend _ _ m1 c hcomp.2.1 (ht3 h vs ho).1 hp⟩)
    · have key : ∃ v, (spec w body A (tr ++ [.enter n]) (n + 1)).out = .normal v ∧ v = vs := by
        simp only [SRes.cleanup] at ho
        cases hb : (spec w body A (tr ++ [.enter n]) (n + 1)).out with
        | invalid => simp [hb] at ho
        | normal v =>
          obtain ⟨v', hv'⟩ := (ht2 v hb).2.1
          simp only [hb, hv', resume, Res.normal.injEq] at ho
          exact ⟨v, rfl, ho⟩
        | exiting h v =>
          simp only [hb, resume] at ho
          split at ho <;> simp_all
      obtain ⟨v, hb, rfl⟩ := key
      have e : ((spec w body A (tr ++ [.enter n]) (n + 1)).cleanup n
          fun tr n => spec w cl A tr n) = ⟨.normal v,
            (spec w cl A ((spec w body A (tr ++ [.enter n]) (n + 1)).tr ++ [.clean n])
              (spec w body A (tr ++ [.enter n]) (n + 1)).next).tr,
            (spec w cl A ((spec w body A (tr ++ [.enter n]) (n + 1)).tr ++ [.clean n])
              (spec w body A (tr ++ [.enter n]) (n + 1)).next).next⟩ := by
        obtain ⟨v', hv'⟩ := (ht2 v hb).2.1
        simp [SRes.cleanup, hb, hv', resume]
      rw [e] at hp ⊢
      exact ihk v G A D μ _ _ m1 c (hcomp.2.2 v) (ht2 v hb).2.2 hp

end Verif.Nlx
