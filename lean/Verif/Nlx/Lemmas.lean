import Verif.Nlx.Spec
import Mathlib.Order.Basic

/-!
# The C code follows the meaning of the program

Helper lemmas.  `sim` is the simulation, by induction on the program.
-/

namespace Verif.Nlx

/-! ## The specification -/

theorem spec_next_le (w : World) (p : Prog) (A : List Handle) (tr : List Event) (n : Nat) :
    n ≤ (spec w p A tr n).next := by
  induction p generalizing A tr n with
  | done vs => simp [spec]
  | act e k ih => simpa [spec] using ih _ _ _ _
  | exit h vs => simp [spec]
  | bindExit loc body k ihb ihk =>
    simp only [spec, SRes.andThen]
    have hb := ihb ⟨n, loc⟩ (⟨n, loc⟩ :: A) tr (n + 1)
    split
    · rename_i vs _
      refine Nat.le_trans ?_ (ihk vs _ _ _)
      omega
    · simp only; omega
  | protect body cl k ihb ihc ihk =>
    simp only [spec, SRes.andThen, SRes.cleanup]
    have hb := ihb A (tr ++ [.enter n]) (n + 1)
    generalize hr : spec w body A (tr ++ [.enter n]) (n + 1) = r at hb ⊢
    have hc := ihc A (r.tr ++ [.clean n]) r.next
    cases hro : r.out <;> simp only
    · split
      · rename_i vs _
        refine Nat.le_trans ?_ (ihk vs _ _ _)
        omega
      · simp only; omega
    · split
      · rename_i vs _
        refine Nat.le_trans ?_ (ihk vs _ _ _)
        omega
      · simp only; omega
    · rw [hro]; simp only; omega

/-- An exit under way goes to a block the program is in. -/
theorem spec_exiting_mem (w : World) (p : Prog) (A : List Handle) (tr : List Event) (n : Nat)
    (h : Handle) (vs : Vals) (ho : (spec w p A tr n).out = .exiting h vs) : h ∈ A := by
  induction p generalizing A tr n with
  | done vs => simp [spec] at ho
  | act e k ih => exact ih _ _ _ _ (by simpa [spec] using ho)
  | exit h' vs' =>
    simp only [spec] at ho
    split at ho
    · rename_i hm
      simp only [Res.exiting.injEq] at ho
      exact ho.1 ▸ hm
    · simp at ho
  | bindExit loc body k ihb ihk =>
    simp only [spec, SRes.andThen] at ho
    split at ho
    · exact ihk _ _ _ _ ho
    · simp only at ho
      cases hb : (spec w (body ⟨n, loc⟩) (⟨n, loc⟩ :: A) tr (n + 1)).out with
      | normal v => simp [hb, arrive] at ho
      | invalid => simp [hb, arrive] at ho
      | exiting h' vs' =>
        rw [hb] at ho
        simp only [arrive] at ho
        split at ho
        · simp at ho
        · rename_i hne
          simp only [Res.exiting.injEq] at ho
          have := ihb _ _ _ _ (ho.1 ▸ ho.2 ▸ hb)
          rcases List.mem_cons.mp this with h1 | h1
          · exact absurd (ho.1.trans h1) hne
          · exact h1
  | protect body cl k ihb ihc ihk =>
    simp only [spec, SRes.andThen, SRes.cleanup] at ho
    generalize hr : spec w body A (tr ++ [.enter n]) (n + 1) = r at ho
    generalize hc : spec w cl A (r.tr ++ [.clean n]) r.next = c at ho
    cases hro : r.out with
    | invalid => simp [hro] at ho
    | normal v =>
      simp only [hro] at ho
      cases hco : c.out <;> simp only [hco, resume] at ho
      · exact ihk _ _ _ _ ho
      · simp only [Res.exiting.injEq] at ho
        exact ihc _ _ _ (by rw [hc, hco, ho.1, ho.2])
      · simp at ho
    | exiting h' v =>
      simp only [hro] at ho
      cases hco : c.out <;> simp only [hco, resume] at ho
      · simp only [Res.exiting.injEq] at ho
        exact ihb _ _ _ (by rw [hr, hro, ho.1, ho.2])
      · simp only [Res.exiting.injEq] at ho
        exact ihc _ _ _ (by rw [hc, hco, ho.1, ho.2])
      · simp at ho

/-- An exit that is a `goto` goes to the end of a block the compiler calls
local. -/
theorem spec_exiting_loc (w : World) (p : Prog) (G A : List Handle) (tr : List Event) (n : Nat)
    (h : Handle) (vs : Vals) (hp : Compiled p G)
    (ho : (spec w p A tr n).out = .exiting h vs) (hl : h.loc = true) : h ∈ G := by
  induction p generalizing G A tr n with
  | done vs => simp [spec] at ho
  | act e k ih => exact ih _ _ _ _ _ (hp _) (by simpa [spec] using ho)
  | exit h' vs' =>
    simp only [spec] at ho
    split at ho
    · simp only [Res.exiting.injEq] at ho
      exact ho.1 ▸ hp (ho.1 ▸ hl)
    · simp at ho
  | bindExit loc body k ihb ihk =>
    simp only [spec, SRes.andThen] at ho
    split at ho
    · exact ihk _ _ _ _ _ (hp.2 _) ho
    · simp only at ho
      cases hb : (spec w (body ⟨n, loc⟩) (⟨n, loc⟩ :: A) tr (n + 1)).out with
      | normal v => simp [hb, arrive] at ho
      | invalid => simp [hb, arrive] at ho
      | exiting h' vs' =>
        rw [hb] at ho
        simp only [arrive] at ho
        split at ho
        · simp at ho
        · rename_i hne
          simp only [Res.exiting.injEq] at ho
          have := ihb _ _ _ _ _ (hp.1 ⟨n, loc⟩ rfl) (ho.1 ▸ ho.2 ▸ hb)
          cases loc
          · simp at this
          · simp only [if_true, List.mem_singleton] at this
            exact absurd (ho.1.trans this) hne
  | protect body cl k ihb ihc ihk =>
    simp only [spec, SRes.andThen, SRes.cleanup] at ho
    generalize hr : spec w body A (tr ++ [.enter n]) (n + 1) = r at ho
    generalize hc : spec w cl A (r.tr ++ [.clean n]) r.next = c at ho
    cases hro : r.out with
    | invalid => simp [hro] at ho
    | normal v =>
      simp only [hro] at ho
      cases hco : c.out <;> simp only [hco, resume] at ho
      · exact ihk _ _ _ _ _ (hp.2.2 _) ho
      · simp only [Res.exiting.injEq] at ho
        exact ihc _ _ _ _ hp.2.1 (by rw [hc, hco, ho.1, ho.2])
      · simp at ho
    | exiting h' v =>
      simp only [hro] at ho
      cases hco : c.out <;> simp only [hco, resume] at ho
      · simp only [Res.exiting.injEq] at ho
        exact absurd (ihb _ _ _ _ hp.1 (by rw [hr, hro, ho.1, ho.2])) (by simp)
      · simp only [Res.exiting.injEq] at ho
        exact ihc _ _ _ _ hp.2.1 (by rw [hc, hco, ho.1, ho.2])
      · simp at ho

/-! ## The invariant -/

/-- The memory in which a piece of program is started. -/
structure Pre (m : Mem) (c : Nat) (A D : List Handle) (n : Nat) (μ : Mode) (tr : List Event) :
    Prop where
  cur : m.cur = some c
  hc : c < n
  next : m.next = n
  tr : m.tr = tr
  ids : ∀ h ∈ A, h.id < n
  inj : ∀ h ∈ A, ∀ h' ∈ A, h.id = h'.id → h = h'
  pres : ∀ h ∈ A, h.loc = false → ∃ p, (m.bef h.id).present = some p ∧ p < n
  sub : ∀ h ∈ D, h ∈ A
  aft : μ = .after → (m.uwp c).ultimate = none

/-- What is left alone in the frames that exist already. -/
structure Keep (c n : Nat) (m m' : Mem) : Prop where
  prev : ∀ i < n, (m'.uwp i).prev = (m.uwp i).prev
  vals : ∀ i < n, (m'.uwp i).vals = (m.uwp i).vals
  ult : ∀ i < n, i ≠ c → (m'.uwp i).ultimate = (m.uwp i).ultimate
  pres : ∀ i < n, (m'.bef i).present = (m.bef i).present

/-- The memory at the end of a piece of program. -/
structure At (c n : Nat) (m : Mem) (r : SRes) (m' : Mem) : Prop where
  cur : m'.cur = some c
  next : m'.next = r.next
  tr : m'.tr = r.tr
  keep : Keep c n m m'

/-- The values of exits under way are left alone. -/
def KeepVals (D : List Handle) (m m' : Mem) : Prop :=
  ∀ g ∈ D, (m'.bef g.id).vals = (m.bef g.id).vals

/-- The current frame keeps its pending destination, except in a body. -/
def KeepUlt (μ : Mode) (c : Nat) (m m' : Mem) : Prop :=
  μ ≠ .body → (m'.uwp c).ultimate = (m.uwp c).ultimate

/-- The C code ended in the way the meaning of the program says. -/
def Matches (μ : Mode) (c : Nat) (D : List Handle) (n : Nat) (m : Mem) (r : SRes)
    (x : Out × Mem) : Prop :=
  match r.out with
  | .invalid => True
  | .normal vs =>
    x.1 = .normal ∧ x.2.ret = vs ∧ At c n m r x.2 ∧ KeepUlt μ c m x.2 ∧ KeepVals D m x.2
  | .exiting h vs =>
    if h.loc then
      x.1 = .goto h.id ∧ x.2.ret = vs ∧ At c n m r x.2 ∧ KeepUlt μ c m x.2 ∧ KeepVals D m x.2
    else
      ∃ m', x = nlxStep m' h.id ∧ (m'.bef h.id).vals = vs ∧ At c n m r m' ∧
        ∀ g ∈ D, g ≠ h → (m'.bef g.id).vals = (m.bef g.id).vals

theorem Keep.refl (c n : Nat) (m : Mem) : Keep c n m m :=
  ⟨fun _ _ => rfl, fun _ _ => rfl, fun _ _ _ => rfl, fun _ _ => rfl⟩

theorem Keep.trans {c n n1 : Nat} {m m1 m2 : Mem} (h1 : Keep c n m m1) (h2 : Keep c n1 m1 m2)
    (hn : n ≤ n1) : Keep c n m m2 :=
  ⟨fun i hi => (h2.prev i (by omega)).trans (h1.prev i hi),
    fun i hi => (h2.vals i (by omega)).trans (h1.vals i hi),
    fun i hi hne => (h2.ult i (by omega) hne).trans (h1.ult i hi hne),
    fun i hi => (h2.pres i (by omega)).trans (h1.pres i hi)⟩

/-- The memory in which the code after a block is started. -/
theorem Pre.step {m m1 : Mem} {c : Nat} {A D : List Handle} {n : Nat} {μ : Mode}
    {tr : List Event} {r : SRes} (h : Pre m c A D n μ tr) (ha : At c n m r m1)
    (hu : KeepUlt μ c m m1) (hn : n ≤ r.next) : Pre m1 c A D r.next μ r.tr := by
  refine ⟨ha.cur, by have := h.hc; omega, ha.next, ha.tr, fun g hg => by have := h.ids g hg; omega,
    h.inj, fun g hg hl => ?_, h.sub, fun hμ => ?_⟩
  · obtain ⟨p, hp, hlt⟩ := h.pres g hg hl
    exact ⟨p, (ha.keep.pres _ (h.ids g hg)).trans hp, by omega⟩
  · rw [hu (by rw [hμ]; simp), h.aft hμ]

theorem Matches.trans {m m1 : Mem} {c : Nat} {D : List Handle} {n : Nat} {μ : Mode}
    {r1 r2 : SRes} {x : Out × Mem} (ha : At c n m r1 m1) (hu : KeepUlt μ c m m1)
    (hv : KeepVals D m m1) (hn : n ≤ r1.next) (h : Matches μ c D r1.next m1 r2 x) :
    Matches μ c D n m r2 x := by
  unfold Matches at h ⊢
  split
  · trivial
  · rename_i vs ho
    rw [ho] at h
    obtain ⟨h1, h2, h3, h4, h5⟩ := h
    exact ⟨h1, h2, ⟨h3.cur, h3.next, h3.tr, ha.keep.trans h3.keep hn⟩,
      fun hμ => (h4 hμ).trans (hu hμ), fun g hg => (h5 g hg).trans (hv g hg)⟩
  · rename_i h' vs ho
    rw [ho] at h
    simp only at h
    split at h
    · rename_i hl
      rw [if_pos hl]
      obtain ⟨h1, h2, h3, h4, h5⟩ := h
      exact ⟨h1, h2, ⟨h3.cur, h3.next, h3.tr, ha.keep.trans h3.keep hn⟩,
        fun hμ => (h4 hμ).trans (hu hμ), fun g hg => (h5 g hg).trans (hv g hg)⟩
    · rename_i hl
      rw [if_neg hl]
      obtain ⟨m', h1, h2, h3, h4⟩ := h
      exact ⟨m', h1, h2, ⟨h3.cur, h3.next, h3.tr, ha.keep.trans h3.keep hn⟩,
        fun g hg hne => (h4 g hg hne).trans (hv g hg)⟩

/-- `Matches` only looks at the part of the starting memory that is kept. -/
theorem Matches.start {m m0 : Mem} {c : Nat} {D : List Handle} {n : Nat} {μ : Mode}
    {r : SRes} {x : Out × Mem} (hu : m0.uwp = m.uwp) (hp : ∀ i < n, m0.bef i = m.bef i)
    (hD : ∀ g ∈ D, g.id < n) (h : Matches μ c D n m0 r x) : Matches μ c D n m r x := by
  have hk : ∀ m', Keep c n m0 m' → Keep c n m m' := fun m' k =>
    ⟨fun i hi => by rw [k.prev i hi, hu], fun i hi => by rw [k.vals i hi, hu],
      fun i hi hne => by rw [k.ult i hi hne, hu], fun i hi => by rw [k.pres i hi, hp i hi]⟩
  unfold Matches at h ⊢
  split
  · trivial
  · rename_i vs ho
    rw [ho] at h
    obtain ⟨h1, h2, h3, h4, h5⟩ := h
    exact ⟨h1, h2, ⟨h3.cur, h3.next, h3.tr, hk _ h3.keep⟩,
      fun hμ => by rw [h4 hμ, hu], fun g hg => by rw [h5 g hg, hp _ (hD g hg)]⟩
  · rename_i h' vs ho
    rw [ho] at h
    simp only at h
    split at h
    · rename_i hl
      rw [if_pos hl]
      obtain ⟨h1, h2, h3, h4, h5⟩ := h
      exact ⟨h1, h2, ⟨h3.cur, h3.next, h3.tr, hk _ h3.keep⟩,
        fun hμ => by rw [h4 hμ, hu], fun g hg => by rw [h5 g hg, hp _ (hD g hg)]⟩
    · rename_i hl
      rw [if_neg hl]
      obtain ⟨m', h1, h2, h3, h4⟩ := h
      exact ⟨m', h1, h2, ⟨h3.cur, h3.next, h3.tr, hk _ h3.keep⟩,
        fun g hg hne => by rw [h4 g hg hne, hp _ (hD g hg)]⟩

/-- Fewer frames and fewer exits are kept. -/
theorem Matches.mono {m : Mem} {c : Nat} {D : List Handle} {n n1 : Nat} {μ : Mode}
    {r : SRes} {x : Out × Mem} (hn : n ≤ n1) (h : Matches μ c D n1 m r x) :
    Matches μ c D n m r x := by
  have hk : ∀ m', Keep c n1 m m' → Keep c n m m' := fun m' k => (Keep.refl c n m).trans k hn
  unfold Matches at h ⊢
  split
  · trivial
  · rename_i vs ho
    rw [ho] at h
    obtain ⟨h1, h2, h3, h4, h5⟩ := h
    exact ⟨h1, h2, ⟨h3.cur, h3.next, h3.tr, hk _ h3.keep⟩, h4, h5⟩
  · rename_i h' vs ho
    rw [ho] at h
    simp only at h
    split at h
    · rename_i hl
      rw [if_pos hl]
      obtain ⟨h1, h2, h3, h4, h5⟩ := h
      exact ⟨h1, h2, ⟨h3.cur, h3.next, h3.tr, hk _ h3.keep⟩, h4, h5⟩
    · rename_i hl
      rw [if_neg hl]
      obtain ⟨m', h1, h2, h3, h4⟩ := h
      exact ⟨m', h1, h2, ⟨h3.cur, h3.next, h3.tr, hk _ h3.keep⟩, h4⟩

/-- The code after a block. -/
theorem andThen_sim {w : World} {k : Vals → Prog} {m : Mem} {c : Nat} {A D : List Handle}
    {n : Nat} {μ : Mode} {tr : List Event} {r : SRes} {x : Out × Mem}
    (hpre : Pre m c A D n μ tr) (hn : n ≤ r.next) (hm : Matches μ c D n m r x)
    (hk : ∀ vs m1, r.out = .normal vs → Pre m1 c A D r.next μ r.tr →
      Matches μ c D r.next m1 (spec w (k vs) A r.tr r.next) (exec w (k vs) m1)) :
    Matches μ c D n m (r.andThen fun vs tr n => spec w (k vs) A tr n)
      (andThen x fun vs m' => exec w (k vs) m') := by
  cases ho : r.out with
  | invalid => simp [SRes.andThen, ho, Matches]
  | normal vs =>
    have hm' := hm
    unfold Matches at hm'
    rw [ho] at hm'
    obtain ⟨h1, h2, h3, h4, h5⟩ := hm'
    have e1 : r.andThen (fun vs tr n => spec w (k vs) A tr n) = spec w (k vs) A r.tr r.next := by
      simp [SRes.andThen, ho]
    have e2 : andThen x (fun vs m' => exec w (k vs) m') = exec w (k vs) x.2 := by
      simp [andThen, h1, h2]
    rw [e1, e2]
    exact Matches.trans h3 h4 h5 hn (hk vs x.2 ho (hpre.step h3 h4 hn))
  | exiting h vs =>
    have e1 : r.andThen (fun vs tr n => spec w (k vs) A tr n) = r := by
      simp [SRes.andThen, ho]
    have hx : x.1 ≠ .normal := by
      unfold Matches at hm
      rw [ho] at hm
      simp only at hm
      split at hm
      · rw [hm.1]; simp
      · obtain ⟨m', hx, -, -, -⟩ := hm
        rw [hx]
        unfold nlxStep
        split
        · simp
        · split
          · simp
          · split <;> simp
    have e2 : andThen x (fun vs m' => exec w (k vs) m') = x := by
      unfold andThen
      split
      · contradiction
      · rfl
    rw [e1, e2]
    exact hm

end Verif.Nlx
