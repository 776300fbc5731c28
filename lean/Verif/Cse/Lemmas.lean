import Verif.Cse.Spec

namespace Verif.Cse

variable {V W : Type}

theorem upd_same {α : Type} (f : Nat → α) (t : Nat) (x : α) : upd f t x t = x := by simp [upd]

theorem upd_ne {α : Type} (f : Nat → α) {t t' : Nat} (x : α) (h : t' ≠ t) : upd f t x t' = f t' := by simp [upd, h]

theorem upd_notMem {α : Type} (f : Nat → α) {t t' : Nat} (x : α) {D : List Nat} (h : t ∉ D) (h' : t' ∈ D) :
    upd f t x t' = f t' := upd_ne f x (by rintro rfl; exact h h')

theorem ref_congr (S : Sem V W) {e e' : Nat → V} {D : List Nat} (h : ∀ t ∈ D, e t = e' t) {r : Ref} (hr : r.Seen D) :
    S.ref e r = S.ref e' r := by
  cases r with
  | tmp t => exact h t hr
  | obj o => rfl

theorem op_congr (S : Sem V W) {e e' : Nat → V} {D : List Nat} (h : ∀ t ∈ D, e t = e' t) {o : Op} (ho : o.Seen D)
    (w : W) : S.op e o w = S.op e' o w := by
  cases o with
  | prim p as =>
    simp only [Sem.op]; rw [List.map_congr_left fun r hr => ref_congr S h (ho r hr)]
  | slotValue s r => simp only [Sem.op]; rw [ref_congr S h ho]
  | binding b => rfl
  | other k as => simp only [Sem.op]; rw [List.map_congr_left fun r hr => ref_congr S h (ho r hr)]

theorem seen_mono {D D' : List Nat} (h : ∀ t ∈ D, t ∈ D') {r : Ref} (hr : r.Seen D) : r.Seen D' := by
  cases r with
  | tmp t => exact h t hr
  | obj o => trivial

theorem op_seen_mono {D D' : List Nat} (h : ∀ t ∈ D, t ∈ D') {o : Op} (ho : o.Seen D) : o.Seen D' := by
  cases o with
  | prim p as => exact fun r hr => seen_mono h (ho r hr)
  | slotValue s r => exact seen_mono h ho
  | binding b => trivial
  | other k as => exact fun r hr => seen_mono h (ho r hr)

theorem sub_seen {D D' : List Nat} {ρ : Nat → Ref} (h : ∀ t ∈ D, (ρ t).Seen D') {r : Ref} (hr : r.Seen D) :
    (sub ρ r).Seen D' := by
  cases r with
  | tmp t => exact h t hr
  | obj o => trivial

theorem op_sub_seen {D D' : List Nat} {ρ : Nat → Ref} (h : ∀ t ∈ D, (ρ t).Seen D') {o : Op} (ho : o.Seen D) :
    (o.sub ρ).Seen D' := by
  cases o with
  | prim p as =>
    intro r hr
    obtain ⟨q, hq, rfl⟩ := List.mem_map.1 hr
    exact sub_seen h (ho q hq)
  | slotValue s r => exact sub_seen h ho
  | binding b => trivial
  | other k as =>
    intro r hr
    obtain ⟨q, hq, rfl⟩ := List.mem_map.1 hr
    exact sub_seen h (ho q hq)

theorem op_sub_arity {ar : Prim → Nat} (ρ : Nat → Ref) {o : Op} (ho : o.Arity ar) : (o.sub ρ).Arity ar := by
  cases o with
  | prim p as =>
    cases p with
    | none => trivial
    | some p => simpa [Op.sub, Op.Arity] using ho
  | _ => trivial

theorem ref_sub (S : Sem V W) {e e' : Nat → V} {ρ : Nat → Ref} {D : List Nat} (h : ∀ t ∈ D, e t = S.ref e' (ρ t))
    {r : Ref} (hr : r.Seen D) : S.ref e' (sub ρ r) = S.ref e r := by
  cases r with
  | tmp t => exact (h t hr).symm
  | obj o => rfl

theorem op_sub (S : Sem V W) {e e' : Nat → V} {ρ : Nat → Ref} {D : List Nat} (h : ∀ t ∈ D, e t = S.ref e' (ρ t))
    {o : Op} (ho : o.Seen D) (w : W) : S.op e' (o.sub ρ) w = S.op e o w := by
  cases o with
  | prim p as =>
    simp only [Sem.op, Op.sub, List.map_map]
    rw [List.map_congr_left (g := S.ref e) fun r hr => by exact ref_sub S h (ho r hr)]
  | slotValue s r => simp only [Sem.op, Op.sub]; rw [ref_sub S h ho]
  | binding b => rfl
  | other k as =>
    simp only [Sem.op, Op.sub, List.map_map]
    rw [List.map_congr_left (g := S.ref e) fun r hr => by exact ref_sub S h (ho r hr)]

theorem equivRef_value (S : Sem V W) (hS : S.Honest) (e : Nat → V) {r q : Ref} (h : equivRef r q = true) :
    S.ref e r = S.ref e q := by
  cases r with
  | tmp t =>
    cases q with
    | tmp u => simp only [equivRef, beq_iff_eq] at h; rw [h]
    | obj o => simp [equivRef] at h
  | obj o =>
    cases q with
    | tmp u => simp [equivRef] at h
    | obj o' =>
      simp only [equivRef] at h
      cases o with
      | raw i x =>
        cases o' with
        | raw j y => simp only [equivObj, beq_iff_eq] at h; subst h; exact hS.raw i j x
        | other j => simp [equivObj] at h
      | other i =>
        cases o' with
        | raw j y => simp [equivObj] at h
        | other j => simp only [equivObj, beq_iff_eq] at h; rw [h]

theorem equivRefs_value (S : Sem V W) (hS : S.Honest) (e : Nat → V) :
    ∀ {rs qs : List Ref}, rs.length = qs.length → equivRefs rs qs = true → rs.map (S.ref e) = qs.map (S.ref e)
  | [], [], _, _ => rfl
  | [], _ :: _, h, _ => by simp at h
  | _ :: _, [], h, _ => by simp at h
  | r :: rs, q :: qs, hl, h => by
    simp only [equivRefs, Bool.and_eq_true] at h
    simp only [List.map_cons]
    rw [equivRef_value S hS e h.1, equivRefs_value S hS e (by simpa using hl) h.2]

theorem equiv_value (S : Sem V W) (hS : S.Honest) {ar : Prim → Nat} (e : Nat → V) {o c : Op} {G : Nat → Bool}
    (hr : reusable G o = true) (ho : o.Arity ar) (hc : c.Arity ar) (h : equiv o c = true) (w : W) :
    S.op e o w = S.op e c w := by
  cases o with
  | prim p as =>
    cases c with
    | prim q bs =>
      simp only [equiv, Bool.and_eq_true, beq_iff_eq] at h
      obtain ⟨rfl, h⟩ := h
      cases p with
      | none => simp [reusable] at hr
      | some p =>
        simp only [Op.Arity] at ho hc
        simp only [Sem.op]
        rw [equivRefs_value S hS e (ho.trans hc.symm) h]
    | _ => simp [equiv] at h
  | slotValue s r =>
    cases c with
    | slotValue s' r' =>
      simp only [equiv, Bool.and_eq_true, beq_iff_eq] at h
      obtain ⟨rfl, h⟩ := h
      simp only [Sem.op]; rw [equivRef_value S hS e h]
    | _ => simp [equiv] at h
  | binding b =>
    cases c with
    | binding b' => simp only [equiv, beq_iff_eq] at h; rw [h]
    | _ => simp [equiv] at h
  | other k as => simp [reusable] at hr

theorem reusable_value (S : Sem V W) (hS : S.Honest) {G : Nat → Bool} {o : Op} (h : reusable G o = true)
    (e : Nat → V) : ∃ out, ∀ w, S.op e o w = (out, w) := by
  cases o with
  | prim p as =>
    cases p with
    | none => simp [reusable] at h
    | some p =>
      simp only [reusable, Bool.and_eq_true] at h
      obtain ⟨f, hf⟩ := hS.prim p h.1
      exact ⟨_, fun w => hf _ w⟩
  | slotValue s r =>
    obtain ⟨f, hf⟩ := hS.slot s (by simpa [reusable] using h)
    exact ⟨_, fun w => hf _ w⟩
  | binding b => exact hS.binding b h
  | other k as => simp [reusable] at h

theorem findIn_mem {o : Op} {t : Nat} : ∀ {cs : List (Nat × Op)}, findIn o cs = some t →
    ∃ c, (t, c) ∈ cs ∧ equiv o c = true
  | [], h => by simp [findIn] at h
  | (u, c) :: cs, h => by
    unfold findIn at h
    by_cases hc : equiv o c = true
    · rw [if_pos hc] at h
      obtain rfl := Option.some.inj h
      exact ⟨c, by simp, hc⟩
    · rw [if_neg hc] at h
      obtain ⟨c', hm, he⟩ := findIn_mem h
      exact ⟨c', List.mem_cons_of_mem _ hm, he⟩

theorem find_mem {o : Op} {t : Nat} : ∀ {ch : Chain}, find o ch = some t →
    ∃ s ∈ ch, ∃ c, (t, c) ∈ s.comps ∧ equiv o c = true
  | [], h => by simp [find] at h
  | s :: ss, h => by
    unfold find at h
    cases hf : findIn o s.comps with
    | some u =>
      rw [hf] at h
      obtain rfl := Option.some.inj h
      obtain ⟨c, hm, he⟩ := findIn_mem hf
      exact ⟨s, by simp, c, hm, he⟩
    | none =>
      rw [hf] at h
      obtain ⟨s', hs, c, hm, he⟩ := find_mem h
      exact ⟨s', List.mem_cons_of_mem _ hs, c, hm, he⟩

theorem addComp_mem {t : Nat} {o : Op} {ch : Chain} {s : State} (hs : s ∈ addComp t o ch) :
    (∀ p ∈ s.comps, p = (t, o) ∨ ∃ s' ∈ ch, p ∈ s'.comps) ∧
      (∀ x, s.test = some x → ∃ s' ∈ ch, s'.test = some x) := by
  cases ch with
  | nil =>
    simp only [addComp, List.mem_singleton] at hs
    subst hs
    refine ⟨fun p hp => .inl ?_, by simp⟩
    simpa using hp
  | cons s0 ss =>
    simp only [addComp, List.mem_cons] at hs
    rcases hs with rfl | hs
    · refine ⟨fun p hp => ?_, fun x hx => ⟨s0, by simp, hx⟩⟩
      simp only [List.mem_append, List.mem_singleton] at hp
      rcases hp with hp | rfl
      · exact .inr ⟨s0, by simp, hp⟩
      · exact .inl rfl
    · exact ⟨fun p hp => .inr ⟨s, by simp [hs], hp⟩, fun x hx => ⟨s, by simp [hs], hx⟩⟩

theorem bindAll_notMem (d : V) (e : Nat → V) {t : Nat} : ∀ {ts : List Nat} {vs : List V}, t ∉ ts →
    bindAll d e ts vs t = e t
  | [], _, _ => rfl
  | u :: ts, [], h => by
    simp only [List.mem_cons, not_or] at h
    rw [bindAll, upd_ne _ _ h.1, bindAll_notMem d e h.2]
  | u :: ts, v :: vs, h => by
    simp only [List.mem_cons, not_or] at h
    rw [bindAll, upd_ne _ _ h.1, bindAll_notMem d e h.2]

theorem bindAll_mem (d : V) (e e' : Nat → V) {t : Nat} : ∀ {ts : List Nat} {vs : List V}, t ∈ ts →
    bindAll d e ts vs t = bindAll d e' ts vs t
  | u :: ts, [], h => by
    by_cases hu : t = u
    · subst hu; simp [bindAll, upd]
    · rw [bindAll, bindAll, upd_ne _ _ hu, upd_ne _ _ hu]
      exact bindAll_mem d e e' (by simpa [hu] using h)
  | u :: ts, v :: vs, h => by
    by_cases hu : t = u
    · subst hu; simp [bindAll, upd]
    · rw [bindAll, bindAll, upd_ne _ _ hu, upd_ne _ _ hu]
      exact bindAll_mem d e e' (by simpa [hu] using h)

/-- What holds during the walk: `e` the temporaries of the code, `e'` those of the shared code. -/
structure Inv (S : Sem V W) (ar : Prim → Nat) (D : List Nat) (ρ : Nat → Ref) (ch : Chain) (e e' : Nat → V) : Prop where
  val : ∀ t ∈ D, e t = S.ref e' (ρ t)
  seen : ∀ t ∈ D, (ρ t).Seen D
  new : ∀ t, t ∉ D → ρ t = .tmp t
  comp : ∀ s ∈ ch, ∀ p ∈ s.comps, p.1 ∈ D ∧ p.2.Seen D ∧ p.2.Arity ar ∧ ∀ w, S.op e' p.2 w = (.value (e' p.1), w)
  test : ∀ s ∈ ch, ∀ q d, s.test = some (q, d) → q.Seen D ∧ S.isTrue (S.ref e' q) = d

/-- A temporary that both have. -/
theorem Inv.bind {S : Sem V W} {ar : Prim → Nat} {D : List Nat} {ρ : Nat → Ref} {ch : Chain} {e e' : Nat → V}
    (I : Inv S ar D ρ ch e e') {t : Nat} (ht : t ∉ D) (v : V) : Inv S ar (t :: D) ρ ch (upd e t v) (upd e' t v) := by
  have hag : ∀ u ∈ D, e' u = upd e' t v u := fun u hu => (upd_notMem e' v ht hu).symm
  refine ⟨?_, ?_, ?_, ?_, ?_⟩
  · intro u hu
    rcases List.mem_cons.1 hu with rfl | hu
    · rw [I.new u ht, upd_same]; simp [Sem.ref, upd]
    · rw [upd_notMem e v ht hu, I.val u hu, ref_congr S hag (I.seen u hu)]
  · intro u hu
    rcases List.mem_cons.1 hu with rfl | hu
    · rw [I.new u ht]; simp [Ref.Seen]
    · exact seen_mono (fun _ h => List.mem_cons_of_mem _ h) (I.seen u hu)
  · intro u hu
    exact I.new u (fun h => hu (List.mem_cons_of_mem _ h))
  · intro s hs p hp
    obtain ⟨h1, h2, h3, h4⟩ := I.comp s hs p hp
    refine ⟨List.mem_cons_of_mem _ h1, op_seen_mono (fun _ h => List.mem_cons_of_mem _ h) h2, h3, fun w => ?_⟩
    rw [← op_congr S hag h2, ← hag p.1 h1]; exact h4 w
  · intro s hs q d hq
    obtain ⟨h1, h2⟩ := I.test s hs q d hq
    exact ⟨seen_mono (fun _ h => List.mem_cons_of_mem _ h) h1, by rw [← ref_congr S hag h1]; exact h2⟩

/-- A temporary replaced by another. -/
theorem Inv.replace {S : Sem V W} {ar : Prim → Nat} {D : List Nat} {ρ : Nat → Ref} {ch : Chain} {e e' : Nat → V}
    (I : Inv S ar D ρ ch e e') {t t' : Nat} (ht : t ∉ D) (ht' : t' ∈ D) :
    Inv S ar (t :: D) (upd ρ t (.tmp t')) ch (upd e t (e' t')) e' := by
  have hm : ∀ u ∈ D, u ∈ t :: D := fun _ h => List.mem_cons_of_mem _ h
  refine ⟨?_, ?_, ?_, ?_, ?_⟩
  · intro u hu
    rcases List.mem_cons.1 hu with rfl | hu
    · rw [upd_same, upd_same]; rfl
    · rw [upd_notMem e _ ht hu, upd_notMem ρ _ ht hu, I.val u hu]
  · intro u hu
    rcases List.mem_cons.1 hu with rfl | hu
    · rw [upd_same]; exact hm _ ht'
    · rw [upd_notMem ρ _ ht hu]; exact seen_mono hm (I.seen u hu)
  · intro u hu
    simp only [List.mem_cons, not_or] at hu
    rw [upd_ne _ _ hu.1]; exact I.new u hu.2
  · intro s hs p hp
    obtain ⟨h1, h2, h3, h4⟩ := I.comp s hs p hp
    exact ⟨hm _ h1, op_seen_mono hm h2, h3, h4⟩
  · intro s hs q d hq
    obtain ⟨h1, h2⟩ := I.test s hs q d hq
    exact ⟨seen_mono hm h1, h2⟩

/-- One more computation to be shared. -/
theorem Inv.add {S : Sem V W} {ar : Prim → Nat} {D : List Nat} {ρ : Nat → Ref} {ch : Chain} {e e' : Nat → V}
    (I : Inv S ar D ρ ch e e') {t : Nat} {o : Op} (ht : t ∈ D) (ho : o.Seen D) (ha : o.Arity ar)
    (hv : ∀ w, S.op e' o w = (.value (e' t), w)) : Inv S ar D ρ (addComp t o ch) e e' := by
  refine ⟨I.val, I.seen, I.new, ?_, ?_⟩
  · intro s hs p hp
    rcases (addComp_mem hs).1 p hp with rfl | ⟨s', hs', hp'⟩
    · exact ⟨ht, ho, ha, hv⟩
    · exact I.comp s' hs' p hp'
  · intro s hs q d hq
    obtain ⟨s', hs', hq'⟩ := (addComp_mem hs).2 _ hq
    exact I.test s' hs' q d hq'

/-- A new state for a block. -/
theorem Inv.inner {S : Sem V W} {ar : Prim → Nat} {D : List Nat} {ρ : Nat → Ref} {ch : Chain} {e e' : Nat → V}
    (I : Inv S ar D ρ ch e e') : Inv S ar D ρ (⟨[], none⟩ :: ch) e e' := by
  refine ⟨I.val, I.seen, I.new, ?_, ?_⟩
  · intro s hs p hp
    rcases List.mem_cons.1 hs with rfl | hs
    · simp at hp
    · exact I.comp s hs p hp
  · intro s hs q d hq
    rcases List.mem_cons.1 hs with rfl | hs
    · simp at hq
    · exact I.test s hs q d hq

/-- The same for a branch. -/
theorem Inv.branch {S : Sem V W} {ar : Prim → Nat} {D : List Nat} {ρ : Nat → Ref} {ch : Chain} {e e' : Nat → V}
    (I : Inv S ar D ρ ch e e') {r : Ref} {b : Bool} (hr : r.Seen D) (hb : S.isTrue (S.ref e' r) = b) :
    Inv S ar D ρ (⟨[], some (r, b)⟩ :: ch) e e' := by
  refine ⟨I.val, I.seen, I.new, ?_, ?_⟩
  · intro s hs p hp
    rcases List.mem_cons.1 hs with rfl | hs
    · simp at hp
    · exact I.comp s hs p hp
  · intro s hs q d hq
    rcases List.mem_cons.1 hs with rfl | hs
    · obtain ⟨rfl, rfl⟩ := Prod.mk.inj (Option.some.inj hq)
      exact ⟨hr, hb⟩
    · exact I.test s hs q d hq

/-- The merges of a loop. -/
theorem Inv.merges {S : Sem V W} {ar : Prim → Nat} {D : List Nat} {ρ : Nat → Ref} {ch : Chain} {e e' : Nat → V}
    (I : Inv S ar D ρ ch e e') {ts : List Nat} (hts : ∀ t ∈ ts, t ∉ D) (d : V) (vs : List V) :
    Inv S ar (ts ++ D) ρ ch (bindAll d e ts vs) (bindAll d e' ts vs) := by
  have hn : ∀ u ∈ D, u ∉ ts := fun u hu h => hts u h hu
  have hag : ∀ u ∈ D, e' u = bindAll d e' ts vs u := fun u hu => (bindAll_notMem d e' (hn u hu)).symm
  have hm : ∀ u ∈ D, u ∈ ts ++ D := fun u h => List.mem_append.2 (.inr h)
  refine ⟨?_, ?_, ?_, ?_, ?_⟩
  · intro u hu
    rcases List.mem_append.1 hu with hu | hu
    · rw [I.new u (hts u hu)]; exact bindAll_mem d e e' hu
    · rw [bindAll_notMem d e (hn u hu), I.val u hu, ref_congr S hag (I.seen u hu)]
  · intro u hu
    rcases List.mem_append.1 hu with hu' | hu'
    · rw [I.new u (hts u hu')]; exact hu
    · exact seen_mono hm (I.seen u hu')
  · intro u hu
    exact I.new u (fun h => hu (hm u h))
  · intro s hs p hp
    obtain ⟨h1, h2, h3, h4⟩ := I.comp s hs p hp
    refine ⟨hm _ h1, op_seen_mono hm h2, h3, fun w => ?_⟩
    rw [← op_congr S hag h2, ← hag p.1 h1]; exact h4 w
  · intro s hs q d hq
    obtain ⟨h1, h2⟩ := I.test s hs q d hq
    exact ⟨seen_mono hm h1, by rw [← ref_congr S hag h1]; exact h2⟩

theorem knownTest_true {S : Sem V W} {ar : Prim → Nat} {D : List Nat} {ρ : Nat → Ref} {ch : Chain} {e e' : Nat → V}
    (I : Inv S ar D ρ ch e e') {G : Nat → Bool} {r : Ref} {b : Bool} (h : knownTest G ch r = some b) :
    S.isTrue (S.ref e' r) = b := by
  unfold knownTest at h
  split at h
  · rename_i t s ss
    split at h
    · split at h
      · rename_i q d hq
        split at h
        · rename_i hqt
          obtain rfl := Option.some.inj h
          rw [← hqt]
          exact (I.test s (by simp) q d hq).2
        · cases h
      · cases h
    · cases h
  · cases h

theorem andThen_congr {r r' : Option (Outcome V × W)} {k k' : V → W → Option (Outcome V × W)} (h : r = r')
    (hk : ∀ v w, k v w = k' v w) : andThen r k = andThen r' k' := by
  subst h
  unfold andThen
  split
  · exact hk _ _
  · rfl

theorem walk_run (S : Sem V W) (hS : S.Honest) (ar : Prim → Nat) (n : Nat) : ∀ (c : Code) (D : List Nat) (ρ : Nat → Ref)
    (G : Nat → Bool) (ch : Chain) (e e' : Nat → V) (w : W), Good ar D c → Inv S ar D ρ ch e e' →
    S.run n (walk c ρ G ch) e' w = S.run n c e w := by
  intro c
  induction c with
  | ret r =>
    intro D ρ G ch e e' w hg I
    simp only [walk, Sem.run]; rw [ref_sub S I.val hg]
  | again rs =>
    intro D ρ G ch e e' w hg I
    simp only [walk, Sem.run, List.map_map]
    rw [List.map_congr_left (g := S.ref e) fun r hr => by exact ref_sub S I.val (hg r hr)]
  | exit m r =>
    intro D ρ G ch e e' w hg I
    simp only [walk, Sem.run]; rw [ref_sub S I.val hg]
  | op t o k ih =>
    intro D ρ G ch e e' w hg I
    obtain ⟨ht, ho, ha, hk⟩ := hg
    have hso := op_sub_seen I.seen ho
    have hsa := op_sub_arity ρ ha
    rw [walk, if_neg (by rw [I.new t ht]; simp)]
    split
    · rename_i hr
      split
      · rename_i t' hf
        obtain ⟨s, hs, c, hm, he⟩ := find_mem hf
        obtain ⟨h1, h2, h3, h4⟩ := I.comp s hs _ hm
        have : S.op e o w = (.value (e' t'), w) := by
          rw [← op_sub S I.val ho, equiv_value S hS e' hr hsa h3 he, h4]
        rw [ih _ _ _ _ _ _ _ hk (I.replace ht h1)]
        simp only [Sem.run, this, andThen]
      · rename_i hf
        simp only [Sem.run, op_sub S I.val ho]
        obtain ⟨out, hout⟩ := reusable_value S hS hr e'
        have h' : S.op e o w = (out, w) := by rw [← op_sub S I.val ho, hout]
        rw [h']
        cases out with
        | value v =>
          simp only [andThen]
          refine ih _ _ _ _ _ _ _ hk ((I.bind ht v).add (by simp)
            (op_seen_mono (fun _ h => List.mem_cons_of_mem _ h) hso) hsa fun w => ?_)
          rw [← op_congr S (fun u hu => (upd_notMem e' v ht hu).symm) hso, hout, upd_same]
        | again vs => rfl
        | exit m v => rfl
    · simp only [Sem.run, op_sub S I.val ho]
      exact andThen_congr rfl fun v w => ih _ _ _ _ _ _ _ hk (I.bind ht v)
  | ifs t r a b k iha ihb ihk =>
    intro D ρ G ch e e' w hg I
    obtain ⟨ht, hr, ha, hb, hk⟩ := hg
    have hsr := sub_seen I.seen hr
    have hv := ref_sub S I.val hr
    rw [walk]
    split
    · rename_i hkt
      have htr := knownTest_true I hkt
      simp only [Sem.run]
      rw [← hv, htr, if_pos rfl]
      exact andThen_congr (iha _ _ _ _ _ _ _ ha (I.branch hsr htr)) fun v w => ihk _ _ _ _ _ _ _ hk (I.bind ht v)
    · rename_i hkt
      have htr := knownTest_true I hkt
      simp only [Sem.run]
      rw [← hv, htr, if_neg (by simp)]
      exact andThen_congr (ihb _ _ _ _ _ _ _ hb (I.branch hsr htr)) fun v w => ihk _ _ _ _ _ _ _ hk (I.bind ht v)
    · simp only [Sem.run]
      refine andThen_congr ?_ fun v w => ihk _ _ _ _ _ _ _ hk (I.bind ht v)
      rw [hv]
      cases hb' : S.isTrue (S.ref e r) with
      | true =>
        simp only [if_true]
        exact iha _ _ _ _ _ _ _ ha (I.branch hsr (by rw [hv, hb']))
      | false =>
        simp only [Bool.false_eq_true, if_false]
        exact ihb _ _ _ _ _ _ _ hb (I.branch hsr (by rw [hv, hb']))
  | splice t a k iha ihk =>
    intro D ρ G ch e e' w hg I
    obtain ⟨ht, ha, hk⟩ := hg
    simp only [walk, Sem.run]
    exact andThen_congr (iha _ _ _ _ _ _ _ ha I.inner) fun v w => ihk _ _ _ _ _ _ _ hk (I.bind ht v)
  | loop t ms a k iha ihk =>
    intro D ρ G ch e e' w hg I
    obtain ⟨ht, hms, ha, hk⟩ := hg
    simp only [walk, Sem.run, List.map_map]
    refine andThen_congr ?_ fun v w => ihk _ _ _ _ _ _ _ hk (I.bind ht v)
    have h1 : ms.map (((fun x => S.ref e' x.2) ∘ fun m => (m.1, sub ρ m.2))) = ms.map fun m => S.ref e m.2 :=
      List.map_congr_left fun m hm => ref_sub S I.val (hms m hm).2
    have h2 : ms.map ((fun x : Nat × Ref => x.1) ∘ fun m => (m.1, sub ρ m.2)) = ms.map (·.1) :=
      List.map_congr_left fun m hm => rfl
    rw [h1, h2]
    congr 1
    funext vs w
    refine iha _ _ _ _ _ _ _ ha (Inv.merges I.inner ?_ _ vs)
    intro u hu
    obtain ⟨m, hm, rfl⟩ := List.mem_map.1 hu
    exact (hms m hm).1
  | bindExit t m a k iha ihk =>
    intro D ρ G ch e e' w hg I
    obtain ⟨ht, ha, hk⟩ := hg
    simp only [walk, Sem.run]
    exact andThen_congr (by rw [iha _ _ _ _ _ _ _ ha I.inner]) fun v w => ihk _ _ _ _ _ _ _ hk (I.bind ht v)
  | protect t a c k iha ihc ihk =>
    intro D ρ G ch e e' w hg I
    obtain ⟨ht, ha, hc, hk⟩ := hg
    simp only [walk, Sem.run]
    refine andThen_congr ?_ fun v w => ihk _ _ _ _ _ _ _ hk (I.bind ht v)
    rw [iha _ _ _ _ _ _ _ ha I.inner]
    congr 1
    funext w
    exact ihc _ _ _ _ _ _ _ hc I.inner

/-- What holds of the scopes: `D` what can be seen in the code, `D'` in the shared code. -/
structure Scope (ar : Prim → Nat) (D D' : List Nat) (ρ : Nat → Ref) (ch : Chain) : Prop where
  sub : ∀ t ∈ D', t ∈ D
  seen : ∀ t ∈ D, (ρ t).Seen D'
  new : ∀ t, t ∉ D → ρ t = .tmp t
  comp : ∀ s ∈ ch, ∀ p ∈ s.comps, p.1 ∈ D'

theorem Scope.bind {ar : Prim → Nat} {D D' : List Nat} {ρ : Nat → Ref} {ch : Chain} (I : Scope ar D D' ρ ch) {t : Nat}
    (ht : t ∉ D) : Scope ar (t :: D) (t :: D') ρ ch := by
  refine ⟨?_, ?_, fun u hu => I.new u fun h => hu (List.mem_cons_of_mem _ h),
    fun s hs p hp => List.mem_cons_of_mem _ (I.comp s hs p hp)⟩
  · intro u hu
    rcases List.mem_cons.1 hu with rfl | hu
    · simp
    · exact List.mem_cons_of_mem _ (I.sub u hu)
  · intro u hu
    rcases List.mem_cons.1 hu with rfl | hu
    · rw [I.new u ht]; simp [Ref.Seen]
    · exact seen_mono (fun _ h => List.mem_cons_of_mem _ h) (I.seen u hu)

theorem Scope.replace {ar : Prim → Nat} {D D' : List Nat} {ρ : Nat → Ref} {ch : Chain} (I : Scope ar D D' ρ ch)
    {t t' : Nat} (ht : t ∉ D) (ht' : t' ∈ D') : Scope ar (t :: D) D' (upd ρ t (.tmp t')) ch := by
  refine ⟨fun u hu => List.mem_cons_of_mem _ (I.sub u hu), ?_, ?_, I.comp⟩
  · intro u hu
    rcases List.mem_cons.1 hu with rfl | hu
    · rw [upd_same]; exact ht'
    · rw [upd_notMem ρ _ ht hu]; exact I.seen u hu
  · intro u hu
    simp only [List.mem_cons, not_or] at hu
    rw [upd_ne _ _ hu.1]; exact I.new u hu.2

theorem Scope.add {ar : Prim → Nat} {D D' : List Nat} {ρ : Nat → Ref} {ch : Chain} (I : Scope ar D D' ρ ch)
    {t : Nat} {o : Op} (ht : t ∈ D') : Scope ar D D' ρ (addComp t o ch) := by
  refine ⟨I.sub, I.seen, I.new, fun s hs p hp => ?_⟩
  rcases (addComp_mem hs).1 p hp with rfl | ⟨s', hs', hp'⟩
  · exact ht
  · exact I.comp s' hs' p hp'

theorem Scope.inner {ar : Prim → Nat} {D D' : List Nat} {ρ : Nat → Ref} {ch : Chain} (I : Scope ar D D' ρ ch)
    (x : Option (Ref × Bool)) : Scope ar D D' ρ (⟨[], x⟩ :: ch) := by
  refine ⟨I.sub, I.seen, I.new, fun s hs p hp => ?_⟩
  rcases List.mem_cons.1 hs with rfl | hs
  · simp at hp
  · exact I.comp s hs p hp

theorem Scope.merges {ar : Prim → Nat} {D D' : List Nat} {ρ : Nat → Ref} {ch : Chain} (I : Scope ar D D' ρ ch)
    {ts : List Nat} (hts : ∀ t ∈ ts, t ∉ D) : Scope ar (ts ++ D) (ts ++ D') ρ ch := by
  have hm : ∀ u ∈ D', u ∈ ts ++ D' := fun u h => List.mem_append.2 (.inr h)
  refine ⟨?_, ?_, fun u hu => I.new u fun h => hu (List.mem_append.2 (.inr h)),
    fun s hs p hp => hm _ (I.comp s hs p hp)⟩
  · intro u hu
    rcases List.mem_append.1 hu with hu | hu
    · exact List.mem_append.2 (.inl hu)
    · exact List.mem_append.2 (.inr (I.sub u hu))
  · intro u hu
    rcases List.mem_append.1 hu with hu | hu
    · rw [I.new u (hts u hu)]; exact List.mem_append.2 (.inl hu)
    · exact seen_mono hm (I.seen u hu)

theorem walk_good (ar : Prim → Nat) : ∀ (c : Code) (D D' : List Nat) (ρ : Nat → Ref) (G : Nat → Bool) (ch : Chain),
    Good ar D c → Scope ar D D' ρ ch → Good ar D' (walk c ρ G ch) := by
  intro c
  induction c with
  | ret r => intro D D' ρ G ch hg I; exact sub_seen I.seen hg
  | again rs =>
    intro D D' ρ G ch hg I r hr
    obtain ⟨q, hq, rfl⟩ := List.mem_map.1 hr
    exact sub_seen I.seen (hg q hq)
  | exit m r => intro D D' ρ G ch hg I; exact sub_seen I.seen hg
  | op t o k ih =>
    intro D D' ρ G ch hg I
    obtain ⟨ht, ho, ha, hk⟩ := hg
    have ht' : t ∉ D' := fun h => ht (I.sub t h)
    rw [walk, if_neg (by rw [I.new t ht]; simp)]
    split
    · split
      · rename_i t' hf
        obtain ⟨s, hs, c, hm, he⟩ := find_mem hf
        exact ih _ _ _ _ _ hk (I.replace ht (I.comp s hs _ hm))
      · exact ⟨ht', op_sub_seen I.seen ho, op_sub_arity ρ ha, ih _ _ _ _ _ hk ((I.bind ht).add (by simp))⟩
    · exact ⟨ht', op_sub_seen I.seen ho, op_sub_arity ρ ha, ih _ _ _ _ _ hk (I.bind ht)⟩
  | ifs t r a b k iha ihb ihk =>
    intro D D' ρ G ch hg I
    obtain ⟨ht, hr, ha, hb, hk⟩ := hg
    have ht' : t ∉ D' := fun h => ht (I.sub t h)
    rw [walk]
    split
    · exact ⟨ht', iha _ _ _ _ _ ha (I.inner _), ihk _ _ _ _ _ hk (I.bind ht)⟩
    · exact ⟨ht', ihb _ _ _ _ _ hb (I.inner _), ihk _ _ _ _ _ hk (I.bind ht)⟩
    · exact ⟨ht', sub_seen I.seen hr, iha _ _ _ _ _ ha (I.inner _), ihb _ _ _ _ _ hb (I.inner _),
        ihk _ _ _ _ _ hk (I.bind ht)⟩
  | splice t a k iha ihk =>
    intro D D' ρ G ch hg I
    obtain ⟨ht, ha, hk⟩ := hg
    exact ⟨fun h => ht (I.sub t h), iha _ _ _ _ _ ha (I.inner _), ihk _ _ _ _ _ hk (I.bind ht)⟩
  | loop t ms a k iha ihk =>
    intro D D' ρ G ch hg I
    obtain ⟨ht, hms, ha, hk⟩ := hg
    refine ⟨fun h => ht (I.sub t h), ?_, ?_, ihk _ _ _ _ _ hk (I.bind ht)⟩
    · intro m hm
      obtain ⟨m', hm', rfl⟩ := List.mem_map.1 hm
      exact ⟨fun h => (hms m' hm').1 (I.sub _ h), sub_seen I.seen (hms m' hm').2⟩
    · have h2 : (ms.map fun m => (m.1, sub ρ m.2)).map (·.1) = ms.map (·.1) := by
        rw [List.map_map]; exact List.map_congr_left fun m hm => rfl
      rw [h2]
      refine iha _ _ _ _ _ ha ((I.inner _).merges ?_)
      intro u hu
      obtain ⟨m, hm, rfl⟩ := List.mem_map.1 hu
      exact (hms m hm).1
  | bindExit t m a k iha ihk =>
    intro D D' ρ G ch hg I
    obtain ⟨ht, ha, hk⟩ := hg
    exact ⟨fun h => ht (I.sub t h), iha _ _ _ _ _ ha (I.inner _), ihk _ _ _ _ _ hk (I.bind ht)⟩
  | protect t a c k iha ihc ihk =>
    intro D D' ρ G ch hg I
    obtain ⟨ht, ha, hc, hk⟩ := hg
    exact ⟨fun h => ht (I.sub t h), iha _ _ _ _ _ ha (I.inner _), ihc _ _ _ _ _ hc (I.inner _),
      ihk _ _ _ _ _ hk (I.bind ht)⟩

/-- As long as no `if` is folded, the walk stays where it is meant to be. -/
theorem walkOut_walk : ∀ (c : Code) (ρ : Nat → Ref) (G : Nat → Bool) (ch : Chain) (outer : List Code),
    (walkOut c ρ G ch outer).folded = false →
    (walkOut c ρ G ch outer).code = walk c ρ G ch ∧ (walkOut c ρ G ch outer).out = [] := by
  intro c
  induction c with
  | ret r => intro ρ G ch outer h; exact ⟨rfl, rfl⟩
  | again rs => intro ρ G ch outer h; exact ⟨rfl, rfl⟩
  | exit m r => intro ρ G ch outer h; exact ⟨rfl, rfl⟩
  | op t o k ih =>
    intro ρ G ch outer h
    rw [walkOut] at h ⊢
    rw [walk]
    split
    · rename_i h1
      rw [if_pos h1] at h
      exact ih _ _ _ _ h
    · rename_i h1
      rw [if_neg h1] at h
      split
      · rename_i h2
        rw [if_pos h2] at h
        cases hf : find (o.sub ρ) ch with
        | some t' => rw [hf] at h; exact ih _ _ _ _ h
        | none =>
          rw [hf] at h
          obtain ⟨h3, h4⟩ := ih _ _ _ _ h
          exact ⟨by simp only [h3], h4⟩
      · rename_i h2
        rw [if_neg h2] at h
        obtain ⟨h3, h4⟩ := ih _ _ _ _ h
        exact ⟨by simp only [h3], h4⟩
  | ifs t r a b k iha ihb ihk =>
    intro ρ G ch outer h
    rw [walkOut] at h ⊢
    rw [walk]
    cases hf : knownTest G ch (sub ρ r) with
    | some d => rw [hf] at h; cases d <;> simp at h
    | none =>
      rw [hf] at h
      simp only [Bool.or_eq_false_iff] at h
      obtain ⟨⟨ha, hb⟩, hk⟩ := h
      simp only
      obtain ⟨ha1, ha2⟩ := iha _ _ _ _ ha
      rw [ha2] at hb hk ⊢
      simp only [extend] at hb hk ⊢
      obtain ⟨hb1, hb2⟩ := ihb _ _ _ _ hb
      rw [hb2] at hk ⊢
      simp only [extend] at hk ⊢
      obtain ⟨hk1, hk2⟩ := ihk _ _ _ _ hk
      exact ⟨by rw [ha1, hb1, hk1], by rw [hk2]; rfl⟩
  | splice t a k iha ihk =>
    intro ρ G ch outer h
    rw [walkOut] at h ⊢
    rw [walk]
    simp only [Bool.or_eq_false_iff] at h
    obtain ⟨ha, hk⟩ := h
    obtain ⟨ha1, ha2⟩ := iha _ _ _ _ ha
    rw [ha2] at hk ⊢
    simp only [extend] at hk ⊢
    obtain ⟨hk1, hk2⟩ := ihk _ _ _ _ hk
    exact ⟨by rw [ha1, hk1], by rw [hk2]; rfl⟩
  | loop t ms a k iha ihk =>
    intro ρ G ch outer h
    rw [walkOut] at h ⊢
    rw [walk]
    simp only [Bool.or_eq_false_iff] at h
    obtain ⟨ha, hk⟩ := h
    obtain ⟨ha1, ha2⟩ := iha _ _ _ _ ha
    rw [ha2] at hk ⊢
    simp only [extend] at hk ⊢
    obtain ⟨hk1, hk2⟩ := ihk _ _ _ _ hk
    exact ⟨by rw [ha1, hk1], by rw [hk2]; rfl⟩
  | bindExit t m a k iha ihk =>
    intro ρ G ch outer h
    rw [walkOut] at h ⊢
    rw [walk]
    simp only [Bool.or_eq_false_iff] at h
    obtain ⟨ha, hk⟩ := h
    obtain ⟨ha1, ha2⟩ := iha _ _ _ _ ha
    rw [ha2] at hk ⊢
    simp only [extend] at hk ⊢
    obtain ⟨hk1, hk2⟩ := ihk _ _ _ _ hk
    exact ⟨by rw [ha1, hk1], by rw [hk2]; rfl⟩
  | protect t a c k iha ihc ihk =>
    intro ρ G ch outer h
    rw [walkOut] at h ⊢
    rw [walk]
    simp only [Bool.or_eq_false_iff] at h
    obtain ⟨⟨ha, hc⟩, hk⟩ := h
    obtain ⟨ha1, ha2⟩ := iha _ _ _ _ ha
    rw [ha2] at hc hk ⊢
    simp only [extend] at hc hk ⊢
    obtain ⟨hc1, hc2⟩ := ihc _ _ _ _ hc
    rw [hc2] at hk ⊢
    simp only [extend] at hk ⊢
    obtain ⟨hk1, hk2⟩ := ihk _ _ _ _ hk
    exact ⟨by rw [ha1, hc1, hk1], by rw [hk2]; rfl⟩

end Verif.Cse
