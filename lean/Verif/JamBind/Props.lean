import Verif.JamBind.Lemmas

/-!
# Which targets are built: the properties
-/

namespace Verif.JamBind

/-- A target that takes part in the checks in the usual way: not one of the rules `Leaves` and `NoUpdate` was applied to it. -/
def Usual (p : Project) (i : Nat) : Prop := (p.target i).leafOnly = false ∧ (p.target i).check = true

/-- **C154.**  A target is built if one of the targets that it depends on is built. -/
theorem built_with_dependency {p : Project} (h : Ordered p) {i d : Nat} (hu : Usual p i) (hd : d ∈ (p.target i).deps)
    (hb : built p d = true) : built p i = true := by
  have hw := (fold_le (p := p) (res := result p) hu.1 (p.target i).deps (0, 0, stable)).2.2 d hd
  simp only [built, decide_eq_true_eq] at hb ⊢
  rw [status_eq h (.inl (List.ne_nil_of_mem hd)) hu.2]
  exact statusOf_temp (Nat.le_trans (Nat.le_trans (by decide) hb) hw.1)

/-- A chain of dependencies whose members, but for the last, are files. -/
inductive Chain (p : Project) : Nat → Nat → Prop where
  | one {i j : Nat} : j ∈ (p.target i).deps → Usual p i → (p.target i).file = true → (p.target j).check = true → Chain p i j
  | more {i d j : Nat} : d ∈ (p.target i).deps → Usual p i → (p.target i).file = true → Chain p d j → Chain p i j

theorem chain_date {p : Project} (h : Ordered p) {i j m : Nat} (hc : Chain p i j) (hj : (p.target j).date = some m) :
    temp ≤ (worstAll p (p.target i) (result p)).2.2 ∨ m ≤ (worstAll p (p.target i) (result p)).1 := by
  induction hc with
  | @one i j hd hu hf hk =>
    have hw := (fold_le (p := p) (res := result p) hu.1 (p.target i).deps (0, 0, stable)).2.2 j hd
    right
    have he := date_eq h (i := j)
    rw [hj, Option.map_some] at he
    exact Nat.le_trans (Nat.le_max_left _ _) (hw.2 hk _ he)
  | @more i d j hd hu hf hc ih =>
    have hw := (fold_le (p := p) (res := result p) hu.1 (p.target i).deps (0, 0, stable)).2.2 d hd
    obtain ⟨hud, hfd, hne⟩ : Usual p d ∧ (p.target d).file = true ∧ (p.target d).deps ≠ [] := by
      cases hc with
      | one h1 h2 h3 _ => exact ⟨h2, h3, List.ne_nil_of_mem h1⟩
      | more h1 h2 h3 _ => exact ⟨h2, h3, List.ne_nil_of_mem h1⟩
    have hs := status_eq h (.inl hne) hud.2
    rcases ih hj with h1 | h1
    · left
      have := statusOf_temp (p := p) (i := d) (last := (worstAll p (p.target d) (result p)).1) h1
      rw [← hs] at this
      exact Nat.le_trans (Nat.le_trans (by decide) this) hw.1
    · cases hdd : (p.target d).date with
      | none =>
        left
        have := statusOf_missing (last := (worstAll p (p.target d) (result p)).1)
          (st := (worstAll p (p.target d) (result p)).2.2) hfd hdd
        rw [← hs] at this
        exact Nat.le_trans (Nat.le_trans (by decide) this) hw.1
      | some md =>
        right
        have he := date_eq h (i := d)
        rw [hdd, Option.map_some, hud.2, if_pos rfl] at he
        have := hw.2 hud.2 _ he
        exact Nat.le_trans (Nat.le_trans h1 (Nat.le_max_right _ _)) this

/-- **C154.**  The full claim is that a file is built if it does not exist, or if any file that it depends on, directly or not, is
newer.  This is so if there are only files on the way to the newer one; what is missing are targets that are not files
(`pseudo_violated`). -/
theorem built_if_older_partial {p : Project} (h : Ordered p) {i : Nat} (hf : (p.target i).file = true) :
    ((p.target i).date = none → (p.target i).check = true → (p.target i).deps ≠ [] ∨ (p.target i).actions = true →
      built p i = true) ∧
    ∀ {j m mj : Nat}, Chain p i j → (p.target i).date = some m → (p.target j).date = some mj → m < mj → built p i = true := by
  constructor
  · intro hd hc hne
    simp only [built, decide_eq_true_eq]
    rw [status_eq h hne hc]
    exact statusOf_missing hf hd
  · intro j m mj hch hm hmj hlt
    obtain ⟨hu, hne⟩ : Usual p i ∧ (p.target i).deps ≠ [] := by
      cases hch with
      | one h1 h2 _ _ => exact ⟨h2, List.ne_nil_of_mem h1⟩
      | more h1 h2 _ _ => exact ⟨h2, List.ne_nil_of_mem h1⟩
    simp only [built, decide_eq_true_eq]
    rw [status_eq h (.inl hne) hu.2]
    rcases chain_date h hch hmj with h1 | h1
    · exact statusOf_temp h1
    · exact statusOf_outdated hf hm (Nat.lt_of_lt_of_le hlt h1)

/-- A source, an object file and a program: the source is newer than the program, and the object file, wrongly dated, newer still. -/
def sample : Project where
  target := fun i => match i with
    | 0 => { date := some 7 }
    | 1 => { date := some 9, deps := [0], actions := true }
    | 2 => { date := some 5, deps := [1], actions := true }
    | _ => {}
  parent := fun i => if i < 2 then some (i + 1) else none
  force := false

theorem sample_ordered : Ordered sample := by
  intro i d hd
  match i, hd with
  | 0, hd => simp [sample] at hd
  | 1, hd =>
    simp [sample] at hd
    omega
  | 2, hd =>
    simp [sample] at hd
    omega
  | i + 3, hd => simp [sample] at hd

example : Chain sample 2 0 ∧ built sample 2 = true ∧ built sample 1 = false ∧ built sample 0 = false :=
  ⟨.more (d := 1) (by decide) ⟨rfl, rfl⟩ rfl (.one (by decide) ⟨rfl, rfl⟩ rfl rfl), by decide +kernel, by decide +kernel,
    by decide +kernel⟩

/-- **C154.**  What is up to date is not built: if every file exists and is not older than the files that it directly depends on,
then nothing is built but the targets that are always built and what depends on them. -/
theorem fresh_not_built {p : Project} (h : Ordered p) (hforce : p.force = false)
    (hall : ∀ i, Usual p i ∧ (p.target i).internal = false ∧ (p.target i).always = false ∧
      (((p.target i).file = false ∧ (p.target i).date = none ∧ (p.target i).temporary = false) ∨
        ∃ m, (p.target i).file = true ∧ (p.target i).date = some m ∧
          ∀ d ∈ (p.target i).deps, ∀ md, (p.target d).date = some md → md ≤ m)) :
    ∀ i, built p i = false := by
  have key : ∀ n i, i < n → (result p i).status ≤ newer ∧ (result p i).date = (p.target i).date := by
    intro n
    induction n with
    | zero => intro i hi; omega
    | succ n ih =>
      intro i hi
      obtain ⟨hu, hint, halw, hcase⟩ := hall i
      have hdep : ∀ d ∈ (p.target i).deps, (result p d).status ≤ newer ∧ (result p d).date = (p.target d).date :=
        fun d hd => ih d (by have := h i d hd; omega)
      have hst := fold_ge (p := p) (t := p.target i) (res := result p)
        (B := (worstAll p (p.target i) (result p)).1) (S := newer) hu.1 (p.target i).deps (0, 0, stable) (Nat.zero_le _) (by decide)
        (fun d hd => ⟨(hdep d hd).1, fun hk m hm =>
          ((fold_le (p := p) (res := result p) hu.1 (p.target i).deps (0, 0, stable)).2.2 d hd).2 hk m hm⟩)
      have hs : (worstAll p (p.target i) (result p)).2.2 ≤ newer := hst.2
      rcases hcase with ⟨hf, hd, hpd⟩ | ⟨m, hf, hd, hdd⟩
      · refine ⟨?_, by rw [date_eq h, hd]; rfl⟩
        have htd : timeDate p i = none := by
          unfold timeDate
          simp [hint, hpd, hd]
        have hso : ∀ last, statusOf p i last (worstAll p (p.target i) (result p)).2.2 ≤ newer ∧
            statusOf p i last (worstAll p (p.target i) (result p)).2.2 ≠ missing := by
          intro last
          unfold statusOf
          rw [if_neg (by unfold missing newer at *; omega), if_neg (by unfold temp newer at *; omega), htd]
          simp only [hf, Bool.false_and, Bool.false_eq_true, if_false, after, halw, hforce, Bool.or_self]
          split <;> decide
        rw [result_eq h, bindWith]
        simp only [hu.2, if_true]
        rw [if_neg fun hx => (hso _).2 hx.1]
        exact (hso _).1
      · have hlast : (worstAll p (p.target i) (result p)).1 ≤ m := by
          refine (fold_ge (p := p) (t := p.target i) (res := result p) (B := m) (S := newer) hu.1 (p.target i).deps (0, 0, stable)
            (Nat.zero_le _) (by decide) fun d hd => ⟨(hdep d hd).1, fun _ md hmd => ?_⟩).1
          rw [(hdep d hd).2] at hmd
          exact hdd d hd md hmd
        refine ⟨?_, ?_⟩
        · have htd : timeDate p i = some m := by
            unfold timeDate
            simp [hint, hd]
          have hna : after (worstAll p (p.target i) (result p)).1 (some m) = false := by
            simp [after]
            omega
          have hso : statusOf p i (worstAll p (p.target i) (result p)).1 (worstAll p (p.target i) (result p)).2.2 ≤ newer ∧
              statusOf p i (worstAll p (p.target i) (result p)).1 (worstAll p (p.target i) (result p)).2.2 ≠ missing := by
            unfold statusOf
            rw [if_neg (by unfold missing newer at *; omega), if_neg (by unfold temp newer at *; omega), htd, hd, hna]
            simp only [Option.isNone_some, Bool.and_false, Bool.false_eq_true, if_false, halw, hforce, Bool.or_self,
              Bool.false_and]
            split <;> decide
          rw [result_eq h, bindWith]
          simp only [hu.2, if_true]
          rw [if_neg fun hx => hso.2 hx.1]
          exact hso.1
        · rw [date_eq h, hd, hu.2, if_pos rfl, Option.map_some, Nat.max_eq_left hlast]
  intro i
  have := (key (i + 1) i (by omega)).1
  simp only [built, decide_eq_false_iff_not]
  unfold touched newer at *
  omega

/-- The same project after the program was built, with a name for the whole. -/
def freshSample : Project where
  target := fun i => match i with
    | 0 => { date := some 7 }
    | 1 => { date := some 9, deps := [0], actions := true }
    | 2 => { date := some 9, deps := [1, 0], actions := true }
    | _ + 3 => { file := false, deps := [2] }
  parent := fun i => if i < 3 then some (i + 1) else none
  force := false

example : ∀ i, built freshSample i = false := by
  refine fresh_not_built ?_ rfl ?_
  · intro i d hd
    match i, hd with
    | 0, hd => simp [freshSample] at hd
    | 1, hd =>
      simp [freshSample] at hd
      omega
    | 2, hd =>
      simp [freshSample] at hd
      omega
    | i + 3, hd =>
      simp [freshSample] at hd
      omega
  · intro i
    match i with
    | 0 => exact ⟨⟨rfl, rfl⟩, rfl, rfl, .inr ⟨7, rfl, rfl, by simp [freshSample]⟩⟩
    | 1 => exact ⟨⟨rfl, rfl⟩, rfl, rfl, .inr ⟨9, rfl, rfl, by simp [freshSample]⟩⟩
    | 2 => exact ⟨⟨rfl, rfl⟩, rfl, rfl, .inr ⟨9, rfl, rfl, by simp [freshSample]⟩⟩
    | i + 3 => exact ⟨⟨rfl, rfl⟩, rfl, rfl, .inl ⟨rfl, rfl, rfl⟩⟩

/-- **C154.**  Without a reason nothing is built: a target is built only if its file does not exist, it is always built or building is
forced, a target that it directly depends on is built, or something that it depends on is newer than its file (or, if it has none
of its own, than the file that it is compared with). -/
theorem built_only_if {p : Project} (h : Ordered p) {i : Nat} (hb : built p i = true) :
    ((p.target i).file = true ∧ (p.target i).date = none) ∨ (p.target i).always = true ∨ p.force = true ∨
    (∃ d ∈ (p.target i).deps, built p d = true) ∨
    ∃ m last, ((p.target i).date = some m ∨ timeDate p i = some m) ∧ m < last ∧ (p.target i).check = true ∧
      ∃ d ∈ (p.target i).deps, (result p d).date = some last ∨ (result p d).leaf = last := by
  have hfrom : FromDep (result p) (p.target i).deps (worstAll p (p.target i) (result p)) :=
    fold_from _ _ (fun d hd => hd) ⟨.inl rfl, .inl rfl, .inl rfl⟩
  have hst : touched ≤ statusOf p i (if (p.target i).check then (worstAll p (p.target i) (result p)).1 else 0)
      (if (p.target i).check then (worstAll p (p.target i) (result p)).2.2 else stable) := by
    simp only [built, decide_eq_true_eq] at hb
    rw [result_eq h] at hb
    by_cases hm : statusOf p i (if (p.target i).check then (worstAll p (p.target i) (result p)).1 else 0)
        (if (p.target i).check then (worstAll p (p.target i) (result p)).2.2 else stable) = missing
    · rw [hm]
      decide
    · simp only [bindWith] at hb
      rwa [if_neg fun hx => hm hx.1] at hb
  rcases statusOf_reason hst with h1 | h1 | ⟨m, hm, h1⟩ | h1 | h1
  · split at h1
    · rcases hfrom.2.2 with h2 | ⟨d, hd, h2⟩
      · rw [h2] at h1
        exact absurd h1 (by decide)
      · refine .inr (.inr (.inr (.inl ⟨d, hd, ?_⟩)))
        rw [← h2] at h1
        have := status_ne_temp h d
        simp only [built, decide_eq_true_eq]
        unfold touched temp at *
        omega
    · exact absurd h1 (by decide)
  · exact .inl h1
  · split at h1
    · rename_i hc
      rcases hfrom.1 with h2 | ⟨d, hd, h2⟩
      · omega
      · exact .inr (.inr (.inr (.inr ⟨m, _, hm, h1, hc, d, hd, h2⟩)))
    · omega
  · exact .inr (.inl h1)
  · exact .inr (.inr (.inl h1))

example : built sample 2 = true ∧ (sample.target 2).date = some 5 ∧ (result sample 1).date = some 9 ∧
    (result sample 1).status = newer := by
  decide +kernel

/-- **C154, not so.**  A program depends on a target that is not a file, such as a name for a group of files, and this on a file
that is newer than the program: the program is not built. -/
theorem pseudo_violated : ∃ p : Project, Ordered p ∧ (p.target 0).date = some 7 ∧ (p.target 1).deps = [0] ∧
    (p.target 1).file = false ∧ (p.target 2).deps = [1] ∧ (p.target 2).file = true ∧ (p.target 2).date = some 5 ∧
    built p 2 = false := by
  refine ⟨⟨fun i => match i with
    | 0 => { date := some 7 }
    | 1 => { file := false, deps := [0] }
    | 2 => { date := some 5, deps := [1], actions := true }
    | _ => {}, fun i => if i < 2 then some (i + 1) else none, false⟩, ?_, rfl, rfl, rfl, rfl, rfl, rfl, by decide +kernel⟩
  intro i d hd
  match i, hd with
  | 0, hd => simp at hd
  | 1, hd =>
    simp at hd
    omega
  | 2, hd =>
    simp at hd
    omega
  | i + 3, hd => simp at hd

/-- **C154, not so.**  A file that does not exist and that nothing tells how to build: what depends on it is built all the same. -/
theorem not_found_violated : ∃ p : Project, (p.target 0).date = none ∧ (p.target 0).actions = false ∧
    (result p 0).status = nofind ∧ (p.target 1).deps = [0] ∧ (result p 1).status = nomake ∧ built p 1 = true :=
  ⟨⟨fun i => match i with
    | 1 => { date := some 5, deps := [0], actions := true }
    | _ => {}, fun i => if i < 1 then some 1 else none, false⟩, rfl, rfl, by decide +kernel, rfl, by decide +kernel, by decide +kernel⟩

end Verif.JamBind
