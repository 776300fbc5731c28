import Verif.Signal.Spec

/-! # Lemmas about running programs with handlers -/

namespace Verif.Signal

/-! ## More steps do not change a result -/

theorem andThen_le {r r' : Run} {f g : Vals → St → Run} {z}
    (hr : ∀ z, r = some z → r' = some z)
    (hf : ∀ vs s z, f vs s = some z → g vs s = some z)
    (h : Run.andThen r f = some z) : Run.andThen r' g = some z := by
  cases r with
  | none => simp [Run.andThen] at h
  | some p =>
    rw [hr p rfl]
    obtain ⟨o, s⟩ := p
    cases o <;> simp only [Run.andThen] at h ⊢ <;> first | exact hf _ _ _ h | exact h

theorem land_le {r r' : Run} {id z} (hr : ∀ z, r = some z → r' = some z)
    (h : Run.land r id = some z) : Run.land r' id = some z := by
  cases r with
  | none => simp [Run.land] at h
  | some p => rw [hr p rfl]; exact h

theorem cleanup_le {r r' : Run} {f g : St → Run} {z}
    (hr : ∀ z, r = some z → r' = some z)
    (hf : ∀ s z, f s = some z → g s = some z)
    (h : Run.cleanup r f = some z) : Run.cleanup r' g = some z := by
  cases r with
  | none => simp [Run.cleanup] at h
  | some p =>
    rw [hr p rfl]
    obtain ⟨o, s⟩ := p
    cases o <;> simp only [Run.cleanup] at h ⊢
    · exact andThen_le (hf _) (fun _ _ _ h => h) h
    · exact andThen_le (hf _) (fun _ _ _ h => h) h
    · exact h

theorem restore_le {r r' : Run} {hs z} (hr : ∀ z, r = some z → r' = some z)
    (h : Run.restore r hs = some z) : Run.restore r' hs = some z :=
  cleanup_le hr (fun _ _ h => h) h

theorem run_succ (w : World) (n : Nat) : ∀ (live : List Exit) (code : Code) (s : St) z,
    run w n live code s = some z → run w (n + 1) live code s = some z := by
  induction n with
  | zero => intro live code s z h; simp [run] at h
  | succ n ih =>
    intro live code s z h
    have ih' : ∀ live code s z, run w n live code s = some z → run w (n + 1) live code s = some z := ih
    rw [run.eq_def] at h
    rw [run.eq_def]
    cases code with
    | prog p =>
      cases p with
      | done vs => exact h
      | act e => exact h
      | bind p k => exact andThen_le (ih' _ _ _) (fun _ _ => ih' _ _ _) h
      | bindExit body => exact land_le (ih' _ _ _) h
      | exit x vs => exact h
      | protect body cl => exact cleanup_le (ih' _ _ _) (fun _ => ih' _ _ _) h
      | letHandler tag type test fn body => exact restore_le (ih' _ _ _) h
      | exception tag type test handling body =>
        exact land_le (fun z hz => restore_le (ih' _ _ _) hz) h
      | signal c => exact ih' _ _ _ _ h
      | error c => exact ih' _ _ _ _ h
      | next t =>
        dsimp only at h ⊢
        cases hq : s.mem.nexts[t]? with
        | none => rw [hq] at h; exact h
        | some q => rw [hq] at h; exact ih' _ _ _ _ h
      | addLast tag type test fn => exact h
      | removeLast => exact h
      | doHandlers f => exact andThen_le (ih' _ _ _) (fun _ _ => ih' _ _ _) h
    | search sid hs c =>
      cases hs with
      | nil =>
        dsimp only at h ⊢
        by_cases hd : s.mem.doneLast.getD sid false = true
        · rw [if_pos hd] at h ⊢; exact ih' _ _ _ _ h
        · rw [if_neg hd] at h ⊢; exact ih' _ _ _ _ h
      | cons hd hs =>
        refine andThen_le (ih' _ _ _) (fun vs s z h => ?_) h
        cases hv : isFalse vs with
        | true => rw [hv] at h; exact ih' _ _ _ _ h
        | false => rw [hv] at h; exact ih' _ _ _ _ h
    | «matches» hd c =>
      dsimp only at h ⊢
      by_cases ht : hd.type c = false
      · rw [if_pos ht] at h ⊢; exact h
      · rw [if_neg ht] at h ⊢
        cases hq : hd.test with
        | none => rw [hq] at h; exact h
        | some q => rw [hq] at h; exact ih' _ _ _ _ h
    | invoke sid hd hs c =>
      cases hd with
      | user tag type test fn => exact ih' _ _ _ _ h
      | clause tag type test handling original unwind =>
        exact andThen_le (ih' _ _ _) (fun _ _ _ h => h) h
    | default c =>
      dsimp only at h ⊢
      cases hq : w.default c with
      | plain => rw [hq] at h; exact h
      | serious => rw [hq] at h; exact andThen_le (ih' _ _ _) (fun _ _ _ h => h) h
      | restart => rw [hq] at h; exact andThen_le (ih' _ _ _) (fun _ _ _ h => h) h
      | user p => rw [hq] at h; exact ih' _ _ _ _ h
    | error c => exact andThen_le (ih' _ _ _) (fun _ _ => ih' _ _ _) h
    | each f hs =>
      cases hs with
      | nil => exact h
      | cons hd hs => exact andThen_le (ih' _ _ _) (fun _ _ => ih' _ _ _) h

theorem run_le (w : World) {n k : Nat} (hk : n ≤ k) {live code s z}
    (h : run w n live code s = some z) : run w k live code s = some z := by
  induction hk with
  | refl => exact h
  | step _ ih => exact run_succ w _ _ _ _ _ ih

end Verif.Signal
