import Verif.Nlx.Sim

/-!
# Facts about the meaning of programs

Helper lemmas: the events of a program are balanced, blocks have different
numbers, and programs whose cleanup clauses do not exit are tame.
-/

namespace Verif.Nlx

theorem Balanced.append {s t : List Event} (hs : Balanced s) (ht : Balanced t) :
    Balanced (s ++ t) := by
  induction hs with
  | nil => exact ht
  | act e _ ih => exact .act e ih
  | block u h1 _ _ ih2 =>
    rw [List.cons_append, List.append_assoc, List.cons_append]
    exact .block u h1 ih2

theorem Balanced.count {t : List Event} (ht : Balanced t) (u : Nat) :
    t.count (.clean u) = t.count (.enter u) := by
  induction ht with
  | nil => rfl
  | act e _ ih => simpa [List.count_cons] using ih
  | block v _ _ ih1 ih2 =>
    simp only [List.count_cons, List.count_append, ih1, ih2]
    by_cases h : v = u
    · subst h; simp; omega
    · simp [h]

/-- The events of a program that has a meaning are balanced, and every block
in them has a number of its own. -/
theorem spec_events (w : World) (p : Prog) (A : List Handle) (tr : List Event) (n : Nat)
    (hv : (spec w p A tr n).out ≠ .invalid) :
    ∃ t, (spec w p A tr n).tr = tr ++ t ∧ Balanced t ∧
      ∀ u, t.count (.enter u) ≤ 1 ∧
        (u < n ∨ (spec w p A tr n).next ≤ u → t.count (.enter u) = 0) := by
  induction p generalizing A tr n with
  | done vs => exact ⟨[], by simp [spec], .nil, by simp⟩
  | act e k ih =>
    simp only [spec] at hv ⊢
    obtain ⟨t, h1, h2, h3⟩ := ih _ _ _ _ hv
    exact ⟨.act e :: t, by rw [h1]; simp, .act e h2, by simpa [List.count_cons] using h3⟩
  | exit h vs => exact ⟨[], by simp [spec], .nil, by simp⟩
  | bindExit loc body k ihb ihk =>
    simp only [spec, SRes.andThen] at hv ⊢
    have hle := spec_next_le w (body ⟨n, loc⟩) (⟨n, loc⟩ :: A) tr (n + 1)
    have hb : (spec w (body ⟨n, loc⟩) (⟨n, loc⟩ :: A) tr (n + 1)).out ≠ .invalid := by
      intro e
      rw [e] at hv
      simp [arrive] at hv
    obtain ⟨t, h1, h2, h3⟩ := ihb _ _ _ _ hb
    generalize spec w (body ⟨n, loc⟩) (⟨n, loc⟩ :: A) tr (n + 1) = r at *
    split at hv
    · rename_i vs ho
      obtain ⟨t', h1', h2', h3'⟩ := ihk vs _ _ _ hv
      have hle' := spec_next_le w (k vs) A r.tr r.next
      refine ⟨t ++ t', by rw [h1', h1, List.append_assoc], h2.append h2', fun u => ?_⟩
      have a := h3 u
      have b := h3' u
      rw [List.count_append]
      omega
    · refine ⟨t, h1, h2, fun u => ?_⟩
      have a := h3 u
      simp only
      omega
  | protect body cl k ihb ihc ihk =>
    simp only [spec] at hv ⊢
    have hle := spec_next_le w body A (tr ++ [.enter n]) (n + 1)
    have hb : (spec w body A (tr ++ [.enter n]) (n + 1)).out ≠ .invalid := by
      intro e
      simp [SRes.cleanup, e, SRes.andThen] at hv
    obtain ⟨t, h1, h2, h3⟩ := ihb _ _ _ hb
    generalize spec w body A (tr ++ [.enter n]) (n + 1) = r at *
    have hle2 := spec_next_le w cl A (r.tr ++ [.clean n]) r.next
    have hcl : r.cleanup n (fun tr n => spec w cl A tr n) =
        ⟨resume r.out (spec w cl A (r.tr ++ [.clean n]) r.next).out,
          (spec w cl A (r.tr ++ [.clean n]) r.next).tr,
          (spec w cl A (r.tr ++ [.clean n]) r.next).next⟩ := by
      cases ho : r.out <;> simp_all [SRes.cleanup]
    rw [hcl] at hv ⊢
    have hc : (spec w cl A (r.tr ++ [.clean n]) r.next).out ≠ .invalid := by
      intro e
      simp [e, resume, SRes.andThen] at hv
    obtain ⟨t2, g1, g2, g3⟩ := ihc _ _ _ hc
    generalize spec w cl A (r.tr ++ [.clean n]) r.next = q at *
    have htq : q.tr = tr ++ (.enter n :: (t ++ .clean n :: t2)) := by
      rw [g1, h1]; simp
    have hcount : ∀ u, (Event.enter n :: (t ++ .clean n :: t2)).count (.enter u) ≤ 1 ∧
        (u < n ∨ q.next ≤ u → (Event.enter n :: (t ++ .clean n :: t2)).count (.enter u) = 0) := by
      intro u
      have a := h3 u
      have b := g3 u
      simp only [List.count_cons, List.count_append]
      by_cases hu : n = u
      · subst hu
        simp
        omega
      · simp [hu]
        omega
    simp only [SRes.andThen] at hv ⊢
    cases ho : resume r.out q.out with
    | normal vs =>
      simp only [ho] at hv ⊢
      obtain ⟨t', h1', h2', h3'⟩ := ihk vs _ _ _ hv
      have hle' := spec_next_le w (k vs) A q.tr q.next
      refine ⟨(.enter n :: (t ++ .clean n :: t2)) ++ t', by rw [h1', htq, List.append_assoc],
        (Balanced.block n h2 g2).append h2', fun u => ?_⟩
      have a := hcount u
      have b := h3' u
      rw [List.count_append]
      omega
    | exiting h vs =>
      exact ⟨_, htq, .block n h2 g2, hcount⟩
    | invalid => simp [ho] at hv

theorem noExit_normal (w : World) (p : Prog) (A : List Handle) (tr : List Event) (n : Nat)
    (h : NoExit p) : ∃ vs, (spec w p A tr n).out = .normal vs := by
  induction p generalizing A tr n with
  | done vs => exact ⟨vs, rfl⟩
  | act e k ih => simpa [spec] using ih _ _ _ _ (h _)
  | exit h' vs => exact absurd h (by simp [NoExit])
  | bindExit loc body k ihb ihk =>
    obtain ⟨v, hv⟩ := ihb ⟨n, loc⟩ (⟨n, loc⟩ :: A) tr (n + 1) (h.1 _)
    simpa [spec, SRes.andThen, hv, arrive] using ihk v _ _ _ (h.2 v)
  | protect body cl k ihb ihc ihk =>
    obtain ⟨v, hv⟩ := ihb A (tr ++ [.enter n]) (n + 1) h.1
    obtain ⟨v', hv'⟩ := ihc A ((spec w body A (tr ++ [.enter n]) (n + 1)).tr ++ [.clean n])
      (spec w body A (tr ++ [.enter n]) (n + 1)).next h.2.1
    simpa [spec, SRes.andThen, SRes.cleanup, hv, hv', resume] using ihk v _ _ _ (h.2.2 v)

theorem tame_noExit (w : World) (hw : ∀ t, (w t).length ≤ valuesMax) (p : Prog) (μ : Mode)
    (D A : List Handle) (tr : List Event) (n : Nat) (h : NoExit p) (hf : FewValues p) :
    Tame w p μ D A tr n := by
  induction p generalizing μ D A tr n with
  | done vs => exact hf
  | act e k ih => exact ⟨hw _, ih _ _ _ _ _ _ (h _) (hf _)⟩
  | exit h' vs => exact absurd h (by simp [NoExit])
  | bindExit loc body k ihb ihk =>
    obtain ⟨v, hv⟩ := noExit_normal w (body ⟨n, loc⟩) (⟨n, loc⟩ :: A) tr (n + 1) (h.1 _)
    refine ⟨ihb _ _ _ _ _ _ (h.1 _) (hf.1 _), fun vs e => ?_, fun vs _ =>
      ihk _ _ _ _ _ _ (h.2 _) (hf.2 _)⟩
    rw [hv] at e
    simp at e
  | protect body cl k ihb ihc ihk =>
    obtain ⟨v, hv⟩ := noExit_normal w body A (tr ++ [.enter n]) (n + 1) h.1
    refine ⟨ihb _ _ _ _ _ h.1 hf.1, fun vs _ => ⟨ihc _ _ _ _ _ h.2.1 hf.2.1,
      noExit_normal _ _ _ _ _ h.2.1, ihk _ _ _ _ _ _ (h.2.2 _) (hf.2.2 _)⟩, fun h' vs e => ?_⟩
    rw [hv] at e
    simp at e

theorem tame_plain (w : World) (hw : ∀ t, (w t).length ≤ valuesMax) (p : Prog)
    (D A : List Handle) (tr : List Event) (n : Nat) (h : PlainCleanups p) (hf : FewValues p) :
    Tame w p .body D A tr n := by
  induction p generalizing D A tr n with
  | done vs => exact hf
  | act e k ih => exact ⟨hw _, ih _ _ _ _ _ (h _) (hf _)⟩
  | exit h' vs => exact hf
  | bindExit loc body k ihb ihk =>
    exact ⟨ihb _ _ _ _ _ (h.1 _) (hf.1 _), fun vs _ _ => by simp, fun vs _ =>
      ihk _ _ _ _ _ (h.2 _) (hf.2 _)⟩
  | protect body cl k ihb ihc ihk =>
    refine ⟨ihb _ _ _ _ h.1 hf.1, fun vs _ => ⟨tame_noExit w hw _ _ _ _ _ _ h.2.1 hf.2.1,
      noExit_normal _ _ _ _ _ h.2.1, ihk _ _ _ _ _ (h.2.2 _) (hf.2.2 _)⟩, fun h' vs _ =>
      ⟨tame_noExit w hw _ _ _ _ _ _ h.2.1 hf.2.1, fun h2 vs2 e => ?_⟩⟩
    obtain ⟨v', hv'⟩ := noExit_normal w cl A
      ((spec w body A (tr ++ [.enter n]) (n + 1)).tr ++ [.clean n])
      (spec w body A (tr ++ [.enter n]) (n + 1)).next h.2.1
    rw [hv'] at e
    simp at e

end Verif.Nlx
