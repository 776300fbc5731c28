import Mathlib.Order.Nat
import Mathlib.Data.Nat.Find
import Verif.Lists.Loops
/-!
# The shapes of lists, and the loop of `size`
-/
namespace Verif.Lists

/-- The tail, or the object itself if it has none. -/
def nextV (h : Heap) : Val → Val
  | .ref a => (h.cells a).tail
  | .obj n => .obj n

/-- The `k`-th tail. -/
def nth (h : Heap) (v : Val) : Nat → Val
  | 0 => v
  | k + 1 => nextV h (nth h v k)

theorem nth_add (h : Heap) (v : Val) (j k : Nat) : nth h v (j + k) = nth h (nth h v j) k := by
  induction k with
  | zero => rfl
  | succ k ih => rw [← Nat.add_assoc]; simp only [nth, ih]

theorem nth_chain {h : Heap} {v e : Val} {as : List Nat} {xs : List Val} (hc : Chain h v as xs e) :
    nth h v as.length = e ∧ ∀ k (hk : k < as.length), nth h v k = .ref as[k] := by
  induction hc with
  | done v => exact ⟨rfl, fun k hk => absurd hk (by simp)⟩
  | @pair a as xs e nn us rest ih =>
    have key : ∀ k, nth h (.ref a) (k + 1) = nth h (h.cells a).tail k := by
      intro k
      rw [Nat.add_comm, nth_add]
      rfl
    refine ⟨by rw [List.length_cons, key]; exact ih.1, fun k hk => ?_⟩
    cases k with
    | zero => rfl
    | succ k => rw [key, ih.2 k (by simpa using hk)]; rfl

/-- The first `k` tails, as long as they are pairs. -/
theorem chain_of_nth {h : Heap} {v : Val} (hcl : Closed h) (hv : ∀ a, v = .ref a → a < h.next)
    (k : Nat) (hp : ∀ j < k, isPair (nth h v j) = true) :
    ∃ as xs, Chain h v as xs (nth h v k) ∧ as.length = k := by
  have hlt : ∀ j ≤ k, ∀ a, nth h v j = .ref a → a < h.next := by
    intro j
    induction j with
    | zero => exact fun _ a ha => hv a ha
    | succ j ih =>
      intro hj a ha
      have hpj := hp j (by omega)
      cases hn : nth h v j with
      | obj n => rw [hn] at hpj; simp [isPair] at hpj
      | ref b =>
        refine hcl b (ih (by omega) b hn) a ?_
        simpa [nth, hn, nextV] using ha
  induction k with
  | zero => exact ⟨[], [], .done v, rfl⟩
  | succ k ih =>
    obtain ⟨as, xs, h1, h2⟩ := ih (fun j hj => hp j (by omega)) (fun j hj => hlt j (by omega))
    have hpk := hp k (by omega)
    cases hn : nth h v k with
    | obj n => rw [hn] at hpk; simp [isPair] at hpk
    | ref b =>
      rw [hn] at h1 hpk
      have hb : b ≠ 0 := by simpa [isPair] using hpk
      refine ⟨as ++ [b], xs ++ [(h.cells b).head], chain_append h1 ?_, by simp [h2]⟩
      have : nth h v (k + 1) = (h.cells b).tail := by simp [nth, hn, nextV]
      rw [this]
      exact .pair hb (hlt k (by omega) b hn) (.done _)

theorem chain_stuck {h : Heap} (v : Val) {as : List Nat} {xs : List Val} {e : Val}
    (hc : Chain h v as xs e) (hd : as.Nodup) : as.length ≤ h.next := by
  have : as.toFinset ⊆ Finset.range h.next := by
    intro a ha
    simp at ha ⊢
    exact (chain_used hc a ha).2
  have := Finset.card_le_card this
  rwa [List.toFinset_card_of_nodup hd, Finset.card_range] at this

theorem shapes {h : Heap} (hcl : Closed h) {v : Val} (hv : ∀ a, v = .ref a → a < h.next)
    (hl : ∀ n, v ≠ .obj n) : (∃ xs, IsList h v xs) ∨ Circular h v ∨ Dotted h v := by
  by_cases hp : ∀ j < h.next + 1, isPair (nth h v j) = true
  · right; left
    obtain ⟨as, xs, h1, h2⟩ := chain_of_nth hcl hv (h.next + 1) hp
    have hnd : ¬ as.Nodup := fun hd => by
      have := chain_stuck v h1 hd; omega
    rw [List.nodup_iff_injective_get] at hnd
    simp only [Function.Injective] at hnd
    push Not at hnd
    obtain ⟨i, j, hij, hne⟩ := hnd
    have key : ∀ i j : Fin as.length, i.1 < j.1 → as.get i = as.get j → Circular h v := by
      intro i j hlt he
      have hs : as = as.take j.1 ++ as.drop j.1 := (List.take_append_drop _ _).symm
      rw [hs] at h1
      obtain ⟨m, c1, c2⟩ := chain_split h1
      have hm : m = .ref (as.get j) := by
        rw [List.drop_eq_getElem_cons j.2] at c2
        exact chain_start c2
      subst hm
      refine ⟨_, _, _, c1, ?_⟩
      rw [← he]
      rw [List.mem_take_iff_getElem]
      exact ⟨i.1, by have := j.2; omega, by simp⟩
    rcases Nat.lt_or_ge i.1 j.1 with hlt | hge
    · exact key i j hlt hij
    · exact key j i (by
        have : i.1 ≠ j.1 := fun hh => hne (Fin.ext hh)
        omega) hij.symm
  · push Not at hp
    obtain ⟨k, _, hk⟩ := hp
    have : ∃ k, isPair (nth h v k) ≠ true := ⟨k, hk⟩
    obtain ⟨k, hk, hmin⟩ : ∃ k, isPair (nth h v k) ≠ true ∧ ∀ j < k, isPair (nth h v j) = true := by
      classical
      refine ⟨Nat.find this, Nat.find_spec this, fun j hj => ?_⟩
      have := Nat.find_min this hj
      simpa using this
    obtain ⟨as, xs, h1, h2⟩ := chain_of_nth hcl hv k hmin
    cases hn : nth h v k with
    | ref a =>
      rw [hn] at hk h1
      have : a = 0 := by simpa [isPair] using hk
      subst this
      exact .inl ⟨xs, as, h1⟩
    | obj n =>
      rw [hn] at h1
      refine .inr (.inr ⟨as, xs, n, h1, ?_⟩)
      rintro rfl
      exact hl n (chain_nil h1).1

theorem circular_closed {h : Heap} {v e : Val} {as : List Nat} {xs : List Val}
    (hc : Chain h v as xs e) : ∀ b ∈ as, (h.cells b).tail = e ∨ ∃ c ∈ as, (h.cells b).tail = .ref c := by
  induction hc with
  | done v => simp
  | @pair a as xs e nn us rest ih =>
    intro b hb
    rcases List.mem_cons.1 hb with rfl | hb
    · cases as with
      | nil => exact .inl (chain_nil rest).1
      | cons c cs => exact .inr ⟨c, by simp, chain_start rest⟩
    · rcases ih b hb with h1 | ⟨c, hc, h1⟩
      · exact .inl h1
      · exact .inr ⟨c, by simp [hc], h1⟩

theorem circular_pairs {h : Heap} {v : Val} (hc : Circular h v) : ∀ k, isPair (nth h v k) = true := by
  obtain ⟨as, xs, a, h1, h2⟩ := hc
  have hcl := circular_closed h1
  have : ∀ k, ∃ c ∈ as, nth h v k = .ref c := by
    intro k
    induction k with
    | zero =>
      cases as with
      | nil => simp at h2
      | cons b bs => exact ⟨b, by simp, chain_start h1⟩
    | succ k ih =>
      obtain ⟨c, hc, hn⟩ := ih
      simp only [nth, hn, nextV]
      rcases hcl c hc with hh | hh
      · exact ⟨a, h2, hh⟩
      · exact hh
  intro k
  obtain ⟨c, hc, hn⟩ := this k
  rw [hn]
  exact pair_isPair (chain_used h1 c hc).1

theorem circular_meet {h : Heap} {v : Val} (hc : Circular h v) :
    ∃ i, 0 < i ∧ nth h v (2 * i) = nth h v i := by
  obtain ⟨as, xs, a, h1, h2⟩ := hc
  obtain ⟨e1, e2⟩ := nth_chain h1
  obtain ⟨p, hp, hpa⟩ := List.getElem_of_mem h2
  have hper : nth h v as.length = nth h v p := by rw [e1, e2 p hp, hpa]
  -- the period
  let d := as.length - p
  have hd : 0 < d := by simp only [d]; omega
  have hstep : ∀ m, p ≤ m → nth h v (m + d) = nth h v m := by
    intro m hm
    have : m + d = as.length + (m - p) := by simp only [d]; omega
    rw [this, nth_add, hper, ← nth_add]
    congr 1; omega
  have hmul : ∀ t m, p ≤ m → nth h v (m + t * d) = nth h v m := by
    intro t
    induction t with
    | zero => intro m hm; simp
    | succ t ih =>
      intro m hm
      have : m + (t + 1) * d = (m + t * d) + d := by rw [Nat.succ_mul]; omega
      rw [this, hstep _ (by omega), ih m hm]
  refine ⟨(p + 1) * d, Nat.mul_pos (by omega) hd, ?_⟩
  have hpd : p ≤ (p + 1) * d := Nat.le_trans (by omega) (Nat.le_mul_of_pos_right (p + 1) hd)
  have : 2 * ((p + 1) * d) = (p + 1) * d + (p + 1) * d := by omega
  rw [this, hmul (p + 1) _ hpd]

/-! ## The loop of `size` -/

theorem sizeLoop_proper {h : Heap} {v : Val} {n i fuel : Nat}
    (hp : ∀ k < n, isPair (nth h v k) = true) (hn : nth h v n = nil)
    (hne : ∀ j k, j < k → k < n → nth h v j ≠ nth h v k) (hi : 2 * i < n) (hf : n ≤ 2 * i + fuel) :
    sizeLoop h fuel (2 * i) (nth h v (2 * i)) (nth h v i) = .ok (some n) := by
  induction fuel generalizing i with
  | zero => omega
  | succ fuel ih =>
    have tl : ∀ k < n, tail h (nth h v k) = .ok (nth h v (k + 1)) := by
      intro k hk
      have := hp k hk
      cases hh : nth h v k with
      | obj n => rw [hh] at this; simp [isPair] at this
      | ref a => simp [tail, nth, hh, nextV]
    have nn : ∀ k < n, nth h v k ≠ nil := by
      intro k hk hh
      have := hp k hk
      rw [hh, isPair_nil] at this
      exact absurd this (by decide)
    simp only [sizeLoop, tl (2 * i) hi, bind, Except.bind]
    by_cases h1 : 2 * i + 1 = n
    · rw [h1, hn, if_pos rfl]
    · have h1' : 2 * i + 1 < n := by omega
      have hcond : ¬ (nth h v (2 * i) = nth h v i ∧ 2 * i > 0) := by
        rintro ⟨he, hpos⟩
        exact hne i (2 * i) (by omega) hi he.symm
      rw [if_neg (nn _ h1'), if_neg hcond, if_pos (hp _ h1'), tl _ h1']
      dsimp only
      by_cases h2 : 2 * i + 2 = n
      · have h2' : 2 * i + 1 + 1 = n := h2
        rw [h2', hn, if_pos rfl]
      · have h2' : 2 * i + 1 + 1 < n := by omega
        rw [if_neg (nn _ h2'), if_pos (hp _ h2'), tl i (by omega)]
        dsimp only
        rw [if_pos (hp _ (by omega))]
        exact ih (i := i + 1) (by omega) (by omega)

theorem sizeLoop_dotted {h : Heap} {v : Val} {n i fuel : Nat}
    (hp : ∀ k < n, isPair (nth h v k) = true) (hn : isPair (nth h v n) = false)
    (hnn : nth h v n ≠ nil)
    (hne : ∀ j k, j < k → k < n → nth h v j ≠ nth h v k) (hi : 2 * i < n) (hf : n ≤ 2 * i + fuel) :
    sizeLoop h fuel (2 * i) (nth h v (2 * i)) (nth h v i) = .error .improper := by
  induction fuel generalizing i with
  | zero => omega
  | succ fuel ih =>
    have tl : ∀ k < n, tail h (nth h v k) = .ok (nth h v (k + 1)) := by
      intro k hk
      have := hp k hk
      cases hh : nth h v k with
      | obj n => rw [hh] at this; simp [isPair] at this
      | ref a => simp [tail, nth, hh, nextV]
    have nn : ∀ k < n, nth h v k ≠ nil := by
      intro k hk hh
      have := hp k hk
      rw [hh, isPair_nil] at this
      exact absurd this (by decide)
    have hcond : ¬ (nth h v (2 * i) = nth h v i ∧ 2 * i > 0) := by
      rintro ⟨he, hpos⟩
      exact hne i (2 * i) (by omega) hi he.symm
    simp only [sizeLoop, tl (2 * i) hi, bind, Except.bind]
    by_cases h1 : 2 * i + 1 = n
    · rw [h1, if_neg hnn, if_neg hcond, hn]; rfl
    · have h1' : 2 * i + 1 < n := by omega
      rw [if_neg (nn _ h1'), if_neg hcond, if_pos (hp _ h1'), tl _ h1']
      dsimp only
      by_cases h2 : 2 * i + 2 = n
      · have h2' : 2 * i + 1 + 1 = n := h2
        rw [h2', if_neg hnn, hn]; rfl
      · have h2' : 2 * i + 1 + 1 < n := by omega
        rw [if_neg (nn _ h2'), if_pos (hp _ h2'), tl i (by omega)]
        dsimp only
        rw [if_pos (hp _ (by omega))]
        exact ih (i := i + 1) (by omega) (by omega)

theorem sizeLoop_circular {h : Heap} {v : Val} {m i fuel : Nat}
    (hp : ∀ k, isPair (nth h v k) = true) (hm : 0 < m) (hmeet : nth h v (2 * m) = nth h v m)
    (hi : i ≤ m) (hf : m < i + fuel) :
    sizeLoop h fuel (2 * i) (nth h v (2 * i)) (nth h v i) = .ok none := by
  induction fuel generalizing i with
  | zero => omega
  | succ fuel ih =>
    have tl : ∀ k, tail h (nth h v k) = .ok (nth h v (k + 1)) := by
      intro k
      have := hp k
      cases hh : nth h v k with
      | obj n => rw [hh] at this; simp [isPair] at this
      | ref a => simp [tail, nth, hh, nextV]
    have nn : ∀ k, nth h v k ≠ nil := by
      intro k hh
      have := hp k
      rw [hh, isPair_nil] at this
      exact absurd this (by decide)
    simp only [sizeLoop, tl (2 * i), bind, Except.bind]
    rw [if_neg (nn _)]
    by_cases hc : nth h v (2 * i) = nth h v i ∧ 2 * i > 0
    · rw [if_pos hc]
    · have him : i ≠ m := by
        rintro rfl
        exact hc ⟨hmeet, by omega⟩
      rw [if_neg hc, if_pos (hp _), tl]
      dsimp only
      rw [if_neg (nn _), if_pos (hp _), tl]
      dsimp only
      rw [if_pos (hp _)]
      exact ih (i := i + 1) (by omega) (by omega)

theorem chain_distinct {h : Heap} {v e : Val} {as : List Nat} {xs : List Val}
    (hc : Chain h v as xs e) (p : isPair e = false) :
    (∀ k < as.length, isPair (nth h v k) = true) ∧
      ∀ j k, j < k → k < as.length → nth h v j ≠ nth h v k := by
  obtain ⟨_, e2⟩ := nth_chain hc
  have hnd := chain_nodup hc p
  refine ⟨fun k hk => ?_, fun j k hjk hk he => ?_⟩
  · rw [e2 k hk]
    exact pair_isPair (chain_used hc _ (List.getElem_mem hk)).1
  · rw [e2 k hk, e2 j (by omega)] at he
    injection he with he
    have := (List.Nodup.getElem_inj_iff hnd).1 he
    omega

end Verif.Lists
