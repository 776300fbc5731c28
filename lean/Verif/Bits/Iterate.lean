import Verif.Bits.Sets

/-! # Helper lemmas for bit sets: iteration -/

namespace Verif.Bits

theorem low_bit (w : W) : (w &&& 1#64) = 1#64 ↔ w.getLsbD 0 = true := by
  constructor
  · intro h
    have := congrArg (fun u : W => u.getLsbD 0) h
    simpa using this
  · intro h
    apply BitVec.eq_of_getLsbD_eq
    intro i hi
    rw [BitVec.getLsbD_and, BitVec.getLsbD_one]
    by_cases e : i = 0
    · subst e; simp [h]
    · simp [e]

theorem firstBit_spec (w0 : W) : ∀ n i, i + n ≤ 64 →
    (∃ k, i ≤ k ∧ k < i + n ∧ w0.getLsbD k = true ∧ (∀ j, i ≤ j → j < k → w0.getLsbD j = false) ∧
      firstBit n i (w0 >>> i) = some (k, w0 >>> k)) ∨
    ((∀ j, i ≤ j → j < i + n → w0.getLsbD j = false) ∧ firstBit n i (w0 >>> i) = none)
  | 0, i, _ => Or.inr ⟨fun j h1 h2 => by omega, rfl⟩
  | n + 1, i, hle => by
    have h0 : (w0 >>> i).getLsbD 0 = w0.getLsbD i := by rw [BitVec.getLsbD_ushiftRight, Nat.add_zero]
    by_cases hb : w0.getLsbD i = true
    · refine Or.inl ⟨i, Nat.le_refl _, by omega, hb, fun j h1 h2 => by omega, ?_⟩
      rw [firstBit, if_pos ((low_bit _).mpr (by rw [h0, hb]))]
    · have hs : (w0 >>> i) >>> 1 = w0 >>> (i + 1) := (BitVec.shiftRight_add w0 i 1).symm
      have e : firstBit (n + 1) i (w0 >>> i) = firstBit n (i + 1) (w0 >>> (i + 1)) := by
        rw [firstBit, if_neg (fun h => hb (by rw [← h0]; exact (low_bit _).mp h)), hs]
      have hbf : w0.getLsbD i = false := by simpa using hb
      rw [e]
      rcases firstBit_spec w0 n (i + 1) (by omega) with ⟨k, h1, h2, h3, h4, h5⟩ | ⟨h1, h2⟩
      · refine Or.inl ⟨k, by omega, by omega, h3, fun j hj1 hj2 => ?_, h5⟩
        by_cases hji : j = i
        · rw [hji]; exact hbf
        · exact h4 j (by omega) hj2
      · refine Or.inr ⟨fun j hj1 hj2 => ?_, h2⟩
        by_cases hji : j = i
        · rw [hji]; exact hbf
        · exact h1 j (by omega) (by omega)

section
variable {h : Heap} {r : Nat}

theorem bit_at {v : BV} {j k : Nat} (hk : k < 64) : bit v (j * 64 + k) = (v.word j).getLsbD k := by
  unfold bit
  have e1 : (j * 64 + k) / 64 = j := by omega
  have e2 : (j * 64 + k) % 64 = k := by omega
  rw [e1, e2]

theorem firstWord_spec : ∀ n j, j + n ≤ (h.vec r).wsize →
    (∃ e, j * 64 ≤ e ∧ e < (j + n) * 64 ∧ bit (h.vec r) e = true ∧ (∀ i, j * 64 ≤ i → i < e → bit (h.vec r) i = false) ∧
      firstWord h r n j = .ok (some (e / 64, e % 64, (h.vec r).word (e / 64) >>> (e % 64)))) ∨
    ((∀ i, j * 64 ≤ i → i < (j + n) * 64 → bit (h.vec r) i = false) ∧ firstWord h r n j = .ok none)
  | 0, j, _ => Or.inr ⟨fun i h1 h2 => by omega, rfl⟩
  | n + 1, j, hle => by
    have hw : getW h r j = .ok ((h.vec r).word j) := getW_ok (by omega)
    have hf := firstBit_spec ((h.vec r).word j) 64 0 (by omega)
    have hz : (h.vec r).word j >>> 0 = (h.vec r).word j := by simp
    rw [hz] at hf
    rcases hf with ⟨k, h1, h2, h3, h4, h5⟩ | ⟨h1, h2⟩
    · refine Or.inl ⟨j * 64 + k, by omega, by omega, by rw [bit_at (by omega), h3], fun i hi1 hi2 => ?_, ?_⟩
      · have := h4 (i - j * 64) (by omega) (by omega)
        have e : i = j * 64 + (i - j * 64) := by omega
        rw [e, bit_at (by omega)]
        exact this
      · have e1 : (j * 64 + k) / 64 = j := by omega
        have e2 : (j * 64 + k) % 64 = k := by omega
        rw [firstWord, hw, bind_ok, h5, e1, e2]
    · have hno : ∀ i, j * 64 ≤ i → i < (j + 1) * 64 → bit (h.vec r) i = false := by
        intro i hi1 hi2
        have := h1 (i - j * 64) (by omega) (by omega)
        have e : i = j * 64 + (i - j * 64) := by omega
        rw [e, bit_at (by omega)]
        exact this
      have e : firstWord h r (n + 1) j = firstWord h r n (j + 1) := by
        rw [firstWord, hw, bind_ok, h2]
      rw [e]
      rcases firstWord_spec n (j + 1) (by omega) with ⟨e, g1, g2, g3, g4, g5⟩ | ⟨g1, g2⟩
      · refine Or.inl ⟨e, by omega, by omega, g3, fun i hi1 hi2 => ?_, g5⟩
        by_cases hi : i < (j + 1) * 64
        · exact hno i hi1 hi
        · exact g4 i (by omega) hi2
      · refine Or.inr ⟨fun i hi1 hi2 => ?_, g2⟩
        by_cases hi : i < (j + 1) * 64
        · exact hno i hi1 hi
        · exact g1 i (by omega) (by omega)

end

/-- The state of an iteration at element `e`. -/
def stateAt (v : BV) (e : Nat) : Iter :=
  { word := v.word (e / 64) >>> (e % 64), element := e, wordOffset := (e / 64 : Nat), bitOffset := (e % 64 : Nat) }

section
variable {s : State} {x : Nat} {v : BV}

theorem fipInitial_spec (hv : v = s.heap.vec (s.set x).vec) :
    (∃ e, e < v.wsize * 64 ∧ bit v e = true ∧ (∀ i, i < e → bit v i = false) ∧ fipInitial s x = .ok (stateAt v e)) ∨
    ((∀ i, i < v.wsize * 64 → bit v i = false) ∧ ∃ t, fipInitial s x = .ok t ∧ t.element = (v.wsize * 64 : Nat)) := by
  subst hv
  unfold fipInitial
  dsimp only
  rcases firstWord_spec (h := s.heap) (r := (s.set x).vec) (s.heap.vec (s.set x).vec).wsize 0 (by omega) with
    ⟨e, g1, g2, g3, g4, g5⟩ | ⟨g1, g2⟩
  · refine Or.inl ⟨e, by omega, g3, fun i hi => g4 i (by omega) hi, ?_⟩
    rw [g5, bind_ok]
    unfold stateAt
    dsimp only
    congr 2
    omega
  · refine Or.inr ⟨fun i hi => g1 i (by omega) (by omega), ?_⟩
    rw [g2, bind_ok]
    refine ⟨_, rfl, ?_⟩
    dsimp only
    omega

theorem fipNext_spec (hv : v = s.heap.vec (s.set x).vec) {e : Nat} (he : e < v.size) (hw : e < v.wsize * 64) :
    (∃ e', e < e' ∧ e' < v.wsize * 64 ∧ bit v e' = true ∧ (∀ i, e < i → i < e' → bit v i = false) ∧
      fipNext s x (stateAt v e) = .ok (stateAt v e')) ∨
    ((∀ i, e < i → i < v.wsize * 64 → bit v i = false) ∧ ∃ t, fipNext s x (stateAt v e) = .ok t ∧ t.element = (v.size : Nat)) := by
  subst hv
  unfold fipNext
  dsimp only
  rw [if_neg (by simp only [stateAt]; omega)]
  generalize hv : s.heap.vec (s.set x).vec = v at he hw
  have n1 : (63 - (stateAt v e).bitOffset).toNat = 63 - e % 64 := by simp only [stateAt]; omega
  have n2 : ((stateAt v e).bitOffset + 1).toNat = e % 64 + 1 := by simp only [stateAt]; omega
  have n3 : (stateAt v e).word >>> 1 = v.word (e / 64) >>> (e % 64 + 1) := (BitVec.shiftRight_add _ _ 1).symm
  have n4 : ((v.wsize : Int) - ((stateAt v e).wordOffset + 1)).toNat = v.wsize - (e / 64 + 1) := by simp only [stateAt]; omega
  have n5 : ((stateAt v e).wordOffset + 1).toNat = e / 64 + 1 := by simp only [stateAt]; omega
  rw [n1, n2, n3, n4, n5]
  rcases firstBit_spec (v.word (e / 64)) (63 - e % 64) (e % 64 + 1) (by omega) with ⟨k, h1, h2, h3, h4, h5⟩ | ⟨h1, h2⟩
  · refine Or.inl ⟨e / 64 * 64 + k, by omega, by omega, by rw [bit_at (by omega), h3], fun i hi1 hi2 => ?_, ?_⟩
    · have := h4 (i - e / 64 * 64) (by omega) (by omega)
      have e' : i = e / 64 * 64 + (i - e / 64 * 64) := by omega
      rw [e', bit_at (by omega)]
      exact this
    · rw [h5]
      have e1 : (e / 64 * 64 + k) / 64 = e / 64 := by omega
      have e2 : (e / 64 * 64 + k) % 64 = k := by omega
      unfold stateAt
      dsimp only
      rw [e1, e2]
      congr 2
      omega
  · have hno : ∀ i, e < i → i < (e / 64 + 1) * 64 → bit v i = false := by
      intro i hi1 hi2
      have := h1 (i - e / 64 * 64) (by omega) (by omega)
      have e' : i = e / 64 * 64 + (i - e / 64 * 64) := by omega
      rw [e', bit_at (by omega)]
      exact this
    rw [h2]
    dsimp only
    have hfw := firstWord_spec (h := s.heap) (r := (s.set x).vec) (v.wsize - (e / 64 + 1)) (e / 64 + 1) (by rw [hv]; omega)
    rw [hv] at hfw
    rcases hfw with ⟨e', g1, g2, g3, g4, g5⟩ | ⟨g1, g2⟩
    · refine Or.inl ⟨e', by omega, by omega, g3, fun i hi1 hi2 => ?_, ?_⟩
      · by_cases hi : i < (e / 64 + 1) * 64
        · exact hno i hi1 hi
        · exact g4 i (by omega) hi2
      · rw [g5, bind_ok]
        unfold stateAt
        dsimp only
        congr 2
        omega
    · refine Or.inr ⟨fun i hi1 hi2 => ?_, ?_⟩
      · by_cases hi : i < (e / 64 + 1) * 64
        · exact hno i hi1 hi
        · exact g1 i (by omega) (by omega)
      · rw [g2, bind_ok]
        exact ⟨_, rfl, rfl⟩

/-- The state is at the first element from `lo` on, or at the end. -/
def Ready (v : BV) (t : Iter) (lo : Nat) : Prop :=
  (∃ e, t = stateAt v e ∧ lo ≤ e ∧ e < v.wsize * 64 ∧ bit v e = true ∧ ∀ i, lo ≤ i → i < e → bit v i = false) ∨
  ((v.size : Int) ≤ t.element ∧ ∀ i, lo ≤ i → i < v.size → bit v i = false)

theorem forward_spec (hv : v = s.heap.vec (s.set x).vec) (g : v.Good) (hp : (s.set x).pad = false) :
    ∀ (k lo : Nat) (t : Iter), v.size ≤ lo + k → Ready v t lo →
    ∃ n l, forward s x n t = some l ∧ l.Pairwise (· < ·) ∧ ∀ i : Int, i ∈ l ↔ (lo : Int) ≤ i ∧ i < v.size ∧ bit v i.toNat = true := by
  have hg : v.wsize = (v.size + 63) / 64 := g
  have hfin : ∀ t : Iter, fipFinished s x t = decide ((v.size : Int) ≤ t.element) := by
    intro t
    unfold fipFinished
    rw [hp, ← hv]
    rfl
  have hend : ∀ (lo : Nat) (t : Iter), (v.size : Int) ≤ t.element → (∀ i, lo ≤ i → i < v.size → bit v i = false) →
      ∃ n l, forward s x n t = some l ∧ l.Pairwise (· < ·) ∧ ∀ i : Int, i ∈ l ↔ (lo : Int) ≤ i ∧ i < v.size ∧ bit v i.toNat = true := by
    intro lo t h1 h2
    refine ⟨1, [], ?_, List.Pairwise.nil, fun i => ?_⟩
    · rw [forward, if_pos (by rw [hfin]; exact decide_eq_true h1)]
    · simp only [List.not_mem_nil, false_iff, not_and]
      intro h3 h4
      rw [h2 i.toNat (by omega) (by omega)]
      simp
  intro k
  induction k with
  | zero =>
    intro lo t hk hr
    rcases hr with ⟨e, rfl, h1, h2, h3, h4⟩ | ⟨h1, h2⟩
    · exact hend lo _ (by simp only [stateAt]; omega) (fun i hi1 hi2 => by omega)
    · exact hend lo t h1 h2
  | succ k ih =>
    intro lo t hk hr
    rcases hr with ⟨e, rfl, h1, h2, h3, h4⟩ | ⟨h1, h2⟩
    · by_cases he : e < v.size
      · have hnext : ∃ t', fipNext s x (stateAt v e) = .ok t' ∧ Ready v t' (e + 1) := by
          rcases fipNext_spec hv he h2 with ⟨e', g1, g2, g3, g4, g5⟩ | ⟨g1, t', g2, g3⟩
          · exact ⟨_, g5, Or.inl ⟨e', rfl, g1, g2, g3, fun i hi1 hi2 => g4 i (by omega) hi2⟩⟩
          · exact ⟨t', g2, Or.inr ⟨by omega, fun i hi1 hi2 => g1 i (by omega) (by omega)⟩⟩
        obtain ⟨t', e1, hr'⟩ := hnext
        obtain ⟨n, l, f1, f2, f3⟩ := ih (e + 1) t' (by omega) hr'
        refine ⟨n + 1, (e : Int) :: l, ?_, ?_, fun i => ?_⟩
        · rw [forward, if_neg (by rw [hfin]; simp [stateAt]; omega), e1]
          dsimp only
          rw [f1]
          rfl
        · refine List.Pairwise.cons (fun i hi => ?_) f2
          have := (f3 i).mp hi
          omega
        · rw [List.mem_cons, f3]
          constructor
          · rintro (rfl | ⟨k1, k2, k3⟩)
            · exact ⟨by omega, by omega, by simpa using h3⟩
            · exact ⟨by omega, k2, k3⟩
          · rintro ⟨k1, k2, k3⟩
            by_cases hi : i = e
            · exact Or.inl hi
            · right
              refine ⟨?_, k2, k3⟩
              by_contra hlt
              have := h4 i.toNat (by omega) (by omega)
              rw [this] at k3
              exact absurd k3 (by simp)
      · exact hend lo _ (by simp only [stateAt]; omega) (fun i hi1 hi2 => h4 i hi1 (by omega))
    · exact hend lo t h1 h2

theorem ready_initial (hv : v = s.heap.vec (s.set x).vec) (g : v.Good) : ∃ t, fipInitial s x = .ok t ∧ Ready v t 0 := by
  have hg : v.wsize = (v.size + 63) / 64 := g
  rcases fipInitial_spec hv with ⟨e, g2, g3, g4, g5⟩ | ⟨g1, t', g2, g3⟩
  · exact ⟨_, g5, Or.inl ⟨e, rfl, Nat.zero_le _, g2, g3, fun i _ hi2 => g4 i hi2⟩⟩
  · exact ⟨t', g2, Or.inr ⟨by omega, fun i _ hi2 => g1 i (by omega)⟩⟩

/-! ### infinite sets -/

/-- The state is at the first member from `lo` on. -/
def Pos (v : BV) (t : Iter) (lo : Nat) : Prop :=
  ∃ e : Nat, t.element = e ∧ lo ≤ e ∧ (e < v.size → t = stateAt v e) ∧ padded v true e = true ∧
    ∀ i, lo ≤ i → i < e → padded v true i = false

theorem pos_bit (g : v.Good) (ht : v.size % 64 = 0 ∨ v.Tail true) {lo e : Nat} (hlo : lo ≤ v.size) (h1 : lo ≤ e) (h2 : e < v.wsize * 64)
    (h3 : bit v e = true) (h4 : ∀ i, lo ≤ i → i < e → bit v i = false) : Pos v (stateAt v e) lo := by
  have hg : v.wsize = (v.size + 63) / 64 := g
  refine ⟨e, rfl, h1, fun _ => rfl, ?_, fun i hi1 hi2 => ?_⟩
  · unfold padded
    split
    · exact h3
    · rfl
  · by_cases hi : i < v.size
    · rw [padded_lt hi]; exact h4 i hi1 hi2
    · exfalso
      have : v.size < e := by omega
      rcases ht with ht | ht
      · omega
      · have := ht v.size (Nat.le_refl _) (by omega)
        have h5 := h4 v.size hlo (by omega)
        unfold bit at h5
        rw [h5] at this
        exact absurd this (by simp)

theorem pos_end {t : Iter} {lo : Nat} (hlo : lo ≤ v.size) (h1 : t.element = (v.size : Nat))
    (h2 : ∀ i, lo ≤ i → i < v.size → bit v i = false) : Pos v t lo :=
  ⟨v.size, h1, hlo, fun h => absurd h (by omega), padded_ge (Nat.le_refl _), fun i hi1 hi2 => by
    rw [padded_lt hi2]; exact h2 i hi1 hi2⟩

theorem pos_initial (hv : v = s.heap.vec (s.set x).vec) (g : v.Good) (ht : v.size % 64 = 0 ∨ v.Tail true) :
    ∃ t, fipInitial s x = .ok t ∧ Pos v t 0 := by
  have hg : v.wsize = (v.size + 63) / 64 := g
  rcases fipInitial_spec hv with ⟨e, g2, g3, g4, g5⟩ | ⟨g1, t', g2, g3⟩
  · exact ⟨_, g5, pos_bit g ht (Nat.zero_le _) (Nat.zero_le _) g2 g3 fun i _ hi2 => g4 i hi2⟩
  · refine ⟨t', g2, pos_end (Nat.zero_le _) ?_ fun i _ hi2 => g1 i (by omega)⟩
    rw [g3]
    congr 1
    rcases ht with ht | ht
    · omega
    · by_contra hne
      have := ht v.size (Nat.le_refl _) (by omega)
      have h5 := g1 v.size (by omega)
      unfold bit at h5
      rw [h5] at this
      exact absurd this (by simp)

theorem pos_next (hv : v = s.heap.vec (s.set x).vec) (g : v.Good) (ht : v.size % 64 = 0 ∨ v.Tail true) {t : Iter} {e lo : Nat}
    (he : t.element = e) (hp : Pos v t lo) : ∃ t', fipNext s x t = .ok t' ∧ Pos v t' (e + 1) := by
  have hg : v.wsize = (v.size + 63) / 64 := g
  obtain ⟨e', h1, h2, h3, h4, h5⟩ := hp
  have : e' = e := by omega
  subst this
  by_cases hlt : e' < v.size
  · rw [h3 hlt]
    rcases fipNext_spec hv hlt (by omega) with ⟨e2, g1, g2, g3, g4, g5⟩ | ⟨g1, t', g2, g3⟩
    · exact ⟨_, g5, pos_bit g ht hlt g1 g2 g3 fun i hi1 hi2 => g4 i (by omega) hi2⟩
    · exact ⟨t', g2, pos_end hlt g3 fun i hi1 hi2 => g1 i (by omega) (by omega)⟩
  · refine ⟨{ t with element := t.element + 1 }, ?_, e' + 1, ?_, Nat.le_refl _, fun h => absurd h (by omega), padded_ge (by omega),
      fun i hi1 hi2 => by omega⟩
    · unfold fipNext
      dsimp only
      rw [← hv, if_pos (by omega)]
    · dsimp only
      omega

theorem forwardState_spec (hv : v = s.heap.vec (s.set x).vec) (g : v.Good) (ht : v.size % 64 = 0 ∨ v.Tail true) (k : Nat) :
    ∃ t lo, forwardState s x k = .ok t ∧ Pos v t lo ∧ (k : Int) ≤ t.element ∧
      ∀ i, padded v true i = true → (i : Int) < t.element → ∃ k' t', k' < k ∧ forwardState s x k' = .ok t' ∧ t'.element = i := by
  induction k with
  | zero =>
    obtain ⟨t, e, hp⟩ := pos_initial hv g ht
    refine ⟨t, 0, e, hp, ?_, fun i hi hlt => ?_⟩
    · obtain ⟨e', h1, -⟩ := hp; omega
    · obtain ⟨e', h1, h2, h3, h4, h5⟩ := hp
      rw [h5 i (by omega) (by omega)] at hi
      exact absurd hi (by simp)
  | succ k ih =>
    obtain ⟨t, lo, e, hp, hk, hall⟩ := ih
    obtain ⟨n, hn⟩ : ∃ n : Nat, t.element = n := by obtain ⟨e', h1, -⟩ := hp; exact ⟨e', h1⟩
    obtain ⟨t', e', hp'⟩ := pos_next hv g ht hn hp
    refine ⟨t', n + 1, by rw [forwardState, e, bind_ok, e'], hp', ?_, fun i hi hlt => ?_⟩
    · obtain ⟨e2, h1, h2, -⟩ := hp'; omega
    · by_cases h1 : (i : Int) < t.element
      · obtain ⟨k', t2, q1, q2, q3⟩ := hall i hi h1
        exact ⟨k', t2, by omega, q2, q3⟩
      · by_cases h2 : (i : Int) = t.element
        · exact ⟨k, t, by omega, e, h2.symm⟩
        · exfalso
          obtain ⟨e2, h3, h4, h5, h6, h7⟩ := hp'
          rw [h7 i (by omega) (by omega)] at hi
          exact absurd hi (by simp)

end

/-! ### backward -/

/-- The word has been rotated to the right by `i`. -/
def Rot (w w0 : W) (i : Nat) : Prop := ∀ k, k < 64 → w.getLsbD k = w0.getLsbD ((k + i) % 64)

theorem rot_step {w w0 : W} {i : Nat} (h : Rot w w0 (i + 1)) : Rot (w.rotateLeft 1) w0 i := by
  intro k hk
  rw [BitVec.getLsbD_rotateLeft]
  by_cases h0 : k < 1 % 64
  · have e0 : k = 0 := by omega
    subst e0
    simp only [h0, decide_true, cond_true]
    rw [h _ (by omega)]
    congr 1
    omega
  · simp only [h0, decide_false, cond_false, hk, decide_true, Bool.true_and]
    rw [h _ (by omega)]
    congr 1
    omega

theorem lastBit_spec (w0 : W) : ∀ (i : Nat) (w : W), i ≤ 64 → Rot w w0 i →
    (∃ k w', k < i ∧ w0.getLsbD k = true ∧ (∀ j, k < j → j < i → w0.getLsbD j = false) ∧ lastBit i w = some (k, w') ∧ Rot w' w0 k) ∨
    ((∀ j, j < i → w0.getLsbD j = false) ∧ lastBit i w = none)
  | 0, w, _, _ => Or.inr ⟨fun j h => by omega, rfl⟩
  | i + 1, w, hle, hr => by
    have hr' := rot_step hr
    have h0 : (w.rotateLeft 1).getLsbD 0 = w0.getLsbD i := by
      rw [hr' 0 (by omega)]
      congr 1
      omega
    by_cases hb : w0.getLsbD i = true
    · refine Or.inl ⟨i, _, by omega, hb, fun j h1 h2 => by omega, ?_, hr'⟩
      rw [lastBit, if_pos ((low_bit _).mpr (by rw [h0, hb]))]
    · have hbf : w0.getLsbD i = false := by simpa using hb
      have e : lastBit (i + 1) w = lastBit i (w.rotateLeft 1) := by
        rw [lastBit, if_neg (fun h => hb (by rw [← h0]; exact (low_bit _).mp h))]
      rw [e]
      rcases lastBit_spec w0 i _ (by omega) hr' with ⟨k, w', h1, h2, h3, h4, h5⟩ | ⟨h1, h2⟩
      · refine Or.inl ⟨k, w', by omega, h2, fun j hj1 hj2 => ?_, h4, h5⟩
        by_cases hji : j = i
        · rw [hji]; exact hbf
        · exact h3 j hj1 (by omega)
      · refine Or.inr ⟨fun j hj => ?_, h2⟩
        by_cases hji : j = i
        · rw [hji]; exact hbf
        · exact h1 j (by omega)

theorem rot_full (w : W) : Rot w w 64 := by
  intro k hk
  congr 1
  omega

section
variable {h : Heap} {r : Nat}

theorem lastWord_spec : ∀ j, j ≤ (h.vec r).wsize →
    (∃ e w, e < j * 64 ∧ bit (h.vec r) e = true ∧ (∀ i, e < i → i < j * 64 → bit (h.vec r) i = false) ∧
      lastWord h r j = .ok (some (e / 64, e % 64, w)) ∧ Rot w ((h.vec r).word (e / 64)) (e % 64)) ∨
    ((∀ i, i < j * 64 → bit (h.vec r) i = false) ∧ lastWord h r j = .ok none)
  | 0, _ => Or.inr ⟨fun i h => by omega, rfl⟩
  | j + 1, hle => by
    have hw : getW h r j = .ok ((h.vec r).word j) := getW_ok (by omega)
    rcases lastBit_spec ((h.vec r).word j) 64 _ (by omega) (rot_full _) with ⟨k, w', h1, h2, h3, h4, h5⟩ | ⟨h1, h2⟩
    · have e1 : (j * 64 + k) / 64 = j := by omega
      have e2 : (j * 64 + k) % 64 = k := by omega
      refine Or.inl ⟨j * 64 + k, w', by omega, by rw [bit_at (by omega), h2], fun i hi1 hi2 => ?_, ?_, by rw [e1, e2]; exact h5⟩
      · have := h3 (i - j * 64) (by omega) (by omega)
        have e : i = j * 64 + (i - j * 64) := by omega
        rw [e, bit_at (by omega)]
        exact this
      · rw [lastWord, hw, bind_ok, h4, e1, e2]
    · have hno : ∀ i, j * 64 ≤ i → i < (j + 1) * 64 → bit (h.vec r) i = false := by
        intro i hi1 hi2
        have := h1 (i - j * 64) (by omega)
        have e : i = j * 64 + (i - j * 64) := by omega
        rw [e, bit_at (by omega)]
        exact this
      have e : lastWord h r (j + 1) = lastWord h r j := by
        rw [lastWord, hw, bind_ok, h2]
      rw [e]
      rcases lastWord_spec j (by omega) with ⟨e, w, g1, g2, g3, g4, g5⟩ | ⟨g1, g2⟩
      · refine Or.inl ⟨e, w, by omega, g2, fun i hi1 hi2 => ?_, g4, g5⟩
        by_cases hi : j * 64 ≤ i
        · exact hno i hi hi2
        · exact g3 i hi1 (by omega)
      · refine Or.inr ⟨fun i hi => ?_, g2⟩
        by_cases hi' : j * 64 ≤ i
        · exact hno i hi' hi
        · exact g1 i (by omega)

end

/-- The state of a backward iteration is at element `e`. -/
structure AtB (v : BV) (t : Iter) (e : Nat) : Prop where
  element : t.element = e
  wordOffset : t.wordOffset = (e / 64 : Nat)
  bitOffset : t.bitOffset = (e % 64 : Nat)
  word : Rot t.word (v.word (e / 64)) (e % 64)

section
variable {s : State} {x : Nat} {v : BV}

/-- The state is at the last element below `hi`, or at the end. -/
def ReadyB (v : BV) (t : Iter) (hi : Nat) : Prop :=
  (∃ e, AtB v t e ∧ e < hi ∧ bit v e = true ∧ ∀ i, e < i → i < hi → bit v i = false) ∨
  (t.element = -1 ∧ ∀ i, i < hi → bit v i = false)

theorem readyB_initial (hv : v = s.heap.vec (s.set x).vec) (hp : (s.set x).pad = false) :
    ∃ t, bipInitial s x = .ok t ∧ ReadyB v t (v.wsize * 64) := by
  unfold bipInitial
  rw [if_neg (by rw [hp]; simp)]
  dsimp only
  have hl := lastWord_spec (h := s.heap) (r := (s.set x).vec) (s.heap.vec (s.set x).vec).wsize (Nat.le_refl _)
  rw [← hv] at hl ⊢
  rcases hl with ⟨e, w, g1, g2, g3, g4, g5⟩ | ⟨g1, g2⟩
  · rw [g4, bind_ok]
    refine ⟨_, rfl, Or.inl ⟨e, ⟨?_, rfl, rfl, g5⟩, g1, g2, g3⟩⟩
    dsimp only
    omega
  · rw [g2, bind_ok]
    exact ⟨_, rfl, Or.inr ⟨rfl, g1⟩⟩

theorem readyB_next (hv : v = s.heap.vec (s.set x).vec) {t : Iter} {e : Nat} (ha : AtB v t e) (hw : e < v.wsize * 64) :
    ∃ t', bipNext s x t = .ok t' ∧ ReadyB v t' e := by
  unfold bipNext
  dsimp only
  have n1 : t.bitOffset.toNat = e % 64 := by rw [ha.bitOffset]; omega
  have n2 : t.wordOffset.toNat = e / 64 := by rw [ha.wordOffset]; omega
  rw [n1, n2]
  have a1 := ha.element
  have a2 := ha.wordOffset
  have a3 := ha.bitOffset
  rcases lastBit_spec (v.word (e / 64)) (e % 64) t.word (by omega) ha.word with ⟨k, w', h1, h2, h3, h4, h5⟩ | ⟨h1, h2⟩
  · rw [h4]
    have e1 : (e / 64 * 64 + k) / 64 = e / 64 := by omega
    have e2 : (e / 64 * 64 + k) % 64 = k := by omega
    refine ⟨_, rfl, Or.inl ⟨e / 64 * 64 + k, ⟨?_, ?_, ?_, ?_⟩, by omega, by rw [bit_at (by omega), h2], fun i hi1 hi2 => ?_⟩⟩
    · dsimp only; omega
    · dsimp only; omega
    · dsimp only; omega
    · rw [e1, e2]; exact h5
    · have := h3 (i - e / 64 * 64) (by omega) (by omega)
      have e' : i = e / 64 * 64 + (i - e / 64 * 64) := by omega
      rw [e', bit_at (by omega)]
      exact this
  · have hno : ∀ i, e / 64 * 64 ≤ i → i < e → bit v i = false := by
      intro i hi1 hi2
      have := h1 (i - e / 64 * 64) (by omega)
      have e' : i = e / 64 * 64 + (i - e / 64 * 64) := by omega
      rw [e', bit_at (by omega)]
      exact this
    rw [h2]
    dsimp only
    have hl := lastWord_spec (h := s.heap) (r := (s.set x).vec) (e / 64) (by rw [← hv]; omega)
    rw [← hv] at hl
    rcases hl with ⟨e', w, g1, g2, g3, g4, g5⟩ | ⟨g1, g2⟩
    · rw [g4, bind_ok]
      refine ⟨_, rfl, Or.inl ⟨e', ⟨?_, rfl, rfl, g5⟩, by omega, g2, fun i hi1 hi2 => ?_⟩⟩
      · dsimp only; omega
      · by_cases hi : e / 64 * 64 ≤ i
        · exact hno i hi hi2
        · exact g3 i hi1 (by omega)
    · rw [g2, bind_ok]
      refine ⟨_, rfl, Or.inr ⟨rfl, fun i hi2 => ?_⟩⟩
      by_cases hi : e / 64 * 64 ≤ i
      · exact hno i hi hi2
      · exact g1 i (by omega)

theorem backward_spec (hv : v = s.heap.vec (s.set x).vec) : ∀ (hi : Nat) (t : Iter), hi ≤ v.wsize * 64 → ReadyB v t hi →
    ∃ n l, backward s x n t = some l ∧ l.Pairwise (· > ·) ∧ ∀ i : Int, i ∈ l ↔ 0 ≤ i ∧ i < hi ∧ bit v i.toNat = true := by
  intro hi
  induction hi using Nat.strongRecOn with
  | _ hi ih =>
    intro t hle hr
    rcases hr with ⟨e, ha, h1, h2, h3⟩ | ⟨h1, h2⟩
    · obtain ⟨t', e1, hr'⟩ := readyB_next hv ha (by omega)
      obtain ⟨n, l, f1, f2, f3⟩ := ih e h1 t' (by omega) hr'
      refine ⟨n + 1, (e : Int) :: l, ?_, ?_, fun i => ?_⟩
      · have hne : bipFinished t = false := by
          unfold bipFinished
          rw [ha.element]
          simp
        rw [backward, hne, if_neg (by simp), e1]
        dsimp only
        rw [f1, ha.element]
        rfl
      · refine List.Pairwise.cons (fun i hi' => ?_) f2
        have := (f3 i).mp hi'
        omega
      · rw [List.mem_cons, f3]
        constructor
        · rintro (rfl | ⟨k1, k2, k3⟩)
          · exact ⟨by omega, by omega, by simpa using h2⟩
          · exact ⟨k1, by omega, k3⟩
        · rintro ⟨k1, k2, k3⟩
          by_cases hie : i = e
          · exact Or.inl hie
          · right
            refine ⟨k1, ?_, k3⟩
            by_contra hlt
            have := h3 i.toNat (by omega) (by omega)
            rw [this] at k3
            exact absurd k3 (by simp)
    · refine ⟨1, [], ?_, List.Pairwise.nil, fun i => ?_⟩
      · have hfin : bipFinished t = true := by
          unfold bipFinished
          rw [h1]
          simp
        rw [backward, hfin, if_pos rfl]
      · simp only [List.not_mem_nil, false_iff, not_and]
        intro h3 h4
        rw [h2 i.toNat (by omega)]
        simp

end
end Verif.Bits
