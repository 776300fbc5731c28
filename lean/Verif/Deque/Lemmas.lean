import Verif.Deque.Spec
import Mathlib.Data.List.Induction
/-!
# Lemmas about the deque model
-/
namespace Verif.Deque

variable {α : Type}

@[simp] theorem bind_ok {β γ : Type} (b : β) (f : β → Res γ) : ((Res.ok b) >>= f) = f b := rfl

theorem rd_mid (A : List α) (x : α) (B : List α) (i : Int) (hi : i = A.length) :
    rd (A ++ x :: B) i = .ok x := by
  subst hi; simp [rd]

theorem wr_mid (A : List α) (x y : α) (B : List α) (i : Int) (hi : i = A.length) :
    wr (A ++ x :: B) i y = .ok (A ++ y :: B) := by
  subst hi
  simp only [wr]
  rw [if_pos ⟨by omega, by simp only [List.length_append, List.length_cons]; omega⟩]
  simp

/-- The slots of the island are exactly `l`. -/
def Holds (r : Rep α) (l : List α) : Prop :=
  ∃ A B, r.data = A ++ l ++ B ∧ r.first = A.length ∧ r.last = A.length + l.length - 1 ∧
    4 ≤ r.data.length

theorem fillLoop_mid (x : α) (M A B : List α) (i : Int) (hi : i = A.length) :
    fillLoop x M.length (A ++ M ++ B) i = .ok (A ++ List.replicate M.length x ++ B) := by
  induction M generalizing A i with
  | nil => simp [fillLoop]
  | cons m M ih =>
    simp only [List.length_cons, fillLoop]
    rw [List.append_assoc, List.cons_append, wr_mid _ _ _ _ _ hi, bind_ok]
    have := ih (A ++ [x]) (i + 1) (by simp [hi])
    simp only [List.append_assoc, List.cons_append, List.nil_append] at this ⊢
    rw [this, List.replicate_succ]
    simp

theorem growLoop_mid (l A B M P Q : List α) (src dst : Int) (hM : M.length = l.length)
    (hs : src = A.length) (hd : dst = P.length) :
    growLoop (A ++ l ++ B) l.length (P ++ M ++ Q) src dst = .ok (P ++ l ++ Q, dst + l.length) := by
  induction l generalizing A M P src dst with
  | nil =>
    obtain rfl : M = [] := List.length_eq_zero_iff.mp hM
    simp [growLoop]
  | cons x l ih =>
    obtain ⟨m, M, rfl⟩ : ∃ m M', M = m :: M' := by
      cases M with
      | nil => simp at hM
      | cons m M' => exact ⟨m, M', rfl⟩
    simp only [List.length_cons, growLoop]
    have e1 : A ++ x :: l ++ B = A ++ x :: (l ++ B) := by simp
    have e2 : P ++ m :: M ++ Q = P ++ m :: (M ++ Q) := by simp
    rw [e1, rd_mid _ _ _ _ hs, bind_ok, e2, wr_mid _ _ _ _ _ hd, bind_ok]
    have := ih (A ++ [x]) M (P ++ [x]) (src + 1) (dst + 1) (by simpa using hM)
      (by simp [hs]) (by simp [hd])
    simp only [List.append_assoc, List.cons_append, List.nil_append] at this ⊢
    rw [this]
    simp; omega

theorem snoc_of_cons (x : α) (C : List α) : ∃ D y, x :: C = D ++ [y] ∧ D.length = C.length := by
  refine ⟨(x :: C).dropLast, (x :: C).getLast (by simp), ?_, by simp⟩
  exact (List.dropLast_concat_getLast (by simp)).symm

theorem cons_of_snoc (x : α) (C : List α) : ∃ y D, C ++ [x] = y :: D ∧ D.length = C.length := by
  cases C with
  | nil => exact ⟨x, [], rfl, rfl⟩
  | cons c C => exact ⟨c, C ++ [x], rfl, by simp⟩

theorem copyDown_mid (l : List α) : ∀ (A C T : List α) (dst src : Int),
    src = A.length + l.length - 1 → dst = A.length + l.length + C.length - 1 →
    ∃ P, P.length = A.length + C.length ∧
      copyDown l.length (A ++ l ++ C ++ T) dst src = .ok (P ++ l ++ T) := by
  induction l using List.reverseRecOn with
  | nil =>
    intro A C T dst src _ _
    exact ⟨A ++ C, by simp, by simp [copyDown]⟩
  | append_singleton l x ih =>
    intro A C T dst src hs hd
    simp only [List.length_append, List.length_singleton, copyDown]
    have e1 : A ++ (l ++ [x]) ++ C ++ T = (A ++ l) ++ x :: (C ++ T) := by simp
    obtain ⟨D, y, hD, hDl⟩ := snoc_of_cons x C
    have e2 : (A ++ l) ++ x :: (C ++ T) = (A ++ l ++ D) ++ y :: T := by
      rw [show x :: (C ++ T) = (x :: C) ++ T by simp, hD]; simp
    rw [e1, rd_mid _ _ _ _ (by simp [hs]; omega), bind_ok, e2,
      wr_mid _ _ _ _ _ (by simp [hd, hDl]; omega), bind_ok]
    obtain ⟨P, hP, h⟩ := ih A D (x :: T) (dst - 1) (src - 1) (by simp [hs]; omega)
      (by simp [hd, hDl]; omega)
    exact ⟨P, by omega, by rw [h]; simp⟩

theorem copyUp_mid (l : List α) : ∀ (T C B : List α) (dst src : Int),
    dst = T.length → src = T.length + C.length →
    ∃ S, S.length = C.length + B.length ∧
      copyUp l.length (T ++ C ++ l ++ B) dst src = .ok (T ++ l ++ S) := by
  induction l with
  | nil =>
    intro T C B dst src _ _
    exact ⟨C ++ B, by simp, by simp [copyUp]⟩
  | cons x l ih =>
    intro T C B dst src hd hs
    simp only [List.length_cons, copyUp]
    have e1 : T ++ C ++ x :: l ++ B = (T ++ C) ++ x :: (l ++ B) := by simp
    obtain ⟨y, D, hD, hDl⟩ := cons_of_snoc x C
    have e2 : (T ++ C) ++ x :: (l ++ B) = T ++ y :: (D ++ l ++ B) := by
      rw [show (T ++ C) ++ x :: (l ++ B) = T ++ (C ++ [x]) ++ l ++ B by simp, hD]; simp
    rw [e1, rd_mid _ _ _ _ (by simp [hs]), bind_ok, e2,
      wr_mid _ _ _ _ _ hd, bind_ok]
    obtain ⟨S, hS, h⟩ := ih (T ++ [x]) D B (dst + 1) (src + 1) (by simp [hd])
      (by simp [hs, hDl]; omega)
    refine ⟨S, by omega, ?_⟩
    have e3 : T ++ x :: (D ++ l ++ B) = T ++ [x] ++ D ++ l ++ B := by simp
    rw [e3, h]; simp

theorem grow_holds (no : α) (r : Rep α) (l : List α) (h : Holds r l)
    (hfull : r.data.length = l.length) :
    ∃ A B, grow no r = .ok ⟨A ++ l ++ B, A.length, A.length + l.length - 1⟩ ∧
      A.length = l.length / 2 ∧ A.length + B.length = l.length ∧ 4 ≤ l.length := by
  obtain ⟨A, B, hd, hf, hl, h4⟩ := h
  refine ⟨List.replicate (l.length / 2) no, List.replicate (l.length - l.length / 2) no, ?_,
    by simp, by simp; omega, by omega⟩
  have hlen : r.last - r.first + 1 = (l.length : Int) := by omega
  simp only [grow, hlen, Int.toNat_natCast]
  have e0 : ((l.length : Int) * 2).toNat = l.length / 2 + l.length + (l.length - l.length / 2) := by
    omega
  have et : (l.length : Int).tdiv 2 = ((l.length / 2 : Nat) : Int) := by
    rw [Int.tdiv_eq_ediv_of_nonneg (by omega)]; simp
  have er : List.replicate (l.length / 2 + l.length + (l.length - l.length / 2)) no =
      List.replicate (l.length / 2) no ++ List.replicate l.length no ++
        List.replicate (l.length - l.length / 2) no := by
    simp only [List.replicate_append_replicate]
  rw [e0, et, er, hd, growLoop_mid l A B _ _ _ _ _ (by simp) hf (by simp)]
  simp

theorem makeRoomAtFirst_holds (no : α) (r : Rep α) (l : List α) (h : Holds r l)
    (hz : r.first = 0) :
    ∃ r', makeRoomAtFirst no r = .ok r' ∧ Holds r' l ∧ 0 < r'.first := by
  have h0 := h
  obtain ⟨A, B, hd, hf, hl, h4⟩ := h
  have hlen : r.data.length = A.length + l.length + B.length := by simp [hd]; omega
  have hA : A = [] := List.length_eq_zero_iff.mp (by omega)
  subst hA
  by_cases hfull : (r.data.length : Int) = size r
  · obtain ⟨A', B', hg, h1, h2, h3⟩ := grow_holds no r l h0 (by simp only [size] at hfull; omega)
    simp only [makeRoomAtFirst]
    rw [if_pos hfull, hg, bind_ok]
    dsimp only
    have hl' : ((A' ++ l ++ B').length : Int) = A'.length + l.length + B'.length := by
      simp; omega
    rw [hl', if_neg (by omega)]
    obtain ⟨P, hP, hc⟩ := copyDown_mid l A' B' [] ((A'.length + l.length + B'.length : Int) - 1)
      (A'.length + l.length - 1) rfl (by omega)
    rw [List.append_nil] at hc
    have en : ((A'.length : Int) + l.length + B'.length - 1 -
        ((A'.length : Int) + l.length + B'.length - 1 - ((A'.length : Int) + l.length - 1 -
          A'.length)) + 1).toNat = l.length := by omega
    have es : ((A'.length : Int) + l.length + B'.length - 1 -
        ((A'.length : Int) + l.length + B'.length - 1 - ((A'.length : Int) + l.length - 1 -
          A'.length)) + A'.length) = A'.length + l.length - 1 := by omega
    rw [en, es, hc, bind_ok]
    refine ⟨_, rfl, ⟨P, [], by simp, ?_, ?_, by simp; omega⟩, ?_⟩
    · dsimp only; omega
    · dsimp only; omega
    · dsimp only; omega
  · simp only [size] at hfull
    simp only [makeRoomAtFirst]
    rw [if_neg (by simpa only [size] using hfull), bind_ok]
    rw [if_neg (by simp at hlen hf hl; omega)]
    simp only [List.nil_append, List.length_nil] at *
    obtain ⟨P, hP, hc⟩ := copyDown_mid l [] B [] ((r.data.length : Int) - 1) (l.length - 1)
      (by simp) (by simp; omega)
    simp only [List.nil_append, List.append_nil] at hc
    have en : ((r.data.length : Int) - 1 - ((r.data.length : Int) - 1 - (r.last - r.first)) + 1).toNat
      = l.length := by omega
    have es : ((r.data.length : Int) - 1 - ((r.data.length : Int) - 1 - (r.last - r.first)) + r.first)
      = l.length - 1 := by omega
    rw [en, es]; conv in copyDown _ _ _ _ => rw [show copyDown l.length r.data (↑r.data.length - 1) (↑l.length - 1) = .ok (P ++ l) by rw [← hc, ← hd]]
    rw [bind_ok]
    simp at hP
    refine ⟨_, rfl, ⟨P, [], by simp, ?_, ?_, by simp; omega⟩, ?_⟩
    · simp only; omega
    · simp only; omega
    · simp only; omega

theorem makeRoomAtLast_holds (no : α) (r : Rep α) (l : List α) (h : Holds r l)
    (hz : r.last = (r.data.length : Int) - 1) :
    ∃ r', makeRoomAtLast no r = .ok r' ∧ Holds r' l ∧ r'.last ≠ (r'.data.length : Int) - 1 := by
  have h0 := h
  obtain ⟨A, B, hd, hf, hl, h4⟩ := h
  have hlen : r.data.length = A.length + l.length + B.length := by simp [hd]; omega
  have hB : B = [] := List.length_eq_zero_iff.mp (by omega)
  subst hB
  by_cases hfull : (r.data.length : Int) = size r
  · obtain ⟨A', B', hg, h1, h2, h3⟩ := grow_holds no r l h0 (by simp only [size] at hfull; omega)
    simp only [makeRoomAtLast]
    rw [if_pos hfull, hg, bind_ok]
    dsimp only
    rw [if_neg (by omega)]
    obtain ⟨S, hS, hc⟩ := copyUp_mid l [] A' B' 0 A'.length (by simp) (by simp)
    simp only [List.nil_append] at hc
    have en : ((A'.length : Int) + l.length - 1 - A'.length + 1).toNat = l.length := by omega
    rw [en, hc, bind_ok]
    refine ⟨_, rfl, ⟨[], S, by simp, by simp, by simp; omega, by simp; omega⟩, ?_⟩
    simp; omega
  · simp only [size] at hfull
    simp only [makeRoomAtLast]
    rw [if_neg (by simpa only [size] using hfull), bind_ok]
    simp at hlen
    rw [if_neg (by omega)]
    obtain ⟨S, hS, hc⟩ := copyUp_mid l [] A [] 0 r.first (by simp) (by simp; omega)
    simp only [List.nil_append, List.append_nil] at hc hd
    have en : (r.last - r.first + 1).toNat = l.length := by omega
    rw [en, hd, hc, bind_ok]
    simp at hS
    refine ⟨_, rfl, ⟨[], S, by simp, by simp, by simp; omega, by simp; omega⟩, ?_⟩
    simp; omega

theorem push_holds (no : α) (r : Rep α) (l : List α) (x : α) (h : Holds r l) :
    ∃ r', push no loopFuel r x = .ok r' ∧ Holds r' (x :: l) := by
  have base : ∀ (fuel : Nat) (r : Rep α), Holds r l → 0 < r.first →
      ∃ r', push no (fuel + 1) r x = .ok r' ∧ Holds r' (x :: l) := by
    intro fuel r h hp
    obtain ⟨A, B, hd, hf, hl, h4⟩ := h
    simp only [push]
    rw [if_neg (by omega)]
    obtain ⟨A, y, rfl⟩ : ∃ A' y, A = A' ++ [y] := by
      refine ⟨A.dropLast, A.getLast ?_, (List.dropLast_concat_getLast _).symm⟩
      rintro rfl; simp at hf; omega
    have e : r.data = A ++ y :: (l ++ B) := by simp [hd]
    rw [e, wr_mid _ _ _ _ _ (by simp at hf; omega), bind_ok]
    refine ⟨_, rfl, A, B, by simp, ?_, ?_, ?_⟩
    · simp at hf ⊢; omega
    · simp at hl ⊢; omega
    · simp [e] at h4 ⊢; omega
  by_cases hz : r.first = 0
  · obtain ⟨r1, h1, h2, h3⟩ := makeRoomAtFirst_holds no r l h hz
    simp only [loopFuel, push]
    rw [if_pos hz, h1, bind_ok]
    exact base 0 r1 h2 h3
  · have : 0 < r.first := by obtain ⟨A, B, hd, hf, hl, h4⟩ := h; omega
    exact base 1 r h this

theorem pushLast_holds (no : α) (r : Rep α) (l : List α) (x : α) (h : Holds r l) :
    ∃ r', pushLast no loopFuel r x = .ok r' ∧ Holds r' (l ++ [x]) := by
  have base : ∀ (fuel : Nat) (r : Rep α), Holds r l → r.last ≠ (r.data.length : Int) - 1 →
      ∃ r', pushLast no (fuel + 1) r x = .ok r' ∧ Holds r' (l ++ [x]) := by
    intro fuel r h hp
    obtain ⟨A, B, hd, hf, hl, h4⟩ := h
    simp only [pushLast]
    rw [if_neg hp]
    have hlen : r.data.length = A.length + l.length + B.length := by simp [hd]; omega
    obtain ⟨y, B, rfl⟩ : ∃ y B', B = y :: B' := by
      cases B with
      | nil => simp at hlen; omega
      | cons y B => exact ⟨y, B, rfl⟩
    rw [hd, wr_mid _ _ _ _ _ (by simp; omega), bind_ok]
    refine ⟨_, rfl, A, B, by simp, hf, ?_, ?_⟩
    · simp; omega
    · simp [hd] at h4 ⊢; omega
  by_cases hz : r.last = (r.data.length : Int) - 1
  · obtain ⟨r1, h1, h2, h3⟩ := makeRoomAtLast_holds no r l h hz
    simp only [loopFuel, pushLast]
    rw [if_pos hz, h1, bind_ok]
    exact base 0 r1 h2 h3
  · exact base 1 r h hz

theorem pop_holds (no : α) (r : Rep α) (l : List α) (h : Holds r l) :
    ∃ r', pop no r = .ok ((seqStep no l .pop).1, r') ∧ Holds r' (seqStep no l .pop).2 := by
  have h0 := h
  obtain ⟨A, B, hd, hf, hl, h4⟩ := h
  cases l with
  | nil =>
    refine ⟨r, ?_, h0⟩
    simp only [pop, seqStep]
    rw [if_pos (by simp at hl; omega)]
  | cons x l =>
    simp only [List.length_cons] at hl
    simp only [pop, seqStep]
    have e : r.data = A ++ x :: (l ++ B) := by simp [hd]
    rw [if_neg (by omega), e, rd_mid _ _ _ _ hf, bind_ok, wr_mid _ _ _ _ _ hf, bind_ok]
    refine ⟨_, rfl, A ++ [no], B, by simp, by simp [hf], by simp; omega, ?_⟩
    simp [hd] at h4 ⊢; omega

theorem popLast_holds (no : α) (r : Rep α) (l : List α) (h : Holds r l) :
    ∃ r', popLast no r = .ok ((seqStep no l .popLast).1, r') ∧
      Holds r' (seqStep no l .popLast).2 := by
  have h0 := h
  obtain ⟨A, B, hd, hf, hl, h4⟩ := h
  rcases List.eq_nil_or_concat l with rfl | ⟨l, x, rfl⟩
  · refine ⟨r, ?_, h0⟩
    simp only [popLast, seqStep]
    rw [if_pos (by simp at hl; omega)]; simp
  · simp only [List.concat_eq_append] at *
    simp only [List.length_append, List.length_singleton] at hl
    simp only [popLast, seqStep]
    have e : r.data = (A ++ l) ++ x :: B := by simp [hd]
    have hi : r.last = ((A ++ l).length : Int) := by simp; omega
    rw [if_neg (by omega), e, rd_mid _ _ _ _ hi, bind_ok, wr_mid _ _ _ _ _ hi, bind_ok]
    refine ⟨⟨A ++ l ++ no :: B, r.first, r.last - 1⟩, by simp, A, no :: B, by simp, hf, ?_, ?_⟩
    · simp; omega
    · simp [hd] at h4 ⊢; omega

theorem popLoop_holds (no : α) (n : Nat) : ∀ (r : Rep α) (l : List α), Holds r l → n ≤ l.length →
    ∃ r', popLoop no n r = .ok (.unit, r') ∧ Holds r' (l.take (l.length - n)) := by
  induction n with
  | zero => intro r l h _; exact ⟨r, rfl, by simpa using h⟩
  | succ n ih =>
    intro r l h hn
    obtain ⟨r1, h1, h2⟩ := popLast_holds no r l h
    rcases List.eq_nil_or_concat l with rfl | ⟨l, x, rfl⟩
    · simp at hn
    · simp only [List.concat_eq_append] at *
      simp [seqStep] at h1 h2
      obtain ⟨r2, h3, h4⟩ := ih r1 l h2 (by simp at hn; omega)
      refine ⟨r2, ?_, ?_⟩
      · simp only [popLoop]
        rw [h1, bind_ok]
        exact h3
      · have : (l ++ [x]).length - (n + 1) = l.length - n := by simp
        rw [this, List.take_append_of_le_length (by omega)]
        exact h4

theorem padLoop_holds (no : α) (n : Nat) : ∀ (r : Rep α) (l : List α), Holds r l →
    ∃ r', padLoop no n r = .ok r' ∧ Holds r' (l ++ List.replicate n no) := by
  induction n with
  | zero => intro r l h; exact ⟨r, rfl, by simpa using h⟩
  | succ n ih =>
    intro r l h
    obtain ⟨r1, h1, h2⟩ := pushLast_holds no r l no h
    obtain ⟨r2, h3, h4⟩ := ih r1 _ h2
    refine ⟨r2, ?_, ?_⟩
    · simp only [padLoop]; rw [h1, bind_ok]; exact h3
    · simpa [List.replicate_succ] using h4

theorem size_holds (r : Rep α) (l : List α) (h : Holds r l) : size r = l.length := by
  obtain ⟨A, B, hd, hf, hl, h4⟩ := h
  simp only [size]; omega

theorem trustedSetSize_holds (no : α) (r : Rep α) (l : List α) (n : Nat) (h : Holds r l) :
    ∃ r', trustedSetSize no n r = .ok (.unit, r') ∧
      Holds r' (l.take n ++ List.replicate (n - l.length) no) := by
  have hs := size_holds r l h
  simp only [trustedSetSize, hs]
  by_cases h1 : (n : Int) - l.length < 0
  · rw [if_pos h1]
    obtain ⟨r', h2, h3⟩ := popLoop_holds no (-((n : Int) - l.length)).toNat r l h (by omega)
    refine ⟨r', h2, ?_⟩
    have e1 : l.length - (-((n : Int) - l.length)).toNat = n := by omega
    have e2 : n - l.length = 0 := by omega
    rw [e1] at h3
    simpa [e2] using h3
  · rw [if_neg h1]
    by_cases h2 : (n : Int) - l.length > 0
    · rw [if_pos h2]
      obtain ⟨r', h3, h4⟩ := padLoop_holds no ((n : Int) - l.length).toNat r l h
      refine ⟨r', by rw [h3, bind_ok], ?_⟩
      have e1 : ((n : Int) - l.length).toNat = n - l.length := by omega
      rw [e1] at h4
      rwa [List.take_of_length_le (by omega)]
    · rw [if_neg h2]
      refine ⟨r, rfl, ?_⟩
      have e2 : n - l.length = 0 := by omega
      rw [e2, List.take_of_length_le (by omega)]
      simpa using h

theorem wr_elem (r : Rep α) (l : List α) (x : α) (i : Nat) (h : Holds r l) (hi : i < l.length) :
    ∃ d, wr r.data (i + r.first) x = .ok d ∧ Holds ⟨d, r.first, r.last⟩ (l.set i x) := by
  obtain ⟨A, B, hd, hf, hl, h4⟩ := h
  have e0 : l = l.take i ++ l[i] :: l.drop (i + 1) := by simp
  have e : r.data = (A ++ l.take i) ++ l[i] :: (l.drop (i + 1) ++ B) := by
    rw [hd]; conv_lhs => rw [e0]
    simp only [List.append_assoc, List.cons_append]
  rw [e, wr_mid _ _ _ _ _ (by simp; omega)]
  refine ⟨_, rfl, A, B, ?_, hf, by simpa using hl, ?_⟩
  · simp [List.set_eq_take_append_cons_drop, hi]
  · have := congrArg List.length e
    simp at this ⊢; omega

theorem setElement_holds (no : α) (r : Rep α) (l : List α) (x : α) (i : Int) (h : Holds r l) :
    ∃ r', setElement no loopFuel r x i = .ok ((seqStep no l (.setElement x i)).1, r') ∧
      Holds r' (seqStep no l (.setElement x i)).2 := by
  have hs := size_holds r l h
  have base : ∀ (fuel : Nat) (r : Rep α) (l : List α), Holds r l → 0 ≤ i → i < l.length →
      ∃ r', setElement no (fuel + 1) r x i = .ok (.unit, r') ∧ Holds r' (l.set i.toNat x) := by
    intro fuel r l h h0 h1
    have hs := size_holds r l h
    simp only [size] at hs
    simp only [setElement]
    rw [if_neg (by omega), if_neg (by omega)]
    obtain ⟨d, h2, h3⟩ := wr_elem r l x i.toNat h (by omega)
    rw [show ((i.toNat : Nat) : Int) = i by omega] at h2
    rw [h2, bind_ok]
    exact ⟨_, rfl, h3⟩
  by_cases h0 : i < 0
  · simp only [loopFuel, setElement, seqStep]
    rw [if_pos h0, if_pos h0]
    exact ⟨r, rfl, h⟩
  · simp only [seqStep]
    rw [if_neg h0]
    by_cases h1 : i.toNat < l.length
    · rw [if_pos h1]
      exact base 1 r l h (by omega) (by omega)
    · rw [if_neg h1]
      obtain ⟨r1, h2, h3⟩ := trustedSetSize_holds no r l (i.toNat + 1) h
      have e1 : ((i.toNat + 1 : Nat) : Int) = i + 1 := by omega
      rw [e1] at h2
      rw [List.take_of_length_le (by omega)] at h3
      obtain ⟨r2, h4, h5⟩ := base 0 r1 _ h3 (by omega) (by simp; omega)
      have hset : (if size r = i then trustedSetSize no (i + 1) r else setSize no (i + 1) r) =
          .ok (.unit, r1) := by
        split
        · exact h2
        · simp only [setSize]; rw [if_neg (by omega)]; exact h2
      refine ⟨r2, ?_, ?_⟩
      · rw [loopFuel]
        unfold setElement
        simp only [size] at hs
        rw [if_neg h0, if_pos (by omega), hset, bind_ok]
        exact h4
      · have e2 : i.toNat + 1 - l.length = (i.toNat - l.length) + 1 := by omega
        rw [e2, List.replicate_succ', ← List.append_assoc,
          List.set_append_right _ _ (by simp; omega)] at h5
        have e3 : i.toNat - (l ++ List.replicate (i.toNat - l.length) no).length = 0 := by
          simp; omega
        rw [e3] at h5
        simpa using h5

theorem element_holds (no : α) (r : Rep α) (l : List α) (i : Int) (dflt : Option α) (h : Holds r l) :
    element r i dflt = .ok (seqStep no l (.element i dflt)).1 := by
  have hs := size_holds r l h
  simp only [size] at hs
  obtain ⟨A, B, hd, hf, hl, h4⟩ := h
  simp only [element, seqStep]
  by_cases h0 : i < 0
  · rw [if_pos (by omega)]
    cases dflt <;> simp [h0]
  · by_cases h1 : i.toNat < l.length
    · rw [if_neg (by omega)]
      have e0 : l = l.take i.toNat ++ l[i.toNat] :: l.drop (i.toNat + 1) := by simp
      have e : r.data = (A ++ l.take i.toNat) ++ l[i.toNat] :: (l.drop (i.toNat + 1) ++ B) := by
        rw [hd]; conv_lhs => rw [e0]
        simp only [List.append_assoc, List.cons_append]
      rw [e, rd_mid _ _ _ _ (by simp; omega)]
      simp [h0, h1]
    · rw [if_pos (by omega)]
      cases dflt <;> simp [h0, List.getElem?_eq_none (Nat.le_of_not_lt h1)]

theorem removeUpTo_length (p : α → Bool) (k : Nat) (l : List α) :
    (removeUpTo p k l).length ≤ l.length := by
  induction l generalizing k with
  | nil => cases k <;> simp [removeUpTo]
  | cons x l ih =>
    cases k with
    | zero => simp [removeUpTo]
    | succ k =>
      simp only [removeUpTo]
      split
      · have := ih k; simp; omega
      · have := ih (k + 1); simp; omega

theorem removeUpTo_all (p : α → Bool) (l : List α) (k : Nat) (hk : l.length ≤ k) :
    removeUpTo p k l = l.filter fun x => !p x := by
  induction l generalizing k with
  | nil => cases k <;> simp [removeUpTo]
  | cons x l ih =>
    cases k with
    | zero => simp at hk
    | succ k =>
      simp only [List.length_cons] at hk
      simp only [removeUpTo]
      split
      · rename_i h; simp [h, ih k (by omega)]
      · rename_i h; simp [h, ih (k + 1) (by omega)]

theorem removeUpTo_zero (p : α → Bool) (l : List α) : removeUpTo p 0 l = l := by
  cases l <;> rfl

theorem grovel_mid (no : α) (p : α → Bool) (M : List α) : ∀ (P C B : List α) (count src dst : Int),
    dst = P.length → src = P.length + C.length →
    ∃ S, S.length = C.length + (M.length - (removeUpTo p count.toNat M).length) ∧
      grovel no p M.length (P ++ C ++ M ++ B) count src dst =
        .ok (P ++ removeUpTo p count.toNat M ++ S ++ B,
          dst + (removeUpTo p count.toNat M).length) := by
  induction M with
  | nil =>
    intro P C B count src dst hd hs
    have e : removeUpTo p count.toNat ([] : List α) = [] := by
      cases count.toNat <;> rfl
    refine ⟨List.replicate C.length no, by simp [e], ?_⟩
    simp only [List.length_nil, grovel, List.append_nil, e]
    have : (src - dst).toNat = C.length := by omega
    rw [this, fillLoop_mid no C P B dst hd, bind_ok]
    simp
  | cons m M ih =>
    intro P C B count src dst hd hs
    simp only [List.length_cons, grovel]
    have e1 : P ++ C ++ m :: M ++ B = (P ++ C) ++ m :: (M ++ B) := by simp
    rw [e1, rd_mid _ _ _ _ (by simp [hs]), bind_ok]
    by_cases hc : 0 < count ∧ p m
    · rw [if_pos hc]
      obtain ⟨S, hS, h⟩ := ih P (C ++ [m]) B (count - 1) (src + 1) dst hd (by simp; omega)
      have ek : count.toNat = (count - 1).toNat + 1 := by omega
      have er : removeUpTo p count.toNat (m :: M) = removeUpTo p (count - 1).toNat M := by
        rw [ek]; simp [removeUpTo, hc.2]
      have hle := removeUpTo_length p (count - 1).toNat M
      refine ⟨S, ?_, ?_⟩
      · rw [er]; simp only [List.length_append, List.length_cons, List.length_nil] at hS ⊢; omega
      · rw [er]
        simp only [List.append_assoc, List.cons_append, List.nil_append] at h ⊢
        exact h
    · rw [if_neg hc]
      obtain ⟨y, D, hD, hDl⟩ := cons_of_snoc m C
      have e2 : (P ++ C) ++ m :: (M ++ B) = P ++ y :: (D ++ M ++ B) := by
        rw [show (P ++ C) ++ m :: (M ++ B) = P ++ (C ++ [m]) ++ M ++ B by simp, hD]; simp
      rw [e2, wr_mid _ _ _ _ _ hd, bind_ok]
      obtain ⟨S, hS, h⟩ := ih (P ++ [m]) D B count (src + 1) (dst + 1) (by simp [hd])
        (by simp; omega)
      have er : removeUpTo p count.toNat (m :: M) = m :: removeUpTo p count.toNat M := by
        rcases hk : count.toNat with _ | k
        · simp [removeUpTo, removeUpTo_zero]
        · have : ¬ p m = true := fun hp => hc ⟨by omega, hp⟩
          simp [removeUpTo, this]
      refine ⟨S, ?_, ?_⟩
      · rw [er]; simp; omega
      · rw [er]
        simp only [List.append_assoc, List.cons_append, List.nil_append, List.length_cons] at h ⊢
        rw [h]
        simp; omega

theorem remove_holds (no : α) (p : α → Bool) (c : Option Int) (r : Rep α) (l : List α)
    (h : Holds r l) :
    ∃ r', remove no p c r = .ok r' ∧ Holds r' (seqStep no l (.remove p c)).2 := by
  have hs := size_holds r l h
  obtain ⟨A, B, hd, hf, hl, h4⟩ := h
  have hr : (seqStep no l (.remove p c)).2 = removeUpTo p (c.getD (size r)).toNat l := by
    cases c with
    | none => simp [seqStep, hs, removeUpTo_all]
    | some k => simp [seqStep]
  obtain ⟨S, hS, hg⟩ := grovel_mid no p l A [] B (c.getD (size r)) r.first r.first hf (by simp [hf])
  simp only [List.append_nil] at hg
  have en : (r.last - r.first + 1).toNat = l.length := by omega
  simp only [remove, en]
  rw [hd, hg, bind_ok, hr]
  have hle := removeUpTo_length p (c.getD (size r)).toNat l
  refine ⟨_, rfl, A, S ++ B, by simp, hf, ?_, ?_⟩
  · simp only; omega
  · simp [hd] at h4 hS ⊢; omega

theorem reverseLoop_mid (n : Nat) : ∀ (M A B : List α) (i j : Int), M.length / 2 = n →
    i = A.length → j = A.length + M.length - 1 →
    reverseLoop n (A ++ M ++ B) i j = .ok (A ++ M.reverse ++ B) := by
  induction n with
  | zero =>
    intro M A B i j hn _ _
    have : M.reverse = M := by
      match M, hn with
      | [], _ => rfl
      | [x], _ => rfl
      | x :: y :: M, hn => simp only [List.length_cons] at hn; omega
    simp [reverseLoop, this]
  | succ n ih =>
    intro M A B i j hn hi hj
    obtain ⟨x, M, rfl⟩ : ∃ x M', M = x :: M' := by
      cases M with
      | nil => simp at hn
      | cons x M => exact ⟨x, M, rfl⟩
    obtain ⟨M, y, rfl⟩ : ∃ M' y, M = M' ++ [y] := by
      refine ⟨M.dropLast, M.getLast ?_, (List.dropLast_concat_getLast _).symm⟩
      rintro rfl; simp at hn
    simp only [reverseLoop]
    have e1 : A ++ x :: (M ++ [y]) ++ B = A ++ x :: (M ++ y :: B) := by simp
    have e2 : A ++ x :: (M ++ y :: B) = (A ++ x :: M) ++ y :: B := by simp
    have hj' : j = ((A ++ x :: M).length : Int) := by simp at hj ⊢; omega
    rw [e1, rd_mid _ _ _ _ hi, bind_ok]
    conv_lhs => rw [e2, rd_mid _ _ _ _ hj']
    rw [bind_ok, ← e2, wr_mid _ _ _ _ _ hi, bind_ok,
      show A ++ y :: (M ++ y :: B) = (A ++ y :: M) ++ y :: B by simp,
      wr_mid _ _ _ _ _ (by simpa using hj'), bind_ok,
      show (A ++ y :: M) ++ x :: B = (A ++ [y]) ++ M ++ (x :: B) by simp,
      ih M (A ++ [y]) (x :: B) (i + 1) (j - 1) (by simp at hn; omega) (by simp [hi])
        (by simp at hj ⊢; omega)]
    simp

theorem reverse_holds (r : Rep α) (l : List α) (h : Holds r l) :
    ∃ r', reverse r = .ok r' ∧ Holds r' l.reverse := by
  obtain ⟨A, B, hd, hf, hl, h4⟩ := h
  simp only [reverse]
  have en : (-(-(r.first + r.last) / 2) - r.first).toNat = l.length / 2 := by omega
  rw [en, hd, reverseLoop_mid _ l A B _ _ rfl hf hl, bind_ok]
  refine ⟨_, rfl, A, B, rfl, hf, by simpa using hl, ?_⟩
  simpa [hd] using h4

theorem make_holds (no : α) (n : Nat) (fill : Option α) :
    ∃ r, make no n fill = .ok r ∧ Holds r (List.replicate n (fill.getD no)) := by
  have hsplit : List.replicate (max (n * 2) 4) no = List.replicate (max (n * 2) 4 / 2) no ++
      List.replicate n no ++ List.replicate (max (n * 2) 4 - max (n * 2) 4 / 2 - n) no := by
    simp only [List.replicate_append_replicate]; congr 1; omega
  have en : ((((max (n * 2) 4 : Nat) / 2 : Nat) : Int) + n - 1 -
      (((max (n * 2) 4 : Nat) / 2 : Nat) : Int) + 1).toNat = n := by omega
  cases fill with
  | none =>
    refine ⟨_, rfl, List.replicate (max (n * 2) 4 / 2) no,
      List.replicate (max (n * 2) 4 - max (n * 2) 4 / 2 - n) no, hsplit, ?_, ?_, ?_⟩
    · simp
    · simp
    · simp; omega
  | some x =>
    simp only [make]
    have := fillLoop_mid x (List.replicate n no) (List.replicate (max (n * 2) 4 / 2) no)
      (List.replicate (max (n * 2) 4 - max (n * 2) 4 / 2 - n) no)
      (((max (n * 2) 4 / 2 : Nat) : Int)) (by simp)
    rw [← hsplit, List.length_replicate] at this
    have ec : ((max (n * 2) 4 : Nat) : Int) / 2 = ((max (n * 2) 4 / 2 : Nat) : Int) := by omega
    rw [ec, en, this, bind_ok]
    refine ⟨_, rfl, List.replicate (max (n * 2) 4 / 2) no,
      List.replicate (max (n * 2) 4 - max (n * 2) 4 / 2 - n) no, rfl, by simp, by simp, ?_⟩
    simp; omega

theorem copySequence_holds (no : α) (r : Rep α) (l : List α) (h : Holds r l) :
    ∃ r', copySequence no r = .ok r' ∧ Holds r' l := by
  obtain ⟨A, B, hd, hf, hl, h4⟩ := h
  have en : r.last - r.first + 1 = (l.length : Int) := by omega
  obtain ⟨t, ht, P, Q, hd', hf', hl', h4'⟩ := make_holds no l.length none
  simp only [copySequence, en, Int.toNat_natCast]
  rw [ht, bind_ok]
  have em : (min (l.length : Int) (t.last - t.first + 1)).toNat = l.length := by simp at hl'; omega
  rw [em, hd, hd', growLoop_mid l A B _ P Q _ _ (by simp) hf hf', bind_ok]
  refine ⟨_, rfl, P, Q, rfl, hf', by simpa using hl', ?_⟩
  rw [hd'] at h4'; simpa using h4'

theorem asListLoop_mid (l : List α) : ∀ (A B acc : List α) (i : Int),
    i = A.length + l.length - 1 → asListLoop (A ++ l ++ B) l.length i acc = .ok (l ++ acc) := by
  induction l using List.reverseRecOn with
  | nil => intro A B acc i _; rfl
  | append_singleton l x ih =>
    intro A B acc i hi
    simp only [List.length_append, List.length_singleton, asListLoop]
    have e1 : A ++ (l ++ [x]) ++ B = (A ++ l) ++ x :: B := by simp
    rw [e1, rd_mid _ _ _ _ (by simp [hi]; omega), bind_ok, ih A (x :: B) (x :: acc) (i - 1)
      (by simp [hi]; omega)]
    simp

theorem asList_holds (r : Rep α) (l : List α) (h : Holds r l) : asList r = .ok l := by
  obtain ⟨A, B, hd, hf, hl, h4⟩ := h
  have en : (r.last - r.first + 1).toNat = l.length := by omega
  simp only [asList, en]
  rw [hd, asListLoop_mid l A B [] _ hl]; simp

theorem asDequeLoop_holds (no : α) (xs : List α) : ∀ (r : Rep α) (l : List α), Holds r l →
    ∃ r', asDequeLoop no xs r = .ok r' ∧ Holds r' (l ++ xs) := by
  induction xs with
  | nil => intro r l h; exact ⟨r, rfl, by simpa using h⟩
  | cons x xs ih =>
    intro r l h
    obtain ⟨r1, h1, h2⟩ := pushLast_holds no r l x h
    obtain ⟨r2, h3, h4⟩ := ih r1 _ h2
    refine ⟨r2, ?_, by simpa using h4⟩
    simp only [asDequeLoop]; rw [h1, bind_ok]; exact h3

theorem asDeque_holds (no : α) (l : List α) : ∃ r, asDeque no l = .ok r ∧ Holds r l := by
  obtain ⟨r, h1, h2⟩ := make_holds no 0 none
  obtain ⟨r', h3, h4⟩ := asDequeLoop_holds no l r _ h2
  exact ⟨r', by simp only [asDeque]; rw [h1, bind_ok, h3], by simpa using h4⟩

theorem writeLoop_mid (l : List α) : ∀ (A M B : List α) (i : Int), M.length = l.length →
    i = A.length → writeLoop l (A ++ M ++ B) i = .ok (A ++ l ++ B) := by
  induction l with
  | nil =>
    intro A M B i hM _
    obtain rfl : M = [] := List.length_eq_zero_iff.mp hM
    simp [writeLoop]
  | cons x l ih =>
    intro A M B i hM hi
    obtain ⟨m, M, rfl⟩ : ∃ m M', M = m :: M' := by
      cases M with
      | nil => simp at hM
      | cons m M' => exact ⟨m, M', rfl⟩
    simp only [writeLoop]
    rw [show A ++ m :: M ++ B = A ++ m :: (M ++ B) by simp, wr_mid _ _ _ _ _ hi, bind_ok,
      show A ++ x :: (M ++ B) = (A ++ [x]) ++ M ++ B by simp,
      ih (A ++ [x]) M B (i + 1) (by simpa using hM) (by simp [hi])]
    simp

theorem asDequeFromArray_holds (no : α) (l : List α) :
    ∃ r, asDequeFromArray no l = .ok r ∧ Holds r l := by
  obtain ⟨t, ht, P, Q, hd', hf', hl', h4'⟩ := make_holds no l.length none
  simp only [asDequeFromArray]
  rw [ht, bind_ok, hd', writeLoop_mid l P _ Q _ (by simp) hf', bind_ok]
  refine ⟨_, rfl, P, Q, rfl, hf', by simpa using hl', ?_⟩
  rw [hd'] at h4'; simpa using h4'

theorem step_holds (no : α) (r : Rep α) (l : List α) (op : Op α) (h : Holds r l) :
    ∃ r', step no r op = .ok ((seqStep no l op).1, r') ∧ Holds r' (seqStep no l op).2 := by
  cases op with
  | push x =>
    obtain ⟨r', h1, h2⟩ := push_holds no r l x h
    exact ⟨r', by simp only [step]; rw [h1]; rfl, h2⟩
  | pushLast x =>
    obtain ⟨r', h1, h2⟩ := pushLast_holds no r l x h
    exact ⟨r', by simp only [step]; rw [h1]; rfl, h2⟩
  | pop => exact pop_holds no r l h
  | popLast => exact popLast_holds no r l h
  | size => exact ⟨r, by simp [step, seqStep, size_holds r l h], h⟩
  | isEmpty =>
    refine ⟨r, ?_, h⟩
    have hs := size_holds r l h
    simp only [size] at hs
    simp only [step, seqStep, isEmpty]
    cases l with
    | nil => simp at hs ⊢; omega
    | cons x l => simp at hs ⊢; omega
  | element i d =>
    refine ⟨r, by simp only [step]; rw [element_holds no r l i d h]; rfl, ?_⟩
    have : (seqStep no l (.element i d)).2 = l := by
      simp only [seqStep]
      generalize (if i < 0 then none else l[i.toNat]?) = o
      cases o <;> cases d <;> rfl
    rwa [this]
  | setElement x i => exact setElement_holds no r l x i h
  | setSize n =>
    simp only [step, setSize, seqStep]
    by_cases hn : n < 0
    · rw [if_pos hn, if_pos hn]; exact ⟨r, rfl, h⟩
    · rw [if_neg hn, if_neg hn]
      obtain ⟨r', h1, h2⟩ := trustedSetSize_holds no r l n.toNat h
      rw [show ((n.toNat : Nat) : Int) = n by omega] at h1
      exact ⟨r', h1, h2⟩
  | remove p c =>
    obtain ⟨r', h1, h2⟩ := remove_holds no p c r l h
    refine ⟨r', ?_, h2⟩
    simp only [step]; rw [h1]
    cases c <;> rfl
  | reverse =>
    obtain ⟨r', h1, h2⟩ := reverse_holds r l h
    exact ⟨r', by simp only [step]; rw [h1]; rfl, h2⟩
  | copy =>
    obtain ⟨r', h1, h2⟩ := copySequence_holds no r l h
    exact ⟨r', by simp only [step]; rw [h1]; rfl, h2⟩

theorem run_holds (no : α) (ops : List (Op α)) : ∀ (r : Rep α) (l : List α), Holds r l →
    ∃ r', run no r ops = .ok ((seqRun no l ops).1, r') ∧ Holds r' (seqRun no l ops).2 := by
  induction ops with
  | nil => intro r l h; exact ⟨r, rfl, h⟩
  | cons op ops ih =>
    intro r l h
    obtain ⟨r1, h1, h2⟩ := step_holds no r l op h
    obtain ⟨r2, h3, h4⟩ := ih r1 _ h2
    refine ⟨r2, ?_, h4⟩
    simp only [run]; rw [h1, bind_ok]
    simp only [h3]; rfl

theorem iterate_mid (k : Int → Int) (l : List α) : ∀ (A B : List α) (i limit : Int) (fuel : Nat),
    i = A.length → limit = A.length + l.length → l.length ≤ fuel →
    iterate (· + 1) k (A ++ l ++ B) fuel i limit =
      .ok ((l.zipIdx A.length).map fun (x, j) => (k j, x)) := by
  induction l with
  | nil =>
    intro A B i limit fuel hi hl _
    have : i = limit := by simp at hl; omega
    cases fuel <;> simp [iterate, this]
  | cons x l ih =>
    intro A B i limit fuel hi hl hf
    cases fuel with
    | zero => simp at hf
    | succ fuel =>
      simp only [List.length_cons] at hl hf
      simp only [iterate]
      rw [if_neg (by omega), show A ++ x :: l ++ B = A ++ x :: (l ++ B) by simp,
        rd_mid _ _ _ _ hi, bind_ok, show A ++ x :: (l ++ B) = (A ++ [x]) ++ l ++ B by simp,
        ih (A ++ [x]) B (i + 1) limit fuel (by simp [hi]) (by simp; omega) (by omega), bind_ok]
      simp [hi]

theorem zipIdx_shift (l : List α) (a : Int) : ∀ (n m : Nat), a = (n : Int) - m →
    (l.zipIdx n).map (fun (x, j) => ((j : Int) - a, x)) =
      (l.zipIdx m).map fun (x, j) => ((j : Int), x) := by
  induction l with
  | nil => intros; rfl
  | cons x l ih =>
    intro n m h
    simp only [List.zipIdx_cons, List.map_cons]
    rw [ih (n + 1) (m + 1) (by omega)]
    congr 2
    omega

theorem forward_holds (r : Rep α) (l : List α) (h : Holds r l) (fuel : Nat) (hf : l.length ≤ fuel) :
    forward r fuel = .ok (keyed l) := by
  obtain ⟨A, B, hd, hfi, hl, h4⟩ := h
  simp only [forward]
  rw [hd, iterate_mid _ l A B _ _ fuel hfi (by omega) hf]
  simp only [keyed]
  rw [zipIdx_shift l r.first A.length 0 (by omega)]

end Verif.Deque
