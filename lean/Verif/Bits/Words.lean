import Verif.Bits.Spec

/-! # Helper lemmas for bit vectors: words and loops -/

namespace Verif.Bits

@[simp] theorem bind_ok {α β : Type} (a : α) (f : α → Out β) : Out.bind (.ok a) f = f a := rfl

@[simp] theorem monad_bind {α β : Type} (x : Out α) (f : α → Out β) : (x >>= f) = Out.bind x f := rfl

/-! ### masks -/

theorem above_bit {n i : Nat} (hi : i < 64) : (above n).getLsbD i = decide (n ≤ i) := by
  unfold above
  rw [BitVec.getLsbD_shiftLeft, BitVec.getLsbD_allOnes]
  simp only [hi, decide_true, Bool.true_and]
  by_cases h : n ≤ i
  · simp only [h, decide_true]
    have : ¬ i < n := by omega
    simp [this]; omega
  · have : i < n := by omega
    simp [this]

theorem below_bit {n i : Nat} (hi : i < 64) : (below n).getLsbD i = decide (i < n) := by
  unfold below
  rw [BitVec.getLsbD_not]
  have := above_bit (n := n) hi
  unfold above at this
  rw [this]
  simp only [hi, decide_true, Bool.true_and]
  by_cases h : n ≤ i
  · have : ¬ i < n := by omega
    simp [h, this]
  · have : i < n := by omega
    simp [this]

theorem one_bit {n i : Nat} (hi : i < 64) (hn : n < 64) : (1#64 <<< n).getLsbD i = decide (i = n) := by
  rw [BitVec.getLsbD_shiftLeft]
  simp only [hi, decide_true, Bool.true_and]
  by_cases h : i = n
  · subst h; simp
  · by_cases h2 : i < n
    · simp [h, h2]
    · have : i - n ≠ 0 := by omega
      simp [h, h2, BitVec.getLsbD_one, this]

theorem fillWord_bit {b : Bool} {i : Nat} (hi : i < 64) : (fillWord b).getLsbD i = b := by
  unfold fillWord
  cases b
  · simp
  · rw [if_neg (by simp), BitVec.getLsbD_allOnes]; simp [hi]

/-! ### loops that write the words of one vector -/

/-- The heap after words `a` to `b` of vector `r` have been written. -/
def wr (h : Heap) (r : Nat) (F : Nat → W) (a b : Nat) : Heap :=
  { h with vec := Function.update h.vec r { h.vec r with word := fun j => if a ≤ j ∧ j < b then F j else (h.vec r).word j } }

section
variable {h : Heap} {r v a b : Nat} {F : Nat → W}

@[simp] theorem wr_next : (wr h r F a b).next = h.next := rfl

@[simp] theorem wr_size : ((wr h r F a b).vec v).size = (h.vec v).size := by
  unfold wr
  by_cases e : v = r
  · subst e; simp
  · simp [e]

@[simp] theorem wr_wsize : ((wr h r F a b).vec v).wsize = (h.vec v).wsize := by
  unfold wr
  by_cases e : v = r
  · subst e; simp
  · simp [e]

theorem wr_other (e : v ≠ r) : (wr h r F a b).vec v = h.vec v := by
  unfold wr; simp [e]

theorem wr_self : ((wr h r F a b).vec r).word = fun j => if a ≤ j ∧ j < b then F j else (h.vec r).word j := by
  unfold wr; simp

theorem wr_empty (e : b ≤ a) : wr h r F a b = h := by
  have : (fun j => if a ≤ j ∧ j < b then F j else (h.vec r).word j) = (h.vec r).word := by
    funext j
    rw [if_neg (by omega)]
  unfold wr
  rw [this]
  simp

/-- A word that has not been written yet. -/
theorem wr_word {j : Nat} (hj : ¬ (a ≤ j ∧ j < b)) : ((wr h r F a b).vec v).word j = (h.vec v).word j := by
  by_cases e : v = r
  · subst e; rw [wr_self]; simp only; rw [if_neg hj]
  · rw [wr_other e]

theorem getW_ok {j : Nat} (hj : j < (h.vec v).wsize) : getW h v j = .ok ((h.vec v).word j) := by
  unfold getW; rw [if_pos hj]

theorem getW_wr {j : Nat} (hj : ¬ (a ≤ j ∧ j < b)) (hw : j < (h.vec v).wsize) :
    getW (wr h r F a b) v j = .ok ((h.vec v).word j) := by
  rw [getW_ok (by simpa using hw), wr_word hj]

theorem setW_wr {j : Nat} (haj : a ≤ j) (hw : j < (h.vec r).wsize) {w : W} (e : w = F j) :
    setW (wr h r F a j) r j w = .ok (wr h r F a (j + 1)) := by
  unfold setW
  rw [if_pos (by simpa using hw)]
  congr 1
  unfold wr
  simp only [Function.update_self, Function.update_idem, Heap.mk.injEq, and_true]
  congr 2
  funext i
  by_cases hi : i = j
  · subst hi
    simp [e, haj]
  · rw [Function.update_of_ne hi]
    have : i < j + 1 ↔ i < j := by omega
    simp [this]

theorem setW_one {j : Nat} (hw : j < (h.vec r).wsize) {w : W} (F : Nat → W) (e : w = F j) :
    setW h r j w = .ok (wr h r F j (j + 1)) := by
  have := setW_wr (h := h) (r := r) (F := F) (a := j) (Nat.le_refl _) hw e
  rwa [wr_empty (Nat.le_refl _)] at this

/-- A loop that writes one word of `r` in each round. -/
theorem loop_wr {body : Nat → Heap → Out Heap} {F : Nat → W} :
    ∀ (n i : Nat), a ≤ i → i + n ≤ (h.vec r).wsize →
    (∀ j, i ≤ j → j < i + n → body j (wr h r F a j) = .ok (wr h r F a (j + 1))) →
    loop body n i (wr h r F a i) = .ok (wr h r F a (i + n))
  | 0, i, _, _, _ => rfl
  | n + 1, i, ha, hw, hb => by
    rw [loop, hb i (Nat.le_refl _) (by omega), bind_ok, loop_wr n (i + 1) (by omega) (by omega)
      (fun j h1 h2 => hb j (by omega) (by omega))]
    congr 2
    omega

theorem loop_wr' {body : Nat → Heap → Out Heap} (F : Nat → W) {n : Nat} (hw : a + n ≤ (h.vec r).wsize)
    (hb : ∀ j, a ≤ j → j < a + n → body j (wr h r F a j) = .ok (wr h r F a (j + 1))) :
    loop body n a h = .ok (wr h r F a (a + n)) := by
  have := loop_wr (h := h) (r := r) (a := a) (body := body) (F := F) n a (Nat.le_refl _) hw hb
  rwa [wr_empty (Nat.le_refl _)] at this

end

/-! ### bits -/

/-- Bit `i` of a vector. -/
def bit (v : BV) (i : Nat) : Bool := (v.word (i / 64)).getLsbD (i % 64)

theorem padded_lt {v : BV} {p : Bool} {i : Nat} (h : i < v.size) : padded v p i = bit v i := if_pos h

theorem padded_ge {v : BV} {p : Bool} {i : Nat} (h : v.size ≤ i) : padded v p i = p := if_neg (by omega)

theorem bit_wr {h : Heap} {r : Nat} {F : Nat → W} {a b i : Nat} (h1 : a ≤ i / 64) (h2 : i / 64 < b) :
    bit ((wr h r F a b).vec r) i = (F (i / 64)).getLsbD (i % 64) := by
  unfold bit
  rw [wr_self]
  simp only
  rw [if_pos ⟨h1, h2⟩]

theorem BV.Good.lt {v : BV} (h : v.Good) {i : Nat} (hi : i < v.size) : i / 64 < v.wsize := by
  unfold BV.Good at h; omega

theorem Heap.Good.wr {h : Heap} (g : h.Good) {r : Nat} {F : Nat → W} {a b : Nat} : (wr h r F a b).Good := by
  refine ⟨g.pos, by simpa using g.empty, fun v hv => ?_⟩
  have := g.vecs v hv
  unfold BV.Good at this ⊢
  simpa using this

/-- `maskAndPad` of the last word of a vector. -/
theorem maskAndPad_bit {v : BV} {p : Bool} {i : Nat} (g : v.Good) (hi : i / 64 + 1 = v.wsize) :
    (maskAndPad (v.word (i / 64)) (bitOffset v.size) p).getLsbD (i % 64) = padded v p i := by
  have h64 : i % 64 < 64 := Nat.mod_lt _ (by omega)
  unfold BV.Good at g
  unfold maskAndPad bitOffset padded
  by_cases h0 : v.size % 64 = 0
  · rw [if_pos h0, if_pos (by omega)]
  · rw [if_neg h0]
    by_cases hlt : i < v.size
    · have h1 : i % 64 < v.size % 64 := by omega
      have h2 : ¬ v.size % 64 ≤ i % 64 := by omega
      rw [if_pos hlt]
      split
      · rw [BitVec.getLsbD_and, below_bit h64]; simp [h1]
      · rw [BitVec.getLsbD_or, above_bit h64]; simp [h2]
    · have h1 : ¬ i % 64 < v.size % 64 := by omega
      have h2 : v.size % 64 ≤ i % 64 := by omega
      rw [if_neg hlt]
      cases p
      · rw [if_pos rfl, BitVec.getLsbD_and, below_bit h64]; simp [h1]
      · rw [if_neg (by simp), BitVec.getLsbD_or, above_bit h64]; simp [h2]

/-! ### the internal functions -/

/-- The operation on words is an operation on bits. -/
structure WordOp.Is (f : WordOp) (g : Bool → Bool → Bool) : Prop where
  op : ∀ a b i, i < 64 → (f.op a b).getLsbD i = g (a.getLsbD i) (b.getLsbD i)
  tail : ∀ p b i, i < 64 → (f.tail p b).getLsbD i = g p (b.getLsbD i)

theorem andOp_is : andOp.Is (fun a b => a && b) where
  op a b i hi := by simp [andOp]
  tail p b i hi := by cases p <;> simp [andOp]

theorem andc2Op_is : andc2Op.Is (fun a b => a && !b) where
  op a b i hi := by simp [andc2Op, hi]
  tail p b i hi := by cases p <;> simp [andc2Op, hi]

theorem andc2SwappedOp_is : andc2SwappedOp.Is (fun a b => b && !a) where
  op a b i hi := by simp [andc2SwappedOp, hi, Bool.and_comm]
  tail p b i hi := by cases p <;> simp [andc2SwappedOp]

theorem orOp_is : orOp.Is (fun a b => a || b) where
  op a b i hi := by simp [orOp]
  tail p b i hi := by
    cases p
    · simp [orOp]
    · show (BitVec.allOnes 64).getLsbD i = _
      rw [BitVec.getLsbD_allOnes]; simp [hi]

theorem xorOp_is : xorOp.Is (fun a b => xor a b) where
  op a b i hi := by simp [xorOp]
  tail p b i hi := by cases p <;> simp [xorOp, hi]

/-- The words of the result. -/
def words (f : WordOp) (h : Heap) (result v1 v2 : Nat) (p1 : Bool) (j : Nat) : W :=
  if j + 1 < (h.vec v1).wsize ∨ (h.vec v1).size = (h.vec result).size then f.op ((h.vec v1).word j) ((h.vec v2).word j)
  else if j + 1 = (h.vec v1).wsize then
    f.op (maskAndPad ((h.vec v1).word j) (bitOffset (h.vec v1).size) p1) ((h.vec v2).word j)
  else f.tail p1 ((h.vec v2).word j)

theorem internal_eq {f : WordOp} {h : Heap} {result v1 v2 : Nat} {p1 : Bool} (g1 : (h.vec v1).Good) (g2 : (h.vec v2).Good)
    (gr : (h.vec result).Good) (h12 : (h.vec v1).size ≤ (h.vec v2).size) (hpos : 0 < (h.vec result).size)
    (hr : (h.vec result).size = (h.vec v1).size ∨ (h.vec result).size = (h.vec v2).size) :
    internal f h result v1 v2 p1 = .ok (wr h result (words f h result v1 v2 p1) 0 (h.vec result).wsize) := by
  have hw1 : (h.vec v1).wsize ≤ (h.vec result).wsize := by unfold BV.Good at g1 g2 gr; omega
  have hw2 : (h.vec result).wsize ≤ (h.vec v2).wsize := by unfold BV.Good at g1 g2 gr; omega
  unfold internal
  dsimp only
  have hl := loop_wr' (h := h) (r := result) (a := 0) (n := (h.vec v1).wsize - 1)
    (body := fun i h => (getW h v1 i).bind fun a => (getW h v2 i).bind fun b => setW h result i (f.op a b))
    (words f h result v1 v2 p1) (by omega) (by
      intro j h1 h2
      rw [getW_wr (by omega) (by omega), bind_ok, getW_wr (by omega) (by omega), bind_ok, setW_wr h1 (by omega)]
      unfold words
      rw [if_pos (Or.inl (by omega))])
  rw [hl, bind_ok, Nat.zero_add]
  simp only [wr_size, wr_wsize]
  by_cases he : (h.vec v1).size = (h.vec result).size
  · have hws : (h.vec v1).wsize = (h.vec result).wsize := by unfold BV.Good at g1 gr; omega
    have hp : 0 < (h.vec v1).wsize := by unfold BV.Good at g1; omega
    rw [if_pos he, getW_wr (by omega) (by omega), bind_ok, getW_wr (by omega) (by omega), bind_ok,
      setW_wr (Nat.zero_le _) (by omega) (by unfold words; rw [if_pos (Or.inr he)])]
    congr 2
    omega
  · rw [if_neg he]
    have hmid : (if (h.vec v1).wsize = 0 then
          Out.ok (wr h result (words f h result v1 v2 p1) 0 ((h.vec v1).wsize - 1))
        else
          (getW (wr h result (words f h result v1 v2 p1) 0 ((h.vec v1).wsize - 1)) v1 ((h.vec v1).wsize - 1)).bind fun a =>
          (getW (wr h result (words f h result v1 v2 p1) 0 ((h.vec v1).wsize - 1)) v2 ((h.vec v1).wsize - 1)).bind fun b =>
          setW (wr h result (words f h result v1 v2 p1) 0 ((h.vec v1).wsize - 1)) result ((h.vec v1).wsize - 1)
            (f.op (maskAndPad a (bitOffset (h.vec v1).size) p1) b)) =
        Out.ok (wr h result (words f h result v1 v2 p1) 0 (h.vec v1).wsize) := by
      by_cases h0 : (h.vec v1).wsize = 0
      · rw [if_pos h0, h0]
      · rw [if_neg h0, getW_wr (by omega) (by omega), bind_ok, getW_wr (by omega) (by omega), bind_ok,
          setW_wr (Nat.zero_le _) (by omega) (by
            unfold words
            rw [if_neg (by omega), if_pos (by omega)])]
        congr 2
        omega
    rw [hmid, bind_ok]
    simp only [wr_wsize]
    rw [loop_wr (h := h) (r := result) (a := 0) (F := words f h result v1 v2 p1) _ _ (Nat.zero_le _) (by omega) (by
      intro j h1 h2
      rw [getW_wr (by omega) (by omega), bind_ok, setW_wr (Nat.zero_le _) (by omega)]
      unfold words
      rw [if_neg (by omega), if_neg (by omega)])]
    congr 2
    omega

theorem words_bit {f : WordOp} {g : Bool → Bool → Bool} (hf : f.Is g) {h : Heap} {result v1 v2 : Nat} {p1 p2 : Bool}
    (g1 : (h.vec v1).Good) (h12 : (h.vec v1).size ≤ (h.vec v2).size)
    (hr : (h.vec result).size = (h.vec v1).size ∨ (h.vec result).size = (h.vec v2).size) {i : Nat}
    (hi : i < (h.vec result).size) :
    (words f h result v1 v2 p1 (i / 64)).getLsbD (i % 64) = g (padded (h.vec v1) p1 i) (padded (h.vec v2) p2 i) := by
  have h64 : i % 64 < 64 := Nat.mod_lt _ (by omega)
  have h2 : padded (h.vec v2) p2 i = bit (h.vec v2) i := padded_lt (by omega)
  rw [h2]
  unfold words
  split
  · rename_i hc
    rw [hf.op _ _ _ h64, padded_lt (by unfold BV.Good at g1; omega)]
    rfl
  · rename_i hc
    split
    · rename_i hc2
      rw [hf.op _ _ _ h64, maskAndPad_bit g1 hc2]
      rfl
    · rw [hf.tail _ _ _ h64, padded_ge (by unfold BV.Good at g1; omega)]
      rfl

end Verif.Bits
