import Verif.Bits.Words

/-! # Helper lemmas for bit vectors: what the functions on vectors do -/

namespace Verif.Bits

/-! ### make -/

/-- What a function that makes or changes vector `r` leaves alone: all other vectors made before. -/
structure Keeps (h h' : Heap) (r : Nat) : Prop where
  good : h'.Good
  le : h.next ≤ h'.next
  lt : r < h'.next
  old : ∀ v, v < h.next → v ≠ r → h'.vec v = h.vec v

theorem allocate_good {h : Heap} (g : h.Good) {size : Nat} (hs : 0 < size) :
    (allocate h size ((size - 1) / 64 + 1)).Good := by
  have hp := g.pos
  refine ⟨by simp [allocate], ?_, fun v hv => ?_⟩
  · have : (0 : Nat) ≠ h.next := by omega
    simp [allocate, this, g.empty]
  · by_cases e : v = h.next
    · subst e
      simp only [allocate, Function.update_self, BV.Good]
      omega
    · have := g.vecs v (by simp only [allocate] at hv; omega)
      simp only [allocate, Function.update_of_ne e]
      exact this

theorem roundUp_wsize {size : Nat} (hs : 0 < size) (roundUp : Bool) :
    ((if roundUp then ((size - 1) / 64 + 1) * 64 else size) - 1) / 64 + 1 = (size - 1) / 64 + 1 := by
  split <;> omega

/-- `make` makes a vector of the size asked for, with the bits of the vector it copies, and beyond them
    the fill. -/
theorem make_spec {h : Heap} (g : h.Good) {size c : Nat} {roundUp f : Bool} (hc : c < h.next) :
    ∃ h' r, make h size roundUp f c = .ok (h', r) ∧ Keeps h h' r ∧ (r = 0 ∧ h' = h ∨ r = h.next) ∧
      (h'.vec r).size = (if size = 0 then 0 else if roundUp then ((size - 1) / 64 + 1) * 64 else size) ∧
      ∀ i, i < (h'.vec r).size → bit (h'.vec r) i = padded (h.vec c) f i := by
  by_cases h0 : size = 0
  · refine ⟨h, 0, by rw [make, if_pos h0], ⟨g, Nat.le_refl _, g.pos, fun _ _ _ => rfl⟩, Or.inl ⟨rfl, rfl⟩, ?_, ?_⟩
    · rw [if_pos h0, g.empty]
    · intro i hi
      rw [g.empty] at hi; omega
  · rw [make, if_neg h0]
    dsimp only
    generalize hb : (if roundUp = true then ((size - 1) / 64 + 1) * 64 else size) = bs
    have hbw : (bs - 1) / 64 + 1 = (size - 1) / 64 + 1 := by rw [← hb]; exact roundUp_wsize (by omega) roundUp
    have hb0 : 0 < bs := by rw [← hb]; split <;> omega
    generalize hA : allocate h bs ((size - 1) / 64 + 1) = A
    have gA : A.Good := by rw [← hA, ← hbw]; exact allocate_good g hb0
    have hsA : (A.vec h.next).size = bs := by rw [← hA]; simp [allocate]
    have hwA : (A.vec h.next).wsize = (size - 1) / 64 + 1 := by rw [← hA]; simp [allocate]
    have hnA : A.next = h.next + 1 := by rw [← hA]; rfl
    have hoA : ∀ v, v < h.next → A.vec v = h.vec v := by
      intro v hv
      have : v ≠ h.next := by omega
      rw [← hA]; simp [allocate, this]
    have hcne : c ≠ h.next := by omega
    rw [loop_wr' (h := A) (r := h.next) (a := 0) (fun _ => fillWord f) (by omega)
      (fun j h1 h2 => setW_wr h1 (by omega) rfl), bind_ok, Nat.zero_add]
    generalize hB : wr A h.next (fun _ => fillWord f) 0 ((size - 1) / 64 + 1) = B
    have gB : B.Good := by rw [← hB]; exact gA.wr
    have hoB : ∀ v, v < h.next → B.vec v = h.vec v := by
      intro v hv
      rw [← hB, wr_other (by omega), hoA v hv]
    have hsB : (B.vec h.next).size = bs := by rw [← hB]; simpa using hsA
    have hwB : (B.vec h.next).wsize = (size - 1) / 64 + 1 := by rw [← hB]; simpa using hwA
    have hnB : B.next = h.next + 1 := by rw [← hB]; simpa using hnA
    have hfB : ∀ i, i < bs → bit (B.vec h.next) i = f := by
      intro i hi
      rw [← hB, bit_wr (Nat.zero_le _) (by omega), fillWord_bit (Nat.mod_lt _ (by omega))]
    have kB : ∀ F a b, Keeps h (wr B h.next F a b) h.next := by
      intro F a b
      exact ⟨gB.wr, by simp [hnB], by simp [hnB], fun v hv hne => by rw [wr_other hne, hoB v hv]⟩
    rw [hoB c hc]
    have gc := g.vecs c hc
    by_cases hcs : (h.vec c).size = 0
    · rw [if_pos hcs]
      refine ⟨B, h.next, rfl, ?_, Or.inr rfl, by rw [if_neg h0, hsB], ?_⟩
      · have := kB (fun _ => 0#64) 0 0
        rwa [wr_empty (Nat.le_refl _)] at this
      · intro i hi
        rw [hsB] at hi
        rw [hfB i hi, padded_ge (by omega)]
    · rw [if_neg hcs]
      by_cases hle : bs ≤ (h.vec c).size
      · rw [if_pos hle, loop_wr' (h := B) (r := h.next) (a := 0) (fun j => (h.vec c).word j) (by omega)
          (fun j h1 h2 => by
            have hjc : j < (h.vec c).wsize := by unfold BV.Good at gc; omega
            rw [getW_wr (by omega) (by rw [hoB c hc]; exact hjc), bind_ok]
            exact setW_wr h1 (by omega) (by rw [hoB c hc])), bind_ok, Nat.zero_add]
        refine ⟨_, h.next, rfl, kB _ _ _, Or.inr rfl, by rw [if_neg h0, wr_size, hsB], ?_⟩
        intro i hi
        rw [wr_size, hsB] at hi
        rw [bit_wr (Nat.zero_le _) (by omega), padded_lt (by omega)]
        rfl
      · rw [if_neg hle]
        have hcw : 0 < (h.vec c).wsize := by unfold BV.Good at gc; omega
        have hcw2 : (h.vec c).wsize ≤ (size - 1) / 64 + 1 := by unfold BV.Good at gc; omega
        let F : Nat → W := fun j => if j + 1 < (h.vec c).wsize then (h.vec c).word j else
            maskAndPad ((h.vec c).word j) (bitOffset (h.vec c).size) f
        have hl := loop_wr' (h := B) (r := h.next) (a := 0) (n := (h.vec c).wsize - 1)
          (body := fun i h_1 => (getW h_1 c i).bind (setW h_1 h.next i)) F (by omega)
          (fun j h1 h2 => by
            rw [getW_wr (by omega) (by rw [hoB c hc]; omega), bind_ok]
            exact setW_wr h1 (by omega) (by
              simp only [F]
              rw [hoB c hc, if_pos (by omega)]))
        rw [hl, bind_ok, Nat.zero_add]
        have hcopy : copyWord (wr B h.next F 0 ((h.vec c).wsize - 1)) c h.next ((h.vec c).wsize - 1) (h.vec c).size f =
            .ok (wr B h.next F 0 (h.vec c).wsize) := by
          have hset : setW (wr B h.next F 0 ((h.vec c).wsize - 1)) h.next ((h.vec c).wsize - 1)
              (maskAndPad ((h.vec c).word ((h.vec c).wsize - 1)) (bitOffset (h.vec c).size) f) =
              .ok (wr B h.next F 0 (h.vec c).wsize) := by
            rw [setW_wr (Nat.zero_le _) (by omega) (by
              simp only [F]
              rw [if_neg (by omega)])]
            congr 2
            omega
          unfold copyWord
          rw [monad_bind, getW_wr (by omega) (by rw [hoB c hc]; omega), bind_ok, hoB c hc, ← hset]
          unfold maskAndPad
          split
          · rfl
          · split <;> rfl
        rw [hcopy, bind_ok]
        refine ⟨_, h.next, rfl, kB _ _ _, Or.inr rfl, by rw [if_neg h0, wr_size, hsB], ?_⟩
        intro i hi
        rw [wr_size, hsB] at hi
        by_cases h1 : i / 64 < (h.vec c).wsize
        · rw [bit_wr (Nat.zero_le _) h1]
          simp only [F]
          split
          · rw [padded_lt (by unfold BV.Good at gc; omega)]; rfl
          · exact maskAndPad_bit gc (by omega)
        · unfold bit
          rw [wr_word (by omega)]
          have := hfB i hi
          unfold bit at this
          rw [this, padded_ge (by unfold BV.Good at gc; omega)]

/-! ### logical operations -/

/-- A result of a logical operation on vectors `a` and `b` in heap `h`. -/
structure Result (h h' : Heap) (r : Nat) (p : Bool) (m : Nat → Bool) : Prop where
  keeps : Keeps h h' r
  bits : ∀ i, padded (h'.vec r) p i = m i

theorem sorted_spec {f1 f2 : WordOp} {g : Bool → Bool → Bool} (hf : f1.Is g) (hf2 : f2.Is fun a b => g b a)
    {h h' : Heap} {r a b : Nat} {p1 p2 : Bool} (k : Keeps h h' r) (ha : a < h.next) (hb : b < h.next)
    (ea : h'.vec a = h.vec a) (eb : h'.vec b = h.vec b)
    (hpos : 0 < (h'.vec r).size)
    (hr : (h'.vec r).size = (h.vec a).size ∨ (h'.vec r).size = (h.vec b).size)
    (hout : ∀ i, (h'.vec r).size ≤ i → g p1 p2 = g (padded (h.vec a) p1 i) (padded (h.vec b) p2 i)) :
    ∃ h'', (if (h'.vec a).size ≤ (h'.vec b).size then internal f1 h' r a b p1 else internal f2 h' r b a p2) = .ok h'' ∧
      h''.next = h'.next ∧ (h''.vec r).size = (h'.vec r).size ∧
      Result h h'' r (g p1 p2) fun i => g (padded (h.vec a) p1 i) (padded (h.vec b) p2 i) := by
  have la : a < h'.next := Nat.lt_of_lt_of_le ha k.le
  have lb : b < h'.next := Nat.lt_of_lt_of_le hb k.le
  have ga := k.good.vecs a la
  have gb := k.good.vecs b lb
  have gr := k.good.vecs r k.lt
  have kk : ∀ F n, Keeps h (wr h' r F 0 n) r := fun F n =>
    ⟨k.good.wr, k.le, k.lt, fun v hv hne => by rw [wr_other hne, k.old v hv hne]⟩
  split
  · rename_i hle
    rw [internal_eq ga gb gr hle hpos (by rw [ea, eb]; exact hr)]
    refine ⟨_, rfl, rfl, by simp, kk _ _, fun i => ?_⟩
    by_cases hi : i < (h'.vec r).size
    · rw [padded_lt (by simpa using hi), bit_wr (Nat.zero_le _) (gr.lt hi),
        words_bit (p2 := p2) hf ga hle (by rw [ea, eb]; exact hr) hi, ea, eb]
    · rw [padded_ge (by simp; omega)]
      exact hout i (by omega)
  · rename_i hle
    rw [internal_eq gb ga gr (by omega) hpos (by rw [ea, eb]; exact hr.symm)]
    refine ⟨_, rfl, rfl, by simp, kk _ _, fun i => ?_⟩
    by_cases hi : i < (h'.vec r).size
    · rw [padded_lt (by simpa using hi), bit_wr (Nat.zero_le _) (gr.lt hi),
        words_bit (p2 := p1) hf2 gb (by omega) (by rw [ea, eb]; exact hr.symm) hi, ea, eb]
    · rw [padded_ge (by simp; omega)]
      exact hout i (by omega)

/-- A result that is not longer than the empty vector. -/
theorem empty_spec {g : Bool → Bool → Bool} {h h' : Heap} {r a b : Nat} {p1 p2 : Bool} (k : Keeps h h' r)
    (hz : (h'.vec r).size = 0)
    (hout : ∀ i, (h'.vec r).size ≤ i → g p1 p2 = g (padded (h.vec a) p1 i) (padded (h.vec b) p2 i)) :
    Result h h' r (g p1 p2) fun i => g (padded (h.vec a) p1 i) (padded (h.vec b) p2 i) := by
  refine ⟨k, fun i => ?_⟩
  rw [padded_ge (by omega)]
  exact hout i (by omega)

/-- A new vector and then the operation. -/
theorem fresh_spec {f1 f2 : WordOp} {g : Bool → Bool → Bool} (hf : f1.Is g) (hf2 : f2.Is fun a b => g b a)
    {h : Heap} {a b n : Nat} {p1 p2 : Bool} (gh : h.Good) (ha : a < h.next) (hb : b < h.next)
    (hn : n = (h.vec a).size ∨ n = (h.vec b).size)
    (hout : ∀ i, n ≤ i → g p1 p2 = g (padded (h.vec a) p1 i) (padded (h.vec b) p2 i)) :
    ∃ h' h'' r, make h n false false 0 = .ok (h', r) ∧ (h'.vec r).size = n ∧
      (if 0 < n then
        if (h'.vec a).size ≤ (h'.vec b).size then internal f1 h' r a b p1 else internal f2 h' r b a p2
      else .ok h') = .ok h'' ∧ (r = 0 ∨ r = h.next) ∧ (h''.vec r).size = n ∧
      Result h h'' r (g p1 p2) fun i => g (padded (h.vec a) p1 i) (padded (h.vec b) p2 i) := by
  obtain ⟨h', r, e, k, hr, hsz, -⟩ := make_spec gh (size := n) (roundUp := false) (f := false) gh.pos
  have hs : (h'.vec r).size = n := by
    rw [hsz]; split <;> simp_all
  have old : ∀ v, v < h.next → h'.vec v = h.vec v := by
    intro v hv
    rcases hr with ⟨rfl, rfl⟩ | rfl
    · rfl
    · exact k.old v hv (by omega)
  by_cases hp : 0 < n
  · obtain ⟨h'', e2, -, hs2, res⟩ := sorted_spec hf hf2 k ha hb (old a ha) (old b hb) (by omega)
      (by rw [hs]; exact hn) (by rw [hs]; exact hout)
    exact ⟨h', h'', r, e, hs, by rw [if_pos hp]; exact e2, hr.imp And.left id, by rw [hs2, hs], res⟩
  · exact ⟨h', h', r, e, hs, by rw [if_neg hp], hr.imp And.left id, hs, empty_spec k (by omega) (by rw [hs]; exact hout)⟩

theorem fresh_sorted {f : WordOp} {g : Bool → Bool → Bool} (hf : f.Is g) (hc : ∀ a b, g a b = g b a)
    {h : Heap} {a b n : Nat} {p1 p2 : Bool} (gh : h.Good) (ha : a < h.next) (hb : b < h.next)
    (hn : n = (h.vec a).size ∨ n = (h.vec b).size)
    (hout : ∀ i, n ≤ i → g p1 p2 = g (padded (h.vec a) p1 i) (padded (h.vec b) p2 i)) {q : Bool} (hq : q = g p1 p2) :
    ∃ h'' r, ((make h n false false 0).bind fun (h, result) =>
        (if 0 < n then sorted f h result a b p1 p2 else .ok h).bind fun h => Out.ok (h, result, q)) = .ok (h'', r, q) ∧
      (r = 0 ∨ r = h.next) ∧ (h''.vec r).size = n ∧
      Result h h'' r q fun i => g (padded (h.vec a) p1 i) (padded (h.vec b) p2 i) := by
  have hf2 : f.Is fun a b => g b a := by
    have : (fun a b => g b a) = g := by funext a b; exact hc b a
    rw [this]; exact hf
  obtain ⟨h', h'', r, e, -, e2, hr, hs, res⟩ := fresh_spec hf hf2 gh ha hb hn hout
  subst hq
  refine ⟨h'', r, ?_, hr, hs, res⟩
  rw [e, bind_ok]
  unfold sorted
  dsimp only
  rw [e2, bind_ok]

/-- The result in place, or in a new vector of the size of the second. -/
theorem inPlace_spec {f1 f2 : WordOp} {g : Bool → Bool → Bool} (hf : f1.Is g) (hf2 : f2.Is fun a b => g b a)
    {h : Heap} {a b : Nat} {p1 p2 : Bool} (gh : h.Good) (ha : a < h.next) (hb : b < h.next)
    {c : Prop} [Decidable c] (hc : c → ∀ i, (h.vec a).size ≤ i → g p1 p2 = g p1 (padded (h.vec b) p2 i))
    (hc2 : ¬ c → (h.vec a).size < (h.vec b).size) {q : Bool} (hq : q = g p1 p2)
    {S : Heap → Nat → Out Heap}
    (hS : ∀ h' r, S h' r = if (h'.vec a).size ≤ (h'.vec b).size then internal f1 h' r a b p1 else internal f2 h' r b a p2) :
    ∃ h'' r, ((if c then .ok (h, a) else make h (h.vec b).size false false 0).bind fun (h, result) =>
        (if 0 < (h.vec result).size then S h result else .ok h).bind fun h => Out.ok (h, result, q)) = .ok (h'', r, q) ∧
      (c ∧ r = a ∧ (h''.vec r).size = (h.vec a).size ∨ ¬ c ∧ r = h.next ∧ (h''.vec r).size = (h.vec b).size) ∧
      Result h h'' r q fun i => g (padded (h.vec a) p1 i) (padded (h.vec b) p2 i) := by
  subst hq
  by_cases h1 : c
  · have k : Keeps h h a := ⟨gh, Nat.le_refl _, ha, fun _ _ _ => rfl⟩
    have hout : ∀ i, (h.vec a).size ≤ i → g p1 p2 = g (padded (h.vec a) p1 i) (padded (h.vec b) p2 i) := by
      intro i hi
      rw [padded_ge hi]
      exact hc h1 i hi
    rw [if_pos h1, bind_ok]
    dsimp only
    by_cases hp : 0 < (h.vec a).size
    · obtain ⟨h'', e2, -, hs, res⟩ := sorted_spec hf hf2 k ha hb rfl rfl hp (Or.inl rfl) hout
      exact ⟨h'', a, by rw [if_pos hp, hS, e2, bind_ok], Or.inl ⟨h1, rfl, hs⟩, res⟩
    · exact ⟨h, a, by rw [if_neg hp, bind_ok], Or.inl ⟨h1, rfl, rfl⟩, empty_spec k (by omega) hout⟩
  · have hlt := hc2 h1
    obtain ⟨h', h'', r, e, hs, e2, hr, hs2, res⟩ := fresh_spec (p1 := p1) (p2 := p2) hf hf2 gh ha hb (n := (h.vec b).size) (Or.inr rfl)
      (fun i hi => by rw [padded_ge (by omega), padded_ge (by omega)])
    rw [if_neg h1, e, bind_ok]
    dsimp only
    have hp : 0 < (h.vec b).size := by omega
    rw [if_pos hp] at e2
    refine ⟨h'', r, by rw [hs, if_pos hp, hS, e2, bind_ok], Or.inr ⟨h1, ?_, hs2⟩, res⟩
    rcases hr with rfl | hr
    · exfalso
      have := res.keeps.good.empty
      omega
    · exact hr

end Verif.Bits
