import Verif.Integer.Number
/-
Helper lemmas: arithmetic of `BitVec 64` words seen through `toInt`, and bits
of tagged words.
-/
namespace Verif.Integer

@[simp] theorem bind_ok {α β : Type} (a : α) (f : α → Out β) :
    ((Out.ok a : Out α) >>= f) = f a := rfl
@[simp] theorem bind_overflow {α β : Type} (f : α → Out β) :
    ((Out.overflow : Out α) >>= f) = .overflow := rfl
@[simp] theorem bind_poison {α β : Type} (f : α → Out β) :
    ((Out.poison : Out α) >>= f) = .poison := rfl
@[simp] theorem bind_trap {α β : Type} (f : α → Out β) :
    ((Out.trap : Out α) >>= f) = .trap := rfl
@[simp] theorem bind_diverge {α β : Type} (f : α → Out β) :
    ((Out.diverge : Out α) >>= f) = .diverge := rfl

theorem bmod_word {n : Int} (h : InWord n) : n.bmod (2 ^ 64) = n := by
  obtain ⟨h1, h2⟩ := h
  apply Int.bmod_eq_of_le <;> omega

theorem inWord_toInt (x : Word) : InWord x.toInt := by
  have h1 := BitVec.le_toInt x
  have h2 := BitVec.toInt_lt (x := x)
  constructor
  · simpa using h1
  · simpa using h2

theorem toInt_ofInt {n : Int} (h : InWord n) : (BitVec.ofInt 64 n).toInt = n := by
  rw [BitVec.toInt_ofInt, bmod_word h]

theorem ofInt_toInt (x : Word) : BitVec.ofInt 64 x.toInt = x := by simp

theorem eq_ofInt {x : Word} {n : Int} (h : x.toInt = n) : x = BitVec.ofInt 64 n := by
  rw [← h]; simp

theorem toInt_add {x y : Word} (h : InWord (x.toInt + y.toInt)) :
    (x + y).toInt = x.toInt + y.toInt := by
  rw [BitVec.toInt_add, bmod_word h]

theorem toInt_sub {x y : Word} (h : InWord (x.toInt - y.toInt)) :
    (x - y).toInt = x.toInt - y.toInt := by
  rw [BitVec.toInt_sub, bmod_word h]

theorem toInt_mul {x y : Word} (h : InWord (x.toInt * y.toInt)) :
    (x * y).toInt = x.toInt * y.toInt := by
  rw [BitVec.toInt_mul, bmod_word h]

theorem inWord_of_inRange {n : Int} (h : InRange n) : InWord (4 * n + 1) := by
  obtain ⟨h1, h2⟩ := h; constructor <;> omega

theorem toInt_tag {n : Int} (h : InRange n) : (tag n).toInt = 4 * n + 1 := by
  rw [tag, toInt_ofInt (inWord_of_inRange h)]

theorem eq_tag {x : Word} {n : Int} (h : x.toInt = 4 * n + 1) : x = tag n := eq_ofInt h

@[simp] theorem toInt_one : (1 : Word).toInt = 1 := by decide
@[simp] theorem toInt_zero' : (0 : Word).toInt = 0 := by decide
@[simp] theorem toInt_negone : (-1 : Word).toInt = -1 := by decide

theorem toInt_strip_tag {n : Int} (h : InRange n) : (strip (tag n)).toInt = 4 * n := by
  obtain ⟨h1, h2⟩ := h
  have ht := toInt_tag ⟨h1, h2⟩
  rw [strip, toInt_sub] <;> rw [ht, toInt_one]
  · omega
  · constructor <;> omega

theorem toInt_untag (x : Word) : (untag x).toInt = x.toInt / 4 := by
  rw [untag, BitVec.toInt_sshiftRight, Int.shiftRight_eq_div_pow]; norm_num

theorem toInt_untag_tag {n : Int} (h : InRange n) : (untag (tag n)).toInt = n := by
  rw [toInt_untag, toInt_tag h]; omega

theorem untag_tag {n : Int} (h : InRange n) : untag (tag n) = BitVec.ofInt 64 n :=
  eq_ofInt (toInt_untag_tag h)

theorem raw_tag {n : Int} (h : InRange n) : raw (tag n) = n := toInt_untag_tag h

theorem toInt_insert {x : Word} (h : InWord (x.toInt + 1)) : (insert x).toInt = x.toInt + 1 := by
  rw [insert, toInt_add] <;> simp [h]

theorem insert_eq_tag {x : Word} {n : Int} (hn : InRange n) (h : x.toInt = 4 * n) :
    insert x = tag n := by
  apply eq_tag
  rw [toInt_insert] <;> rw [h]
  exact inWord_of_inRange hn

theorem ltI_tag {a b : Int} (ha : InRange a) (hb : InRange b) :
    ltI (tag a) (tag b) = decide (a < b) := by
  rw [ltI, BitVec.slt, toInt_tag ha, toInt_tag hb]
  apply decide_eq_decide.mpr; omega

theorem tag_inj {a b : Int} (ha : InRange a) (hb : InRange b) : tag a = tag b ↔ a = b := by
  constructor
  · intro h
    have := congrArg BitVec.toInt h
    rw [toInt_tag ha, toInt_tag hb] at this
    omega
  · rintro rfl; rfl

theorem eqI_tag {a b : Int} (ha : InRange a) (hb : InRange b) :
    eqI (tag a) (tag b) = decide (a = b) := by
  rw [eqI, Bool.eq_iff_iff]
  simp [tag_inj ha hb]

/-! ### Arithmetic -/

/-- Lift a value-level result to the word that represents it. -/
def Out.mapTag : Out Int → Out Word
  | .ok n => .ok (tag n)
  | .overflow => .overflow
  | .trap => .trap
  | .poison => .poison
  | .error => .error
  | .diverge => .diverge

theorem inWord4_iff (n : Int) : InWord (4 * n) ↔ InRange n := by
  unfold InWord InRange; constructor <;> rintro ⟨h1, h2⟩ <;> constructor <;> omega

theorem plus_tag {a b : Int} (ha : InRange a) (hb : InRange b) :
    plus (tag a) (tag b) = if InRange (a + b) then .ok (tag (a + b)) else .overflow := by
  have e : (tag a).toInt + (strip (tag b)).toInt = 4 * (a + b) + 1 := by
    rw [toInt_tag ha, toInt_strip_tag hb]; ring
  rw [plus, addO, e]
  by_cases h : InRange (a + b)
  · have hw := inWord_of_inRange h
    rw [if_pos hw, if_pos h]
    congr 1
    apply eq_tag
    rw [toInt_add (by rw [e]; exact hw), e]
  · rw [if_neg h, if_neg]
    rintro ⟨h1, h2⟩
    exact h ⟨by omega, by omega⟩

theorem minus_tag {a b : Int} (ha : InRange a) (hb : InRange b) :
    minus (tag a) (tag b) = if InRange (a - b) then .ok (tag (a - b)) else .overflow := by
  have e : (tag a).toInt - (strip (tag b)).toInt = 4 * (a - b) + 1 := by
    rw [toInt_tag ha, toInt_strip_tag hb]; ring
  rw [minus, subO, e]
  by_cases h : InRange (a - b)
  · have hw := inWord_of_inRange h
    rw [if_pos hw, if_pos h]
    congr 1
    apply eq_tag
    rw [toInt_sub (by rw [e]; exact hw), e]
  · rw [if_neg h, if_neg]
    rintro ⟨h1, h2⟩
    exact h ⟨by omega, by omega⟩

theorem times_tag {a b : Int} (ha : InRange a) (hb : InRange b) :
    times (tag a) (tag b) = if InRange (a * b) then .ok (tag (a * b)) else .overflow := by
  have e : (strip (tag a)).toInt * (untag (tag b)).toInt = 4 * (a * b) := by
    rw [toInt_strip_tag ha, toInt_untag_tag hb]; ring
  rw [times, mulO, e]
  by_cases h : InRange (a * b)
  · have hw := (inWord4_iff _).mpr h
    rw [if_pos hw, if_pos h, bind_ok]
    congr 1
    apply insert_eq_tag h
    rw [toInt_mul (by rw [e]; exact hw), e]
  · rw [if_neg h, if_neg (fun hw => h ((inWord4_iff _).mp hw)), bind_overflow]

theorem negO_strip {a : Int} (ha : InRange a) :
    negO (strip (tag a)) = if InRange (-a) then .ok (BitVec.ofInt 64 (4 * -a)) else .overflow := by
  have e : (0 : Word).toInt - (strip (tag a)).toInt = 4 * -a := by
    rw [toInt_strip_tag ha]; simp
  rw [negO, subO, e]
  by_cases h : InRange (-a)
  · have hw := (inWord4_iff _).mpr h
    rw [if_pos hw, if_pos h]
    congr 1
    apply eq_ofInt
    rw [toInt_sub (by rw [e]; exact hw), e]
  · rw [if_neg h, if_neg (fun hw => h ((inWord4_iff _).mp hw))]

theorem negative_tag {a : Int} (ha : InRange a) :
    negative (tag a) = if InRange (-a) then .ok (tag (-a)) else .overflow := by
  rw [negative, negO_strip ha]
  by_cases h : InRange (-a)
  · rw [if_pos h, if_pos h, bind_ok]
    congr 1
    exact insert_eq_tag h (toInt_ofInt ((inWord4_iff _).mpr h))
  · rw [if_neg h, if_neg h, bind_overflow]

theorem abs_tag {a : Int} (ha : InRange a) :
    abs (tag a) = if InRange |a| then .ok (tag |a|) else .overflow := by
  have h0 : absO (strip (tag a)) = (negO (strip (tag a))).bind
      (fun n => .ok (if (strip (tag a)).slt 0 then n else strip (tag a))) := rfl
  rw [abs, h0, negO_strip ha]
  have hr : InRange (-a) ↔ InRange |a| := by
    obtain ⟨h1, h2⟩ := ha
    unfold InRange
    rcases abs_cases a with ⟨e, _⟩ | ⟨e, _⟩ <;> rw [e] <;> constructor <;> rintro ⟨h3, h4⟩ <;>
      constructor <;> omega
  by_cases h : InRange |a|
  · rw [if_pos (hr.mpr h), if_pos h]
    simp only [Out.bind]
    rw [bind_ok]
    congr 1
    apply insert_eq_tag h
    have hs : (strip (tag a)).slt 0 = decide (a < 0) := by
      rw [BitVec.slt, toInt_strip_tag ha, toInt_zero']
      apply decide_eq_decide.mpr; omega
    rw [hs]
    rcases abs_cases a with ⟨e, h'⟩ | ⟨e, h'⟩
    · rw [e, if_neg (by simpa using h'), toInt_strip_tag ha]
    · rw [e, if_pos (by simpa using h'), toInt_ofInt ((inWord4_iff _).mpr (hr.mpr h))]
  · rw [if_neg (fun h' => h (hr.mp h')), if_neg h]; rfl

/-! ### Shifts with overflow check -/

theorem bmod_div_eq {n : Int} : InWord n ↔ n.bmod (2 ^ 64) = n := by
  constructor
  · exact bmod_word
  · intro h
    have h1 := Int.le_bmod (x := n) (m := 2 ^ 64) (by norm_num)
    have h2 := Int.bmod_lt (x := n) (m := 2 ^ 64) (by norm_num)
    rw [h] at h1 h2
    constructor
    · norm_num at h1 ⊢; omega
    · norm_num at h2 ⊢; omega

theorem toInt_shl (x : Word) (s : Nat) : (x <<< s).toInt = (x.toInt * 2 ^ s).bmod (2 ^ 64) := by
  have h : x <<< s = BitVec.ofInt 64 (x.toInt * 2 ^ s) := by
    rw [← BitVec.mul_twoPow_eq_shiftLeft]
    have : (BitVec.twoPow 64 s) = BitVec.ofInt 64 (2 ^ s) := by
      apply BitVec.eq_of_toNat_eq
      rw [BitVec.toNat_twoPow, BitVec.toNat_ofInt]
      norm_cast
    rw [this]
    conv_lhs => rw [← ofInt_toInt x]
    rw [← BitVec.ofInt_mul]
  rw [h, BitVec.toInt_ofInt]

theorem shlO_eq (x : Word) {s : Int} (h0 : 0 ≤ s) (h1 : s < 64) :
    shlO x s = if InWord (x.toInt * 2 ^ s.toNat) then
      .ok (BitVec.ofInt 64 (x.toInt * 2 ^ s.toNat)) else .overflow := by
  have hx : x <<< s.toNat = BitVec.ofInt 64 (x.toInt * 2 ^ s.toNat) := by
    apply BitVec.eq_of_toInt_eq
    rw [toInt_shl, BitVec.toInt_ofInt]
  rw [shlO, shl, if_pos ⟨h0, h1⟩, bind_ok, ashr, if_pos ⟨h0, h1⟩, bind_ok]
  by_cases h : InWord (x.toInt * 2 ^ s.toNat)
  · rw [if_pos h, if_neg, hx]
    rw [not_not]
    apply BitVec.eq_of_toInt_eq
    rw [BitVec.toInt_sshiftRight, Int.shiftRight_eq_div_pow, toInt_shl, bmod_word h]
    push_cast
    rw [Int.mul_ediv_cancel _ (by positivity)]
  · rw [if_neg h, if_pos]
    intro e
    apply h
    have e' := congrArg BitVec.toInt e
    rw [BitVec.toInt_sshiftRight, Int.shiftRight_eq_div_pow] at e'
    push_cast at e'
    have hr := inWord_toInt (x <<< s.toNat)
    have hle : x.toInt * 2 ^ s.toNat ≤ (x <<< s.toNat).toInt := by
      rw [e']; exact Int.ediv_mul_le _ (by positivity)
    have hmod : (2 : Int) ^ s.toNat ∣ (x <<< s.toNat).toInt := by
      rw [toInt_shl]
      have : (2 : Int) ^ s.toNat ∣ 2 ^ 64 := pow_dvd_pow 2 (by omega)
      have hb : x.toInt * 2 ^ s.toNat - (x.toInt * 2 ^ s.toNat).bmod (2 ^ 64) =
          2 ^ 64 * (x.toInt * 2 ^ s.toNat).bdiv (2 ^ 64) := by
        have := Int.bdiv_add_bmod (x.toInt * 2 ^ s.toNat) (2 ^ 64)
        push_cast at this ⊢
        linarith
      have h2 : (x.toInt * 2 ^ s.toNat).bmod (2 ^ 64) = x.toInt * 2 ^ s.toNat -
          2 ^ 64 * (x.toInt * 2 ^ s.toNat).bdiv (2 ^ 64) := by linarith
      rw [h2]
      exact dvd_sub (Dvd.intro_left _ rfl) (this.mul_right _)
    rw [e', Int.ediv_mul_cancel hmod]
    exact hr

theorem coerce_eq (x : Word) :
    coerce x = if InRange x.toInt then .ok (tag x.toInt) else .overflow := by
  rw [coerce, shlO_eq x (by norm_num) (by norm_num)]
  have e : x.toInt * 2 ^ (2 : Int).toNat = 4 * x.toInt := by
    rw [show (2 : Int).toNat = 2 from rfl]; ring
  rw [e]
  by_cases h : InRange x.toInt
  · rw [if_pos ((inWord4_iff _).mpr h), if_pos h, bind_ok]
    congr 1
    exact insert_eq_tag h (toInt_ofInt ((inWord4_iff _).mpr h))
  · rw [if_neg (fun hw => h ((inWord4_iff _).mp hw)), if_neg h, bind_overflow]

end Verif.Integer
