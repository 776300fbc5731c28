/-
Properties of file streams.
-/
import Verif.Streams.InOut
import Mathlib.Data.Nat.Size
import Mathlib.Tactic.Ring

namespace Verif.Streams

/-! ### Buffer sizes -/

theorem roundLoop_eq : ∀ (k n acc : Nat), n ≤ k → roundLoop k n acc = acc * 2 ^ n.size
  | 0, n, acc, h => by
    have : n = 0 := by omega
    subst this; simp [roundLoop]
  | k + 1, n, acc, h => by
    unfold roundLoop
    by_cases hn : n = 0
    · rw [if_pos hn]; subst hn; simp
    · rw [if_neg hn, roundLoop_eq k (n >>> 1) (acc <<< 1) (by rw [Nat.shiftRight_eq_div_pow]; omega)]
      have hs : n.size = (n >>> 1).size + 1 := by
        have hpos : 0 < n := by omega
        apply Nat.le_antisymm
        · rw [Nat.size_le, pow_succ]
          have := Nat.lt_size_self (n >>> 1)
          rw [Nat.shiftRight_eq_div_pow] at this ⊢
          omega
        · rw [Nat.succ_le_iff, Nat.lt_size]
          by_cases hz : (n >>> 1).size = 0
          · rw [hz]; omega
          · have : (n >>> 1).size - 1 < (n >>> 1).size := by omega
            rw [Nat.lt_size] at this
            have e : (n >>> 1).size = (n >>> 1).size - 1 + 1 := by omega
            rw [e, pow_succ]
            have h2 : n >>> 1 = n / 2 := by rw [Nat.shiftRight_eq_div_pow]
            omega
      rw [hs, Nat.shiftLeft_eq, pow_succ]
      ring

/-- The size of a buffer is a power of two, at least 2, not smaller than what was asked for, and
    smaller than twice that when more than 2 was asked for. -/
theorem buffer_size_rounded {n B : Nat} (h : roundToPowerOfTwo n = some B) :
    (∃ k, B = 2 ^ (k + 1)) ∧ n ≤ B ∧ (2 < n → B < 2 * n) := by
  unfold roundToPowerOfTwo at h
  split_ifs at h with h0 h2
  · rw [Option.some_inj, roundLoop_eq _ _ _ (by omega), Nat.one_mul] at h
    have hlt := Nat.lt_size_self (n - 1)
    have hpos : 0 < (n - 1).size := Nat.size_pos.mpr (by omega)
    have hlow : (n - 1).size - 1 < (n - 1).size := by omega
    rw [Nat.lt_size] at hlow
    have e : (n - 1).size = (n - 1).size - 1 + 1 := by omega
    refine ⟨⟨(n - 1).size - 1, by rw [← h, ← e]⟩, by omega, fun _ => ?_⟩
    rw [← h, e, pow_succ]; omega
  · rw [Option.some_inj] at h
    exact ⟨⟨0, by rw [← h]; rfl⟩, by omega, fun hc => absurd hc h2⟩

example : roundToPowerOfTwo 5 = some 8 ∧ roundToPowerOfTwo 4096 = some 4096 ∧ roundToPowerOfTwo 1 = some 2 := by decide +kernel

/-- Every size but zero is accepted. -/
theorem buffer_size_accepted (n : Nat) : roundToPowerOfTwo n = none ↔ n = 0 := by
  unfold roundToPowerOfTwo
  split_ifs with h0 h2 <;> simp [h0]

theorem pow_of_round {n B : Nat} (h : roundToPowerOfTwo n = some B) : ∃ k, B = 2 ^ k := by
  obtain ⟨⟨k, hk⟩, _⟩ := buffer_size_rounded h
  exact ⟨k + 1, hk⟩

/-! ### Opening -/

theorem newBuf_size (B : Nat) : (newBuf B).size = B := by simp [Buf.size, newBuf]

theorem reg_new {B k p : Nat} (hk : B = 2 ^ k) {d : Dir} {file : List Byte} {nul : Buf} :
    Reg ⟨d, newBuf B, false, false, ⟨file, p, false⟩, nul⟩ file 0 := by
  have hB : 0 < B := by rw [hk]; exact Nat.two_pow_pos k
  refine ⟨?_, Nat.le_refl _, Nat.le_refl _, Nat.zero_le _, rfl, ?_, fun _ => rfl, Nat.zero_le _, (fun hc => by cases hc), (fun hc => by cases hc)⟩
  · show 0 < (newBuf B).size
    rw [newBuf_size]; exact hB
  · intro i
    rw [if_neg]
    simp [newBuf]

theorem open_input {B k p : Nat} (hk : B = 2 ^ k) {file : List Byte} {nul : Buf} (hp : p ≤ file.length) :
    ∃ s, openStream .input B file p nul = .ok s ∧ RInv B .input s file p := by
  unfold openStream setPosition
  rw [if_pos ⟨Int.natCast_nonneg _, by simp [streamSize, newBuf, hp]⟩, Int.toNat_natCast]
  exact seekInput_inv hk (newBuf_size B) rfl rfl rfl rfl (fun hc => by cases hc) hp (fun hc => by cases hc)

theorem open_output {B k p : Nat} (hk : B = 2 ^ k) {file : List Byte} {nul : Buf} (hp : p ≤ file.length) :
    ∃ s, openStream .output B file p nul = .ok s ∧ OutJ B ⟨false, false, false⟩ s file p := by
  unfold openStream setPosition
  rw [if_pos ⟨Int.natCast_nonneg _, by simp [streamSize, newBuf, hp]⟩, Int.toNat_natCast]
  obtain ⟨s, e, i, hc⟩ := seekOutput_inv (p := p) hk (newBuf_size B) rfl rfl (reg_new (d := .output) (p := p) (nul := nul) hk) (fun _ => rfl) hp
  exact ⟨s, e, Or.inl ⟨i, fun _ => (hc rfl).1, fun _ => (hc rfl).2⟩⟩

theorem open_inout {B k p : Nat} (hk : B = 2 ^ k) {file : List Byte} {nul : Buf} (hp : p ≤ file.length) :
    ∃ s, openStream .inputOutput B file p nul = .ok s ∧ IOJ B ⟨.move, false⟩ s file p := by
  unfold openStream setPosition
  rw [if_pos ⟨Int.natCast_nonneg _, by simp [streamSize, newBuf, hp]⟩, Int.toNat_natCast]
  obtain ⟨s, e, i, hc⟩ := seekIO_inv (p := p) hk ⟨reg_new (d := .inputOutput) (p := p) (nul := nul) hk, newBuf_size B, rfl, (fun hc => by cases hc), rfl⟩ hp
    (fun _ _ => Or.inl rfl)
  exact ⟨s, e, i.ioj hc false⟩

/-! ### Input streams -/

theorem run_input {B k : Nat} (hk : B = 2 ^ k) : ∀ (ops : List Op) {s : St} {c : List Byte} {p : Nat}, RInv B .input s c p →
    (run s ops).1 = (specRun .input ⟨c, p⟩ ops).1 ∧
    RInv B .input (run s ops).2 (specRun .input ⟨c, p⟩ ops).2.bytes (specRun .input ⟨c, p⟩ ops).2.pos
  | [], _, _, _, h => ⟨rfl, h⟩
  | op :: ops, s, c, p, h => by
    obtain ⟨s', e, i⟩ := input_step hk h op
    obtain ⟨a, b⟩ := run_input hk ops i
    unfold run specRun
    dsimp only
    rw [e]
    exact ⟨by rw [a], b⟩

theorem spec_input_bytes (f : FileS) (op : Op) : (spec .input f op).2.bytes = f.bytes := by
  have hm : ∀ q g, (moveSpec .input f q g).2.bytes = f.bytes := by
    intro q g
    unfold moveSpec
    split_ifs with h1 h2 h3
    · rfl
    · rfl
    · cases h3
    · rfl
  unfold spec
  rw [if_neg (by simp)]
  split_ifs with hw
  · rfl
  cases op with
  | readElement => simp only [callSpec]; split_ifs <;> rfl
  | read n => rfl
  | readLine => simp only [callSpec, lineSpec]; split_ifs <;> rfl
  | setPosition q => simp only [callSpec]; split_ifs; exacts [hm _ _, rfl]
  | adjustPosition q fr => cases fr <;> exact hm _ _
  | unread => exact hm _ _
  | writeElement _ => exact absurd ⟨rfl, rfl⟩ hw
  | write _ => exact absurd ⟨rfl, rfl⟩ hw
  | writeLine _ => exact absurd ⟨rfl, rfl⟩ hw
  | writeFill _ _ => exact absurd ⟨rfl, rfl⟩ hw
  | _ => rfl

theorem specRun_input_bytes : ∀ (ops : List Op) (f : FileS), (specRun .input f ops).2.bytes = f.bytes
  | [], _ => rfl
  | op :: ops, f => by
    unfold specRun
    dsimp only
    rw [specRun_input_bytes ops, spec_input_bytes]

/-- An input stream answers every history of calls like the file it reads, whatever the size of its
    buffer, and never changes the file. -/
theorem input_stream_is_the_file {n B p : Nat} (hB : roundToPowerOfTwo n = some B) {file : List Byte} (nul : Buf)
    (hp : p ≤ file.length) (ops : List Op) :
    ∃ s, openStream .input B file p nul = .ok s ∧
      (run s ops).1 = (specRun .input ⟨file, p⟩ ops).1 ∧
      streamPosition (run s ops).2 = (specRun .input ⟨file, p⟩ ops).2.pos ∧
      close (run s ops).2 = .ok file := by
  obtain ⟨k, hk⟩ := pow_of_round hB
  obtain ⟨s, e, i⟩ := open_input hk (nul := nul) hp
  obtain ⟨a, b⟩ := run_input hk ops i
  refine ⟨s, e, a, b.reg.position_eq, ?_⟩
  have hb := specRun_input_bytes ops ⟨file, p⟩
  rw [hb] at b
  unfold close forceOutput
  rw [if_pos b.hdir, Res.bind, ← b.reg.clean (b.inClean rfl)]

example : (specRun .input ⟨[65, 66, 13, 10, 67, 10, 68], 0⟩ [.readLine, .peek, .readLine, .unread, .read 5, .setPosition 1, .readToEnd]).1 =
    [.line (some [65, 66]) true, .byte (some 67), .line (some [67]) true, .done, .incomplete [10, 68], .done, .bytes [66, 13, 10, 67, 10, 68]] := by
  decide +kernel

/-- What a call delivered. -/
def Ans.payload : Ans → List Byte
  | .bytes l => l
  | .incomplete l => l
  | _ => []

/-- Reading in pieces of any sizes delivers the bytes of the file from the position on, in order. -/
theorem input_stream_in_pieces {n B p : Nat} (hB : roundToPowerOfTwo n = some B) {file : List Byte} (nul : Buf)
    (hp : p ≤ file.length) (sizes : List Nat) :
    ∃ s, openStream .input B file p nul = .ok s ∧
      ((run s (sizes.map .read)).1.map Ans.payload).flatten = (file.drop p).take sizes.sum := by
  obtain ⟨s, e, a, h1, h2⟩ := input_stream_is_the_file hB nul hp (sizes.map .read)
  refine ⟨s, e, ?_⟩
  rw [a]
  clear a e h1 h2
  induction sizes generalizing p with
  | nil => simp [specRun]
  | cons m ms ih =>
    have hs : spec .input ⟨file, p⟩ (.read m) = readSpec ⟨file, p⟩ m := rfl
    simp only [List.map_cons, specRun, List.flatten_cons, List.sum_cons, hs]
    have hpay : (readSpec ⟨file, p⟩ m).1.payload = (file.drop p).take m := by
      unfold readSpec
      dsimp only
      split_ifs <;> rfl
    have hpos : (readSpec ⟨file, p⟩ m).2 = ⟨file, p + ((file.drop p).take m).length⟩ := rfl
    rw [hpay, hpos, ih (by rw [slice_length]; omega), slice_length]
    rw [List.take_add, List.drop_drop]
    congr 1
    by_cases hm : m ≤ file.length - p
    · rw [Nat.min_eq_left hm]
    · rw [List.drop_eq_nil_of_le (by omega), List.drop_eq_nil_of_le (by omega)]

/-! ### Output streams -/

theorem run_output {B k : Nat} (hk : B = 2 ^ k) : ∀ (ops : List Op) {n : OutNote} {s : St} {c : List Byte} {p : Nat},
    OutJ B n s c p → OutHistory n ⟨c, p⟩ ops →
    (run s ops).1 = (specRun .output ⟨c, p⟩ ops).1 ∧
    ∃ n', OutJ B n' (run s ops).2 (specRun .output ⟨c, p⟩ ops).2.bytes (specRun .output ⟨c, p⟩ ops).2.pos
  | [], n, _, _, _, h, _ => ⟨rfl, n, h⟩
  | op :: ops, n, s, c, p, h, ho => by
    obtain ⟨s', e, i⟩ := output_step hk h ho.1
    obtain ⟨a, b⟩ := run_output hk ops i ho.2
    unfold run specRun
    dsimp only
    rw [e]
    exact ⟨by rw [a], b⟩

/-- An output stream answers every history of calls like the file it writes and leaves the right bytes
    in the file when it is closed or forced, whatever the size of its buffer, provided no write comes
    after a `force-output` that was called behind the end of what had been written (unless the position
    is set in between).  Missing: such writes, which are lost (`output_stream_violated`). -/
theorem output_stream_is_the_file_partial {n B p : Nat} (hB : roundToPowerOfTwo n = some B) {file : List Byte} (nul : Buf)
    (hp : p ≤ file.length) (ops : List Op) (ho : OutHistory ⟨false, false, false⟩ ⟨file, p⟩ ops) :
    ∃ s, openStream .output B file p nul = .ok s ∧
      (run s ops).1 = (specRun .output ⟨file, p⟩ ops).1 ∧
      streamPosition (run s ops).2 = (specRun .output ⟨file, p⟩ ops).2.pos ∧
      close (run s ops).2 = .ok (specRun .output ⟨file, p⟩ ops).2.bytes ∧
      (∃ s', forceOutput (run s ops).2 = .ok s' ∧ s'.acc.file = (specRun .output ⟨file, p⟩ ops).2.bytes) := by
  obtain ⟨k, hk⟩ := pow_of_round hB
  obtain ⟨s, e, i⟩ := open_output hk (nul := nul) hp
  obtain ⟨a, n', b⟩ := run_output hk ops i ho
  obtain ⟨s', e', hf, _⟩ := b.force
  refine ⟨s, e, a, b.position_eq, ?_, s', e', hf⟩
  unfold close
  rw [e', Res.bind, hf]

example : OutHistory ⟨false, false, false⟩ ⟨[1, 2], 2⟩ [.write [3, 4, 5], .setPosition 1, .writeElement 9, .setPosition 5, .forceOutput, .writeLine [7]] ∧
    (specRun .output ⟨[1, 2], 2⟩ [.write [3, 4, 5], .setPosition 1, .writeElement 9, .setPosition 5, .forceOutput, .writeLine [7]]).2 =
      ⟨[1, 9, 3, 4, 5, 7, 10], 7⟩ := by
  constructor
  · simp [OutHistory, OutOk, outNote, Op.writes, Op.moves]; decide +kernel
  · decide +kernel

theorem outHistory_seq : ∀ (ops : List Op) (b : Bool) (f : FileS), (∀ op ∈ ops, op.moves = false) →
    OutHistory ⟨b, false, false⟩ f ops
  | [], _, _, _ => trivial
  | op :: ops, b, f, h => by
    refine ⟨(fun hc => by cases hc), ?_⟩
    have hm := h op (by simp)
    have hn : ∃ b', outNote ⟨b, false, false⟩ f op = ⟨b', false, false⟩ := by
      unfold outNote
      rw [hm, if_neg (show ¬ false = true by simp)]
      split_ifs
      · exact ⟨true, rfl⟩
      · exact ⟨false, rfl⟩
      · exact ⟨b, rfl⟩
    obtain ⟨b', hb'⟩ := hn
    rw [hb']
    exact outHistory_seq ops b' _ (fun o ho => h o (by simp [ho]))

theorem outHistory_unforced : ∀ (ops : List Op) (b a : Bool) (f : FileS), (∀ op ∈ ops, op ≠ .forceOutput) →
    OutHistory ⟨b, a, false⟩ f ops
  | [], _, _, _, _ => trivial
  | op :: ops, b, a, f, h => by
    refine ⟨(fun hc => by cases hc), ?_⟩
    have hm := h op (by simp)
    have hn : ∃ b' a', outNote ⟨b, a, false⟩ f op = ⟨b', a', false⟩ := by
      unfold outNote
      split_ifs
      · exact ⟨_, _, rfl⟩
      · exact ⟨_, _, rfl⟩
      · exact ⟨_, _, rfl⟩
      · exact ⟨_, _, rfl⟩
    obtain ⟨b', a', hb'⟩ := hn
    rw [hb']
    exact outHistory_unforced ops b' a' _ (fun o ho => h o (by simp [ho]))

/-- Writing in sequence, with `force-output` at any time, or moving about without `force-output`:
    closing the stream leaves the bytes written in the file. -/
theorem output_stream_sequential {n B p : Nat} (hB : roundToPowerOfTwo n = some B) {file : List Byte} (nul : Buf)
    (hp : p ≤ file.length) (ops : List Op) (h : (∀ op ∈ ops, op.moves = false) ∨ (∀ op ∈ ops, op ≠ .forceOutput)) :
    ∃ s, openStream .output B file p nul = .ok s ∧
      (run s ops).1 = (specRun .output ⟨file, p⟩ ops).1 ∧
      close (run s ops).2 = .ok (specRun .output ⟨file, p⟩ ops).2.bytes := by
  have ho : OutHistory ⟨false, false, false⟩ ⟨file, p⟩ ops := by
    rcases h with h | h
    · exact outHistory_seq ops _ _ h
    · exact outHistory_unforced ops _ _ _ h
  obtain ⟨s, e, a, _, b, _⟩ := output_stream_is_the_file_partial hB nul hp ops ho
  exact ⟨s, e, a, b⟩

/-- What was written and read again is what was written: the pieces written to a new file are, when the
    stream is closed and the file opened for input, what `read-to-end` delivers; the two streams may have
    buffers of different sizes. -/
theorem write_then_read {n B n' B' : Nat} (hB : roundToPowerOfTwo n = some B) (hB' : roundToPowerOfTwo n' = some B')
    (nul : Buf) (pieces : List (List Byte)) :
    ∃ s file, openStream .output B [] 0 nul = .ok s ∧ close (run s (pieces.map .write)).2 = .ok file ∧
      ∃ t, openStream .input B' file 0 nul = .ok t ∧ (step t .readToEnd).1 = .bytes pieces.flatten := by
  obtain ⟨s, e, _, hc⟩ := output_stream_sequential hB (file := []) nul (p := 0) (Nat.zero_le _) (pieces.map .write)
    (Or.inl (by simp [Op.moves]))
  have hw : ∀ (ps : List (List Byte)) (l : List Byte),
      (specRun .output ⟨l, l.length⟩ (ps.map .write)).2 = ⟨l ++ ps.flatten, (l ++ ps.flatten).length⟩ := by
    intro ps
    induction ps with
    | nil => intro l; simp [specRun]
    | cons q qs ih =>
      intro l
      have hs : spec .output ⟨l, l.length⟩ (.write q) = (.done, ⟨l ++ q, (l ++ q).length⟩) := by
        show writeSpec _ _ = _
        simp only [writeSpec, overwrite, List.take_length, List.length_append]
        rw [List.drop_eq_nil_of_le (by omega), List.append_nil]
      simp only [List.map_cons, specRun, hs, List.flatten_cons]
      rw [ih (l ++ q), List.append_assoc]
  have hw0 := hw pieces []
  rw [List.nil_append] at hw0
  have hw1 : (specRun .output ⟨[], 0⟩ (pieces.map .write)).2.bytes = pieces.flatten := by
    rw [show (⟨[], 0⟩ : FileS) = ⟨[], ([] : List Byte).length⟩ from rfl, hw0]
  rw [hw1] at hc
  obtain ⟨t, et, at', _⟩ := input_stream_is_the_file hB' (file := pieces.flatten) nul (p := 0) (Nat.zero_le _) [.readToEnd]
  refine ⟨s, _, e, hc, t, et, ?_⟩
  have h1 : (run t [.readToEnd]).1 = [(step t .readToEnd).1] := rfl
  have h2 : (specRun .input ⟨pieces.flatten, 0⟩ [.readToEnd]).1 = [.bytes pieces.flatten] := rfl
  rw [h1, h2] at at'
  exact (List.cons.inj at').1

/-- The bytes left in the file by a history, when the stream is opened on `file` at position `p`. -/
def leaves (d : Dir) (B : Nat) (file : List Byte) (p : Nat) (ops : List Op) : Res (List Byte) :=
  (openStream d B file p nullBuf).bind fun s => close (run s ops).2

/-- The answers of a history. -/
def answers (d : Dir) (B : Nat) (file : List Byte) (p : Nat) (ops : List Op) : Option (List Ans) :=
  match openStream d B file p nullBuf with
  | .ok s => some (run s ops).1
  | .fail _ => none

/-- A write after `force-output` behind the end of what was written is lost. -/
theorem output_stream_violated :
    (specRun .output ⟨[], 0⟩ [.write [1, 2, 3], .setPosition 1, .forceOutput, .write [9]]).2.bytes = [1, 9, 3] ∧
    answers .output 4 [] 0 [.write [1, 2, 3], .setPosition 1, .forceOutput, .write [9]] = some [.done, .done, .done, .done] ∧
    leaves .output 4 [] 0 [.write [1, 2, 3], .setPosition 1, .forceOutput, .write [9]] = .ok [1, 2, 3] := by
  decide +kernel

/-! ### Input-output streams -/

theorem run_inout {B k : Nat} (hk : B = 2 ^ k) : ∀ (ops : List Op) {n : IONote} {s : St} {c : List Byte} {p : Nat},
    IOJ B n s c p → IOHistory B n ⟨c, p⟩ ops →
    (run s ops).1 = (specRun .inputOutput ⟨c, p⟩ ops).1 ∧
    ∃ n', IOJ B n' (run s ops).2 (specRun .inputOutput ⟨c, p⟩ ops).2.bytes (specRun .inputOutput ⟨c, p⟩ ops).2.pos
  | [], n, _, _, _, h, _ => ⟨rfl, n, h⟩
  | op :: ops, n, s, c, p, h, ho => by
    obtain ⟨s', e, i⟩ := inout_step hk h ho.1
    obtain ⟨a, b⟩ := run_inout hk ops i ho.2
    unfold run specRun
    dsimp only
    rw [e]
    exact ⟨by rw [a], b⟩

/-- An input-output stream answers a history of calls like a file, and leaves the right bytes in the
    file when it is closed or forced, whatever the size of its buffer, provided the position is set
    between writing and reading, and between reading and `write-element`; it is not set past the end of
    the file; and not within the page a write came into from another page, unless that is the last one.
    Missing: the histories outside these conditions, on which the code fails
    (`inout_stream_violated` and the theorems after it). -/
theorem inout_stream_is_the_file_partial {n B p : Nat} (hB : roundToPowerOfTwo n = some B) {file : List Byte} (nul : Buf)
    (hp : p ≤ file.length) (ops : List Op) (ho : IOHistory B ⟨.move, false⟩ ⟨file, p⟩ ops) :
    ∃ s, openStream .inputOutput B file p nul = .ok s ∧
      (run s ops).1 = (specRun .inputOutput ⟨file, p⟩ ops).1 ∧
      streamPosition (run s ops).2 = (specRun .inputOutput ⟨file, p⟩ ops).2.pos ∧
      close (run s ops).2 = .ok (specRun .inputOutput ⟨file, p⟩ ops).2.bytes ∧
      (∃ s', forceOutput (run s ops).2 = .ok s' ∧ s'.acc.file = (specRun .inputOutput ⟨file, p⟩ ops).2.bytes) := by
  obtain ⟨k, hk⟩ := pow_of_round hB
  obtain ⟨s, e, i⟩ := open_inout hk (nul := nul) hp
  obtain ⟨a, n', b⟩ := run_inout hk ops i ho
  obtain ⟨s', e', hf, _⟩ := b.force
  refine ⟨s, e, a, b.reg.position_eq, ?_, s', e', hf⟩
  unfold close
  rw [e', Res.bind, hf]

instance (op : Op) : Decidable (∃ b, op = .writeElement b) :=
  match op with
  | .writeElement b => .isTrue ⟨b, rfl⟩
  | .readElement | .peek | .read _ | .readSkip _ | .readLine | .atEnd | .readToEnd | .contents | .write _ | .writeLine _
  | .writeFill _ _ | .forceOutput | .setPosition _ | .adjustPosition _ _ | .unread | .position | .size =>
    .isFalse (fun ⟨_, h⟩ => by cases h)

example : IOHistory 4 ⟨.move, false⟩ ⟨[1, 2, 3, 4, 5, 6, 7, 8, 9], 0⟩
      [.read 3, .write [30, 40, 50], .setPosition 0, .contents, .readElement, .setPosition 9, .writeElement 7, .setPosition 5, .readToEnd] ∧
    (specRun .inputOutput ⟨[1, 2, 3, 4, 5, 6, 7, 8, 9], 0⟩
      [.read 3, .write [30, 40, 50], .setPosition 0, .contents, .readElement, .setPosition 9, .writeElement 7, .setPosition 5, .readToEnd]).1 =
    [.bytes [1, 2, 3], .done, .done, .bytes [1, 2, 3, 30, 40, 50, 7, 8, 9], .byte (some 1), .done, .done, .done, .bytes [50, 7, 8, 9, 7]] := by
  constructor
  · simp [IOHistory, IOOk, ioNote, Op.readsIO, Op.reads, Op.writes, Op.moves, target, spec, callSpec, writeSpec, readSpec, moveSpec, overwrite]
  · decide +kernel

/-- Writing up to the end of the buffer and then reading runs into a failed assertion, not the next byte. -/
theorem inout_stream_violated :
    (specRun .inputOutput ⟨[1, 2, 3, 4, 5, 6, 7, 8], 0⟩ [.write [9, 9, 9, 9], .readElement]).1 = [.done, .byte (some 5)] ∧
    answers .inputOutput 4 [1, 2, 3, 4, 5, 6, 7, 8] 0 [.write [9, 9, 9, 9], .readElement] = some [.done, .crash] := by
  decide +kernel

/-- Reading after a write that went into the next page: the stream says it is at its end. -/
theorem inout_stream_false_end_violated :
    (specRun .inputOutput ⟨[1, 2, 3, 4, 5, 6, 7, 8], 0⟩ [.write [9, 9, 9, 9, 9], .readElement]).1 = [.done, .byte (some 6)] ∧
    answers .inputOutput 4 [1, 2, 3, 4, 5, 6, 7, 8] 0 [.write [9, 9, 9, 9, 9], .readElement] = some [.done, .byte none] := by
  decide +kernel

/-- `write-element` after reading up to the end of the buffer stores outside the buffer. -/
theorem inout_stream_store_violated :
    (specRun .inputOutput ⟨[1, 2, 3, 4, 5, 6, 7, 8], 0⟩ [.read 4, .writeElement 9]).1 = [.bytes [1, 2, 3, 4], .done] ∧
    (openStream .inputOutput 4 [1, 2, 3, 4, 5, 6, 7, 8] 0 nullBuf).bind (fun s => writeElement (run s [.read 4]).2 9) = .fail .outside := by
  decide +kernel

/-- Setting the position past the end adds old bytes of the buffer to the file, not zeros. -/
theorem inout_stream_past_end_violated :
    (specRun .inputOutput ⟨[1, 2, 3, 4, 5], 0⟩ [.read 5, .adjustPosition 7 .start]).2.bytes = [1, 2, 3, 4, 5, 0, 0] ∧
    leaves .inputOutput 4 [1, 2, 3, 4, 5] 0 [.read 5, .adjustPosition 7 .start] = .ok [1, 2, 3, 4, 5, 2, 3] := by
  decide +kernel

/-- Setting the position within the page a write came into reads more bytes than the buffer has room for. -/
theorem inout_stream_overrun_violated :
    (specRun .inputOutput ⟨[1, 2, 3, 4, 5, 6, 7, 8, 9, 10, 11, 12], 0⟩ [.write [0, 0, 0, 0, 0], .setPosition 4]).1 = [.done, .done] ∧
    (openStream .inputOutput 4 [1, 2, 3, 4, 5, 6, 7, 8, 9, 10, 11, 12] 0 nullBuf).bind
      (fun s => setPosition (run s [.write [0, 0, 0, 0, 0]]).2 4) = .fail .outside := by
  decide +kernel

/-! ### `read` with `on-end-of-stream` -/

/-- When there are enough bytes, `read` delivers them, and when there are not, it answers the value
    given for `on-end-of-stream`; provided this value is not the number of bytes asked for.  Missing:
    that value (`read_on_end_of_stream_violated`). -/
theorem read_on_end_of_stream_partial {n B p : Nat} (hB : roundToPowerOfTwo n = some B) {file : List Byte} (nul : Buf)
    (hp : p ≤ file.length) (ops : List Op) (m : Nat) (e : Eos) (he : e ≠ .int m) (he' : e ≠ .unsupplied) :
    ∃ s s', openStream .input B file p nul = .ok s ∧
      read (run s ops).2 m e =
        .ok (if (specRun .input ⟨file, p⟩ ops).2.pos + m ≤ file.length
             then .elements ((file.drop (specRun .input ⟨file, p⟩ ops).2.pos).take m) else .eos e, s') := by
  obtain ⟨k, hk⟩ := pow_of_round hB
  obtain ⟨s, eo, i⟩ := open_input hk (nul := nul) hp
  obtain ⟨_, b⟩ := run_input hk ops i
  rw [specRun_input_bytes] at b
  generalize (specRun .input ⟨file, p⟩ ops).2.pos = q at b ⊢
  have hq := b.reg.pos_le
  dsimp only at b hq
  obtain ⟨s', e', i'⟩ := readInto_inv b.ready m
  refine ⟨s, s', eo, ?_⟩
  unfold read
  rw [e', Res.bind]
  dsimp only
  congr 2
  unfold readAnswer
  rw [slice_length]
  by_cases hc : q + m ≤ file.length
  · rw [if_pos hc, if_neg (by omega), Nat.min_eq_left (by omega), if_neg he]
  · rw [if_neg hc, if_pos (by omega)]
    cases e with
    | unsupplied => exact absurd rfl he'
    | object => rfl
    | int j => rfl

/-- With `on-end-of-stream: 2`, a `read` of 2 bytes that are there answers 2. -/
theorem read_on_end_of_stream_violated :
    (openStream .input 4 [7, 8, 9] 0 nullBuf).bind (fun s => (read s 2 (.int 2)).bind fun r => .ok r.1) = .ok (.eos (.int 2)) := by
  decide +kernel

/-! ### Positions past the end of an output stream -/

theorem posixWrite_past {c : List Byte} {q : Nat} (h : c.length < q) :
    posixWrite c (q - 1) [0] = c ++ List.replicate (q - c.length) 0 := by
  unfold posixWrite
  rw [List.take_of_length_le (by omega), List.drop_eq_nil_of_le (by simp; omega), List.append_nil, List.append_assoc]
  congr 1
  rw [show ([0] : List Byte) = List.replicate 1 0 from rfl, List.replicate_append_replicate]
  congr 1; omega

/-- Setting the position of a newly opened output stream past the end of its file and closing it fills
    the gap with zeros, provided no stream did the same before.  Missing: the second time
    (`past_end_violated`), since the buffer that holds the zero is shared and is used up. -/
theorem past_end_partial {n B p q : Nat} (hB : roundToPowerOfTwo n = some B) {file : List Byte}
    (hp : p ≤ file.length) (hq : file.length < q) :
    ∃ s s', openStream .output B file p nullBuf = .ok s ∧ setWritablePosition s q = .ok s' ∧
      streamPosition s' = q ∧ close s' = .ok (file ++ List.replicate (q - file.length) 0) := by
  obtain ⟨k, hk⟩ := pow_of_round hB
  have hBp : 0 < B := by rw [hk]; exact Nat.two_pow_pos k
  have hsp := page_split (B := B) q
  have hlt : q % B < B := Nat.mod_lt _ hBp
  -- the stream after opening
  have hop : ∃ s, openStream .output B file p nullBuf = .ok s ∧ s.dir = .output ∧ s.nul = nullBuf ∧ s.buf.dirty = false ∧
      s.buf.data.length = B ∧ s.acc.file = file ∧ s.buf.pos + s.buf.fin ≤ file.length := by
    unfold openStream setPosition
    rw [if_pos ⟨Int.natCast_nonneg _, by simp [streamSize, newBuf, hp]⟩, Int.toNat_natCast]
    have hk' : (newBuf B).size = 2 ^ k := (newBuf_size B).trans hk
    have hf : force ⟨.output, newBuf B, false, false, ⟨file, p, false⟩, nullBuf⟩ = ⟨.output, newBuf B, false, false, ⟨file, p, false⟩, nullBuf⟩ := rfl
    simp only [seekFromStart, seekOutput, hf]
    have hsz : streamSize ⟨.output, newBuf B, false, false, ⟨file, p, false⟩, nullBuf⟩ = file.length := rfl
    have hsp' := page_split (B := B) p
    have hdl : (newBuf B).data.length = B := newBuf_size B
    have hoff : ∀ t : St, t.buf.data = (newBuf B).data → offPage t p = B * (p / B) ∧ onPage t p = p % B := by
      intro t ht
      have : t.buf.size = B := by unfold Buf.size; rw [ht]; exact hdl
      rw [offPage_eq (this.trans hk), onPage_eq (this.trans hk), this]; exact ⟨rfl, rfl⟩
    rw [hsz, if_neg (show ¬ p > file.length by omega)]
    by_cases hc : offPage ⟨.output, newBuf B, false, false, ⟨file, p, false⟩, nullBuf⟩ p = (newBuf B).pos ∧
        (newBuf B).start ≤ onPage ⟨.output, newBuf B, false, false, ⟨file, p, false⟩, nullBuf⟩ p ∧
        onPage ⟨.output, newBuf B, false, false, ⟨file, p, false⟩, nullBuf⟩ p ≤ (newBuf B).fin
    · rw [if_pos hc]
      exact ⟨_, rfl, rfl, rfl, rfl, hdl, rfl, Nat.zero_le _⟩
    · rw [if_neg hc]
      refine ⟨_, rfl, rfl, rfl, rfl, hdl, rfl, ?_⟩
      dsimp only
      rw [(hoff _ rfl).1, (hoff _ rfl).2]; omega
  obtain ⟨s, e, hdir, hnul, hcl, hdl, hfile, hle⟩ := hop
  have hsz : s.buf.size = B := hdl
  have hst : streamSize s = file.length := by unfold streamSize; rw [hcl, hfile]; rfl
  have hon : ∀ t : St, t.buf.data = s.buf.data → offPage t q = B * (q / B) ∧ onPage t q = q % B := by
    intro t ht
    have : t.buf.size = B := by unfold Buf.size; rw [ht]; exact hdl
    rw [offPage_eq (this.trans hk), onPage_eq (this.trans hk), this]; exact ⟨rfl, rfl⟩
  have hfs : force s = s := by
    unfold force forceBuffer
    simp only [hcl, Bool.false_eq_true, if_false]
  have hset : setWritablePosition s q = seekOutput s q file.length := by
    unfold setWritablePosition seekFromStart
    rw [if_pos (Int.natCast_nonneg _), hdir, hst]; rfl
  suffices hs : ∃ s', seekOutput s q file.length = .ok s' ∧
      streamPosition s' = q ∧ close s' = .ok (file ++ List.replicate (q - file.length) 0) by
    obtain ⟨s', h1, h2, h3⟩ := hs
    exact ⟨s, s', e, hset.trans h1, h2, h3⟩
  have h1 : q &&& (B - 1) = q % B := by
    have := (hon s rfl).2
    unfold onPage at this
    rwa [hsz] at this
  have h2 : Nat.ldiff q (B - 1) = B * (q / B) := by
    have := (hon s rfl).1
    unfold offPage at this
    rwa [hsz] at this
  have hne : ¬ (B * (q / B) = s.buf.pos ∧ s.buf.start ≤ q % B ∧ q % B ≤ s.buf.fin) := by
    rintro ⟨h1, _, h3⟩; omega
  have hpw := posixWrite_past hq
  unfold seekOutput
  simp only [onPage, offPage, Buf.size, hdl, h1, h2, hfs, if_neg hne, if_pos hq]
  by_cases h0 : q % B = 0
  · rw [if_pos h0]
    refine ⟨_, rfl, ?_, ?_⟩
    · show _ + _ = q
      simp only [forceNull]
      omega
    · unfold close forceOutput getOutput forceNull forceBuffer
      simp only [hdir, reduceCtorEq, if_false, if_true, hnul, nullBuf, Buf.size, hdl]
      rw [if_neg (by omega)]
      simp only [Res.bind, force, forceBuffer, hcl, Bool.false_eq_true, if_false, Nat.sub_zero, Nat.add_zero, accWrite, accSeek_file, accSeek_pos, hfile,
        List.drop_zero, if_pos (show 1 > 0 by omega)]
      rw [show ([0] : List Byte).take 1 = [0] from rfl, hpw]
  · rw [if_neg h0]
    have hpt : (patch s.buf.data (q % B - 1) [0]).length = B := by
      rw [patch_length (by rw [List.length_singleton]; omega)]; exact hdl
    refine ⟨_, rfl, ?_, ?_⟩
    · show _ + _ = q
      dsimp only
      omega
    · unfold close forceOutput getOutput
      simp only [hdir, reduceCtorEq, if_false, if_true, Buf.size, hpt]
      rw [if_neg (by omega)]
      have hdrop : ((patch s.buf.data (q % B - 1) [0]).drop (q % B - 1)).take (q % B - (q % B - 1)) = [0] := by
        apply List.ext_getElem?
        intro i
        rw [slice_get]
        rw [show q % B - (q % B - 1) = 1 by omega]
        by_cases hi : i < 1
        · have : i = 0 := by omega
          subst this
          rw [if_pos (by omega), patch_get (by omega), if_pos (by simp)]
          simp
        · rw [if_neg hi, List.getElem?_eq_none (by simp; omega)]
      simp only [Res.bind, force, forceBuffer, if_true, hdrop]
      rw [if_pos (by omega)]
      simp only [accWrite, accSeek_file, accSeek_pos, hfile]
      rw [show B * (q / B) + (q % B - 1) = q - 1 by omega, hpw]

example : roundToPowerOfTwo 4 = some 4 ∧ (1 : Nat) < 8 := by decide +kernel

/-- The second time a position past the end is at the start of a page, nothing is added to the file. -/
theorem past_end_violated :
    (openStream .output 4 [1] 0 nullBuf).bind (fun s => (setWritablePosition s 4).bind fun s =>
      (setWritablePosition s 8).bind fun s => close s) = .ok [1, 0, 0, 0] := by
  decide +kernel

end Verif.Streams
