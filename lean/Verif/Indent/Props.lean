import Verif.Indent.Lemmas

/-
C138: an indenting stream indents each line.
-/

namespace Verif.Indent

open Spec

/-- C138: whatever is written, in whatever pieces and with whatever changes of the indentation, the stream inside is given
the lines of the text, each with the white space at its beginning measured, the indentation added and that many columns
filled; lines of white space only are given without it; and an error is signalled only for wrong bounds of a `write` and
for a line that would begin left of the margin. -/
theorem indented_lines (indentation inW : Int) (outW : Option Int) (hi : 0 < inW) (ho : ∀ w, outW = some w → 0 < w)
    (ops : List Op) :
    (run (new indentation inW outW) ops).map Stream.inner = output indentation inW outW ops := by
  have hg : Good (new indentation inW outW) := ⟨hi, ho, by simp [new]⟩
  rw [run_feed ops _ hg]
  simp only [output]
  have : (new indentation inW outW).indentation = indentation := rfl
  rw [this]
  congr 1
  funext t
  rw [feed_lines t _ hg]
  simp [new, restFrom_zero]

example : (run (new 4 8 (some 8)) [.write "a\n\tb".toList 0 4, .writeElement 'c', .newLine, .indent 2,
      .write "x  \n   \n  y z\n".toList 0 14]).map (fun s => String.ofList s.inner)
    = some "    a\n\t    bc\n      x  \n\n\ty z\n" := by decide +kernel

/-- It does not matter in which pieces a text is written. -/
theorem pieces_do_not_matter (s : Stream) (hs : Good s) (a b : List Char) :
    (write s a 0 a.length).bind (fun s => write s b 0 b.length) = write s (a ++ b) 0 (a ++ b).length := by
  have key : ∀ (s : Stream) (es : List Char), Good s → write s es 0 es.length = elements s es := by
    intro s es hs
    rw [write_eq s es 0 es.length hs]
    cases es with
    | nil => simp [elements]
    | cons c cs =>
      have h1 : ¬ (((c :: cs).length : Nat) : Int) ≤ 0 := by simp
      rw [if_neg h1, if_pos (by omega)]
      simp
  rw [key s a hs, key s (a ++ b) hs, elements_append]
  cases h : elements s a with
  | none => rfl
  | some r => exact key r b (elements_same a hs h).1

example : Good (new 4 8 none) := ⟨by decide, by simp [new], by simp [new]⟩

/-- The white space at the beginning of a line has the width asked for: a reader with the same tab width sees the text
begin at that column. -/
theorem pad_width (w : Option Int) (n : Int) (hn : 0 ≤ n) (hw : ∀ v, w = some v → 0 < v) :
    ∀ v, (w = some v ∨ w = none) → column v 0 (pad w n) = n := by
  have sp : ∀ (v : Int) (m : Nat) (k : Int), column v k (List.replicate m ' ') = k + m := by
    intro v m
    induction m with
    | zero => simp [column]
    | succ m ih =>
      intro k
      simp only [List.replicate_succ, column]
      rw [if_neg (by decide), ih]
      omega
  have app : ∀ (v : Int) (a b : List Char) (k : Int), column v k (a ++ b) = column v (column v k a) b := by
    intro v a b
    induction a with
    | nil => intro k; rfl
    | cons c a ih => intro k; exact ih _
  have tb : ∀ (v : Int), 0 < v → ∀ (m : Nat) (q : Int), column v (q * v) (List.replicate m '\t') = (q + m) * v := by
    intro v hv m
    induction m with
    | zero => simp [column]
    | succ m ih =>
      intro q
      simp only [List.replicate_succ, column, if_true]
      rw [Int.mul_ediv_cancel _ (by omega), ih]
      congr 1
      omega
  rintro v (rfl | rfl)
  · have hv := hw v rfl
    have h1 : 0 ≤ n / v := Int.ediv_nonneg hn (by omega)
    have h2 : 0 ≤ n % v := Int.emod_nonneg _ (by omega)
    have h3 := tb v hv (n / v).toNat 0
    rw [Int.zero_mul, Int.zero_add, Int.toNat_of_nonneg h1] at h3
    simp only [pad]
    rw [app, h3, sp, Int.toNat_of_nonneg h2, Int.mul_comm]
    exact Int.mul_ediv_add_emod n v
  · simp only [pad]
    rw [sp, Int.toNat_of_nonneg hn, Int.zero_add]

/-- Only white space is added. -/
theorem pad_blank (w : Option Int) (n : Int) : ∀ c ∈ pad w n, c = ' ' ∨ c = '\t' := by
  intro c hc
  cases w with
  | none =>
    simp only [pad, List.mem_replicate] at hc
    exact Or.inl hc.2
  | some v =>
    simp only [pad, List.mem_append, List.mem_replicate] at hc
    rcases hc with hc | hc
    · exact Or.inr hc.2
    · exact Or.inl hc.2

example : pad (some 8) 20 = ['\t', '\t', ' ', ' ', ' ', ' '] ∧ column 8 0 (pad (some 8) 20) = 20 := by decide +kernel

end Verif.Indent
