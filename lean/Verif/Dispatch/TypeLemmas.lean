/-
The structural versions of `instance?` and `subtype?` agree with those of `Verif.Types`.
-/
import Verif.Dispatch.Model
import Verif.Types.Lemmas

namespace Verif.Dispatch
open Verif.Types
variable {C : Type} [DecidableEq C] {K : World C}

theorem instS_eq (x : Obj C) (t : Ty C) : instS K x t = inst K x t := by
  induction t using Ty.rec (motive_2 := fun _ => True) with
  | union a b iha ihb => simp only [instS, inst, iha, ihb]
  | limColl c e s d => simp only [instS]
  | cls | single | limInt | subclass | limFun => cases x <;> simp [instS, inst]
  | _ => trivial

theorem subR_eq {a : Ty C} (ha : Leaf a) (b : Ty C) : subR K a b = sub K a b := by
  induction b using Ty.rec (motive_2 := fun _ => True) with
  | union b1 b2 ih1 ih2 =>
    rw [sub_union_right K ha]
    cases a with
    | single o => simp only [subR, instS_eq, sub_single]
    | union p q => exact absurd rfl (ha p q)
    | _ => simp only [subR, ih1, ih2]
  | limColl => simp only [subR]
  | single p => cases a <;> simp_all [subR, sub, sub_single, inst, Leaf]
  | cls | limInt | subclass | limFun =>
    cases a with
    | single o => cases o <;> simp [subR, sub_single, inst, instS]
    | _ => simp_all [subR, sub, Leaf]
  | _ => trivial

theorem subS_eq (a b : Ty C) : subS K a b = sub K a b := by
  induction a using Ty.rec (motive_2 := fun _ => True) with
  | union a1 a2 ih1 ih2 => simp only [subS, ih1, ih2, sub_union_left]
  | cls | single | limInt | subclass | limFun | limColl =>
    simp only [subS]; exact subR_eq (by intro p q h; cases h) b
  | _ => trivial

theorem isInst_iff {x : Obj C} {t : Ty C} : isInst K x t = true ↔ inst K x t = some true := by
  simp [isInst, instS_eq]

theorem isSub_iff {a b : Ty C} : isSub K a b = true ↔ sub K a b = some true := by
  simp [isSub, subS_eq]

end Verif.Dispatch
