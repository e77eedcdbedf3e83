import Verif.Spec.Scalars
import Mathlib.Analysis.SpecialFunctions.Pow.Deriv
import Mathlib.Analysis.SpecialFunctions.Trigonometric.InverseDeriv
import Mathlib.Analysis.SpecialFunctions.Trigonometric.ArctanDeriv
import Mathlib.Analysis.SpecialFunctions.Sqrt

/-! # Real numbers as scalars -/

namespace Adv
open Classical in
/-- Exact real arithmetic. Outside of the domains of the elementary functions the values are those of
Mathlib's total functions; no theorem uses them there. -/
noncomputable instance : Flt ℝ where
  zero := 0
  one := 1
  half := 1 / 2
  ofInt n := n
  add := (· + ·)
  sub := (· - ·)
  mul := (· * ·)
  div := (· / ·)
  neg := (- ·)
  abs := fun a => |a|
  sqrt := Real.sqrt
  sin := Real.sin
  cos := Real.cos
  tan := Real.tan
  exp := Real.exp
  ln := Real.log
  asin := Real.arcsin
  acos := Real.arccos
  atan := Real.arctan
  powf := fun a b => a ^ b
  powi := fun a n => a ^ n
  lt a b := decide (a < b)
  eq a b := decide (a = b)
  toI64 a := if a < 0 then some (-⌊-a⌋) else some ⌊a⌋

instance : LawfulFlt ℝ where
  zero_eq := rfl
  one_eq := rfl
  half_eq := rfl
  ofInt_eq _ := rfl
  add_eq _ _ := rfl
  sub_eq _ _ := rfl
  mul_eq _ _ := rfl
  div_eq _ _ := rfl
  neg_eq _ := rfl
  abs_eq _ := rfl
  powi_eq _ _ := rfl
  lt_iff _ _ := by simp [Flt.lt]
  eq_iff _ _ := by simp [Flt.eq]

end Adv
