import Verif.Model.Base
import Mathlib.Algebra.Order.Field.Basic
import Mathlib.Algebra.Order.Ring.Rat
import Mathlib.Algebra.Field.Rat
import Mathlib.Tactic.Ring
import Mathlib.Tactic.Linarith
import Mathlib.Tactic.FieldSimp

/-!
# Lawful scalars

`Flt S` assumes no law. Theorems about derivatives need the scalars to be exact; they are stated for
every ordered field on which the signature is interpreted as expected. Only the arithmetic part is
constrained here: the elementary functions stay uninterpreted, so these theorems hold whatever they are.
-/

namespace Adv
open scoped Adv

/-- The arithmetic operations of the signature are those of an ordered field. -/
class LawfulFlt (K : Type) [Field K] [LinearOrder K] [IsStrictOrderedRing K] [Flt K] : Prop where
  zero_eq : (Flt.zero : K) = 0
  one_eq : (Flt.one : K) = 1
  half_eq : (Flt.half : K) = 1 / 2
  ofInt_eq : ∀ n : Int, (Flt.ofInt n : K) = n
  add_eq : ∀ a b : K, a +ᶠ b = a + b
  sub_eq : ∀ a b : K, a -ᶠ b = a - b
  mul_eq : ∀ a b : K, a *ᶠ b = a * b
  div_eq : ∀ a b : K, a /ᶠ b = a / b
  neg_eq : ∀ a : K, Flt.neg a = -a
  abs_eq : ∀ a : K, Flt.abs a = |a|
  powi_eq : ∀ (a : K) (n : Int), Flt.powi a n = a ^ n
  lt_iff : ∀ a b : K, Flt.lt a b = true ↔ a < b
  eq_iff : ∀ a b : K, Flt.eq a b = true ↔ a = b

/-- Rational numbers. The elementary functions are placeholders (no rational interpretation exists);
integer powers are exact. Used for concrete examples. -/
instance : Flt ℚ where
  zero := 0
  one := 1
  half := 1 / 2
  ofInt n := n
  add := (· + ·)
  sub := (· - ·)
  mul := (· * ·)
  div := (· / ·)
  neg := (- ·)
  abs a := if a < 0 then -a else a
  sqrt a := a
  sin _ := 0
  cos _ := 1
  tan _ := 0
  exp _ := 1
  ln _ := 0
  asin _ := 0
  acos _ := 0
  atan _ := 0
  powf a b := if b.den = 1 then a ^ b.num else 0
  powi a n := a ^ n
  lt a b := decide (a < b)
  eq a b := decide (a = b)
  toI64 a := if a < 0 then some (-(-a).floor) else some a.floor

instance : LawfulFlt ℚ where
  zero_eq := rfl
  one_eq := rfl
  half_eq := rfl
  ofInt_eq _ := rfl
  add_eq _ _ := rfl
  sub_eq _ _ := rfl
  mul_eq _ _ := rfl
  div_eq _ _ := rfl
  neg_eq _ := rfl
  abs_eq a := by
    show (if a < 0 then -a else a) = |a|
    split
    · rename_i h; rw [abs_of_neg h]
    · rename_i h; rw [abs_of_nonneg (not_lt.mp h)]
  powi_eq _ _ := rfl
  lt_iff _ _ := decide_eq_true_iff
  eq_iff _ _ := decide_eq_true_iff

end Adv

namespace Adv

/-- Rational numbers with a NaN: division by zero and the logarithm of a non-positive number are NaN, and
NaN is contagious. Used to exhibit what happens in floating point arithmetic. -/
inductive NQ
  | nan
  | fin (q : ℚ)
deriving DecidableEq

namespace NQ
/-- Lift a unary function. -/
def map1 (f : ℚ → NQ) : NQ → NQ
  | nan => nan
  | fin a => f a
/-- Lift a binary function. -/
def map2 (f : ℚ → ℚ → NQ) : NQ → NQ → NQ
  | fin a, fin b => f a b
  | _, _ => nan
end NQ

instance : Flt NQ where
  zero := .fin 0
  one := .fin 1
  half := .fin (1 / 2)
  ofInt n := .fin n
  add := NQ.map2 fun a b => .fin (a + b)
  sub := NQ.map2 fun a b => .fin (a - b)
  mul := NQ.map2 fun a b => .fin (a * b)
  div := NQ.map2 fun a b => if b = 0 then .nan else .fin (a / b)
  neg := NQ.map1 fun a => .fin (-a)
  abs := NQ.map1 fun a => .fin (if a < 0 then -a else a)
  sqrt := NQ.map1 fun a => .fin a
  sin := NQ.map1 fun _ => .fin 0
  cos := NQ.map1 fun _ => .fin 1
  tan := NQ.map1 fun _ => .fin 0
  exp := NQ.map1 fun _ => .fin 1
  ln := NQ.map1 fun a => if a ≤ 0 then .nan else .fin 0
  asin := NQ.map1 fun _ => .fin 0
  acos := NQ.map1 fun _ => .fin 0
  atan := NQ.map1 fun _ => .fin 0
  powf := NQ.map2 fun a b => if b.den = 1 then (if a = 0 ∧ b < 0 then .nan else .fin (a ^ b.num)) else .nan
  powi a n := NQ.map1 (fun a => if a = 0 ∧ n < 0 then .nan else .fin (a ^ n)) a
  lt a b := match a, b with
    | .fin a, .fin b => decide (a < b)
    | _, _ => false
  eq a b := match a, b with
    | .fin a, .fin b => decide (a = b)
    | _, _ => false
  toI64 a := match a with
    | .fin a => if a < 0 then some (-(-a).floor) else some a.floor
    | .nan => none

end Adv
