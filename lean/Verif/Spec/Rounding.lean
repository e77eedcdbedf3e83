import Verif.Spec.Deriv
import Mathlib.Data.Int.Log
import Mathlib.Algebra.Order.Round

/-!
# Specification vocabulary for rounding errors

Arithmetics on the reals in which every elementary operation has a small relative error (the standard model of
floating point arithmetic), also with underflow and overflow.
-/

namespace Adv

/-- `r` approximates `s` with relative error `u`. -/
def Approximates (u r s : ℝ) : Prop := |r - s| ≤ u * |s|

/-- `r` is the result of a floating point operation with the exact result `s`: there may be a relative error `u` and an
absolute error `u` (the latter covers underflow, gradual or not). Nothing is known if `s` exceeds `1 / u` (overflow). -/
def Computes (u r s : ℝ) : Prop := |s| * u ≤ 1 → |r - s| ≤ u * (|s| + 1)

/-- Wherever an operation of the arithmetic is defined, its result is related by `R` to the exact result. Nothing is
assumed about operations outside of their domains. Comparisons are exact, and so is `n - 1` for integers that are not
too large. -/
structure ArithBy (R : ℝ → ℝ → Prop) (A : Flt ℝ) (u : ℝ) : Prop where
  zero : A.zero = 0
  one : A.one = 1
  eq : ∀ a b, A.eq a b = true ↔ a = b
  lt : ∀ a b, A.lt a b = true ↔ a < b
  add : ∀ a b, R (A.add a b) (a + b)
  sub : ∀ a b, R (A.sub a b) (a - b)
  mul : ∀ a b, R (A.mul a b) (a * b)
  div : ∀ a b, b ≠ 0 → R (A.div a b) (a / b)
  neg : ∀ a, R (A.neg a) (-a)
  abs : ∀ a, R (A.abs a) |a|
  sqrt : ∀ a, 0 ≤ a → R (A.sqrt a) (Real.sqrt a)
  sin : ∀ a, R (A.sin a) (Real.sin a)
  cos : ∀ a, R (A.cos a) (Real.cos a)
  tan : ∀ a, Real.cos a ≠ 0 → R (A.tan a) (Real.tan a)
  exp : ∀ a, R (A.exp a) (Real.exp a)
  ln : ∀ a, 0 < a → R (A.ln a) (Real.log a)
  asin : ∀ a, -1 ≤ a → a ≤ 1 → R (A.asin a) (Real.arcsin a)
  acos : ∀ a, -1 ≤ a → a ≤ 1 → R (A.acos a) (Real.arccos a)
  atan : ∀ a, R (A.atan a) (Real.arctan a)
  powf : ∀ a b, 0 < a → R (A.powf a b) (a ^ b)
  powf_int : ∀ a (n : ℤ), (a ≠ 0 ∨ 0 ≤ n) → R (A.powf a n) (a ^ n)
  powi : ∀ a (n : ℤ), (a ≠ 0 ∨ 0 ≤ n) → R (A.powi a n) (a ^ n)
  pred : ∀ n : ℤ, |(n : ℝ)| * u < 1 → A.sub n 1 = n - 1

/-- Arithmetics in which each operation has the relative error `u`: no underflow and no overflow. -/
abbrev Rounded (A : Flt ℝ) (u : ℝ) : Prop := ArithBy (Approximates u) A u

/-- Floating point arithmetics with unit roundoff `u`. Results may underflow, and results that exceed `1 / u` may be
anything. -/
abbrev Floating (A : Flt ℝ) (u : ℝ) : Prop := ArithBy (Computes u) A u

/-- Rounding to the nearest number with `p` binary digits. -/
noncomputable def fl (p : ℕ) (a : ℝ) : ℝ :=
  let e : ℤ := (p : ℤ) - 1 - Int.log 2 |a|
  (round (a * 2 ^ e) : ℝ) * 2 ^ (-e)

/-- Floating point arithmetic with a rounding function `r`. -/
@[instance_reducible]
noncomputable def roundFlt (r : ℝ → ℝ) : Flt ℝ where
  zero := 0
  one := 1
  half := 1 / 2
  ofInt n := r n
  add a b := r (a + b)
  sub a b := r (a - b)
  mul a b := r (a * b)
  div a b := r (a / b)
  neg a := -a
  abs a := |a|
  sqrt a := r (Real.sqrt a)
  sin a := r (Real.sin a)
  cos a := r (Real.cos a)
  tan a := r (Real.tan a)
  exp a := r (Real.exp a)
  ln a := r (Real.log a)
  asin a := r (Real.arcsin a)
  acos a := r (Real.arccos a)
  atan a := r (Real.arctan a)
  powf a b := r (a ^ b)
  powi a n := r (a ^ n)
  lt a b := decide (a < b)
  eq a b := decide (a = b)
  toI64 a := if a < 0 then some (-⌊-a⌋) else some ⌊a⌋

/-- Binary floating point arithmetic with `p` digits, correct rounding and unlimited exponents. -/
@[instance_reducible]
noncomputable def binaryFlt (p : ℕ) : Flt ℝ := roundFlt (fl p)

/-- Rounding to the nearest number of a format with `p` binary digits and bounded exponents: multiples of `2 ^ emin`
(gradual underflow). If the rounded number reaches `2 ^ emax`, the result is `ovf a`; the reals have no infinities, so that
this function is arbitrary. -/
noncomputable def flB (p : ℕ) (emin emax : ℤ) (ovf : ℝ → ℝ) (a : ℝ) : ℝ :=
  let e : ℤ := min ((p : ℤ) - 1 - Int.log 2 |a|) (-emin)
  let r : ℝ := (round (a * 2 ^ e) : ℝ) * 2 ^ (-e)
  if 2 ^ emax ≤ |r| then ovf a else r

/-- Correctly rounded arithmetic with bounded exponents. Double precision is `ieeeFlt 53 (-1074) 1024`, single precision
is `ieeeFlt 24 (-149) 128`. -/
@[instance_reducible]
noncomputable def ieeeFlt (p : ℕ) (emin emax : ℤ) (ovf : ℝ → ℝ) : Flt ℝ := roundFlt (flB p emin emax ovf)

/-! Variants of the conditions of `Spec/Deriv.lean` for tapes. -/

/-- Every operation of the tape is executed at a point of its domain; powers have a positive base, or the exponent is an
integer constant. -/
def Tape.InDomain (t : Tape ℝ) : Prop :=
  ∀ op ∈ t.ops, ∀ a b, op.arg1 = some a → op.arg2.getD a = b →
    match op.opcode with
    | .Div => t.vals.getD b 0 ≠ 0
    | .Tan => Real.cos (t.vals.getD a 0) ≠ 0
    | .Ln => 0 < t.vals.getD a 0
    | .Powf => 0 < t.vals.getD a 0 ∨ ((∃ c ∈ t.ops, c.opcode = .Const ∧ c.vid = b) ∧
        ∃ n : ℤ, t.vals.getD b 0 = n ∧ (t.vals.getD a 0 ≠ 0 ∨ 1 ≤ n))
    | .Asin | .Acos => -1 < t.vals.getD a 0 ∧ t.vals.getD a 0 < 1
    | _ => True

/-- Corresponding entries differ by at most `δ`. -/
def Within (δ : ℝ) (xs ys : List ℝ) : Prop := List.Forall₂ (fun x y => |x - y| ≤ δ) xs ys

/-- The same for values and derivatives of variables without context. -/
def WithinD (δ : ℝ) (xs ys : List (AFloat ℝ)) : Prop :=
  List.Forall₂ (fun x y => |x.v - y.v| ≤ δ ∧ |x.dv - y.dv| ≤ δ) xs ys

/-- Powers whose base on `t` is not positive have the same exponents on both tapes. -/
def Tape.SameExponents (t t' : Tape ℝ) : Prop :=
  ∀ op ∈ t.ops, ∀ a b, op.opcode = .Powf → op.arg1 = some a → op.arg2 = some b → t.vals.getD a 0 ≤ 0 →
    t'.vals.getD b 0 = t.vals.getD b 0

/-- The same tape, with values that differ by at most `δ`. -/
structure Tape.Close (δ : ℝ) (t t' : Tape ℝ) : Prop where
  indeps : t'.indeps = t.indeps
  deps : t'.deps = t.deps
  ops : t'.ops = t.ops
  mutable : t'.mutable = t.mutable
  vals : Within δ t.vals t'.vals

end Adv
