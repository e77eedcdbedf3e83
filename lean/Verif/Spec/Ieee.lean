import Verif.Spec.Machine

/-!
# Floating point data with infinities, NaN and signed zeros

The arithmetic of IEEE 754 with `p` binary digits and bounded exponents, on the data that Rust's `f32` and `f64` have.
Simplifications: there is one NaN; ties are rounded up; functions of the mathematical library are correctly rounded;
numbers that are no results of operations (inputs and literals) need not be representable.
-/

namespace Adv
open Classical

/-- Floating point data. The sign bit of a number matters for zeros only. -/
inductive Ieee
  | nan
  | inf (neg : Bool)
  | num (neg : Bool) (r : ℝ)

namespace Ieee

/-- Value of a finite number. -/
def val : Ieee → Option ℝ
  | num _ r => some r
  | _ => none

/-- Sign bit. -/
noncomputable def sgn : Ieee → Bool
  | nan => false
  | inf s => s
  | num s r => if r = 0 then s else decide (r < 0)

/-- Odd exponents: powers of negative numbers are negative. -/
noncomputable def odd (n : ℤ) : Bool := decide (n % 2 = 1)

section
variable (p : ℕ) (emin emax : ℤ)

/-- Rounding to the nearest number, with overflow to infinity. `neg` is the sign of the zero if `a` is zero. -/
noncomputable def rd (neg : Bool) (a : ℝ) : Ieee :=
  let e : ℤ := min ((p : ℤ) - 1 - Int.log 2 |a|) (-emin)
  let r : ℝ := (round (a * 2 ^ e) : ℝ) * 2 ^ (-e)
  if 2 ^ emax ≤ |r| then inf (decide (a < 0)) else num (if a = 0 then neg else decide (a < 0)) r

/-- Addition; the sum of opposite infinities is NaN. -/
noncomputable def add : Ieee → Ieee → Ieee
  | nan, _ => nan
  | _, nan => nan
  | inf s, inf s' => if s = s' then inf s else nan
  | inf s, num _ _ => inf s
  | num _ _, inf s => inf s
  | num s x, num s' y => rd p emin emax (sgn (num s x) && sgn (num s' y)) (x + y)

/-- Negation. -/
noncomputable def neg : Ieee → Ieee
  | nan => nan
  | inf s => inf !s
  | num s r => num (!s) (-r)

/-- Absolute value. -/
noncomputable def abs : Ieee → Ieee
  | nan => nan
  | inf _ => inf false
  | num _ r => num false |r|

/-- Multiplication; infinity times zero is NaN. -/
noncomputable def mul (a b : Ieee) : Ieee :=
  match a, b with
  | nan, _ => nan
  | _, nan => nan
  | inf _, inf _ => inf (a.sgn ^^ b.sgn)
  | inf _, num _ y => if y = 0 then nan else inf (a.sgn ^^ b.sgn)
  | num _ x, inf _ => if x = 0 then nan else inf (a.sgn ^^ b.sgn)
  | num _ x, num _ y => rd p emin emax (a.sgn ^^ b.sgn) (x * y)

/-- Division. -/
noncomputable def div (a b : Ieee) : Ieee :=
  match a, b with
  | nan, _ => nan
  | _, nan => nan
  | inf _, inf _ => nan
  | inf _, num _ _ => inf (a.sgn ^^ b.sgn)
  | num _ _, inf _ => num (a.sgn ^^ b.sgn) 0
  | num _ x, num _ y =>
    if y = 0 then if x = 0 then nan else inf (a.sgn ^^ b.sgn) else rd p emin emax (a.sgn ^^ b.sgn) (x / y)

/-- Powers with integer exponents. -/
noncomputable def powi (a : Ieee) (n : ℤ) : Ieee :=
  if n = 0 then num false 1 else
  match a with
  | nan => nan
  | inf s => if 0 < n then inf (s && odd n) else num (s && odd n) 0
  | num _ x => if x = 0 ∧ n < 0 then inf (a.sgn && odd n) else rd p emin emax (a.sgn && odd n) (x ^ n)

/-- Powers. -/
noncomputable def powf (a b : Ieee) : Ieee :=
  match a, b with
  | num _ x, num _ y =>
    if h : ∃ n : ℤ, y = n then powi p emin emax a h.choose
    else if x < 0 then nan
    else if x = 0 ∧ y < 0 then inf false
    else rd p emin emax false (x ^ y)
  | num _ x, nan => if x = 1 then num false 1 else nan
  | inf _, nan => nan
  | nan, num _ y => if y = 0 then num false 1 else nan
  | nan, inf _ => nan
  | nan, nan => nan
  | num _ x, inf s => if |x| = 1 then num false 1 else if (|x| < 1) = (s = true) then inf false else num false 0
  | inf _, inf s => if s then num false 0 else inf false
  | inf s, num _ y =>
    if h : ∃ n : ℤ, y = n then powi p emin emax (inf s) h.choose
    else if y < 0 then num false 0 else inf false

/-- Arithmetic with `p` digits: multiples of `2 ^ emin`, smaller than `2 ^ emax`. -/
@[instance_reducible]
noncomputable def flt : Flt Ieee where
  zero := num false 0
  one := num false 1
  half := num false (1 / 2)
  ofInt n := rd p emin emax false n
  add := add p emin emax
  sub a b := add p emin emax a b.neg
  mul := mul p emin emax
  div := div p emin emax
  neg := neg
  abs := abs
  sqrt
    | nan => nan
    | inf s => if s then nan else inf false
    | num s r => if r < 0 then nan else rd p emin emax s (Real.sqrt r)
  sin
    | num s r => rd p emin emax s (Real.sin r)
    | _ => nan
  cos
    | num _ r => rd p emin emax false (Real.cos r)
    | _ => nan
  tan
    | num s r => rd p emin emax s (Real.tan r)
    | _ => nan
  exp
    | nan => nan
    | inf s => if s then num false 0 else inf false
    | num _ r => rd p emin emax false (Real.exp r)
  ln
    | nan => nan
    | inf s => if s then nan else inf false
    | num _ r => if r < 0 then nan else if r = 0 then inf true else rd p emin emax false (Real.log r)
  asin
    | num s r => if |r| ≤ 1 then rd p emin emax s (Real.arcsin r) else nan
    | _ => nan
  acos
    | num _ r => if |r| ≤ 1 then rd p emin emax false (Real.arccos r) else nan
    | _ => nan
  atan
    | nan => nan
    | inf s => rd p emin emax s (if s then -(Real.pi / 2) else Real.pi / 2)
    | num s r => rd p emin emax s (Real.arctan r)
  powf := powf p emin emax
  powi := powi p emin emax
  lt
    | num _ x, num _ y => decide (x < y)
    | inf s, inf s' => s && !s'
    | inf s, num _ _ => s
    | num _ _, inf s => !s
    | _, _ => false
  eq
    | num _ x, num _ y => decide (x = y)
    | inf s, inf s' => s == s'
    | _, _ => false
  toI64
    | num _ r =>
      let n : ℤ := if r < 0 then -⌊-r⌋ else ⌊r⌋
      if -2 ^ 63 ≤ n ∧ n < 2 ^ 63 then some n else none
    | _ => none

end

/-- Double precision. -/
noncomputable abbrev f64 : Flt Ieee := flt 53 (-1074) 1024

/-- Single precision. -/
noncomputable abbrev f32 : Flt Ieee := flt 24 (-149) 128

end Ieee
end Adv
