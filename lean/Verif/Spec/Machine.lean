import Verif.Spec.Rounding

/-!
# Specification vocabulary for machine numbers

Machine numbers are elements of any type `S` with a partial function `val : S → Option ℝ`: finite numbers have a value,
infinities and NaNs have none, and several numbers may have the same value (signed zeros). Nothing is assumed about
results of operations on numbers without a value, outside of the domains of operations, and beyond `1 / u`.
-/

namespace Adv

/-- A floating point operation with the exact result `s`: the result is finite, and there may be a relative error `u` and
an absolute error `u` (the latter covers underflow). Nothing is known if `s` exceeds `1 / u` (overflow). -/
def ComputesM (u : ℝ) (r : Option ℝ) (s : ℝ) : Prop := |s| * u ≤ 1 → ∃ z, r = some z ∧ |z - s| ≤ u * (|s| + 1)

/-- Machine arithmetic with unit roundoff `u`. -/
structure Machine {S : Type} (val : S → Option ℝ) (A : Flt S) (u : ℝ) : Prop where
  zero : val A.zero = some 0
  one : val A.one = some 1
  eq : ∀ {a b : S} {x y : ℝ}, val a = some x → val b = some y → (A.eq a b = true ↔ x = y)
  lt : ∀ {a b : S} {x y : ℝ}, val a = some x → val b = some y → (A.lt a b = true ↔ x < y)
  add : ∀ {a b : S} {x y : ℝ}, val a = some x → val b = some y → ComputesM u (val (A.add a b)) (x + y)
  sub : ∀ {a b : S} {x y : ℝ}, val a = some x → val b = some y → ComputesM u (val (A.sub a b)) (x - y)
  mul : ∀ {a b : S} {x y : ℝ}, val a = some x → val b = some y → ComputesM u (val (A.mul a b)) (x * y)
  div : ∀ {a b : S} {x y : ℝ}, val a = some x → val b = some y → y ≠ 0 → ComputesM u (val (A.div a b)) (x / y)
  neg : ∀ {a : S} {x : ℝ}, val a = some x → ComputesM u (val (A.neg a)) (-x)
  abs : ∀ {a : S} {x : ℝ}, val a = some x → ComputesM u (val (A.abs a)) |x|
  sqrt : ∀ {a : S} {x : ℝ}, val a = some x → 0 ≤ x → ComputesM u (val (A.sqrt a)) (Real.sqrt x)
  sin : ∀ {a : S} {x : ℝ}, val a = some x → ComputesM u (val (A.sin a)) (Real.sin x)
  cos : ∀ {a : S} {x : ℝ}, val a = some x → ComputesM u (val (A.cos a)) (Real.cos x)
  tan : ∀ {a : S} {x : ℝ}, val a = some x → Real.cos x ≠ 0 → ComputesM u (val (A.tan a)) (Real.tan x)
  exp : ∀ {a : S} {x : ℝ}, val a = some x → ComputesM u (val (A.exp a)) (Real.exp x)
  ln : ∀ {a : S} {x : ℝ}, val a = some x → 0 < x → ComputesM u (val (A.ln a)) (Real.log x)
  asin : ∀ {a : S} {x : ℝ}, val a = some x → -1 ≤ x → x ≤ 1 → ComputesM u (val (A.asin a)) (Real.arcsin x)
  acos : ∀ {a : S} {x : ℝ}, val a = some x → -1 ≤ x → x ≤ 1 → ComputesM u (val (A.acos a)) (Real.arccos x)
  atan : ∀ {a : S} {x : ℝ}, val a = some x → ComputesM u (val (A.atan a)) (Real.arctan x)
  powf : ∀ {a b : S} {x y : ℝ}, val a = some x → val b = some y → 0 < x → ComputesM u (val (A.powf a b)) (x ^ y)
  powf_int : ∀ {a b : S} {x : ℝ} {n : ℤ}, val a = some x → val b = some (n : ℝ) → (x ≠ 0 ∨ 0 ≤ n) →
    ComputesM u (val (A.powf a b)) (x ^ n)
  powi : ∀ {a : S} {x : ℝ} {n : ℤ}, val a = some x → (x ≠ 0 ∨ 0 ≤ n) → ComputesM u (val (A.powi a n)) (x ^ n)
  pred : ∀ {b : S} {n : ℤ}, val b = some (n : ℝ) → |(n : ℝ)| * u < 1 → val (A.sub b A.one) = some ((n : ℝ) - 1)

variable {S : Type} (val : S → Option ℝ)

/-- The machine number `s` differs from `x` by at most `δ`; in particular it is finite. -/
def WithinM (δ x : ℝ) (s : S) : Prop := ∃ r, val s = some r ∧ |x - r| ≤ δ

/-- The same operand, with numbers of the machine in place of real numbers. -/
inductive Arg.Same : Arg ℝ → Arg S → Prop
  | var (k : ℕ) : Arg.Same (.var k) (.var k)
  | lit {c : ℝ} {s : S} (h : val s = some c) : Arg.Same (.lit c) (.lit s)

/-- The same code: it does the same operations and branches in the same way on all finite values. -/
inductive Prog.Same : Prog ℝ → Prog S → Prop
  | ret {outs : List (Arg ℝ)} {outs' : List (Arg S)} (h : List.Forall₂ (Arg.Same val) outs outs') :
      Prog.Same (.ret outs) (.ret outs')
  | op (o : OpCode) {a : Arg ℝ} {a' : Arg S} {b : Option (Arg ℝ)} {b' : Option (Arg S)} {k : ℕ → ℝ → Prog ℝ}
      {k' : ℕ → S → Prog S} (ha : a.Same val a') (hb : Option.Rel (Arg.Same val) b b')
      (hk : ∀ n v s, val s = some v → Prog.Same (k n v) (k' n s)) : Prog.Same (.op o a b k) (.op o a' b' k')
  | panic : Prog.Same .panic .panic

mutual
/-- The same function, in real and in machine arithmetic. -/
inductive Func.Same : Func ℝ → Func S → Prop
  | simple (n m : ℕ) {p : List ℝ → Prog ℝ} {p' : List S → Prog S}
      (h : ∀ xs xs', List.Forall₂ (fun x s => val s = some x) xs xs' → (p xs).Same val (p' xs')) :
      Func.Same (.simple n m p) (.simple n m p')
  | chain {fs : List (Func ℝ)} {gs : List (Func S)} (h : Func.Sames fs gs) : Func.Same (.chain fs) (.chain gs)
/-- The same links of a chain. -/
inductive Func.Sames : List (Func ℝ) → List (Func S) → Prop
  | nil : Func.Sames [] []
  | cons {f : Func ℝ} {g : Func S} {fs : List (Func ℝ)} {gs : List (Func S)} (h : Func.Same f g) (hs : Func.Sames fs gs) :
      Func.Sames (f :: fs) (g :: gs)
end

/-- Powers whose base on `t` is not positive have the same exponents on both tapes. -/
def Tape.SameExponentsM (t : Tape ℝ) (t' : Tape S) : Prop :=
  ∀ op ∈ t.ops, ∀ a b, op.opcode = .Powf → op.arg1 = some a → op.arg2 = some b → t.vals.getD a 0 ≤ 0 →
    ∃ s, t'.vals[b]? = some s ∧ val s = some (t.vals.getD b 0)

/-- The same tape, with machine numbers whose values differ by at most `δ`. -/
structure Tape.CloseM (δ : ℝ) (t : Tape ℝ) (t' : Tape S) : Prop where
  indeps : t'.indeps = t.indeps
  deps : t'.deps = t.deps
  ops : t'.ops = t.ops
  mutable : t'.mutable = t.mutable
  vals : List.Forall₂ (WithinM val δ) t.vals t'.vals

end Adv
