import Verif.Spec.NestedN
import Verif.Spec.Nested

/-!
# Evaluations with nested variables in which no derivative is skipped

A power of a variable skips the derivative of an operand that compares equal to zero (operation.rs:72-81). If the scalar is a variable
itself, the comparison sees its value only, and the derivatives of that value are lost.
-/

namespace Adv
open scoped Adv

/-- As `SmoothOp`, for `k` levels: a power of zero needs a literal exponent that is at least `k`. Inverse trigonometric functions
square their operand one level below. -/
def SmoothOpN (k : Nat) (o : OpCode) (arg : Option (Arg ℝ)) (a : ℝ) (b : Option ℝ) : Prop :=
  match o with
  | .Powf => 0 < a ∨ ∃ n : ℤ, arg = some (.lit n) ∧ (a ≠ 0 ∨ (k : ℤ) ≤ n)
  | .Asin | .Acos => (-1 < a ∧ a < 1) ∧ (a ≠ 0 ∨ k ≤ 3)
  | .Atan => a ≠ 0 ∨ k ≤ 3
  | .Abs => False
  | _ => SmoothOp o arg a b

/-- Operations that are smooth where they are executed. -/
def smoothN (k : Nat) : OpCond := fun o arg a b => SmoothOpN k o arg a.v (b.map AFloat.v)

/-- At every level: if the value of the direction vanishes, then so does the direction. -/
def Nest.Steady : (k : Nat) → Nest ℝ k → Prop
  | 0, _ => True
  | k + 1, a => Nest.Steady k (AFloat.v a) ∧ (Nest.val k (AFloat.dv a) = 0 → AFloat.dv a = Nest.lit k 0)

/-- The same without the `m` outermost levels. -/
def Nest.SteadyBelow : (m k : Nat) → Nest ℝ k → Prop
  | 0, k, a => Nest.Steady k a
  | _ + 1, 0, _ => True
  | m + 1, k + 1, a => Nest.SteadyBelow m k (AFloat.v a)

/-- The powers that an operation and its derivatives execute have steady operands: the power itself, the square of a denominator,
and so on. -/
def Nest.SteadyOp (k : Nat) (o : OpCode) (a b : Nest ℝ k) : Prop :=
  match o with
  | .Powf => Nest.Steady k a ∧ Nest.Steady k b
  | .Div => Nest.SteadyBelow 1 k b
  | .Ln => Nest.SteadyBelow 2 k a
  | .Tan => Nest.SteadyBelow 1 k (Flt.cos a)
  | .Asin | .Acos => Nest.SteadyBelow 1 k a ∧ Nest.SteadyBelow 1 k (Flt.one -ᶠ a *ᶠ a)
  | .Atan => Nest.SteadyBelow 1 k a ∧ Nest.SteadyBelow 2 k (Flt.one +ᶠ a *ᶠ a)
  | _ => True

/-- Every operation that the program executes on `env` is steady. -/
def Prog.SteadyN {T : Type} {k : Nat} (up : Nest ℝ k → T) (w : World T) : Prog (Nest ℝ k) → List (AFloat (Nest ℝ k)) → Prop
  | .ret _, _ => True
  | .panic, _ => True
  | .op o a b q, env => ∀ a' b' r, a.get env = .ok a' → Arg.getOpt env b = .ok b' → arityOk o b' = true →
      (AFloat.fromOpVia up o a' b' w).1 = .ok r →
      Nest.SteadyOp (k + 1) o a' (b'.getD a') ∧ (q env.length r.v).SteadyN up w (env ++ [r])

/-- The same for the links of a chain. -/
def steadyProgsN {T : Type} {k : Nat} (up : Nest ℝ k → T) (w : World T) : List (List (Nest ℝ k) → Prog (Nest ℝ k)) →
    List (AFloat (Nest ℝ k)) → Prop
  | [], _ => True
  | p :: ps, env => (p (env.map AFloat.v)).SteadyN up w env ∧
      ∀ y, ((p (env.map AFloat.v)).runVia up env w).1 = .ok y → steadyProgsN up w ps y

/-- The same for a function. -/
def Func.SteadyN {T : Type} {k : Nat} (up : Nest ℝ k → T) (w : World T) (f : Func (Nest ℝ k)) (env : List (AFloat (Nest ℝ k))) : Prop :=
  steadyProgsN up w f.progs env

end Adv
