import Verif.Spec.Function
import Verif.Spec.Real

/-!
# Specification vocabulary for derivatives

Conditions on an execution of user code over the reals: each operation is executed at a point of its domain, and
small changes of the values do not change the control flow.
-/

namespace Adv

/-- The elementary operation `o` is executed at a point of its domain where it is smooth; `Abs` is always allowed.
`arg` is the second operand as written in the program: powers of a non-positive base need an integer literal as
exponent. -/
def SmoothOp (o : OpCode) (arg : Option (Arg ℝ)) (a : ℝ) (b : Option ℝ) : Prop :=
  match o with
  | .Div => b ≠ some 0
  | .Tan => Real.cos a ≠ 0
  | .Ln => 0 < a
  | .Asin | .Acos => -1 < a ∧ a < 1
  | .Powf => 0 < a ∨ ∃ n : ℤ, arg = some (.lit n) ∧ (a ≠ 0 ∨ 1 ≤ n)
  | _ => True

/-- A condition on executed operations: opcode, second operand as written, operands. -/
abbrev OpCond := OpCode → Option (Arg ℝ) → AFloat ℝ → Option (AFloat ℝ) → Prop

/-- Smooth operations and abs. -/
def piecewiseSmooth : OpCond := fun o arg a b => SmoothOp o arg a.v (b.map AFloat.v)

/-- Smooth operations, no abs. -/
def smooth : OpCond := fun o arg a b => SmoothOp o arg a.v (b.map AFloat.v) ∧ o ≠ .Abs

/-- Operations that are differentiable at the point where they are executed; the increment of the argument of abs
does not go beyond the kink. -/
def differentiable : OpCond := fun o arg a b =>
  SmoothOp o arg a.v (b.map AFloat.v) ∧ (o = .Abs → a.v ≠ 0 ∧ 0 ≤ a.v * (a.v + a.dv))

/-- Every operation that the program executes on `env` satisfies `P`, and the control flow does not change if the
value of a result is changed a little. -/
def Prog.Along (P : OpCond) (w : World ℝ) : Prog ℝ → List (AFloat ℝ) → Prop
  | .ret _, _ => True
  | .panic, _ => True
  | .op o a b k, env => ∀ a' b' r, a.get env = .ok a' → Arg.getOpt env b = .ok b' →
      arityOk o b' = true → (AFloat.fromOp o a' b' w).1 = .ok r →
      P o b a' b' ∧ (∃ ε > 0, ∀ v, |v - r.v| < ε → k env.length v = k env.length r.v) ∧
      (k env.length r.v).Along P w (env ++ [r])

/-- The same for the links of a chain. -/
def alongProgs (P : OpCond) (w : World ℝ) : List (List ℝ → Prog ℝ) → List (AFloat ℝ) → Prop
  | [], _ => True
  | p :: ps, env =>
      (∃ ε > 0, ∀ xs : List ℝ, xs.length = env.length →
        (∀ i (h : i < xs.length) (h' : i < env.length), |xs[i] - (env[i]).v| < ε) → p xs = p (env.map AFloat.v)) ∧
      (p (env.map AFloat.v)).Along P w env ∧
      ∀ y, ((p (env.map AFloat.v)).run env w).1 = .ok y → alongProgs P w ps y

/-- The same for a function. -/
def Func.Along (P : OpCond) (w : World ℝ) (f : Func ℝ) (env : List (AFloat ℝ)) : Prop := alongProgs P w f.progs env

/-- Every operation that the program executes on `env` satisfies `P`. -/
def Prog.Each (P : OpCond) (w : World ℝ) : Prog ℝ → List (AFloat ℝ) → Prop
  | .ret _, _ => True
  | .panic, _ => True
  | .op o a b k, env => ∀ a' b' r, a.get env = .ok a' → Arg.getOpt env b = .ok b' →
      arityOk o b' = true → (AFloat.fromOp o a' b' w).1 = .ok r →
      P o b a' b' ∧ (k env.length r.v).Each P w (env ++ [r])

/-- The same for the links of a chain. -/
def eachProgs (P : OpCond) (w : World ℝ) : List (List ℝ → Prog ℝ) → List (AFloat ℝ) → Prop
  | [], _ => True
  | p :: ps, env => (p (env.map AFloat.v)).Each P w env ∧
      ∀ y, ((p (env.map AFloat.v)).run env w).1 = .ok y → eachProgs P w ps y

/-- The same for a function. For a straight-line function this is all that is needed
(`Adv.Props.C01_straight_line`). -/
def Func.Each (P : OpCond) (w : World ℝ) (f : Func ℝ) (env : List (AFloat ℝ)) : Prop := eachProgs P w f.progs env

/-- Input vector with derivatives. -/
def duals {n : Nat} (x dx : Fin n → ℝ) : List (AFloat ℝ) := List.ofFn fun i => AFloat.new (x i) (dx i)

end Adv
