import Verif.Model.Nested
import Verif.Spec.Deriv

/-!
# Specification vocabulary for nested variables
-/

namespace Adv

/-- As `SmoothOp`; a power of zero needs an exponent that is at least 2, so that the derivative is smooth, too. -/
def SmoothOp2 (o : OpCode) (arg : Option (Arg ℝ)) (a : ℝ) (b : Option ℝ) : Prop :=
  match o with
  | .Powf => 0 < a ∨ ∃ n : ℤ, arg = some (.lit n) ∧ (a ≠ 0 ∨ 2 ≤ n)
  | .Abs => False
  | _ => SmoothOp o arg a b

/-- Operations that are twice differentiable where they are executed. -/
def smooth2 : OpCond := fun o arg a b => SmoothOp2 o arg a.v (b.map AFloat.v)

/-- If the first order direction of a nested variable vanishes, then so does its derivative. -/
def AFloat.Steady (a : AFloat (AFloat ℝ)) : Prop := a.dv.v = 0 → a.dv.dv = 0

/-- The operands of every power that the program executes on `env` are steady. -/
def Prog.SteadyPowers (up : AFloat ℝ → ℝ) (w : World ℝ) : Prog (AFloat ℝ) → List (AFloat (AFloat ℝ)) → Prop
  | .ret _, _ => True
  | .panic, _ => True
  | .op o a b k, env => ∀ a' b' r, a.get env = .ok a' → Arg.getOpt env b = .ok b' → arityOk o b' = true →
      (AFloat.fromOpVia up o a' b' w).1 = .ok r →
      (o = .Powf → a'.Steady ∧ ∀ c, b' = some c → c.Steady) ∧ (k env.length r.v).SteadyPowers up w (env ++ [r])

/-- The same for the links of a chain. -/
def steadyProgs (up : AFloat ℝ → ℝ) (w : World ℝ) : List (List (AFloat ℝ) → Prog (AFloat ℝ)) →
    List (AFloat (AFloat ℝ)) → Prop
  | [], _ => True
  | p :: ps, env => (p (env.map AFloat.v)).SteadyPowers up w env ∧
      ∀ y, ((p (env.map AFloat.v)).runVia up env w).1 = .ok y → steadyProgs up w ps y

/-- The same for a function. -/
def Func.SteadyPowers (up : AFloat ℝ → ℝ) (w : World ℝ) (f : Func (AFloat ℝ)) (env : List (AFloat (AFloat ℝ))) : Prop :=
  steadyProgs up w f.progs env

/-- Input vector with two directions: `e` for the variables inside, `dx` for the variables outside. -/
def nested {n : Nat} (x e dx : Fin n → ℝ) : List (AFloat (AFloat ℝ)) :=
  List.ofFn fun i => AFloat.new (AFloat.new (x i) (e i)) (AFloat.new (dx i) 0)

end Adv
