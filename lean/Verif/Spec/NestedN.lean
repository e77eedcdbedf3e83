import Verif.Model.NestedN
import Verif.Spec.Deriv

/-!
# Specification vocabulary for variables nested any number of times
-/

namespace Adv

/-- A number as a constant. -/
def Nest.lit {S : Type} [Flt S] : (k : Nat) → S → Nest S k
  | 0, c => c
  | k + 1, c => AFloat.ofScalar (Nest.lit k c)

/-- Values, all the way down. -/
def Nest.val : (k : Nat) → Nest ℝ k → ℝ
  | 0, a => a
  | k + 1, a => Nest.val k (AFloat.v a)

/-- One of the `2 ^ k` numbers in a variable: at each level, outermost first, `dvalue()` or `value()`. -/
def Nest.coef {S : Type} : (k : Nat) → (Fin k → Bool) → Nest S k → S
  | 0, _, a => a
  | k + 1, p, a => Nest.coef k (Fin.tail p) (bif p 0 then AFloat.dv a else AFloat.v a)

/-- The same for the outermost level. -/
def AFloat.coef {S : Type} (k : Nat) (p : Fin (k + 1) → Bool) (a : AFloat (Nest S k)) : S :=
  Nest.coef k (Fin.tail p) (bif p 0 then a.dv else a.v)

/-- Inputs at `x` with one direction for each level, outermost first. -/
noncomputable def nestedN {n : Nat} : (k : Nat) → (x : Fin n → ℝ) → (Fin k → Fin n → ℝ) → Fin n → Nest ℝ k
  | 0, x, _ => x
  | k + 1, x, d => fun i => AFloat.new (nestedN k x (Fin.tail d) i) (Nest.lit k (d 0 i))

/-- The same as a list of variables. -/
noncomputable def nestedVars {n : Nat} (k : Nat) (x : Fin n → ℝ) (d : Fin (k + 1) → Fin n → ℝ) : List (AFloat (Nest ℝ k)) :=
  List.ofFn fun i => AFloat.new (nestedN k x (Fin.tail d) i) (Nest.lit k (d 0 i))

section
variable {E Y : Type} [NormedAddCommGroup E] [NormedSpace ℝ E] [NormedAddCommGroup Y] [NormedSpace ℝ Y]

/-- Iterated directional derivative, in those of the directions `d` that are selected by `p`. -/
noncomputable def pathDeriv : (k : Nat) → (Fin k → Bool) → (Fin k → E) → (E → Y) → E → Y
  | 0, _, _, F => F
  | k + 1, p, d, F => pathDeriv k (Fin.tail p) (Fin.tail d) (bif p 0 then fun z => fderiv ℝ F z (d 0) else F)

end

/-- Operations whose derivatives of all orders are computed. -/
def OpCode.analytic : OpCode → Bool
  | .Add | .Sub | .Mul | .Sin | .Cos | .Exp => true
  | _ => false

/-- No other operations. -/
def analyticOps : OpCond := fun o _ _ _ => o.analytic = true

end Adv
