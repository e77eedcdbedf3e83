import Mathlib.Analysis.SpecialFunctions.Exp
import Mathlib.Data.Fintype.BigOperators
import Verif.Model.Matrix
import Verif.Spec.Real

/-! # The error of a perceptron, as a function on real vectors -/

namespace Adv.Nn

/-- The logistic function. -/
noncomputable def logistic (x : ℝ) : ℝ := 1 / (1 + Real.exp (-x))

/-- The output of the network for the inputs `x`, `y`. -/
noncomputable def out (p : Fin 9 → ℝ) (x y : ℝ) : ℝ :=
  logistic (logistic (x * p 0 + y * p 1 + p 4) * p 6 + logistic (x * p 2 + y * p 3 + p 5) * p 7 + p 8)

/-- A truth value as a number. -/
def bit (b : Bool) : ℝ := if b then 1 else 0

/-- The sum of squared differences between the network and the exclusive or. -/
noncomputable def loss (p : Fin 9 → ℝ) : ℝ := ∑ a : Bool, ∑ b : Bool, (out p (bit a) (bit b) - bit (a ^^ b)) ^ 2

/-- The column `g` is the gradient of `loss` at `p`. -/
def IsGradient (p : Fin 9 → ℝ) (g : DMat ℝ) : Prop :=
  g.nrows = 9 ∧ g.ncols = 1 ∧
    ∃ L : (Fin 9 → ℝ) →L[ℝ] ℝ, HasFDerivAt loss L p ∧ ∀ v, L v = ∑ i : Fin 9, g.get i 0 * v i

/-- The network treats its two inputs alike. -/
def Symmetric (p : Fin 9 → ℝ) : Prop := p 0 = p 1 ∧ p 2 = p 3

end Adv.Nn
