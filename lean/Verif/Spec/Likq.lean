import Verif.Model.AbsNormal
import Mathlib.Data.Real.Sign
import Mathlib.LinearAlgebra.LinearIndependent.Defs
import Verif.Spec.Real

/-!
# Specification: linear independence kink qualification
-/

namespace Adv
open Finset

/-- Rows are the gradients of the switching variables of an abs-normal form at switching values `zhat`, where absolute values of
variables that vanish are held constant. -/
def KinkGradients (F : AbsNormalForm ℝ) (zhat : List ℝ) (B : ℕ → ℕ → ℝ) : Prop :=
  ∀ i < F.a.length, ∀ j < F.zmat.ncols,
    B i j = F.zmat.get i j + ∑ k ∈ range F.a.length, F.lmat.get i k * Real.sign (zhat.getD k 0) * B k j

/-- The gradients of the switching variables that vanish are linearly independent. -/
def Likq (F : AbsNormalForm ℝ) (zhat : List ℝ) : Prop :=
  ∃ B, KinkGradients F zhat B ∧
    LinearIndependent ℝ fun (i : {i : Fin F.a.length // zhat.getD i 0 = 0}) (j : Fin F.zmat.ncols) => B i.1 j

end Adv
