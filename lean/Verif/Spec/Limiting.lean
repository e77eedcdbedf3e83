import Mathlib.Analysis.Calculus.FDeriv.Basic
import Mathlib.Analysis.Normed.Group.Constructions
import Verif.Model.Matrix

/-!
# Specification: limiting Jacobians

The Bouligand subdifferential of a function, whose convex hull is Clarke's generalized Jacobian.
-/

namespace Adv
open Filter Topology

/-- Limits of derivatives at points that converge to `x` and at which the function is differentiable. -/
def limitingJacobians {E W : Type} [NormedAddCommGroup E] [NormedSpace ℝ E] [NormedAddCommGroup W] [NormedSpace ℝ W]
    (F : E → W) (x : E) : Set (E →L[ℝ] W) :=
  {L | ∃ u : ℕ → E, Tendsto u atTop (𝓝 x) ∧ (∀ k, DifferentiableAt ℝ F (u k)) ∧
    Tendsto (fun k => fderiv ℝ F (u k)) atTop (𝓝 L)}

/-- The linear map of a matrix. -/
noncomputable def DMat.linear (G : DMat ℝ) (n m : ℕ) : (Fin n → ℝ) →L[ℝ] (Fin m → ℝ) :=
  ContinuousLinearMap.pi fun i => ∑ j : Fin n, G.get i j • ContinuousLinearMap.proj j

end Adv
