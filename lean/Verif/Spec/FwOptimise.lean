import Mathlib.Algebra.BigOperators.Fin
import Verif.Spec.FloydWarshall
import Mathlib.Data.Real.Basic

/-! # Specification for the optimisation in the Floyd-Warshall example -/

namespace Adv.Fw

/-- A state of gradient descent: point, gradient, step size. -/
structure Descent (L : Nat) where
  point : Fin L → ℝ
  grad : Fin L → ℝ
  step : ℝ

/-- One step, followed by a new step size according to Barzilai and Borwein. -/
noncomputable def Descent.next {L : Nat} (G : (Fin L → ℝ) → Fin L → ℝ) (x : Descent L) : Descent L where
  point := fun i => x.point i - x.step * x.grad i
  grad := G fun i => x.point i - x.step * x.grad i
  step := |∑ i, ((x.point i - x.step * x.grad i) - x.point i) * (G (fun i => x.point i - x.step * x.grad i) i - x.grad i)| /
    ∑ i, (G (fun i => x.point i - x.step * x.grad i) i - x.grad i) ^ 2

/-- Gradient descent with the field `G`, starting at `p` with step size `s`. -/
noncomputable def Descent.after {L : Nat} (G : (Fin L → ℝ) → Fin L → ℝ) (p : Fin L → ℝ) (s : ℝ) : Nat → Descent L
  | 0 => ⟨p, G p, s⟩
  | k + 1 => (Descent.after G p s k).next G

end Adv.Fw
