import Verif.Spec.Real
import Verif.Model.AFloat

/-! # What an `AFloat` means in calculus -/

namespace Adv

/-- `a` carries value and derivative at `t` of the curve `X`. -/
structure Jet (X : ℝ → ℝ) (t : ℝ) (a : AFloat ℝ) : Prop where
  val : X t = a.v
  deriv : HasDerivAt X a.dv t

end Adv
