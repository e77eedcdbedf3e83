import Verif.Model.GeneralizedJacobian
import Verif.Model.Checkpointing

/-! # Model of `generalized_jacobian_chain` (`src/drivers/generalized_jacobian.rs`) -/

namespace Adv
open scoped Adv

variable {S : Type} [Flt S]

/-- generalized_jacobian.rs:160-175: the `forward` closure. `zip` stops at the end of the shorter vector.
Simplification: `idx + 1` cannot overflow because `idx` is less than the length of a vector. -/
def chainForward (chain : Func S) (s : Nat × List S × List S) : M (World S) (Nat × List S × List S) := do
  let input := (s.2.1.zip s.2.2).map fun p => AFloat.new p.1 p.2
  let func ← M.lift (chain.nth s.1)
  let output ← func.eval input
  return (s.1 + 1, output.map AFloat.v, output.map AFloat.dv)

/-- generalized_jacobian.rs:176-179: the `reverse` closure. `σ.at_ idx` is the schedule of the parallel loops in the
call for link `idx`. -/
def chainReverse (σ : Sched) (chain : Func S) (s : Nat × List S × List S) (g2 : GenJac S) :
    M (World S) (GenJac S) := do
  let func ← M.lift (chain.nth s.1)
  generalizedJacobian (σ.at_ s.1) func s.2.1 s.2.2 [0] (some g2)

/-- generalized_jacobian.rs:180-184: the `identity` closure. -/
def chainIdentity (s : Nat × List S × List S) : GenJac S :=
  { homogenous := DMat.identity s.2.1.length
    inhomogenous := List.replicate s.2.1.length Flt.zero
    multiplicity := 0 }

/-- generalized_jacobian.rs:149-186 `generalized_jacobian_chain`. `est` and `capMax` are the parameters of
`reverse_sequence`. -/
def generalizedJacobianChain (σ : Sched) (est : Int → Int → Int) (capMax : Nat) (chain : Func S) (x dx : List S)
    (ncheckpoints : Option Nat) : M (Ckpt.World (World S)) (GenJac S) :=
  Ckpt.reverseSequence est capMax (0, x, dx) chain.len (ncheckpoints.getD chain.len)
    (chainForward chain) (chainReverse σ chain) (fun s => pure (chainIdentity s))

end Adv
