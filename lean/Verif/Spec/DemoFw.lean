import Verif.Model.FloydWarshall
import Verif.Spec.Demo

/-! # Small networks -/

namespace Adv.Demo
open Adv.Fw

/-- Three nodes, two traffic lights; it is faster to go from node 0 to node 2 by way of node 1. -/
def triangle : Net ℚ where
  n := 3
  lights := 2
  edges := [⟨0, 1, 0, true⟩, ⟨1, 2, 0, false⟩, ⟨0, 2, 1, true⟩]
  exits := [0, 2]
  lo := 1 / 100
  hi := 99 / 100
  inf := 10000

/-- One road. -/
def road : Net ℚ where
  n := 2
  lights := 1
  edges := [⟨0, 1, 0, true⟩]
  exits := [0, 1]
  lo := 1 / 100
  hi := 99 / 100
  inf := 10000

end Adv.Demo
