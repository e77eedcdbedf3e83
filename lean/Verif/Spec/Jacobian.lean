import Verif.Model.Base

/-! # Unit vectors -/

namespace Adv

/-- The `j`-th unit vector of length `n`. -/
def eVec {S : Type} [Flt S] (n j : Nat) : List S := (List.range n).map fun k => if k = j then Flt.one else Flt.zero

end Adv
