import Verif.Spec.AbsNormal

/-! # Vocabulary for variables that are registered as dependent more than once -/

namespace Adv

/-- Entry `i` of a list of registrations is repeated at a later position. -/
def Reregistered (ids : List Nat) (i : Nat) : Prop := ∃ k, i < k ∧ k < ids.length ∧ ids[k]? = ids[i]?

open Classical in
/-- The seeds that survive if a later registration of a variable overwrites an earlier one. -/
noncomputable def lastSeeds {K : Type} [Field K] (ids : List Nat) (ybar : List K) : List K :=
  (List.range ids.length).map fun i => if Reregistered ids i then 0 else ybar.getD i 0

open Classical in
/-- The matrix `A` with the columns of all but the last registration of a variable replaced by zero. -/
noncomputable def lastCols {K : Type} [Field K] (ids : List Nat) (A : DMat K) : DMat K :=
  { A with get := fun i j => if Reregistered ids j then 0 else A.get i j }

open Classical in
/-- The matrix `A` with the rows of all but the last registration of a variable replaced by zero. -/
noncomputable def lastRows {K : Type} [Field K] (ids : List Nat) (A : DMat K) : DMat K :=
  { A with get := fun i j => if Reregistered ids i then 0 else A.get i j }

end Adv
