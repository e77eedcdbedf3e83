import Verif.Spec.Scalars

/-! # Linear algebra vocabulary on lists -/

namespace Adv

variable {K : Type} [Field K]

/-- Inner product of two vectors. -/
def dot (a b : List K) : K := (List.zipWith (· * ·) a b).sum

/-- `c a + d b`. -/
def lcomb (c d : K) (a b : List K) : List K := List.zipWith (fun x y => c * x + d * y) a b

end Adv
