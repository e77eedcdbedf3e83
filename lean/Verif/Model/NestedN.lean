import Verif.Model.Nested

/-!
# Variables nested any number of times
-/

namespace Adv
open scoped Adv

variable {S : Type}

/-- `AFloat<AFloat<…<S>>>`, the number of `AFloat`s being `k`. -/
def Nest (S : Type) : Nat → Type
  | 0 => S
  | k + 1 => AFloat (Nest S k)

/-- `impl Float for AFloat<S>`, applied `k` times. -/
instance Nest.flt [I : Flt S] : (k : Nat) → Flt (Nest S k)
  | 0 => I
  | k + 1 => @instFltAFloat (Nest S k) (Nest.flt k)

/-- Generic code, run with `k` times nested scalars. -/
def Func.nestN [Flt S] (f : Func S) : (k : Nat) → Func (Nest S k)
  | 0 => f
  | k + 1 => (f.nestN k).nest

end Adv
