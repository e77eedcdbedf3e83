import Verif.Spec.Function

/-!
# Programs that do not repeat registrations

Syntactic conditions on user code.
-/

namespace Adv

variable {S : Type}

/-- The program takes the absolute value of a variable at most once. `n` is the number of variables so far, `used`
lists those whose absolute value was taken. The methods `min`, `max` and `abs_sub` take the absolute value of a
difference that they have just computed, so they never violate the condition. -/
def Prog.AbsOnce : Prog S → Nat → List Nat → Prop
  | .ret _, _, _ => True
  | .panic, _, _ => True
  | .op .Abs (.var i) _ k, n, used => i ∉ used ∧ ∀ v, (k n v).AbsOnce (n + 1) (i :: used)
  | .op _ _ _ k, n, used => ∀ v, (k n v).AbsOnce (n + 1) used

/-- All lists of outputs of the program satisfy `P`. -/
def Prog.Outs (P : List (Arg S) → Prop) : Prog S → Nat → Prop
  | .ret outs, _ => P outs
  | .op _ _ _ k, n => ∀ v, (k n v).Outs P (n + 1)
  | .panic, _ => True

/-- All operations of the program have opcodes in `Q`. -/
def Prog.Ops (Q : OpCode → Prop) : Prog S → Prop
  | .ret _ => True
  | .op o _ _ k => Q o ∧ ∀ i v, (k i v).Ops Q
  | .panic => True

/-- No variable occurs twice. -/
def DistinctVars (outs : List (Arg S)) : Prop :=
  ∀ (i p q : Nat), outs[p]? = some (.var i) → outs[q]? = some (.var i) → p = q

/-- Every link takes the absolute value of a variable at most once and returns no variable twice. -/
def Func.Tidy (f : Func S) : Prop :=
  ∀ p ∈ f.progs, ∀ xs : List S, (p xs).AbsOnce xs.length [] ∧ (p xs).Outs DistinctVars xs.length

end Adv
