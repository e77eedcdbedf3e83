import Verif.Model.Function

/-!
# Specification vocabulary for user functions

Syntactic classes of user functions used as hypotheses.
-/

namespace Adv

variable {S : Type}

mutual
/-- The bodies of the links of a function, nested chains flattened. -/
def Func.progs : Func S → List (List S → Prog S)
  | .simple _ _ f => [f]
  | .chain fs => Func.progsAll fs
@[inherit_doc Func.progs]
def Func.progsAll : List (Func S) → List (List S → Prog S)
  | [] => []
  | f :: fs => f.progs ++ Func.progsAll fs
end

/-- Every operation of the program has at least one operand that is not a literal. -/
def Prog.NoConstOps : Prog S → Prop
  | .ret _ => True
  | .op _ a b k => ((∃ i, a = .var i) ∨ (∃ i, b = some (.var i))) ∧ ∀ i v, (k i v).NoConstOps
  | .panic => True

/-- Every output of the program is a variable. -/
def Prog.VarOuts : Prog S → Prop
  | .ret outs => ∀ a ∈ outs, ∃ i, a = .var i
  | .op _ _ _ k => ∀ i v, (k i v).VarOuts
  | .panic => True

/-- No link performs an operation on constants only, and only the last link may return constants. -/
def progsNoConst : List (List S → Prog S) → Prop
  | [] => True
  | [p] => ∀ xs, (p xs).NoConstOps
  | p :: ps => (∀ xs, (p xs).NoConstOps ∧ (p xs).VarOuts) ∧ progsNoConst ps

/-- Every operation of the function has an operand that depends on the inputs. -/
def Func.NoConstOps (f : Func S) : Prop := progsNoConst f.progs

/-- The control flow does not depend on values. -/
def Prog.StraightLine : Prog S → Prop
  | .ret _ => True
  | .op _ _ _ k => (∀ i v v', k i v = k i v') ∧ ∀ i v, (k i v).StraightLine
  | .panic => True

/-- All links are straight-line. -/
def Func.StraightLine (f : Func S) : Prop := ∀ p ∈ f.progs, (∀ xs, (p xs).StraightLine) ∧ ∀ xs xs' : List S, xs.length = xs'.length → p xs = p xs'

end Adv
