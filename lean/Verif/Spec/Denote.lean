import Verif.Model.Function

/-!
# The mathematical meaning of user code

An interpreter of user code on plain numbers, written without the operation tables, contexts and derivatives of the
model. `none` stands for a panic.
-/

namespace Adv
open scoped Adv

variable {S : Type} [Flt S]

/-- The function named by an opcode. -/
def OpCode.meaning : OpCode → S → Option S → Option S
  | .Add, a, some b => some (a +ᶠ b)
  | .Sub, a, some b => some (a -ᶠ b)
  | .Mul, a, some b => some (a *ᶠ b)
  | .Div, a, some b => some (a /ᶠ b)
  | .Powf, a, some b => some (Flt.powf a b)
  | .Sin, a, none => some (Flt.sin a)
  | .Cos, a, none => some (Flt.cos a)
  | .Tan, a, none => some (Flt.tan a)
  | .Abs, a, none => some (Flt.abs a)
  | .Exp, a, none => some (Flt.exp a)
  | .Ln, a, none => some (Flt.ln a)
  | .Asin, a, none => some (Flt.asin a)
  | .Acos, a, none => some (Flt.acos a)
  | .Atan, a, none => some (Flt.atan a)
  | _, _, _ => none

/-- The number denoted by an operand. -/
def Arg.meaning (env : List S) : Arg S → Option S
  | .var i => env[i]?
  | .lit v => some v

/-- The result of user code on numbers. -/
def Prog.meaning : Prog S → List S → Option (List S)
  | .ret outs, env => outs.mapM (Arg.meaning env)
  | .op o a none k, env => do
      let v ← o.meaning (← a.meaning env) none
      (k env.length v).meaning (env ++ [v])
  | .op o a (some b) k, env => do
      let v ← o.meaning (← a.meaning env) (some (← b.meaning env))
      (k env.length v).meaning (env ++ [v])
  | .panic, _ => none

mutual
/-- The result of a function: chains compose from left to right. -/
def Func.meaning : Func S → List S → Option (List S)
  | .simple _ _ f, x => (f x).meaning x
  | .chain fs, x => Func.meaningAll fs x
@[inherit_doc Func.meaning]
def Func.meaningAll : List (Func S) → List S → Option (List S)
  | [], x => some x
  | f :: fs, x => do Func.meaningAll fs (← f.meaning x)
end

end Adv
