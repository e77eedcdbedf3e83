import Verif.Model.Precision

/-!
# Nested variables

`AFloat<S>` implements `Float` for every `S: Float`, so it can itself be the scalar type: `AFloat<AFloat<f64>>`.
Simplification: the variables inside are not recorded (no context), so that their operations are pure functions;
`Adv.Props.C72_methods` links these functions to the methods of `Model/AFloat.lean`.
-/

namespace Adv
open scoped Adv

variable {S : Type} [Flt S]

/-- afloat.rs:47-56 `AFloat::from_op` for operands without context: the part before the registry is looked at. The
second case does not occur for the opcodes used below. -/
def AFloat.plainOp (opcode : OpCode) (arg1 : AFloat S) (arg2 : Option (AFloat S)) : AFloat S :=
  match zeroOrderValue opcode arg1.v (arg2.map AFloat.v),
      firstOrderValue opcode arg1.v (arg2.map AFloat.v) arg1.dv (arg2.map AFloat.dv) with
  | .ok v, .ok dv => AFloat.new v dv
  | _, _ => AFloat.zero

/-- `impl Float for AFloat<S>` and its supertraits (afloat.rs:115-138, 140-168, 200-237, 288-391), for variables without
context. -/
instance : Flt (AFloat S) where
  zero := AFloat.zero
  one := AFloat.one
  half := AFloat.ofScalar Flt.half
  ofInt n := AFloat.ofScalar (Flt.ofInt n)
  add a b := AFloat.plainOp .Add a (some b)
  sub a b := AFloat.plainOp .Sub a (some b)
  mul a b := AFloat.plainOp .Mul a (some b)
  div a b := AFloat.plainOp .Div a (some b)
  neg a := AFloat.plainOp .Mul (AFloat.plainOp .Sub AFloat.zero (some AFloat.one)) (some a)
  abs a := AFloat.plainOp .Abs a none
  sqrt a := AFloat.plainOp .Powf a (some (AFloat.ofScalar Flt.half))
  sin a := AFloat.plainOp .Sin a none
  cos a := AFloat.plainOp .Cos a none
  tan a := AFloat.plainOp .Tan a none
  exp a := AFloat.plainOp .Exp a none
  ln a := AFloat.plainOp .Ln a none
  asin a := AFloat.plainOp .Asin a none
  acos a := AFloat.plainOp .Acos a none
  atan a := AFloat.plainOp .Atan a none
  powf a b := AFloat.plainOp .Powf a (some b)
  powi a n := AFloat.plainOp .Powf a (some (AFloat.ofScalar (Flt.ofInt n)))
  lt := AFloat.lt
  eq := AFloat.eq
  toI64 := AFloat.toI64

/-- acontext.rs:94, 110, 156 `NumCast::from(x).unwrap()` from a variable to `f64`: this calls `ToPrimitive::to_f64`.
Simplification: 0 instead of a panic if the value does not fit into an `i64`. -/
def AFloat.toRegistry (x : AFloat S) : S := x.toF64.getD Flt.zero

/-- An operand of generic code, with `AFloat<S>` instead of `S`. -/
def Arg.nest : Arg S → Arg (AFloat S)
  | .var i => .var i
  | .lit v => .lit (AFloat.ofScalar v)

/-- Generic user code, run with `AFloat<S>` instead of `S`: numbers are converted with `NumCast::from`, and comparisons
look at the values (afloat.rs:115-125). -/
def Prog.nest : Prog S → Prog (AFloat S)
  | .ret outs => .ret (outs.map Arg.nest)
  | .op o a b k => .op o a.nest (b.map Arg.nest) fun i v => (k i v.v).nest
  | .panic => .panic

mutual
@[inherit_doc Prog.nest]
def Func.nest : Func S → Func (AFloat S)
  | .simple n m f => .simple n m fun xs => (f (xs.map AFloat.v)).nest
  | .chain fs => .chain (Func.nestAll fs)
@[inherit_doc Prog.nest]
def Func.nestAll : List (Func S) → List (Func (AFloat S))
  | [] => []
  | f :: fs => f.nest :: Func.nestAll fs
end

end Adv
