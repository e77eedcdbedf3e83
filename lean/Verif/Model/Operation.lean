import Verif.Model.Base

/-! # Model of `src/operation.rs` -/

namespace Adv
open scoped Adv

variable {S : Type} [Flt S]

/-- operation.rs:3-22 `enum OpCode`. -/
inductive OpCode
  | Nop | Const | Add | Sub | Mul | Div | Sin | Cos | Tan | Abs | Exp | Ln | Asin | Acos | Atan | Powf
deriving DecidableEq, Repr

/-- The opcodes that public methods pass to `from_op` with two operands (afloat.rs:145-161, 282). -/
def OpCode.isBinary : OpCode → Bool
  | .Add | .Sub | .Mul | .Div | .Powf => true
  | _ => false

/-- The opcodes that public methods pass to `from_op` with one operand (afloat.rs:274, 321-329). -/
def OpCode.isUnary : OpCode → Bool
  | .Sin | .Cos | .Tan | .Abs | .Exp | .Ln | .Asin | .Acos | .Atan => true
  | _ => false

/-- operation.rs:24-42 `zero_order_value`. -/
def zeroOrderValue (opcode : OpCode) (arg1 : S) (arg2 : Option S) : Res S :=
  match opcode with
  | .Add => do return arg1 +ᶠ (← unwrap arg2)
  | .Sub => do return arg1 -ᶠ (← unwrap arg2)
  | .Mul => do return arg1 *ᶠ (← unwrap arg2)
  | .Div => do return arg1 /ᶠ (← unwrap arg2)
  | .Sin => .ok (Flt.sin arg1)
  | .Cos => .ok (Flt.cos arg1)
  | .Tan => .ok (Flt.tan arg1)
  | .Abs => .ok (Flt.abs arg1)
  | .Exp => .ok (Flt.exp arg1)
  | .Ln => .ok (Flt.ln arg1)
  | .Asin => .ok (Flt.asin arg1)
  | .Acos => .ok (Flt.acos arg1)
  | .Atan => .ok (Flt.atan arg1)
  | .Powf => do return Flt.powf arg1 (← unwrap arg2)
  | .Nop => .error .invalidOpcode
  | .Const => .error .invalidOpcode

/-- operation.rs:44-85 `first_order_value`. -/
def firstOrderValue (opcode : OpCode) (arg1 : S) (arg2 : Option S) (darg1 : S) (darg2 : Option S) :
    Res S :=
  match opcode with
  | .Add => do return darg1 +ᶠ (← unwrap darg2)
  | .Sub => do return darg1 -ᶠ (← unwrap darg2)
  | .Mul => do return darg1 *ᶠ (← unwrap arg2) +ᶠ arg1 *ᶠ (← unwrap darg2)
  | .Div => do
      return (darg1 *ᶠ (← unwrap arg2) -ᶠ arg1 *ᶠ (← unwrap darg2)) /ᶠ Flt.powi (← unwrap arg2) 2
  | .Sin => .ok (darg1 *ᶠ Flt.cos arg1)
  | .Cos => .ok (Flt.neg darg1 *ᶠ Flt.sin arg1)
  | .Tan => .ok (darg1 *ᶠ (Flt.one /ᶠ Flt.powi (Flt.cos arg1) 2))
  | .Abs => .ok (Flt.abs (arg1 +ᶠ darg1) -ᶠ Flt.abs arg1)
  | .Exp => .ok (darg1 *ᶠ Flt.exp arg1)
  | .Ln => .ok (darg1 *ᶠ (Flt.one /ᶠ arg1))
  | .Asin => .ok (darg1 /ᶠ Flt.sqrt (Flt.one -ᶠ Flt.powi arg1 2))
  | .Acos => .ok (Flt.neg darg1 /ᶠ Flt.sqrt (Flt.one -ᶠ Flt.powi arg1 2))
  | .Atan => .ok (darg1 /ᶠ (Flt.one +ᶠ Flt.powi arg1 2))
  | .Powf => do
      let x := arg1
      let y ← unwrap arg2
      let dx := darg1
      let dy ← unwrap darg2
      let rv1 := if !(Flt.eq dx Flt.zero) then y *ᶠ Flt.powf x (y -ᶠ Flt.one) *ᶠ dx else Flt.zero
      let rv2 := if !(Flt.eq dy Flt.zero) then Flt.ln x *ᶠ Flt.powf x y *ᶠ dy else Flt.zero
      return rv1 +ᶠ rv2
  | .Nop => .error .invalidOpcode
  | .Const => .error .invalidOpcode

/-- operation.rs:87-98 `struct Operation`. -/
structure Operation where
  opcode : OpCode
  vid : Nat
  arg1 : Option Nat
  arg2 : Option Nat
deriving DecidableEq, Repr

namespace Operation

/-- operation.rs:101-108 `Operation::nop`. -/
def nop : Operation := ⟨.Nop, 0, none, none⟩

/-- operation.rs:110-117 `Operation::constant`. -/
def constant (vid : Nat) : Operation := ⟨.Const, vid, none, none⟩

/-- operation.rs:119-153, 236-243: the constructors `add`, `sub`, `mul`, `div`, `powf`. -/
def binary (o : OpCode) (vid lhs rhs : Nat) : Operation := ⟨o, vid, some lhs, some rhs⟩

/-- operation.rs:155-234: the constructors `sin`, `cos`, ..., `atan`. -/
def unary (o : OpCode) (vid idx : Nat) : Operation := ⟨o, vid, some idx, none⟩

/-- operation.rs:245-254 `Operation::zero_order`. The mutated slice is returned. -/
def zeroOrder (op : Operation) (v : List S) : Res (List S) :=
  match op.opcode with
  | .Nop => .ok v
  | .Const => .ok v
  | _ => do
      let a1 ← getR v (← unwrap op.arg1)
      let a2 ← optGetR v op.arg2
      setR v op.vid (← zeroOrderValue op.opcode a1 a2)

/-- operation.rs:256-272 `Operation::first_order`. -/
def firstOrder (op : Operation) (v : List S) (dv : List S) : Res (List S) :=
  match op.opcode with
  | .Nop => .ok dv
  | .Const => setR dv op.vid Flt.zero
  | _ => do
      let a1 ← getR v (← unwrap op.arg1)
      let a2 ← optGetR v op.arg2
      let d1 ← getR dv (← unwrap op.arg1)
      let d2 ← optGetR dv op.arg2
      setR dv op.vid (← firstOrderValue op.opcode a1 a2 d1 d2)

/-- `vbar[i] += x`. -/
def addAt (vbar : List S) (i : Nat) (x : S) : Res (List S) := do
  setR vbar i ((← getR vbar i) +ᶠ x)

/-- operation.rs:274-334 `Operation::first_order_reverse`. -/
def firstOrderReverse (op : Operation) (v : List S) (vbar : List S) : Res (List S) :=
  match op.opcode with
  | .Nop => .ok vbar
  | .Const => .ok vbar
  | .Add => do
      let a1 ← unwrap op.arg1
      let vbar ← addAt vbar a1 (← getR vbar op.vid)
      let a2 ← unwrap op.arg2
      addAt vbar a2 (← getR vbar op.vid)
  | .Sub => do
      let a1 ← unwrap op.arg1
      let vbar ← addAt vbar a1 (← getR vbar op.vid)
      let a2 ← unwrap op.arg2
      addAt vbar a2 (Flt.neg (← getR vbar op.vid))
  | .Mul => do
      let a1 ← unwrap op.arg1
      let a2 ← unwrap op.arg2
      let vbar ← addAt vbar a1 ((← getR vbar op.vid) *ᶠ (← getR v a2))
      addAt vbar a2 ((← getR vbar op.vid) *ᶠ (← getR v a1))
  | .Div => do
      let a1 ← unwrap op.arg1
      let a2 ← unwrap op.arg2
      let vbar ← addAt vbar a1 ((← getR vbar op.vid) *ᶠ Flt.one /ᶠ (← getR v a2))
      addAt vbar a2 ((← getR vbar op.vid) *ᶠ
        (Flt.neg (← getR v a1) /ᶠ Flt.powi (← getR v a2) 2))
  | .Powf => do
      let a1 ← unwrap op.arg1
      let a2 ← unwrap op.arg2
      let x ← getR v a1
      let y ← getR v a2
      let vbar ← addAt vbar a1 ((← getR vbar op.vid) *ᶠ y *ᶠ Flt.powf x (y -ᶠ Flt.one))
      addAt vbar a2 ((← getR vbar op.vid) *ᶠ Flt.ln x *ᶠ Flt.powf x y)
  | .Abs => .error .absInReverse
  | _ => do
      let a1 ← unwrap op.arg1
      let d ← firstOrderValue op.opcode (← getR v a1) none Flt.one none
      addAt vbar a1 ((← getR vbar op.vid) *ᶠ d)

end Operation
end Adv
