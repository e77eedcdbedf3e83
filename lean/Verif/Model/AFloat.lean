import Verif.Model.AContext

/-!
# Model of `src/afloat.rs`

`AFloat<S>` for a scalar type whose recorded values are stored without conversion (`ADouble`).
-/

namespace Adv
open scoped Adv

variable {S : Type} [Flt S]

/-- afloat.rs:9-18 `struct AFloat`. -/
structure AFloat (S : Type) where
  v : S
  dv : S
  ctx : Option (Nat × Nat)
deriving DecidableEq

namespace AFloat

/-- afloat.rs:22-24 `AFloat::new`. -/
def new (v dv : S) : AFloat S := ⟨v, dv, none⟩

/-- afloat.rs:127-131 `From<S>`, and afloat.rs:210-217 `NumCast::from` for a representable number. -/
def ofScalar (x : S) : AFloat S := new x Flt.zero

/-- afloat.rs:219-227 `zero()`. -/
def zero : AFloat S := new Flt.zero Flt.zero
/-- afloat.rs:229-237 `one()`. -/
def one : AFloat S := new Flt.one Flt.zero

/-- afloat.rs:58-71: the context id of an operation, panicking if the operands disagree. -/
def opCid (arg1 : AFloat S) (arg2 : Option (AFloat S)) : Res (Option Nat) :=
  match arg1.ctx, arg2.bind (fun a => a.ctx) with
  | some (cid1, _), some (cid2, _) => if cid2 = cid1 then .ok (some cid1) else .error .assertFailed
  | some (cid1, _), none => .ok (some cid1)
  | none, some (cid2, _) => .ok (some cid2)
  | none, none => .ok none

/-- afloat.rs:76-85: the value id of an operand, recording a constant if it has none. -/
def ensureVid (ctx : AContext) (arg : AFloat S) : M (World S) Nat :=
  match arg.ctx with
  | some (_, vid) => pure vid
  | none => ctx.record .Const arg.v none none

/-- afloat.rs:80-85, 88: the same for the optional second operand. -/
def ensureVidOpt (ctx : AContext) : Option (AFloat S) → M (World S) (Option Nat)
  | none => pure none
  | some a => do let vid ← ensureVid ctx a; return some vid

/-- afloat.rs:47-95 `AFloat::from_op`. -/
def fromOp (opcode : OpCode) (arg1 : AFloat S) (arg2 : Option (AFloat S)) : M (World S) (AFloat S) := do
  let v ← M.lift (zeroOrderValue opcode arg1.v (arg2.map AFloat.v))
  let dv ← M.lift (firstOrderValue opcode arg1.v (arg2.map AFloat.v) arg1.dv (arg2.map AFloat.dv))
  match ← M.lift (opCid arg1 arg2) with
  | none => return ⟨v, dv, none⟩
  | some cid =>
      match ← AContext.fromCid cid with
      | none => return ⟨v, dv, none⟩
      | some ctx =>
          ctx.inScope do
            let arg1Vid ← ensureVid ctx arg1
            let arg2Vid ← ensureVidOpt ctx arg2
            let vid ← ctx.record opcode v (some arg1Vid) arg2Vid
            return ⟨v, dv, some (cid, vid)⟩

/-- afloat.rs:140-168 `binary_op!`, operands both `AFloat`. -/
def add (a b : AFloat S) : M (World S) (AFloat S) := fromOp .Add a (some b)
@[inherit_doc add] def sub (a b : AFloat S) : M (World S) (AFloat S) := fromOp .Sub a (some b)
@[inherit_doc add] def mul (a b : AFloat S) : M (World S) (AFloat S) := fromOp .Mul a (some b)
@[inherit_doc add] def div (a b : AFloat S) : M (World S) (AFloat S) := fromOp .Div a (some b)

/-- The four operators of `binary_op!` / `assign_op!`. -/
inductive ArithOp | add | sub | mul | div
deriving DecidableEq, Repr

/-- afloat.rs:165-168: the opcode of an operator. -/
def ArithOp.opcode : ArithOp → OpCode
  | .add => .Add
  | .sub => .Sub
  | .mul => .Mul
  | .div => .Div

/-- afloat.rs:142-147 `AFloat op AFloat`. -/
def arith (o : ArithOp) (a b : AFloat S) : M (World S) (AFloat S) := fromOp o.opcode a (some b)
/-- afloat.rs:149-154 `AFloat op f64`; `NumCast::from(rhs).unwrap()` is `ofScalar`. -/
def arithScalar (o : ArithOp) (a : AFloat S) (b : S) : M (World S) (AFloat S) :=
  fromOp o.opcode a (some (ofScalar b))
/-- afloat.rs:156-161 `f64 op AFloat`. -/
def scalarArith (o : ArithOp) (a : S) (b : AFloat S) : M (World S) (AFloat S) :=
  fromOp o.opcode (ofScalar a) (some b)
/-- afloat.rs:170-177 `AFloat op= AFloat`: the new value of `*self`. -/
def arithAssign (o : ArithOp) (self rhs : AFloat S) : M (World S) (AFloat S) := do
  let result ← arith o self rhs
  return result
/-- afloat.rs:179-184 `AFloat op= f64`. -/
def arithAssignScalar (o : ArithOp) (self : AFloat S) (rhs : S) : M (World S) (AFloat S) := do
  let result ← arithScalar o self rhs
  return result

/-- afloat.rs:133-138 `Neg`. -/
def neg (a : AFloat S) : M (World S) (AFloat S) := do
  mul (← sub zero one) a

/-- afloat.rs:193-198 `Rem`. -/
def rem (_a _b : AFloat S) : M (World S) (AFloat S) := M.throw .unsupported

/-- afloat.rs:305-319 `float_unsupported!`. -/
inductive UnsupportedMethod
  | floor | ceil | round | trunc | fract | signum | exp_m1 | ln_1p | sinh | cosh | tanh | asinh | acosh
  | atanh | atan2
deriving DecidableEq, Repr

/-- afloat.rs:263-269: the body generated by `float_unsupported!` (second operand only for `atan2`). -/
def unsupported (_m : UnsupportedMethod) (_a : AFloat S) (_b : Option (AFloat S)) :
    M (World S) (AFloat S) := M.throw .unsupported

/-- afloat.rs:321-329 `float_elemental!`. -/
def abs (a : AFloat S) : M (World S) (AFloat S) := fromOp .Abs a none
@[inherit_doc abs] def exp (a : AFloat S) : M (World S) (AFloat S) := fromOp .Exp a none
@[inherit_doc abs] def ln (a : AFloat S) : M (World S) (AFloat S) := fromOp .Ln a none
@[inherit_doc abs] def sin (a : AFloat S) : M (World S) (AFloat S) := fromOp .Sin a none
@[inherit_doc abs] def cos (a : AFloat S) : M (World S) (AFloat S) := fromOp .Cos a none
@[inherit_doc abs] def tan (a : AFloat S) : M (World S) (AFloat S) := fromOp .Tan a none
@[inherit_doc abs] def asin (a : AFloat S) : M (World S) (AFloat S) := fromOp .Asin a none
@[inherit_doc abs] def acos (a : AFloat S) : M (World S) (AFloat S) := fromOp .Acos a none
@[inherit_doc abs] def atan (a : AFloat S) : M (World S) (AFloat S) := fromOp .Atan a none
/-- afloat.rs:330 `float_elemental2!(powf, Powf)`. -/
def powf (a b : AFloat S) : M (World S) (AFloat S) := fromOp .Powf a (some b)

/-- afloat.rs:332-334 -/
def mulAdd (self a b : AFloat S) : M (World S) (AFloat S) := do add (← mul self a) b
/-- afloat.rs:336-338 -/
def recip (self : AFloat S) : M (World S) (AFloat S) := div one self
/-- afloat.rs:340-342 -/
def powi (self : AFloat S) (n : Int) : M (World S) (AFloat S) := powf self (ofScalar (Flt.ofInt n))
/-- afloat.rs:344-346 -/
def sqrt (self : AFloat S) : M (World S) (AFloat S) := powf self (ofScalar Flt.half)
/-- afloat.rs:348-350 -/
def exp2 (self : AFloat S) : M (World S) (AFloat S) := powf (ofScalar (Flt.ofInt 2)) self
/-- afloat.rs:352-354 -/
def log (self base : AFloat S) : M (World S) (AFloat S) := do
  let a ← ln self
  let b ← ln base
  div a b
/-- afloat.rs:356-358 -/
def log2 (self : AFloat S) : M (World S) (AFloat S) := log self (ofScalar (Flt.ofInt 2))
/-- afloat.rs:360-362 -/
def log10 (self : AFloat S) : M (World S) (AFloat S) := log self (ofScalar (Flt.ofInt 10))
/-- afloat.rs:364-366 -/
def max (self other : AFloat S) : M (World S) (AFloat S) := do
  let s ← add self other
  let d ← sub self other
  let d ← abs d
  let s ← add s d
  mul (ofScalar Flt.half) s
/-- afloat.rs:368-370 -/
def min (self other : AFloat S) : M (World S) (AFloat S) := do
  let s ← add self other
  let d ← sub self other
  let d ← abs d
  let s ← sub s d
  mul (ofScalar Flt.half) s
/-- afloat.rs:372-374 -/
def absSub (self other : AFloat S) : M (World S) (AFloat S) := do abs (← sub self other)
/-- afloat.rs:376-378 -/
def cbrt (self : AFloat S) : M (World S) (AFloat S) := do
  powf self (← div one (ofScalar (Flt.ofInt 3)))
/-- afloat.rs:380-382 -/
def hypot (self other : AFloat S) : M (World S) (AFloat S) := do
  let a ← powi self 2
  let b ← powi other 2
  let s ← add a b
  sqrt s
/-- afloat.rs:384-386 -/
def sinCos (self : AFloat S) : M (World S) (AFloat S × AFloat S) := do
  let s ← sin self
  let c ← cos self
  return (s, c)

/-- afloat.rs:115-119 `PartialEq::eq`. -/
def eq (a b : AFloat S) : Bool := Flt.eq a.v b.v

/-- `PartialOrd::partial_cmp` of the scalar type: equal, less, greater or unordered. -/
def scalarPartialCmp (a b : S) : Option Ordering :=
  if Flt.eq a b then some .eq else if Flt.lt a b then some .lt else if Flt.lt b a then some .gt else none

/-- afloat.rs:121-125 `PartialOrd::partial_cmp`. -/
def partialCmp (a b : AFloat S) : Option Ordering := scalarPartialCmp a.v b.v

/-- `<` derived from `partial_cmp`. -/
def lt (a b : AFloat S) : Bool := partialCmp a b == some .lt

/-- `<=` derived from `partial_cmp`. -/
def le (a b : AFloat S) : Bool := partialCmp a b == some .lt || partialCmp a b == some .eq
/-- `>` derived from `partial_cmp`. -/
def gt (a b : AFloat S) : Bool := partialCmp a b == some .gt
/-- `>=` derived from `partial_cmp`. -/
def ge (a b : AFloat S) : Bool := partialCmp a b == some .gt || partialCmp a b == some .eq

/-- afloat.rs:255-261, 296-303, 388-390 `float_passthrough!` (`is_nan`, `is_infinite`, `is_finite`,
`is_normal`, `is_sign_positive`, `is_sign_negative`, `classify`) and `integer_decode`: the method of the
scalar type applied to the value. -/
def passthrough {β : Type} (method : S → β) (a : AFloat S) : β := method a.v

/-- afloat.rs:224-226 -/
def isZero (a : AFloat S) : Bool := Flt.eq a.v Flt.zero
/-- afloat.rs:234-236 -/
def isOne (a : AFloat S) : Bool := Flt.eq a.v Flt.one

/-- afloat.rs:200-208 `ToPrimitive::to_i64`. -/
def toI64 (a : AFloat S) : Option Int := Flt.toI64 a.v

/-- `ToPrimitive::to_f64` is not overridden in afloat.rs:200-208, so the default method of the trait
applies, which goes through `to_i64` (then `to_u64`, not modelled: only reached for values ≥ 2^63). -/
def toF64 (a : AFloat S) : Option S := a.toI64.map Flt.ofInt

end AFloat

namespace AContext

/-- acontext.rs:91-97 `AContext::set_indep`: the new value of `*x`. -/
def setIndep (h : AContext) (x : AFloat S) : M (World S) (AFloat S) :=
  h.withLock fun i =>
    let (vid, i') := i.setIndep x.v
    (.ok { x with ctx := some (i.cid, vid) }, i')

/-- acontext.rs:100-121 `AContext::set_dep`. -/
def setDep (h : AContext) (x : AFloat S) : M (World S) Unit :=
  h.withLock fun i =>
    match i.setDep x.v x.ctx with
    | .ok i' => (.ok (), i')
    | .error e => (.error e, i)

/-- acontext.rs:124-128 `AContext::new_indep`. -/
def newIndep (h : AContext) (value : S) : M (World S) (AFloat S) :=
  h.setIndep (AFloat.new value Flt.zero)

/-- The loop `for x in v.iter_mut() { self.set_indep(x) }` (acontext.rs:133-135, function.rs:29-31). -/
def setIndepAll (h : AContext) : List (AFloat S) → M (World S) (List (AFloat S))
  | [] => pure []
  | x :: xs => do
      let x' ← h.setIndep x
      let xs' ← setIndepAll h xs
      return x' :: xs'

/-- acontext.rs:131-137 `AContext::new_indep_vec`. -/
def newIndepVec (h : AContext) (length : Nat) (value : S) : M (World S) (List (AFloat S)) :=
  h.setIndepAll (List.replicate length (AFloat.new value Flt.zero))

/-- acontext.rs:140-144 `AContext::set_dep_slice`, also the loop function.rs:33-35. -/
def setDepSlice (h : AContext) : List (AFloat S) → M (World S) Unit
  | [] => pure ()
  | x :: xs => do
      h.setDep x
      setDepSlice h xs

end AContext
end Adv
