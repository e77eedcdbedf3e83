import Verif.Model.Function

/-!
# Numbers of other precisions

`AFloat<S>` is generic over the scalar type, but the registry stores values as `f64`: acontext.rs:94, 110, 156 convert
with `NumCast::from(x).unwrap()`. The other files of the model treat the case `S = f64`, where the conversion is the
identity; here are the same functions with a conversion `up : S → F` from the scalar type of the variables to that of
the registry. Widening an `f32` never fails, so `up` is a total function. Simplification: narrowing conversions (`cast`
to a smaller type) are taken to be total, too.
-/

namespace Adv
open scoped Adv

variable {S F : Type} [Flt S] (up : S → F)

namespace AContext

/-- acontext.rs:91-97 `AContext::set_indep`. -/
def setIndepVia (h : AContext) (x : AFloat S) : M (World F) (AFloat S) :=
  h.withLock fun i =>
    let (vid, i') := i.setIndep (up x.v)
    (.ok { x with ctx := some (i.cid, vid) }, i')

/-- acontext.rs:100-121 `AContext::set_dep`. -/
def setDepVia (h : AContext) (x : AFloat S) : M (World F) Unit :=
  h.withLock fun i =>
    match i.setDep (up x.v) x.ctx with
    | .ok i' => (.ok (), i')
    | .error e => (.error e, i)

/-- acontext.rs:147-164 `AContext::record`. -/
def recordVia (h : AContext) (opcode : OpCode) (val : S) (arg1 arg2 : Option Nat) : M (World F) Nat :=
  h.withLock fun i => let (vid, i') := i.record opcode (up val) arg1 arg2; (.ok vid, i')

/-- The loop acontext.rs:133-135, function.rs:29-31. -/
def setIndepAllVia (h : AContext) : List (AFloat S) → M (World F) (List (AFloat S))
  | [] => pure []
  | x :: xs => do
      let x' ← h.setIndepVia up x
      let xs' ← setIndepAllVia h xs
      return x' :: xs'

/-- acontext.rs:140-144 `AContext::set_dep_slice`. -/
def setDepSliceVia (h : AContext) : List (AFloat S) → M (World F) Unit
  | [] => pure ()
  | x :: xs => do
      h.setDepVia up x
      setDepSliceVia h xs

end AContext

namespace AFloat

/-- afloat.rs:76-85. -/
def ensureVidVia (ctx : AContext) (arg : AFloat S) : M (World F) Nat :=
  match arg.ctx with
  | some (_, vid) => pure vid
  | none => ctx.recordVia up .Const arg.v none none

/-- afloat.rs:80-85, 88. -/
def ensureVidOptVia (ctx : AContext) : Option (AFloat S) → M (World F) (Option Nat)
  | none => pure none
  | some a => do let vid ← ensureVidVia up ctx a; return some vid

/-- afloat.rs:47-95 `AFloat::from_op`: value and derivative are computed in `S`, values are recorded in `F`. -/
def fromOpVia (opcode : OpCode) (arg1 : AFloat S) (arg2 : Option (AFloat S)) : M (World F) (AFloat S) := do
  let v ← M.lift (zeroOrderValue opcode arg1.v (arg2.map AFloat.v))
  let dv ← M.lift (firstOrderValue opcode arg1.v (arg2.map AFloat.v) arg1.dv (arg2.map AFloat.dv))
  match ← M.lift (opCid arg1 arg2) with
  | none => return ⟨v, dv, none⟩
  | some cid =>
      match ← AContext.fromCid cid with
      | none => return ⟨v, dv, none⟩
      | some ctx =>
          ctx.inScope do
            let arg1Vid ← ensureVidVia up ctx arg1
            let arg2Vid ← ensureVidOptVia up ctx arg2
            let vid ← ctx.recordVia up opcode v (some arg1Vid) arg2Vid
            return ⟨v, dv, some (cid, vid)⟩

/-- afloat.rs:98-104 `AFloat::cast`: the context is kept, nothing is recorded. -/
def cast {T : Type} (conv : T → S) (x : AFloat T) : AFloat S := ⟨conv x.v, conv x.dv, x.ctx⟩

end AFloat

/-- User code that computes in `S`. -/
def Prog.runVia : Prog S → List (AFloat S) → M (World F) (List (AFloat S))
  | .ret outs, env => M.lift (outs.mapM (Arg.get env))
  | .op opcode a b k, env => do
      let a ← M.lift (a.get env)
      let b ← M.lift (Arg.getOpt env b)
      if arityOk opcode b then
        let r ← AFloat.fromOpVia up opcode a b
        (k env.length r.v).runVia (env ++ [r])
      else M.throw .unbound
  | .panic, _ => M.throw .user

namespace Func

mutual
/-- The body of a function that computes in `S` (function.rs:72-74, 135-141). -/
def evalVia : Func S → List (AFloat S) → M (World F) (List (AFloat S))
  | .simple _ _ f, x => (f (x.map AFloat.v)).runVia up x
  | .chain funcs, x => evalAllVia funcs x
/-- The loop function.rs:136-140. -/
def evalAllVia : List (Func S) → List (AFloat S) → M (World F) (List (AFloat S))
  | [], current => pure current
  | f :: fs, current => do
      let current ← f.evalVia current
      evalAllVia fs current
end

/-- Recording a function that computes in `S`, as function.rs:26-37 does it for `f64`. -/
def tapeVia (f : Func S) (x : List S) : M (World F) (Tape F) := do
  let ctx ← AContext.new
  ctx.inScope do
    let input ← ctx.setIndepAllVia up (x.map AFloat.ofScalar)
    let output ← f.evalVia up input
    ctx.setDepSliceVia up output
    ctx.tape

end Func
end Adv
