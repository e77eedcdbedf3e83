import Verif.Spec.History
import Verif.Spec.Tape

/-!
# Histories with `value_mut`

`AFloat::value_mut` changes the value of a variable, but not the value that a context has recorded for it. To compare a
history with the same history without these changes, histories are lists of calls here. Variables are numbered in the
order in which they are obtained; `AFloat` is `Copy`, so a changed variable gets a new number.
-/

namespace Adv

/-- An API call, with the numbers of the variables it is applied to. -/
inductive HCall (S : Type)
  /-- `AContext::new`. -/
  | new
  /-- `AContext::from_cid`. -/
  | fromCid (c : Nat)
  /-- Dropping a handle of context `c`. -/
  | drop (c : Nat)
  /-- `AFloat::new`, `From`. -/
  | scalar (v dv : S)
  /-- `*dvalue_mut() = d`. -/
  | seed (k : Nat) (d : S)
  /-- `*value_mut() = v`. -/
  | value (k : Nat) (v : S)
  /-- `set_indep`. -/
  | setIndep (c k : Nat)
  /-- `set_dep`. -/
  | setDep (c k : Nat)
  /-- Any unary or binary operation. -/
  | op (o : OpCode) (k : Nat) (l : Option Nat)

variable {S : Type} [Flt S]

/-- The operands of an operation. -/
def HState.operands (s : HState S) (k : Nat) (l : Option Nat) : Option (AFloat S × Option (AFloat S)) :=
  match s.vars[k]?, l with
  | some a, none => some (a, none)
  | some a, some l => (s.vars[l]?).map fun b => (a, some b)
  | none, _ => none

/-- The effect of a call. Calls that cannot be written (of variables or handles that do not exist, with a wrong number of
operands) and `new` after the last id have no effect. A call that panics yields no variable. If `skip` is set, `value_mut`
of a variable that belongs to a context does nothing. -/
def HCall.run (skip : Bool) : HCall S → HState S → HState S
  | .new, s => if s.world.nextId < usizeMax then
      match AContext.new s.world with
      | (.ok h, w) => ⟨w, h.cid :: s.handles, s.vars⟩
      | (.error _, w) => ⟨w, s.handles, s.vars⟩
    else s
  | .fromCid c, s =>
      match AContext.fromCid c s.world with
      | (.ok o, w) => ⟨w, (o.map AContext.cid).toList ++ s.handles, s.vars⟩
      | (.error _, w) => ⟨w, s.handles, s.vars⟩
  | .drop c, s => if c ∈ s.handles then ⟨(AContext.drop ⟨c⟩ s.world).2, s.handles.erase c, s.vars⟩ else s
  | .scalar v dv, s => ⟨s.world, s.handles, s.vars ++ [AFloat.new v dv]⟩
  | .seed k d, s => match s.vars[k]? with
      | some a => ⟨s.world, s.handles, s.vars ++ [{ a with dv := d }]⟩
      | none => s
  | .value k v, s => match s.vars[k]? with
      | some a => ⟨s.world, s.handles, s.vars ++ [if skip && a.ctx.isSome then a else { a with v := v }]⟩
      | none => s
  | .setIndep c k, s => match s.vars[k]? with
      | some a => if c ∈ s.handles then
          ⟨(AContext.setIndep ⟨c⟩ a s.world).2, s.handles, s.vars ++ (AContext.setIndep ⟨c⟩ a s.world).1.toOption.toList⟩
        else s
      | none => s
  | .setDep c k, s => match s.vars[k]? with
      | some a => if c ∈ s.handles then ⟨(AContext.setDep ⟨c⟩ a s.world).2, s.handles, s.vars⟩ else s
      | none => s
  | .op o k l, s => match s.operands k l with
      | some (a, b) => if arityOk o b = true then
          ⟨(AFloat.fromOp o a b s.world).2, s.handles, s.vars ++ (AFloat.fromOp o a b s.world).1.toOption.toList⟩
        else s
      | none => s

/-- The state after a list of calls. -/
def runCalls (skip : Bool) (cs : List (HCall S)) (s : HState S) : HState S := cs.foldl (fun s c => c.run skip s) s

/-- No handle is dropped. -/
def NoDrop (cs : List (HCall S)) : Prop := ∀ c, HCall.drop c ∉ cs

end Adv
