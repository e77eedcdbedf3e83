import Verif.Spec.Denote

/-!
# Histories of API calls (one thread)

Everything a client of the crate can do with contexts and variables through the public API, as a
transition system: the process state, the context handles the client holds, and all variables it ever
obtained (`AFloat` is `Copy`, so they stay usable).

Not included: `AFloat::value_mut` and `AFloat::cast` (which change the value of a variable but not
the recorded one, see `Spec/ValueMut.lean` and `Spec/Precision.lean`) and calls of the low-level `AContext::record` with arguments that do not
belong together: it checks nothing (`C50_raw_record_not_single_assignment`).
-/

namespace Adv

variable {S : Type} [Flt S]

/-- State of a client. -/
structure HState (S : Type) where
  world : World S
  handles : List Nat
  vars : List (AFloat S)

/-- The state at process start: acontext.rs:7 starts counting at 1. -/
def HState.init : HState S := ⟨⟨1, fun _ => none⟩, [], []⟩

/-- Sensible arguments for `AContext::record` when `vals` have been recorded: a constant without arguments, or an
operation of the right arity applied to recorded values, together with its result. (`up` is the conversion to the scalar
type of the registry; it is the identity here.) -/
inductive RecordArgs {F : Type} (up : S → F) (vals : List F) : OpCode → S → Option Nat → Option Nat → Prop
  | const (v : S) : RecordArgs up vals .Const v none none
  | unary {o : OpCode} {v a : S} {x : Nat} (ha : vals[x]? = some (up a)) (e : o.meaning a none = some v) :
      RecordArgs up vals o v (some x) none
  | binary {o : OpCode} {v a b : S} {x y : Nat} (ha : vals[x]? = some (up a)) (hb : vals[y]? = some (up b))
      (e : o.meaning a (some b) = some v) : RecordArgs up vals o v (some x) (some y)

/-- One API call. -/
inductive HStep : HState S → HState S → Prop
  /-- `AContext::new` (the id counter has not been exhausted). -/
  | new {s h w'} (hid : s.world.nextId < usizeMax) (e : AContext.new s.world = (.ok h, w')) :
      HStep s ⟨w', h.cid :: s.handles, s.vars⟩
  /-- `AContext::from_cid` with an arbitrary id. -/
  | fromCid {s c o w'} (e : AContext.fromCid c s.world = (.ok o, w')) :
      HStep s ⟨w', (o.map AContext.cid).toList ++ s.handles, s.vars⟩
  /-- Dropping a handle. -/
  | drop {s c r w'} (hc : c ∈ s.handles) (e : AContext.drop ⟨c⟩ s.world = (r, w')) :
      HStep s ⟨w', s.handles.erase c, s.vars⟩
  /-- `AFloat::new`, `From`. -/
  | scalar {s} (v dv : S) : HStep s ⟨s.world, s.handles, AFloat.new v dv :: s.vars⟩
  /-- `dvalue_mut`. -/
  | seed {s a} (d : S) (ha : a ∈ s.vars) : HStep s ⟨s.world, s.handles, { a with dv := d } :: s.vars⟩
  /-- `set_indep`; on success the variable is replaced by a new one. -/
  | setIndep {s c a r w'} (hc : c ∈ s.handles) (ha : a ∈ s.vars)
      (e : AContext.setIndep ⟨c⟩ a s.world = (r, w')) :
      HStep s ⟨w', s.handles, r.toOption.toList ++ s.vars⟩
  /-- `set_dep`. -/
  | setDep {s c a r w'} (hc : c ∈ s.handles) (ha : a ∈ s.vars)
      (e : AContext.setDep ⟨c⟩ a s.world = (r, w')) : HStep s ⟨w', s.handles, s.vars⟩
  /-- Any arithmetic or elementary operation. -/
  | op {s a b o r w'} (ha : a ∈ s.vars) (hb : ∀ b', b = some b' → b' ∈ s.vars)
      (har : arityOk o b = true) (e : AFloat.fromOp o a b s.world = (r, w')) :
      HStep s ⟨w', s.handles, r.toOption.toList ++ s.vars⟩
  /-- `AContext::record` with sensible arguments. The id it returns does not yield a variable, but it can be used as an
  argument of later calls of `record`. -/
  | record {s c cell o v x y r w'} (hc : c ∈ s.handles) (hcell : s.world.cells c = some cell)
      (ha : RecordArgs id cell.inner.vals o v x y) (e : AContext.record ⟨c⟩ o v x y s.world = (r, w')) :
      HStep s ⟨w', s.handles, s.vars⟩

/-- Finitely many API calls. -/
inductive HSteps : HState S → HState S → Prop
  | refl (s) : HSteps s s
  | tail {s t u} (h : HSteps s t) (hs : HStep t u) : HSteps s u

/-- States reachable from process start. -/
def HState.Reachable (s : HState S) : Prop := HSteps HState.init s

end Adv
