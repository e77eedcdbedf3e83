import Verif.Model.Precision
import Verif.Spec.History
import Verif.Spec.Tape

/-!
# Histories of API calls with numbers of several precisions

As `Spec/History.lean`, but every variable has a precision `p : P` and holds numbers of type `T p`. Variables can be
converted with `AFloat::cast`, and their values can be changed with `value_mut`.
-/

namespace Adv

/-- The same recording with converted values. -/
def Inner.map {S F : Type} (χ : S → F) (i : Inner S) : Inner F := ⟨i.cid, i.indeps, i.deps, i.ops, i.vals.map χ, i.poisoned⟩

/-- The same registry with converted values. -/
def World.map {S F : Type} (χ : S → F) (w : World S) : World F :=
  ⟨w.nextId, fun c => (w.cells c).map fun cell => ⟨cell.strong, cell.inner.map χ⟩⟩

/-- The same tape with converted values. -/
def Tape.map {S F : Type} (χ : S → F) (t : Tape S) : Tape F := ⟨t.indeps, t.deps, t.ops, t.vals.map χ, t.mutable⟩

variable {P : Type} {T : P → Type} [∀ p, Flt (T p)] {F : Type}

/-- State of a client that uses several precisions. -/
structure MState (T : P → Type) (F : Type) where
  world : World F
  handles : List Nat
  vars : List (Σ p, AFloat (T p))

/-- The state at process start. -/
def MState.init : MState T F := ⟨⟨1, fun _ => none⟩, [], []⟩

/-- One API call. `up p` converts to the type of the registry and `conv p q` is what `cast` does; `okv p q v v'` says
which changes of the value of a recorded variable are allowed. -/
inductive MStep (up : ∀ p, T p → F) (conv : ∀ p q, T p → T q) (okv : ∀ p q, T p → T q → Prop) :
    MState T F → MState T F → Prop
  /-- `AContext::new` (the id counter has not been exhausted). -/
  | new {s h w'} (hid : s.world.nextId < usizeMax) (e : AContext.new s.world = (.ok h, w')) :
      MStep up conv okv s ⟨w', h.cid :: s.handles, s.vars⟩
  /-- `AContext::from_cid` with an arbitrary id. -/
  | fromCid {s c o w'} (e : AContext.fromCid c s.world = (.ok o, w')) :
      MStep up conv okv s ⟨w', (o.map AContext.cid).toList ++ s.handles, s.vars⟩
  /-- Dropping a handle. -/
  | drop {s c r w'} (hc : c ∈ s.handles) (e : AContext.drop ⟨c⟩ s.world = (r, w')) :
      MStep up conv okv s ⟨w', s.handles.erase c, s.vars⟩
  /-- `AFloat::new`, `From`. -/
  | scalar {s} (p : P) (v dv : T p) : MStep up conv okv s ⟨s.world, s.handles, ⟨p, AFloat.new v dv⟩ :: s.vars⟩
  /-- `dvalue_mut`. -/
  | seed {s p a} (d : T p) (ha : ⟨p, a⟩ ∈ s.vars) :
      MStep up conv okv s ⟨s.world, s.handles, ⟨p, { a with dv := d }⟩ :: s.vars⟩
  /-- `value_mut`. -/
  | value {s p a} (v : T p) (ha : ⟨p, a⟩ ∈ s.vars) (hok : okv p p a.v v) :
      MStep up conv okv s ⟨s.world, s.handles, ⟨p, { a with v := v }⟩ :: s.vars⟩
  /-- `AFloat::cast`. -/
  | cast {s p a} (q : P) (ha : ⟨p, a⟩ ∈ s.vars) (hok : okv p q a.v (conv p q a.v)) :
      MStep up conv okv s ⟨s.world, s.handles, ⟨q, AFloat.cast (conv p q) a⟩ :: s.vars⟩
  /-- `set_indep`; on success the variable is replaced by a new one. -/
  | setIndep {s c p a r w'} (hc : c ∈ s.handles) (ha : ⟨p, a⟩ ∈ s.vars)
      (e : AContext.setIndepVia (up p) ⟨c⟩ a s.world = (r, w')) :
      MStep up conv okv s ⟨w', s.handles, r.toOption.toList.map (Sigma.mk p) ++ s.vars⟩
  /-- `set_dep`. -/
  | setDep {s c p a r w'} (hc : c ∈ s.handles) (ha : ⟨p, a⟩ ∈ s.vars)
      (e : AContext.setDepVia (up p) ⟨c⟩ a s.world = (r, w')) : MStep up conv okv s ⟨w', s.handles, s.vars⟩
  /-- Any arithmetic or elementary operation; both operands have the same precision. -/
  | op {s p a b o r w'} (ha : ⟨p, a⟩ ∈ s.vars) (hb : ∀ b', b = some b' → ⟨p, b'⟩ ∈ s.vars)
      (har : arityOk o b = true) (e : AFloat.fromOpVia (up p) o a b s.world = (r, w')) :
      MStep up conv okv s ⟨w', s.handles, r.toOption.toList.map (Sigma.mk p) ++ s.vars⟩
  /-- `AContext::record` with sensible arguments. -/
  | record {s c cell p o v x y r w'} (hc : c ∈ s.handles) (hcell : s.world.cells c = some cell)
      (ha : RecordArgs (up p) cell.inner.vals o v x y) (e : AContext.recordVia (up p) ⟨c⟩ o v x y s.world = (r, w')) :
      MStep up conv okv s ⟨w', s.handles, s.vars⟩

/-- Finitely many API calls. -/
inductive MSteps (up : ∀ p, T p → F) (conv : ∀ p q, T p → T q) (okv : ∀ p q, T p → T q → Prop) :
    MState T F → MState T F → Prop
  | refl (s) : MSteps up conv okv s s
  | tail {s t u} (h : MSteps up conv okv s t) (hs : MStep up conv okv t u) : MSteps up conv okv s u

/-- States reachable from process start, with arbitrary changes of values. -/
def MState.Reachable (up : ∀ p, T p → F) (conv : ∀ p q, T p → T q) (s : MState T F) : Prop :=
  MSteps up conv (fun _ _ _ _ => True) MState.init s

/-- States reachable from process start if only those changes of values are made that the registry does not notice:
widening conversions. -/
def MState.ReachableExact (up : ∀ p, T p → F) (conv : ∀ p q, T p → T q) (s : MState T F) : Prop :=
  MSteps up conv (fun p q v v' => up q v' = up p v) MState.init s

/-- Every operation of the tape was computed in one of the precisions: its arguments and its result are the converted
arguments and result of an operation on numbers of this precision. -/
def Tape.MixedConsistent (up : ∀ p, T p → F) (t : Tape F) : Prop :=
  ∀ op ∈ t.ops, op.opcode ≠ .Const → ∃ (p : P) (a : T p) (b : Option (T p)) (r : T p),
    zeroOrderValue op.opcode a b = .ok r ∧ op.arg1.bind (t.vals[·]?) = some (up p a) ∧
    op.arg2.bind (t.vals[·]?) = b.map (up p) ∧ t.vals[op.vid]? = some (up p r)

end Adv
