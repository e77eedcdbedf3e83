import Verif.Model.AFloat

/-!
# Model of the C++ bindings (`src/ffi.rs`, `src/cxx/ADouble.cpp`, `src/cxx/AContext.cpp`)

An explicit heap shared by both languages: `Box`ed Rust values and the `Impl` structs of C++. An access to memory that
is not allocated (use after free, double free, null pointer) is the error `dangling`.

C++ objects live at locations chosen by the client (`doubles`, `ctxs`); the language guarantees that constructors run on
unused and all other member functions on live locations (`CxxCmd.Valid`).

Simplifications: addresses are not reused; `AContext()` allocates its `Impl` after the context instead of before; a Rust panic terminates the process (it must not unwind into C++); returned
objects are constructed in place (copy elision); allocation does not fail; `nullptr` inside of a live `Impl` does not
occur (`adv_acontext_new` never returns it), so the inner test of `~AContext` is omitted; the private and unused
`move_impl` is not modelled. The `double` overloads of the elementary functions do not involve the library and are not
modelled.
-/

namespace Adv

variable {S : Type} [Flt S]

/-- Contents of an allocation: a boxed `ADouble`, a boxed `AContext` (a handle), `ADouble::Impl`
(ADouble.cpp:10-14), `AContext::Impl` (AContext.cpp:9-13). -/
inductive Obj (S : Type)
  | adouble (a : AFloat S)
  | actx (cid : Nat)
  | dImpl (val : Nat)
  | cImpl (ctx : Nat)

/-- State of an address. -/
inductive Slot (S : Type)
  | none
  | live (o : Obj S)
  | freed

/-- The process. `doubles x = some i`: an `ADouble` object with `m_impl = i` lives at location `x`. `ctxs k = some p`: an
`AContext` object with `m_impl = p` lives at location `k` (`none` is `nullptr`). -/
structure CxxState (S : Type) where
  world : World S
  heap : Nat → Slot S
  next : Nat
  doubles : Nat → Option Nat
  ctxs : Nat → Option (Option Nat)

/-- Process start. -/
def CxxState.init : CxxState S := ⟨⟨1, fun _ => none⟩, fun _ => .none, 0, fun _ => none, fun _ => none⟩

namespace Cxx

/-- Change one address. -/
def setSlot (s : CxxState S) (p : Nat) (v : Slot S) : CxxState S :=
  { s with heap := fun q => if q = p then v else s.heap q }

/-- `Box::leak(Box::new(..))`, `new`. -/
def alloc (o : Obj S) : M (CxxState S) Nat := fun s =>
  (.ok s.next, { setSlot s s.next (.live o) with next := s.next + 1 })

/-- Dereference a pointer. -/
def load (p : Nat) : M (CxxState S) (Obj S) := fun s =>
  match s.heap p with
  | .live o => (.ok o, s)
  | _ => (.error .dangling, s)

/-- Assign through a pointer. -/
def store (p : Nat) (o : Obj S) : M (CxxState S) Unit := fun s =>
  match s.heap p with
  | .live _ => (.ok (), setSlot s p (.live o))
  | _ => (.error .dangling, s)

/-- `drop(Box::from_raw(p))`, `delete p`: the contents and the release of the memory. -/
def dealloc (p : Nat) : M (CxxState S) (Obj S) := fun s =>
  match s.heap p with
  | .live o => (.ok o, setSlot s p .freed)
  | _ => (.error .dangling, s)

/-- Run Rust code. -/
def rust {α : Type} (m : M (World S) α) : M (CxxState S) α := fun s =>
  match m s.world with
  | (r, w) => (r, { s with world := w })

/-- A reference to a boxed `ADouble`. -/
def loadDouble (p : Nat) : M (CxxState S) (AFloat S) := do
  match ← load p with
  | .adouble a => return a
  | _ => M.throw .dangling

/-- A reference to a boxed `AContext`. -/
def loadCtx (p : Nat) : M (CxxState S) AContext := do
  match ← load p with
  | .actx c => return ⟨c⟩
  | _ => M.throw .dangling

/-- `m_impl->val`. -/
def loadVal (i : Nat) : M (CxxState S) Nat := do
  match ← load i with
  | .dImpl v => return v
  | _ => M.throw .dangling

/-- `m_impl->ctx`. -/
def loadCtxPtr (i : Nat) : M (CxxState S) Nat := do
  match ← load i with
  | .cImpl c => return c
  | _ => M.throw .dangling

/-! ### ffi.rs -/

/-- ffi.rs:8-10 `adv_acontext_new`. -/
def advContextNew : M (CxxState S) Nat := do
  let h ← rust AContext.new
  alloc (.actx h.cid)

/-- ffi.rs:13-15 `adv_acontext_free`. -/
def advContextFree (p : Nat) : M (CxxState S) Unit := do
  match ← dealloc p with
  | .actx c => rust (AContext.drop ⟨c⟩)
  | _ => M.throw .dangling

/-- ffi.rs:18-20 `adv_acontext_new_independent`. -/
def advContextNewIndependent (p : Nat) : M (CxxState S) Nat := do
  let h ← loadCtx p
  let a ← rust (h.newIndep Flt.zero)
  alloc (.adouble a)

/-- ffi.rs:23-25 `adv_acontext_set_dependent`. -/
def advContextSetDependent (p q : Nat) : M (CxxState S) Unit := do
  let h ← loadCtx p
  let a ← loadDouble q
  rust (h.setDep a)

/-- ffi.rs:30-32 `adv_adouble_default`. -/
def advDefault : M (CxxState S) Nat := alloc (.adouble AFloat.zero)

/-- ffi.rs:35-37 `adv_adouble_from_value`. -/
def advFromValue (v : S) : M (CxxState S) Nat := alloc (.adouble (AFloat.ofScalar v))

/-- ffi.rs:40-42 `adv_adouble_free`. -/
def advFree (p : Nat) : M (CxxState S) Unit := do
  match ← dealloc p with
  | .adouble _ => return ()
  | _ => M.throw .dangling

/-- ffi.rs:45-47 `adv_adouble_copy`. -/
def advCopy (p : Nat) : M (CxxState S) Nat := do
  let a ← loadDouble p
  alloc (.adouble a)

/-- ffi.rs:51-65 `adv_op_add` etc. -/
def advOp (o : AFloat.ArithOp) (p q : Nat) : M (CxxState S) Nat := do
  let a ← loadDouble p
  let b ← loadDouble q
  let r ← rust (AFloat.arith o a b)
  alloc (.adouble r)

/-- The exported unary functions, ffi.rs:78-83. -/
inductive Unary | sin | cos | tan | abs | exp | ln
deriving DecidableEq, Repr

/-- The Rust method. -/
def Unary.run : Unary → AFloat S → M (World S) (AFloat S)
  | .sin => AFloat.sin
  | .cos => AFloat.cos
  | .tan => AFloat.tan
  | .abs => AFloat.abs
  | .exp => AFloat.exp
  | .ln => AFloat.ln

/-- ffi.rs:67-83 `adv_sin` etc. -/
def advUnary (u : Unary) (p : Nat) : M (CxxState S) Nat := do
  let a ← loadDouble p
  let r ← rust (u.run a)
  alloc (.adouble r)

/-- The exported binary functions, ffi.rs:96-97. -/
inductive Binary | min | max
deriving DecidableEq, Repr

/-- The Rust method. -/
def Binary.run : Binary → AFloat S → AFloat S → M (World S) (AFloat S)
  | .min => AFloat.min
  | .max => AFloat.max

/-- ffi.rs:85-97 `adv_min`, `adv_max`. -/
def advBinary (f : Binary) (p q : Nat) : M (CxxState S) Nat := do
  let a ← loadDouble p
  let b ← loadDouble q
  let r ← rust (f.run a b)
  alloc (.adouble r)

/-! ### ADouble.cpp -/

/-- The object at location `x`; reading a location without object is excluded by the language. -/
def mImpl (x : Nat) : M (CxxState S) Nat := fun s =>
  match s.doubles x with
  | some i => (.ok i, s)
  | none => (.error .unbound, s)

/-- Begin or end the lifetime of an object. -/
def setDouble (x : Nat) (i : Option Nat) : M (CxxState S) Unit := fun s =>
  (.ok (), { s with doubles := fun y => if y = x then i else s.doubles y })

/-- `m_impl->val` of the object at `x`. -/
def val (x : Nat) : M (CxxState S) Nat := do loadVal (← mImpl x)

/-- ADouble.cpp:22-26, the private constructor. -/
def ctorImpl (x p : Nat) : M (CxxState S) Unit := do
  let i ← alloc (.dImpl p)
  setDouble x (some i)

/-- ADouble.cpp:16-20, destructor. -/
def dtor (x : Nat) : M (CxxState S) Unit := do
  let i ← mImpl x
  advFree (← loadVal i)
  let _ ← dealloc i
  setDouble x none

/-- ADouble.cpp:28-31, default constructor. -/
def ctorDefault (x : Nat) : M (CxxState S) Unit := do ctorImpl x (← advDefault)

/-- ADouble.cpp:33-36, constructor from a number. -/
def ctorValue (x : Nat) (v : S) : M (CxxState S) Unit := do ctorImpl x (← advFromValue v)

/-- ADouble.cpp:38-41, copy constructor. -/
def ctorCopy (x y : Nat) : M (CxxState S) Unit := do ctorImpl x (← advCopy (← val y))

/-- ADouble.cpp:43-47, move constructor. -/
def ctorMove (x y : Nat) : M (CxxState S) Unit := do
  ctorImpl x (← val y)
  let d ← advDefault
  store (← mImpl y) (.dImpl d)

/-- ADouble.cpp:49-55, move assignment. -/
def assignMove (x y : Nat) : M (CxxState S) Unit := do
  advFree (← val x)
  let v ← val y
  store (← mImpl x) (.dImpl v)
  let d ← advDefault
  store (← mImpl y) (.dImpl d)

/-- ADouble.cpp:57-62, copy assignment. -/
def assignCopy (x y : Nat) : M (CxxState S) Unit := do
  advFree (← val x)
  let v ← advCopy (← val y)
  store (← mImpl x) (.dImpl v)

/-- ADouble.cpp:70-75, `ADouble OP ADouble`, constructing the result at `z`. -/
def operator (o : AFloat.ArithOp) (z x y : Nat) : M (CxxState S) Unit := do
  let p ← val x
  let q ← val y
  ctorImpl z (← advOp o p q)

/-- ADouble.cpp:77-81, `double OP ADouble`; `t` is the location of the local variable `lhs`. The body does not mention
`OP`. -/
def operatorMixed (_o : AFloat.ArithOp) (z t : Nat) (lhs : S) (rhs : Nat) : M (CxxState S) Unit := do
  ctorValue t lhs
  operator .add z t rhs
  dtor t

/-- ADouble.cpp:88-105 -/
def unary (u : Unary) (z x : Nat) : M (CxxState S) Unit := do ctorImpl z (← advUnary u (← val x))

/-- ADouble.cpp:107-114 -/
def binary (f : Binary) (z x y : Nat) : M (CxxState S) Unit := do
  let p ← val x
  let q ← val y
  ctorImpl z (← advBinary f p q)

/-! ### AContext.cpp -/

/-- The pointer `m_impl` of the context object at location `k`. -/
def cImpl (k : Nat) : M (CxxState S) (Option Nat) := fun s =>
  match s.ctxs k with
  | some p => (.ok p, s)
  | none => (.error .unbound, s)

/-- Assign `m_impl`, begin or end the lifetime of an object. -/
def setCtx (k : Nat) (p : Option (Option Nat)) : M (CxxState S) Unit := fun s =>
  (.ok (), { s with ctxs := fun y => if y = k then p else s.ctxs y })

/-- Dereference `m_impl`, which might be null. -/
def ctxPtr (k : Nat) : M (CxxState S) Nat := do
  match ← cImpl k with
  | some i => loadCtxPtr i
  | none => M.throw .dangling

/-- `if (m_impl != nullptr) { adv_acontext_free(m_impl->ctx); delete m_impl; }`. -/
def release : Option Nat → M (CxxState S) Unit
  | none => pure ()
  | some i => do
      advContextFree (← loadCtxPtr i)
      let _ ← dealloc i

/-- AContext.cpp:15-23, destructor. -/
def ctxDtor (k : Nat) : M (CxxState S) Unit := do
  release (← cImpl k)
  setCtx k none

/-- AContext.cpp:25-29, constructor. -/
def ctxCtor (k : Nat) : M (CxxState S) Unit := do
  let p ← advContextNew
  let i ← alloc (.cImpl p)
  setCtx k (some (some i))

/-- AContext.cpp:31-35, move constructor. -/
def ctxCtorMove (k l : Nat) : M (CxxState S) Unit := do
  let p ← cImpl l
  setCtx k (some p)
  setCtx l (some none)

/-- AContext.cpp:37-46, move assignment. -/
def ctxAssignMove (k l : Nat) : M (CxxState S) Unit := do
  release (← cImpl k)
  let p ← cImpl l
  setCtx k (some p)
  setCtx l (some none)

/-- AContext.cpp:60-63 -/
def newIndependent (z k : Nat) : M (CxxState S) Unit := do
  ctorImpl z (← advContextNewIndependent (← ctxPtr k))

/-- AContext.cpp:65-68 -/
def setDependent (k x : Nat) : M (CxxState S) Unit := do
  let p ← ctxPtr k
  let q ← val x
  advContextSetDependent p q

end Cxx

/-- What a C++ client can do. -/
inductive CxxCmd (S : Type)
  | dDefault (z : Nat)
  | dValue (z : Nat) (v : S)
  | dCopy (z x : Nat)
  | dMove (z x : Nat)
  | dAssignCopy (x y : Nat)
  | dAssignMove (x y : Nat)
  | dDestroy (x : Nat)
  | dOp (o : AFloat.ArithOp) (z x y : Nat)
  | dMixed (o : AFloat.ArithOp) (z t : Nat) (v : S) (y : Nat)
  | dUnary (u : Cxx.Unary) (z x : Nat)
  | dBinary (f : Cxx.Binary) (z x y : Nat)
  | cNew (k : Nat)
  | cMove (k l : Nat)
  | cAssignMove (k l : Nat)
  | cDestroy (k : Nat)
  | cIndep (z k : Nat)
  | cDep (k x : Nat)

namespace CxxCmd
open Cxx

/-- Execute a command. -/
def exec : CxxCmd S → M (CxxState S) Unit
  | dDefault z => ctorDefault z
  | dValue z v => ctorValue z v
  | dCopy z x => ctorCopy z x
  | dMove z x => ctorMove z x
  | dAssignCopy x y => assignCopy x y
  | dAssignMove x y => assignMove x y
  | dDestroy x => dtor x
  | dOp o z x y => operator o z x y
  | dMixed o z t v y => operatorMixed o z t v y
  | dUnary u z x => unary u z x
  | dBinary f z x y => binary f z x y
  | cNew k => ctxCtor k
  | cMove k l => ctxCtorMove k l
  | cAssignMove k l => ctxAssignMove k l
  | cDestroy k => ctxDtor k
  | cIndep z k => newIndependent z k
  | cDep k x => setDependent k x

/-- The rules of the language: objects are constructed at unused locations and used only while alive. A moved-from
`AContext` may only be assigned to or destroyed. The id counter of contexts is not exhausted. -/
def Valid (s : CxxState S) : CxxCmd S → Prop
  | dDefault z | dValue z _ => s.doubles z = none
  | dCopy z x | dMove z x | dUnary _ z x => s.doubles z = none ∧ s.doubles x ≠ none
  | dAssignCopy x y | dAssignMove x y => s.doubles x ≠ none ∧ s.doubles y ≠ none
  | dDestroy x => s.doubles x ≠ none
  | dOp _ z x y | dBinary _ z x y => s.doubles z = none ∧ s.doubles x ≠ none ∧ s.doubles y ≠ none
  | dMixed _ z t _ y => s.doubles z = none ∧ s.doubles t = none ∧ z ≠ t ∧ s.doubles y ≠ none
  | cNew k => s.ctxs k = none ∧ s.world.nextId < usizeMax
  | cMove k l => s.ctxs k = none ∧ s.ctxs l ≠ none
  | cAssignMove k l => s.ctxs k ≠ none ∧ s.ctxs l ≠ none
  | cDestroy k => s.ctxs k ≠ none
  | cIndep z k => s.doubles z = none ∧ ∃ i, s.ctxs k = some (some i)
  | cDep k x => (∃ i, s.ctxs k = some (some i)) ∧ s.doubles x ≠ none

/-- `x = x` with the copy assignment operator. -/
def SelfCopy : CxxCmd S → Prop
  | dAssignCopy x y => x = y
  | _ => False

end CxxCmd

/-- A client executes a command that does not panic and is no copy assignment of an object to itself. -/
inductive CxxStep : CxxState S → CxxState S → Prop
  | run {s s'} (cmd : CxxCmd S) (hv : cmd.Valid s) (hself : ¬ cmd.SelfCopy) (e : cmd.exec s = (.ok (), s')) : CxxStep s s'

/-- Finitely many commands. -/
inductive CxxSteps : CxxState S → CxxState S → Prop
  | refl (s) : CxxSteps s s
  | tail {s t u} (h : CxxSteps s t) (hs : CxxStep t u) : CxxSteps s u

/-- States of C++ clients. -/
def CxxState.Reachable (s : CxxState S) : Prop := CxxSteps CxxState.init s

end Adv
