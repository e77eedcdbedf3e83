import Verif.Model.Concurrent

/-!
# Concurrent use of contexts, with explicit locks

`Verif.Model.Concurrent` treats a critical section as one step. Here the mutexes are explicit: a call waits until the
mutex is free, takes it, accesses the protected data one statement at a time while other threads go on running, and
releases it. Statements of `src/acontext.rs` inside a critical section that touch one field are one step each.

Ghost data: an entered section remembers the call (`t`) and the contents of the context when it was entered (`i0`).
No step depends on them except that `t` says what the statements of a map section are.

Simplifications: sequentially consistent memory; a locked section on a poisoned mutex consists of the panic of
`unwrap` (acontext.rs:43, 56, 78, 86, 92, …); removing the map entry and freeing the memory are one step (the strong
count is zero, only the map's `Weak` pointer is left).
-/

namespace Adv

variable {S : Type} [Flt S]

/-- The rest of a critical section of the mutex of a context. -/
inductive Sect (S : Type)
  /-- End of the guard's scope: unlock. -/
  | ret (e : Effect S)
  /-- Unwinding drops the guard: poison, unlock. -/
  | panic (e : Effect S)
  /-- Read from the protected data. -/
  | read (k : Inner S → Sect S)
  /-- Change the protected data. -/
  | write (f : Inner S → Inner S) (k : Sect S)

/-- The mutex a call locks next. -/
inductive Mutex
  /-- none: the next step is a single atomic operation or local -/
  | none
  /-- `CONTEXT_MAP`, acontext.rs:10 -/
  | map
  /-- the mutex of context `c`, acontext.rs:63 -/
  | ctx (c : Nat)
deriving DecidableEq, Repr

namespace Sect

/-- `inner.vals.push(…)` (acontext.rs:94, 110, 156). -/
def pushVal (v : S) (i : Inner S) : Inner S := { i with vals := i.vals ++ [v] }

/-- `inner.ops.push(…)` (acontext.rs:111-116, 157-162). -/
def pushOp (o : Operation) (i : Inner S) : Inner S := { i with ops := i.ops ++ [o] }

/-- `inner.indeps.push(vid)` (acontext.rs:96). -/
def pushIndep (vid : Nat) (i : Inner S) : Inner S := { i with indeps := i.indeps ++ [vid] }

/-- `inner.deps.push(vid)` (acontext.rs:120). -/
def pushDep (vid : Nat) (i : Inner S) : Inner S := { i with deps := i.deps ++ [vid] }

/-- acontext.rs:93-96 `set_indep`. -/
def setIndep (a : AFloat S) : Sect S :=
  .read fun i => let vid := i.vals.length
    .write (pushVal a.v) <| .read fun i => let x := { a with ctx := some (i.cid, vid) }
      .write (pushIndep vid) <| .ret { vars := [x] }

/-- acontext.rs:102-120 `set_dep`. -/
def setDep (a : AFloat S) : Sect S :=
  match a.ctx with
  | some (cid, vid) =>
      .read fun i => if cid = i.cid then .write (pushDep vid) (.ret {}) else .panic (Task.panicked .assertFailed [])
  | none =>
      .read fun i => let vid := i.vals.length
        .write (pushVal a.v) <| .write (pushOp ⟨.Const, vid, none, none⟩) <| .write (pushDep vid) <| .ret {}

/-- acontext.rs:155-163 `record`; `k` says how the call goes on. -/
def record (opcode : OpCode) (val : S) (arg1 arg2 : Option Nat) (k : Nat → Effect S) : Sect S :=
  .read fun i => let vid := i.vals.length
    .write (pushVal val) <| .write (pushOp ⟨opcode, vid, arg1, arg2⟩) <| .ret (k vid)

/-- The critical section of a call that locks the mutex of a context. -/
def ofTask : Task S → Sect S
  | .setIndep _ a => setIndep a
  | .setDep _ a => setDep a
  | .opArg1 call => record .Const call.arg1.v none none fun vid => { tasks := [.opArg2 call vid] }
  | .opArg2 call vid1 =>
      match call.arg2 with
      | none => .ret {}
      | some b => record .Const b.v none none fun vid => { tasks := [.opRec call vid1 (some vid)] }
  | .opRec call vid1 vid2 =>
      record call.opcode call.v (some vid1) vid2 fun vid =>
        { tasks := [.drop call.cid (some ⟨call.v, call.dv, some (call.cid, vid)⟩)] }
  | .tape c => .read fun i => .ret { tasks := [.tape1 c i.indeps] }
  | .tape1 c indeps => .read fun i => .ret { tasks := [.tape2 c indeps i.deps] }
  | .tape2 c indeps deps => .read fun i => .ret { tasks := [.tape3 c indeps deps i.ops] }
  | .tape3 _ indeps deps ops => .read fun i => .ret { tapes := [⟨indeps, deps, ops, i.vals, true⟩] }
  | _ => .ret {}

end Sect

namespace Task

/-- The mutex the call locks next. -/
def lock : Task S → Mutex
  | .new | .drop _ _ => .none
  | .newInsert _ | .fromCid _ | .finalize _ _ => .map
  | .setIndep c _ | .setDep c _ | .tape c | .tape1 c _ | .tape2 c _ _ | .tape3 c _ _ _ => .ctx c
  | .op o a b =>
      match zeroOrderValue o a.v (b.map AFloat.v),
          firstOrderValue o a.v (b.map AFloat.v) a.dv (b.map AFloat.dv), AFloat.opCid a b with
      | .ok _, .ok _, .ok (some _) => .map
      | _, _, _ => .none
  | .opArg1 call => if call.arg1.ctx.isSome then .none else .ctx call.cid
  | .opArg2 call _ =>
      match call.arg2 with
      | none => .none
      | some b => if b.ctx.isSome then .none else .ctx call.cid
  | .opRec call _ _ => .ctx call.cid

/-- Where a call that panics on a poisoned mutex goes on (the destructors of its locals). -/
def unwind : Task S → List (Task S)
  | .opArg1 call | .opArg2 call _ | .opRec call _ _ => [.drop call.cid none]
  | _ => []

/-- The section that begins when the mutex has been taken: `unwrap` panics if it is poisoned. -/
def enter (t : Task S) (i : Inner S) : Sect S :=
  if i.poisoned then .ret (panicked .poisoned t.unwind) else Sect.ofTask t

end Task

/-- Progress inside a critical section of `CONTEXT_MAP`. -/
inductive MapSect (S : Type)
  /-- The mutex has been taken. -/
  | entered
  /-- acontext.rs:79: `get` has found an entry, or not. -/
  | looked (found : Bool)
  /-- Before the guard is dropped. -/
  | leave (e : Effect S)

/-- API calls in progress. -/
inductive LTask (S : Type)
  /-- not in a critical section -/
  | run (t : Task S)
  /-- in a critical section of the mutex of context `c` -/
  | inCtx (t : Task S) (c : Nat) (i0 : Inner S) (s : Sect S)
  /-- in a critical section of the map -/
  | inMap (t : Task S) (p : MapSect S)

/-- Process memory: `world`, including half-finished changes, and which mutexes are locked. -/
structure LMem (S : Type) where
  world : CWorld S
  mapLocked : Bool
  ctxLocked : Nat → Bool

/-- Lock or unlock the mutex of context `c`. -/
def LMem.setCtx (m : LMem S) (c : Nat) (b : Bool) : LMem S :=
  { m with ctxLocked := fun d => if d = c then b else m.ctxLocked d }

/-- Result of a step of a call: how it goes on, what it returned to the client, memory. -/
structure LEffect (S : Type) where
  next : List (LTask S)
  out : Effect S
  mem : LMem S

namespace LTask

/-- The call has finished a step of the kind that `Verif.Model.Concurrent` describes. -/
def finish (e : Effect S) (m : LMem S) : LEffect S := ⟨e.tasks.map .run, { e with tasks := [] }, m⟩

/-- The id that a section of the map is about: acontext.rs:44, 57, 79. -/
def mapKey : Task S → Nat
  | .newInsert id => id
  | .fromCid c | .finalize c _ => c
  | .op _ a b => match AFloat.opCid a b with
      | .ok (some cid) => cid
      | _ => 0
  | _ => 0

/-- The result of a failed `from_cid`, afloat.rs:74, 95. -/
def missing : Task S → Effect S
  | .op o a b =>
      match zeroOrderValue o a.v (b.map AFloat.v),
          firstOrderValue o a.v (b.map AFloat.v) a.dv (b.map AFloat.dv) with
      | .ok v, .ok dv => { vars := [⟨v, dv, none⟩] }
      | _, _ => {}
  | _ => {}

/-- The result of a successful `from_cid`. -/
def found : Task S → Effect S
  | .fromCid c => { handles := [c] }
  | .op o a b =>
      match zeroOrderValue o a.v (b.map AFloat.v),
          firstOrderValue o a.v (b.map AFloat.v) a.dv (b.map AFloat.dv), AFloat.opCid a b with
      | .ok v, .ok dv, .ok (some cid) => { tasks := [.opArg1 ⟨o, a, b, v, dv, cid⟩] }
      | _, _, _ => {}
  | _ => {}

/-- One statement inside a critical section of the map, or unlocking it. -/
def stepMap (t : Task S) (p : MapSect S) (m : LMem S) : LEffect S :=
  match p with
  | .leave e => finish e { m with mapLocked := false }
  | .entered =>
      match t with
      | .newInsert id => ⟨[.inMap t (.leave { handles := [id] })], {}, { m with world := m.world.setMap id true }⟩
      | .finalize c r => ⟨[.inMap t (.leave { vars := r.toList })], {},
          { m with world := (m.world.setMap c false).setArc c none }⟩
      | _ => ⟨[.inMap t (.looked (m.world.map (mapKey t)))], {}, m⟩
  | .looked false => ⟨[.inMap t (.leave (missing t))], {}, m⟩
  | .looked true =>
      -- acontext.rs:80 `weak.upgrade()`
      match m.world.arcs (mapKey t) with
      | none => ⟨[.inMap t (.leave (missing t))], { fault := true }, m⟩
      | some cell =>
          if cell.strong = 0 then ⟨[.inMap t (.leave (missing t))], {}, m⟩
          else ⟨[.inMap t (.leave (found t))], {},
            { m with world := m.world.setArc (mapKey t) (some { cell with strong := cell.strong + 1 }) }⟩

/-- One statement inside a critical section of a context, or unlocking it. The contents are reached through the
allocation; if it had been freed, anything might happen. -/
def stepCtx (t : Task S) (c : Nat) (i0 : Inner S) (s : Sect S) (m : LMem S) : LEffect S :=
  match m.world.arcs c with
  | none => ⟨[], { fault := true }, m.setCtx c false⟩
  | some cell =>
      match s with
      | .ret e => finish e (m.setCtx c false)
      | .panic e => finish e
          ({ m with world := m.world.setArc c (some { cell with inner := { cell.inner with poisoned := true } }) }.setCtx c
            false)
      | .read k => ⟨[.inCtx t c i0 (k cell.inner)], {}, m⟩
      | .write f k => ⟨[.inCtx t c i0 k], {},
          { m with world := m.world.setArc c (some { cell with inner := f cell.inner }) }⟩

/-- One step of a call; `none`: it waits for a mutex. -/
def step (lt : LTask S) (m : LMem S) : Option (LEffect S) :=
  match lt with
  | .inMap t p => some (stepMap t p m)
  | .inCtx t c i0 s => some (stepCtx t c i0 s m)
  | .run t =>
      match t.lock with
      | .none => some (finish (t.step m.world).1 { m with world := (t.step m.world).2 })
      | .map => if m.mapLocked then none else some ⟨[.inMap t .entered], {}, { m with mapLocked := true }⟩
      | .ctx c =>
          match m.world.arcs c with
          | none => some ⟨[], { fault := true }, m⟩
          | some cell =>
              if m.ctxLocked c then none
              else some ⟨[.inCtx t c cell.inner (t.enter cell.inner)], {}, m.setCtx c true⟩

/-- The call uses a handle of `c` that it does not own; see `Task.borrows`. -/
def borrows (c : Nat) : LTask S → Bool
  | .run t | .inCtx t _ _ _ => t.borrows c
  | .inMap _ _ => false

end LTask

/-- State of a multi-threaded client; see `CState`. -/
structure LState (S : Type) where
  mem : LMem S
  handles : List Nat
  tasks : List (LTask S)
  vars : List (AFloat S)
  tapes : List (Tape S)
  fault : Bool

/-- Process start. -/
def LState.init : LState S := ⟨⟨⟨1, fun _ => false, fun _ => none⟩, false, fun _ => false⟩, [], [], [], [], false⟩

/-- The state after a step of a call; `l` and `r` are the other calls in progress. -/
def LState.after (s : LState S) (l r : List (LTask S)) (e : LEffect S) : LState S :=
  ⟨e.mem, e.out.handles ++ s.handles, l ++ e.next ++ r, e.out.vars ++ s.vars, e.out.tapes ++ s.tapes,
    s.fault || e.out.fault⟩

/-- A call in progress makes a step. The id counter has not been exhausted. -/
inductive LRun : LState S → LState S → Prop
  | mk {s l r} {lt : LTask S} {e} (ht : s.tasks = l ++ lt :: r)
      (hid : lt = .run .new → s.mem.world.nextId < usizeMax) (he : lt.step s.mem = some e) : LRun s (s.after l r e)

/-- One step of some thread; see `CStep`. -/
inductive LStep : LState S → LState S → Prop
  | callNew {s} : LStep s { s with tasks := .run .new :: s.tasks }
  | callFromCid {s} (c : Nat) : LStep s { s with tasks := .run (.fromCid c) :: s.tasks }
  | callDrop {s c} (hc : c ∈ s.handles)
      (hb : (∃ t ∈ s.tasks, LTask.borrows c t = true) → 2 ≤ s.handles.count c) :
      LStep s { s with handles := s.handles.erase c, tasks := .run (.drop c none) :: s.tasks }
  | callSetIndep {s c a} (hc : c ∈ s.handles) (ha : a ∈ s.vars) :
      LStep s { s with tasks := .run (.setIndep c a) :: s.tasks }
  | callSetDep {s c a} (hc : c ∈ s.handles) (ha : a ∈ s.vars) :
      LStep s { s with tasks := .run (.setDep c a) :: s.tasks }
  | callTape {s c} (hc : c ∈ s.handles) : LStep s { s with tasks := .run (.tape c) :: s.tasks }
  | callOp {s a b o} (ha : a ∈ s.vars) (hb : ∀ b', b = some b' → b' ∈ s.vars) (har : arityOk o b = true) :
      LStep s { s with tasks := .run (.op o a b) :: s.tasks }
  | scalar {s} (v dv : S) : LStep s { s with vars := AFloat.new v dv :: s.vars }
  | seed {s a} (d : S) (ha : a ∈ s.vars) : LStep s { s with vars := { a with dv := d } :: s.vars }
  | run {s t} (h : LRun s t) : LStep s t

/-- Finitely many steps. -/
inductive LSteps : LState S → LState S → Prop
  | refl (s) : LSteps s s
  | tail {s t u} (h : LSteps s t) (hs : LStep t u) : LSteps s u

/-- States reachable from process start. -/
def LState.Reachable (s : LState S) : Prop := LSteps LState.init s

end Adv
