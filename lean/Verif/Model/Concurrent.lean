import Verif.Model.AFloat
import Verif.Model.Function

/-!
# Concurrent use of contexts

Model of `src/acontext.rs` and `AFloat::from_op` for several threads. Every API call is split into the steps between
which other threads can run: one step per atomic operation on `NEXT_CONTEXT_ID`, per change of a reference count and
per critical section of the `CONTEXT_MAP` mutex or of the mutex of a context. A critical section is one step because
no other thread can observe its intermediate states (proved: C63, with the model of `Verif.Model.Locks`). No critical section acquires a second lock.

Simplifications: sequentially consistent memory (`SeqCst` counter, `Arc` and `Mutex` synchronize); the lookup and
`Weak::upgrade` in `from_cid` are one step (the map is locked during both); `Arc::new` is merged into the preceding
`fetch_add` (the new `Arc` is not yet shared); removing the map entry and freeing the memory are one step (the strong
count is already zero, nobody can reach the contents). Panicking while holding the map lock is impossible, so the map
mutex is never poisoned.
-/

namespace Adv

variable {S : Type} [Flt S]

/-- acontext.rs:7-12 and the heap. `arcs c`: the allocation of context `c` with its strong count; `none`: not yet
created, or freed. `map c`: `CONTEXT_MAP` has an entry for `c` (a `Weak` pointer to `arcs c`). -/
structure CWorld (S : Type) where
  nextId : Nat
  map : Nat → Bool
  arcs : Nat → Option (Cell S)

namespace CWorld

/-- Replace the allocation of context `c`. -/
def setArc (w : CWorld S) (c : Nat) (x : Option (Cell S)) : CWorld S :=
  { w with arcs := fun d => if d = c then x else w.arcs d }

/-- Insert or remove a map entry. -/
def setMap (w : CWorld S) (c : Nat) (b : Bool) : CWorld S :=
  { w with map := fun d => if d = c then b else w.map d }

/-- acontext.rs:75-82 `from_cid`: lookup and `Weak::upgrade`, which fails if the strong count is zero. -/
def upgrade (w : CWorld S) (c : Nat) : Option (CWorld S) :=
  match w.map c, w.arcs c with
  | true, some cell =>
      if cell.strong = 0 then none else some (w.setArc c (some { cell with strong := cell.strong + 1 }))
  | _, _ => none

/-- `self.inner.lock().unwrap()` and the critical section; see `AContext.withLock`. -/
def withLock {α : Type} (w : CWorld S) (c : Nat) (f : Inner S → Res α × Inner S) : Res α × CWorld S :=
  match w.arcs c with
  | none => (.error .dangling, w)
  | some cell =>
      if cell.inner.poisoned then (.error .poisoned, w)
      else match f cell.inner with
        | (.ok a, i) => (.ok a, w.setArc c (some { cell with inner := i }))
        | (.error e, i) => (.error e, w.setArc c (some { cell with inner := { i with poisoned := true } }))

end CWorld

/-- Local variables of `from_op` (afloat.rs:47-95) after the context was found. -/
structure OpCall (S : Type) where
  opcode : OpCode
  arg1 : AFloat S
  arg2 : Option (AFloat S)
  v : S
  dv : S
  cid : Nat

/-- API calls in progress. -/
inductive Task (S : Type)
  /-- acontext.rs:36-41 `AContext::new`, before `fetch_add`. -/
  | new
  /-- acontext.rs:42-46, before inserting the new context into the map. -/
  | newInsert (id : Nat)
  /-- acontext.rs:75-82 `from_cid`. -/
  | fromCid (c : Nat)
  /-- A handle goes out of scope; `r` is the result of the surrounding `from_op`, if any. -/
  | drop (c : Nat) (r : Option (AFloat S))
  /-- acontext.rs:54-59 `Drop for AContextInner`, the strong count has reached zero. -/
  | finalize (c : Nat) (r : Option (AFloat S))
  /-- acontext.rs:91-97 `set_indep`. -/
  | setIndep (c : Nat) (a : AFloat S)
  /-- acontext.rs:100-121 `set_dep`. -/
  | setDep (c : Nat) (a : AFloat S)
  /-- afloat.rs:47-73 `from_op`, up to and including `from_cid`. -/
  | op (o : OpCode) (a : AFloat S) (b : Option (AFloat S))
  /-- afloat.rs:75-78. -/
  | opArg1 (call : OpCall S)
  /-- afloat.rs:79-85. -/
  | opArg2 (call : OpCall S) (vid1 : Nat)
  /-- afloat.rs:86-91. -/
  | opRec (call : OpCall S) (vid1 : Nat) (vid2 : Option Nat)
  /-- acontext.rs:191-198 `tape`, before reading `indeps`. -/
  | tape (c : Nat)
  /-- before reading `deps` -/
  | tape1 (c : Nat) (indeps : List Nat)
  /-- before reading `ops` -/
  | tape2 (c : Nat) (indeps deps : List Nat)
  /-- before reading `vals` -/
  | tape3 (c : Nat) (indeps deps : List Nat) (ops : List Operation)

/-- What a step leaves behind: the continuation of the call (if it is not finished), the things it returns, and
whether freed memory was accessed. -/
structure Effect (S : Type) where
  tasks : List (Task S) := []
  handles : List Nat := []
  vars : List (AFloat S) := []
  tapes : List (Tape S) := []
  fault : Bool := false

namespace Task

/-- A failed `lock().unwrap()`: the thread panics (`e = poisoned` or an assertion) and unwinds into `k`. -/
def panicked (e : Err) (k : List (Task S)) : Effect S := { tasks := k, fault := e == .dangling }

/-- One step of a call. -/
def step : Task S → CWorld S → Effect S × CWorld S
  | .new, w =>
      let id := w.nextId
      let w := { w with nextId := (id + 1) % 2 ^ 64 }
      if id < usizeMax then ({ tasks := [.newInsert id] }, w.setArc id (some ⟨1, Inner.construct id⟩))
      else ({}, w)
  | .newInsert id, w => ({ handles := [id] }, w.setMap id true)
  | .fromCid c, w =>
      match w.upgrade c with
      | some w' => ({ handles := [c] }, w')
      | none => ({}, w)
  | .drop c r, w =>
      match w.arcs c with
      | none => ({ fault := true }, w)
      | some cell =>
          if cell.strong = 0 then ({ fault := true }, w)
          else if cell.strong = 1 then ({ tasks := [.finalize c r] }, w.setArc c (some { cell with strong := 0 }))
          else ({ vars := r.toList }, w.setArc c (some { cell with strong := cell.strong - 1 }))
  | .finalize c r, w => ({ vars := r.toList }, (w.setMap c false).setArc c none)
  | .setIndep c a, w =>
      match w.withLock c (fun i => let (vid, i') := i.setIndep a.v; (.ok (i.cid, vid), i')) with
      | (.ok ctx, w') => ({ vars := [{ a with ctx := some ctx }] }, w')
      | (.error e, w') => (panicked e [], w')
  | .setDep c a, w =>
      match w.withLock c (fun i => match i.setDep a.v a.ctx with
          | .ok i' => (.ok (), i')
          | .error e => (.error e, i)) with
      | (.ok (), w') => ({}, w')
      | (.error e, w') => (panicked e [], w')
  | .op o a b, w =>
      match zeroOrderValue o a.v (b.map AFloat.v),
          firstOrderValue o a.v (b.map AFloat.v) a.dv (b.map AFloat.dv), AFloat.opCid a b with
      | .ok v, .ok dv, .ok none => ({ vars := [⟨v, dv, none⟩] }, w)
      | .ok v, .ok dv, .ok (some cid) =>
          match w.upgrade cid with
          | none => ({ vars := [⟨v, dv, none⟩] }, w)
          | some w' => ({ tasks := [.opArg1 ⟨o, a, b, v, dv, cid⟩] }, w')
      | _, _, _ => ({}, w)
  | .opArg1 call, w =>
      match call.arg1.ctx with
      | some (_, vid) => ({ tasks := [.opArg2 call vid] }, w)
      | none =>
          match w.withLock call.cid (fun i => let (vid, i') := i.record .Const call.arg1.v none none; (.ok vid, i')) with
          | (.ok vid, w') => ({ tasks := [.opArg2 call vid] }, w')
          | (.error e, w') => (panicked e [.drop call.cid none], w')
  | .opArg2 call vid1, w =>
      match call.arg2 with
      | none => ({ tasks := [.opRec call vid1 none] }, w)
      | some b =>
          match b.ctx with
          | some (_, vid) => ({ tasks := [.opRec call vid1 (some vid)] }, w)
          | none =>
              match w.withLock call.cid (fun i => let (vid, i') := i.record .Const b.v none none; (.ok vid, i')) with
              | (.ok vid, w') => ({ tasks := [.opRec call vid1 (some vid)] }, w')
              | (.error e, w') => (panicked e [.drop call.cid none], w')
  | .opRec call vid1 vid2, w =>
      match w.withLock call.cid
          (fun i => let (vid, i') := i.record call.opcode call.v (some vid1) vid2; (.ok vid, i')) with
      | (.ok vid, w') => ({ tasks := [.drop call.cid (some ⟨call.v, call.dv, some (call.cid, vid)⟩)] }, w')
      | (.error e, w') => (panicked e [.drop call.cid none], w')
  | .tape c, w =>
      match w.withLock c (fun i => (.ok i.indeps, i)) with
      | (.ok indeps, w') => ({ tasks := [.tape1 c indeps] }, w')
      | (.error e, w') => (panicked e [], w')
  | .tape1 c indeps, w =>
      match w.withLock c (fun i => (.ok i.deps, i)) with
      | (.ok deps, w') => ({ tasks := [.tape2 c indeps deps] }, w')
      | (.error e, w') => (panicked e [], w')
  | .tape2 c indeps deps, w =>
      match w.withLock c (fun i => (.ok i.ops, i)) with
      | (.ok ops, w') => ({ tasks := [.tape3 c indeps deps ops] }, w')
      | (.error e, w') => (panicked e [], w')
  | .tape3 c indeps deps ops, w =>
      match w.withLock c (fun i => (.ok i.vals, i)) with
      | (.ok vals, w') => ({ tapes := [⟨indeps, deps, ops, vals, true⟩] }, w')
      | (.error e, w') => (panicked e [], w')

/-- The call uses a handle of `c` that it does not own (`&self`, `&mut self`). -/
def borrows (c : Nat) : Task S → Bool
  | .setIndep d _ | .setDep d _ | .tape d | .tape1 d _ | .tape2 d _ _ | .tape3 d _ _ _ => d == c
  | _ => false

end Task

/-- State of a multi-threaded client: process state, handles held by some thread, calls in progress (in any threads),
all variables and tapes any thread ever obtained, and whether freed memory was accessed. -/
structure CState (S : Type) where
  world : CWorld S
  handles : List Nat
  tasks : List (Task S)
  vars : List (AFloat S)
  tapes : List (Tape S)
  fault : Bool

/-- Process start. -/
def CState.init : CState S := ⟨⟨1, fun _ => false, fun _ => none⟩, [], [], [], [], false⟩

/-- The state after the call `t` made a step; `l` and `r` are the other calls in progress. -/
def CState.after (s : CState S) (l r : List (Task S)) (e : Effect S) (w' : CWorld S) : CState S :=
  ⟨w', e.handles ++ s.handles, l ++ e.tasks ++ r, e.vars ++ s.vars, e.tapes ++ s.tapes, s.fault || e.fault⟩

/-- One step of some thread. Threads can share variables (`AFloat` is `Copy`) and handles (`AContext` is `Sync`). -/
inductive CStep : CState S → CState S → Prop
  /-- Call `AContext::new`. -/
  | callNew {s} : CStep s { s with tasks := .new :: s.tasks }
  /-- Call `AContext::from_cid`, any id. -/
  | callFromCid {s} (c : Nat) : CStep s { s with tasks := .fromCid c :: s.tasks }
  /-- A handle goes out of scope. It must not be borrowed by a call in progress. -/
  | callDrop {s c} (hc : c ∈ s.handles)
      (hb : (∃ t ∈ s.tasks, Task.borrows c t = true) → 2 ≤ s.handles.count c) :
      CStep s { s with handles := s.handles.erase c, tasks := .drop c none :: s.tasks }
  /-- Call `set_indep`. -/
  | callSetIndep {s c a} (hc : c ∈ s.handles) (ha : a ∈ s.vars) :
      CStep s { s with tasks := .setIndep c a :: s.tasks }
  /-- Call `set_dep`. -/
  | callSetDep {s c a} (hc : c ∈ s.handles) (ha : a ∈ s.vars) :
      CStep s { s with tasks := .setDep c a :: s.tasks }
  /-- Call `tape`. -/
  | callTape {s c} (hc : c ∈ s.handles) : CStep s { s with tasks := .tape c :: s.tasks }
  /-- Call any arithmetic or elementary operation. -/
  | callOp {s a b o} (ha : a ∈ s.vars) (hb : ∀ b', b = some b' → b' ∈ s.vars) (har : arityOk o b = true) :
      CStep s { s with tasks := .op o a b :: s.tasks }
  /-- `AFloat::new`, `From`. -/
  | scalar {s} (v dv : S) : CStep s { s with vars := AFloat.new v dv :: s.vars }
  /-- `dvalue_mut`. -/
  | seed {s a} (d : S) (ha : a ∈ s.vars) : CStep s { s with vars := { a with dv := d } :: s.vars }
  /-- Some call in progress makes a step. The id counter has not been exhausted. -/
  | run {s l r} {t : Task S} {e w'} (ht : s.tasks = l ++ t :: r) (hid : t = .new → s.world.nextId < usizeMax)
      (he : t.step s.world = (e, w')) : CStep s (s.after l r e w')

/-- Finitely many steps. -/
inductive CSteps : CState S → CState S → Prop
  | refl (s) : CSteps s s
  | tail {s t u} (h : CSteps s t) (hs : CStep t u) : CSteps s u

/-- States reachable from process start. -/
def CState.Reachable (s : CState S) : Prop := CSteps CState.init s

end Adv
